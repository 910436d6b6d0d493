import Verif.Pipe.Model
/-! Specification of the Pipe: a row of stages and an append slot; `update` shifts by one. -/
namespace Sparta.Pipe

structure Spec (α : Type) where
  n : Nat
  app : Option α
  stage : Nat → Option α     -- meaningful below `n`

def Spec.init (α : Type) (n : Nat) : Spec α := ⟨n, none, fun _ => none⟩

variable {α : Type}

/-- number of valid stages -/
def Spec.count (s : Spec α) : Nat := ((List.range s.n).filter (fun i => (s.stage i).isSome)).length

def Spec.step (s : Spec α) : Op α → Spec α × Bool
  | .append x => if s.app.isSome then (s, false) else ({ s with app := some x }, true)
  | .writePS k x =>
    if k < s.n then ({ s with stage := fun j => if j = k then some x else s.stage j }, true) else (s, false)
  | .invalidatePS k =>
    if k < s.n ∧ (s.stage k).isSome then ({ s with stage := fun j => if j = k then none else s.stage j }, true)
    else (s, false)
  | .flushPS k =>
    if k < s.n then ({ s with stage := fun j => if j = k then none else s.stage j }, true) else (s, false)
  | .flushAppend => ({ s with app := none }, true)
  | .flushAll => ({ s with app := none, stage := fun _ => none }, true)
  | .flushIf f => ({ s with app := s.app.filter (fun x => !f x),
                            stage := fun j => (s.stage j).filter (fun x => !f x) }, true)
  | .clear => ({ s with app := none, stage := fun _ => none }, true)
  | .shiftAppend =>
    if s.app.isSome ∧ s.stage 0 = none then
      ({ s with app := none, stage := fun j => if j = 0 then s.app else s.stage j }, true)
    else (s, false)
  | .update => ({ s with app := none, stage := fun j => if j = 0 then s.app else s.stage (j - 1) }, true)

/-- the calls for which the code keeps its count right: flushIf must not match the item appended in this
cycle -/
def Spec.okOp (s : Spec α) : Op α → Prop
  | .flushIf f => ∀ x, s.app = some x → f x = false
  | _ => True

/-- `okOp` for every call of a history -/
def Spec.okHistory : Spec α → List (Op α) → Prop
  | _, [] => True
  | s, o :: os => s.okOp o ∧ Spec.okHistory (s.step o).1 os

end Sparta.Pipe
