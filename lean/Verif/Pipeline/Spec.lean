import Verif.Pipeline.Model
/-! Specification of the Pipeline: a row of stages, an append slot and possibly a stall. -/
namespace Sparta.Pipeline

/-- an active stall: the stage causing it, the updates it still lasts, the stages whose items must not leave,
whether bubbles are crushed and whether the handlers of those stages are suppressed -/
structure Stall where
  stage : Nat
  cycles : Nat
  held : Nat → Bool
  crush : Bool
  suppress : Bool

structure Spec (α : Type) where
  n : Nat
  app : Option α
  stage : Nat → Option α     -- meaningful below `n`
  regd : Nat → Bool          -- stages with a handler
  active : Nat → Bool        -- stages whose handlers are active
  stall : Option Stall

def Spec.init (α : Type) (n : Nat) (regd : Nat → Bool) : Spec α :=
  ⟨n, none, fun _ => none, regd, regd, none⟩

variable {α : Type}

def Spec.occupied (s : Spec α) (j : Nat) : Bool := (s.stage j).isSome

/-- the stages a stall at `k` holds: all up to `k`; if bubbles are crushed, only those with no empty stage
between them and `k` -/
def Spec.heldBy (s : Spec α) (k : Nat) (crush : Bool) (j : Nat) : Bool :=
  decide (j ≤ k) && (!crush || (List.range (k + 1)).all (fun i => decide (i < j) || s.occupied i))

/-- May the item in the stage at distance `d` from the last one leave its stage in this update? Items behind
the stall (towards the end) always; others if their stage is not held and the next stage is empty or becomes
empty. -/
def Spec.leavesD (s : Spec α) (t : Stall) : Nat → Bool
  | 0 => decide (t.stage < s.n - 1)
  | d + 1 =>
    let j := s.n - 1 - (d + 1)
    if t.stage < j then true
    else !t.held j && (!s.occupied (j + 1) || s.leavesD t d)

def Spec.leaves (s : Spec α) (t : Stall) (j : Nat) : Bool := s.leavesD t (s.n - 1 - j)

/-- stage contents after the moves between stages, before the appended item enters -/
def Spec.moved (s : Spec α) (t : Stall) (j : Nat) : Option α :=
  if 0 < j ∧ s.leaves t (j - 1) ∧ s.occupied (j - 1) then s.stage (j - 1)
  else if s.leaves t j then none else s.stage j

/-- data movement of one update -/
def Spec.shift (s : Spec α) : Spec α :=
  match s.stall with
  | none => { s with app := none, stage := fun j => if j = 0 then s.app else s.stage (j - 1) }
  | some t =>
    if s.moved t 0 = none then
      { s with app := none, stage := fun j => if j = 0 then s.app else s.moved t j }
    else { s with stage := s.moved t }

/-- end of a stall: handlers up to the stall stage are active again -/
def Spec.unstall (s : Spec α) : Spec α :=
  match s.stall with
  | none => s
  | some t => { s with stall := none, active := fun j => (decide (j ≤ t.stage) && s.regd j) || s.active j }

/-- one update of the stall has passed -/
def Spec.tick (s : Spec α) : Spec α :=
  match s.stall with
  | none => s
  | some t => if t.cycles ≤ 1 then s.unstall else { s with stall := some { t with cycles := t.cycles - 1 } }

/-- the handlers that run: occupied stages with active handlers, first stage first -/
def Spec.fires (s : Spec α) : List (Nat × α) :=
  (List.range s.n).filterMap fun j => if s.active j then (s.stage j).map fun x => (j, x) else none

/-- number of occupied stages -/
def Spec.count (s : Spec α) : Nat := ((List.range s.n).filter s.occupied).length

/-- flush of one stage -/
def Spec.flush (s : Spec α) (k : Nat) : Spec α :=
  let s1 := if s.stall.map (·.stage) = some k then s.unstall else s
  { s1 with stage := fun j => if j = k then none else s1.stage j }

def Spec.step (s : Spec α) : Op α → Spec α × Res α
  | .append x => if s.app.isSome then (s, .threw) else ({ s with app := some x }, .ok)
  | .writeStage k x =>
    if k < s.n then ({ s with stage := fun j => if j = k then some x else s.stage j }, .ok) else (s, .threw)
  | .invalidateStage k =>
    if k < s.n ∧ s.occupied k then ({ s with stage := fun j => if j = k then none else s.stage j }, .ok)
    else (s, .threw)
  | .activate k =>
    if k < s.n ∧ s.regd k then ({ s with active := fun j => if j = k then true else s.active j }, .ok)
    else (s, .threw)
  | .deactivate k =>
    if k < s.n ∧ s.regd k then ({ s with active := fun j => if j = k then false else s.active j }, .ok)
    else (s, .threw)
  | .stall k c crush suppress =>
    if k < s.n ∧ s.occupied k ∧ s.stall.isNone then
      if c = 0 then (s, .ok)
      else ({ s with stall := some ⟨k, c, s.heldBy k crush, crush, suppress⟩,
                     active := fun j => s.active j && !(suppress && s.heldBy k crush j) }, .ok)
    else (s, .threw)
  | .clearStall => if s.stall.isSome then (s.unstall, .ok) else (s, .threw)
  | .flushStage k =>
    if k < s.n then (s.flush k, .cancelled (if s.occupied k && s.active k then [k] else [])) else (s, .threw)
  | .flushAllStages =>
    ({ s.unstall with stage := fun _ => none },
      .cancelled ((List.range s.n).filter fun k => s.occupied k && s.active k))
  | .flushAppend => ({ s with app := none }, .ok)
  | .performOwnUpdates => (s, .ok)
  | .update => (s.shift.tick, .sched s.shift.fires)
  | .isValid k => (s, if k < s.n then .bool (s.occupied k) else .threw)
  | .read k => (s, if k < s.n then (match s.stage k with | some x => .data x | none => .threw) else .threw)
  | .readAppended => (s, match s.app with | some x => .data x | none => .threw)
  | .isAppended => (s, .bool s.app.isSome)
  | .numValid => (s, .nat s.count)
  | .isAnyValid => (s, .bool (s.app.isSome || (List.range s.n).any s.occupied))
  | .isStalled => (s, .bool s.stall.isSome)
  | .isStalledAt k => (s, .bool (match s.stall with | some t => decide (k ≤ t.stage) | none => false))

/-- the histories in which the code behaves as specified: the stage causing a stall is flushed rather than
invalidated -/
def Spec.legal (s : Spec α) : Op α → Prop
  | .invalidateStage k => s.stall.map (·.stage) ≠ some k
  | _ => True

instance (s : Spec α) (o : Op α) : Decidable (s.legal o) := by
  cases o <;> simp only [Spec.legal] <;> infer_instance

end Sparta.Pipeline
