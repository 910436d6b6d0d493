import Verif.SharedData.Model
/-!
Specification of a latched variable: a visible value and a coming value. `due` says that a write happened in
this cycle; at the next cycle boundary the coming value becomes visible. Without a write nothing changes.
-/
namespace Sparta.SharedData

structure Latch (α : Type) where
  visible : Option α
  coming : Option α
  due : Bool
  /-- the object was the target of an assignment -/
  assigned : Bool

structure Spec (α : Type) where
  manual : Bool
  objs : Nat → Latch α

variable {α : Type}

def Spec.init (manual : Bool) (v : Nat → α) : Spec α := ⟨manual, fun i => ⟨some (v i), none, false, false⟩⟩

def Latch.advance (l : Latch α) : Latch α :=
  if l.due then { l with visible := l.coming, coming := none, due := false } else l

def Spec.set (s : Spec α) (i : Nat) (l : Latch α) : Spec α := { s with objs := upd s.objs i l }

def Spec.step (s : Spec α) : Op α → Spec α × Res α
  | .write i v => (s.set i { s.objs i with coming := some v, due := !s.manual }, .done)
  | .writePS i v => (s.set i { s.objs i with visible := some v }, .done)
  | .clear i => (s.set i { s.objs i with visible := none, coming := none }, .done)
  | .clearNS i => (s.set i { s.objs i with coming := none }, .done)
  | .clearPS i => (s.set i { s.objs i with visible := none }, .done)
  | .isValid i => (s, .bool (s.objs i).visible.isSome)
  | .isValidNS i => (s, .bool (s.objs i).coming.isSome)
  | .read i => (s, resOf (s.objs i).visible)
  | .readNS i => (s, resOf (s.objs i).coming)
  | .access i v =>
    if (s.objs i).visible.isSome then (s.set i { s.objs i with visible := some v }, .done) else (s, .threw)
  | .accessNS i v =>
    if (s.objs i).coming.isSome then (s.set i { s.objs i with coming := some v }, .done) else (s, .threw)
  | .update i =>
    if s.manual then (s.set i { s.objs i with visible := (s.objs i).coming, coming := none }, .done) else (s, .threw)
  | .construct i v => (s.set i ⟨some v, none, false, false⟩, .done)
  | .copyNew i j => (s.set i { s.objs j with assigned := false }, .done)
  | .assign i j => (s.set i { s.objs j with assigned := true }, .done)
  | .tick => ({ s with objs := fun i => (s.objs i).advance }, .done)

/-- at most one write to an object in a cycle, no write to an object after it was assigned to, and no copy of an
object between a write and the end of the cycle -/
def Spec.legal (s : Spec α) : Op α → Prop
  | .write i _ => s.manual = true ∨ ((s.objs i).due = false ∧ (s.objs i).assigned = false)
  | .copyNew _ j | .assign _ j => (s.objs j).due = false
  | _ => True

instance (s : Spec α) (o : Op α) : Decidable (s.legal o) := by
  cases o <;> simp only [Spec.legal] <;> infer_instance

end Sparta.SharedData
