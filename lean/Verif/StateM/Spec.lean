import Verif.StateM.Model
/-! # What is expected of states -/
namespace Sparta.StateM

/-- The number of markers of a value that are set, asked one by one. -/
def Sys.set? (s : Sys) (x v : Nat) : Nat :=
  ((List.range (s.numMarkers x v)).filter fun m => s.marked x v m).length

/-- The number of markers of a value that are not set. -/
def Sys.missing (s : Sys) (x v : Nat) : Nat :=
  ((List.range (s.numMarkers x v)).filter fun m => !s.marked x v m).length

/-- The threshold of a value. -/
def Sys.threshold (s : Sys) (x v : Nat) : Nat := ((s.objs x).sets v).thresh

/-- The monitors of a value. -/
def Sys.monitors (s : Sys) (x v : Nat) : List (Nat × Act) := ((s.objs x).sets v).monitors

/-- No monitor resets the state it watches. -/
def Op.tame : Op → Prop
  | .attach _ _ _ a => a ≠ .reset
  | _ => True

instance (op : Op) : Decidable op.tame := by
  cases op <;> unfold Op.tame <;> infer_instance

/-- How long each state has been in each value (`spent`), and when it came to the one it has
(`entered`). -/
structure Ghost where
  spent : Nat → Nat → Nat := fun _ _ => 0
  entered : Nat → Nat := fun _ => 0

/-- Time is added to the value every living state has; the entry is noted when a state is made or its
value is seen to change. -/
def Ghost.step (g : Ghost) (s : Sys) (op : Op) (s' : Sys) : Ghost :=
  match op with
  | .tick n =>
    ⟨fun x v => g.spent x v + (if x < s.count ∧ (s.objs x).alive = true ∧ s.value x = v then n else 0),
     g.entered⟩
  | _ =>
    ⟨g.spent, fun x => if s.count ≤ x ∧ x < s'.count then s.now
      else if s'.value x ≠ s.value x then s.now else g.entered x⟩

/-- The calls under which a tracker can follow its state: a state is not changed behind its back by
markers or a reset, and a value has at most one monitor, which does not reset the state. -/
def Told (s : Sys) : Op → Prop
  | .set x v m => (s.monitors x v).length ≤ 1
      ∧ (s.monitors x v ≠ [] ∨ (step s (.set x v m)).1.value x = s.value x)
  | .reset x => s.isBool = true ∨ (step s (.reset x)).1.value x = s.value x
  | .resetTo x v => (step s (.resetTo x v)).1.value x = s.value x
  | .attach _ _ _ a => a ≠ .reset
  | .flush => False
  | _ => True

instance (s : Sys) (op : Op) : Decidable (Told s op) := by
  cases op <;> unfold Told <;> infer_instance

/-- A run of such calls, with the time spent. -/
def ToldRun : Sys → List Op → Prop
  | _, [] => True
  | s, op :: ops => Told s op ∧ ToldRun (step s op).1 ops

instance : (s : Sys) → (ops : List Op) → Decidable (ToldRun s ops)
  | _, [] => isTrue trivial
  | s, op :: ops =>
    have : Decidable (ToldRun (step s op).1 ops) := instDecidableToldRun (step s op).1 ops
    inferInstanceAs (Decidable (Told s op ∧ ToldRun (step s op).1 ops))

/-- The ghost of a run. -/
def Ghost.run (g : Ghost) (s : Sys) : List Op → Ghost
  | [] => g
  | op :: ops => Ghost.run (g.step s op (StateM.step s op).1) (StateM.step s op).1 ops

/-- The ticks all states together have been in a value. -/
def Ghost.all (g : Ghost) (count v : Nat) : Nat := ((List.range count).map fun x => g.spent x v).sum

end Sparta.StateM
