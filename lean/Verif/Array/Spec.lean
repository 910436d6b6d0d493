import Verif.Array.Model
/-!
Specification: a partial map from positions to values, and the list of the occupied positions ordered by
the time of their last write, most recent first.
-/
namespace Sparta.Array

structure Spec (α : Type) where
  size : Nat
  map : Nat → Option α
  youngestFirst : List Nat

def Spec.init (α : Type) (n : Nat) : Spec α := ⟨n, fun _ => none, []⟩

variable {α : Type}

def Spec.step (s : Spec α) : Op α → Spec α × Bool
  | .write i x =>
    if i < s.size then
      ({ s with map := fun j => if j = i then some x else s.map j,
                youngestFirst := i :: s.youngestFirst.filter (· ≠ i) }, true)
    else (s, false)
  | .erase i =>
    if (s.map i).isSome then
      ({ s with map := fun j => if j = i then none else s.map j,
                youngestFirst := s.youngestFirst.filter (· ≠ i) }, true)
    else (s, false)
  | .clear => ({ s with map := fun _ => none, youngestFirst := [] }, true)

/-- positions in order of age, oldest first -/
def Spec.oldestFirst (s : Spec α) : List Nat := s.youngestFirst.reverse

end Sparta.Array
