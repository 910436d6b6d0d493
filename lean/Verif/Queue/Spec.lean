import Verif.Queue.Model
/-!
Specification of a bounded first-in first-out queue: a plain list, oldest element first. Every element
carries the number of its push (1 for the first accepted push, 2 for the second ...), which identifies it.
-/
namespace Sparta.Queue

structure Spec (α : Type) where
  cap : Nat
  items : List (Nat × α)
  pushes : Nat

def Spec.init (α : Type) (n : Nat) : Spec α := ⟨n, [], 0⟩

variable {α : Type}

def Spec.step (s : Spec α) : Op α → Spec α × Bool
  | .push x =>
    if s.items.length = s.cap then (s, false)
    else ({ s with items := s.items ++ [(s.pushes + 1, x)], pushes := s.pushes + 1 }, true)
  | .pop => if s.items = [] then (s, false) else ({ s with items := s.items.tail }, true)
  | .popBack => if s.items = [] then (s, false) else ({ s with items := s.items.dropLast }, true)
  | .clear => ({ s with items := [] }, true)

end Sparta.Queue
