import Verif.Common
/-!
Model of `sparta::PriorityQueue` (/repo/sparta/sparta/resources/PriorityQueue.hpp).
The container is `std::list` (bound = 0) or `FastList` of `bound` nodes; both are kept as the list of their
values here (for FastList this is property C23).
-/
namespace Sparta.PriorityQueue

/-- PriorityQueue.hpp 173-176 members; `bound` is the template argument `bounded_cnt` -/
structure PQ (α : Type) where
  bound : Nat
  items : List α

/-- PriorityQueue.hpp 74-87 constructors -/
def PQ.init (α : Type) (bound : Nat) : PQ α := ⟨bound, []⟩

variable {α : Type}

/-- there is room: always for `std::list`, FastList.hpp 298, 375 otherwise -/
def PQ.room (q : PQ α) : Bool := q.bound = 0 || q.items.length < q.bound

/-- PriorityQueue.hpp 96-104, the loop: insert before the first item the new one sorts before -/
def place (lt : α → α → Bool) (x : α) : List α → List α
  | [] => [x]
  | y :: ys => if lt x y then x :: y :: ys else y :: place lt x ys

/-- PriorityQueue.hpp 94-105 `insert`; `none` = FastList out of room -/
def PQ.insert (lt : α → α → Bool) (q : PQ α) (x : α) : Option (PQ α) :=
  if q.room then some { q with items := place lt x q.items } else none

/-- PriorityQueue.hpp 118-121 `top`; `none` = assertion -/
def PQ.top (q : PQ α) : Option α := q.items.head?

/-- PriorityQueue.hpp 130-133 `pop`; `none` = assertion -/
def PQ.pop (q : PQ α) : Option (PQ α) :=
  match q.items with
  | [] => none
  | _ :: l => some { q with items := l }

/-- PriorityQueue.hpp 141-143 `remove`: `std::list::remove` drops every equal item (bound = 0 only) -/
def PQ.remove [DecidableEq α] (q : PQ α) (x : α) : PQ α := { q with items := q.items.filter (· ≠ x) }

/-- PriorityQueue.hpp 146-148 `erase` of the item at place `i` -/
def PQ.erase (q : PQ α) (i : Nat) : PQ α := { q with items := q.items.eraseIdx i }

/-- PriorityQueue.hpp 136-138 `clear` -/
def PQ.clear (q : PQ α) : PQ α := { q with items := [] }

/-- PriorityQueue.hpp 161-163 `forceFront` -/
def PQ.forceFront (q : PQ α) (x : α) : Option (PQ α) :=
  if q.room then some { q with items := x :: q.items } else none

inductive Op (α : Type) where
  | insert (x : α)
  | pop
  | remove (x : α)
  | erase (i : Nat)
  | clear
  | forceFront (x : α)

/-- one API call; `false` = it threw -/
def PQ.step [DecidableEq α] (lt : α → α → Bool) (q : PQ α) : Op α → PQ α × Bool
  | .insert x => match q.insert lt x with | some q' => (q', true) | none => (q, false)
  | .pop => match q.pop with | some q' => (q', true) | none => (q, false)
  | .remove x => (q.remove x, true)
  | .erase i => (q.erase i, true)
  | .clear => (q.clear, true)
  | .forceFront x => match q.forceFront x with | some q' => (q', true) | none => (q, false)

end Sparta.PriorityQueue
