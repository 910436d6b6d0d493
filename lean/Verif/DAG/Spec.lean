import Verif.DAG.Model
/-!
Specification: the set of precedences in force after a sequence of calls (for graphs without early cycle
detection throwing, see `declared`), kept as a list without duplicates.
-/
namespace Sparta.DAG

/-- declare that `v` precedes `w`; declaring it again or declaring that something precedes itself is void -/
def addEdge (E : List (Nat × Nat)) (v w : Nat) : List (Nat × Nat) :=
  if v = w ∨ (v, w) ∈ E then E else E ++ [(v, w)]

/-- the precedences of one call that is not interrupted by an exception -/
def edgesStep (E : List (Nat × Nat)) : Op → List (Nat × Nat)
  | .link v w => addEdge E v w
  | .unlink v w => E.filter (· ≠ (v, w))
  | .phase p v => if p = 0 then addEdge E v 0 else addEdge (addEdge E (p - 1) v) v p

/-- the chain of the seven ordering points -/
def phaseChain : List (Nat × Nat) := [(0, 1), (1, 2), (2, 3), (3, 4), (4, 5), (5, 6)]

/-- precedences in force after a history -/
def declared (os : List Op) : List (Nat × Nat) := os.foldl edgesStep phaseChain

/-- `v` comes before `w` directly or through others -/
def Before (E : List (Nat × Nat)) : Nat → Nat → Prop := Relation.TransGen (fun v w => (v, w) ∈ E)

/-- consecutive members of the list are related -/
def Steps (R : Nat → Nat → Prop) : List Nat → Prop
  | [] => True
  | [_] => True
  | v :: w :: l => R v w ∧ Steps R (w :: l)

/-- there is a cycle of precedences -/
def Cyclic (E : List (Nat × Nat)) : Prop := ∃ v, Before E v v

/-- a reported cycle: not empty, consecutive members are precedences, and the last one precedes a member -/
structure RealCycle (E : List (Nat × Nat)) (l : List Nat) : Prop where
  ne : l ≠ []
  chain : Steps (fun v w => (v, w) ∈ E) l
  back : ∃ w ∈ l, (l.getLast ne, w) ∈ E

end Sparta.DAG
