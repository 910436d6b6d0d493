import Verif.Common
/-!
Model of `sparta::Tag` (/repo/sparta/sparta/utils/Tag.hpp).  The tags of a program are kept in a list in the order of their
construction; a pointer to a tag is its place in the list.  Not modelled: assignment to an existing tag, destruction of a tag
that is still a parent, and comparison with a string literal (it is the comparison of `text`).
-/
namespace Sparta.Tag

/-- Tag.hpp 151-154: `parent_`, `this_seq_`, `child_seq_` -/
structure Tag where
  parent : Option Nat := none
  seq : Nat := 0
  childSeq : Nat := 1
deriving DecidableEq, Repr

/-- the tags made so far and Tag.hpp 155 `global_seq_` -/
structure State where
  tags : List Tag
  global : Nat
deriving DecidableEq, Repr

/-- Tag.hpp 197: `global_seq_` starts at 1 -/
def init : State := ⟨[], 1⟩

/-- the ways to make a tag, and the reset -/
inductive Op where
  /-- `Tag()` -/
  | new
  /-- `Tag(&p)` -/
  | child (p : Nat)
  /-- `Tag(nullptr)` -/
  | childNull
  /-- copy constructor -/
  | copy (i : Nat)
  /-- `resetGlobalSeqNum()` -/
  | reset
deriving DecidableEq, Repr

/-- Tag.hpp 38-40, 63-65: `this_seq_ = global_seq_++` on 32 bits -/
def newRoot (s : State) : State := { tags := s.tags ++ [{ seq := s.global }], global := u32inc s.global }

/-- Tag.hpp 38-66, 147-149; a pointer to no tag leaves the state as it is (undefined in C++, excluded in the theorems) -/
def step (s : State) : Op → State × Unit
  | .new => (newRoot s, ())
  | .childNull => (newRoot s, ())
  | .child p =>
    match s.tags[p]? with
    | some g => ({ s with tags := s.tags.set p { g with childSeq := u32inc g.childSeq } ++ [{ parent := some p, seq := g.childSeq }] }, ())
    | none => (s, ())
  | .copy i =>
    match s.tags[i]? with
    | some g => ({ s with tags := s.tags ++ [g] }, ())
    | none => (s, ())
  | .reset => ({ s with global := 1 }, ())

/-- Tag.hpp 73-84: the cast to `std::string`; every parent is earlier in the list, so the number of tags bounds the recursion -/
def textFuel : Nat → State → Nat → List Char
  | 0, _, _ => []
  | f + 1, s, i =>
    match s.tags[i]? with
    | none => []
    | some g =>
      match g.parent with
      | some p => textFuel f s p ++ ['.'] ++ Nat.toDigits 10 g.seq
      | none => Nat.toDigits 10 g.seq

/-- Tag.hpp 73-84 -/
def text (s : State) (i : Nat) : List Char := textFuel s.tags.length s i

/-- Tag.hpp 93-110 `operator==` -/
def eqFuel : Nat → State → Nat → Nat → Bool
  | 0, _, _, _ => false
  | f + 1, s, i, j =>
    match s.tags[i]?, s.tags[j]? with
    | some a, some b =>
      match a.parent, b.parent with
      | some p, some q => decide (a.seq = b.seq) && eqFuel f s p q
      | none, none => decide (a.seq = b.seq)
      | _, _ => false
    | _, _ => false

/-- Tag.hpp 93-110 -/
def equal (s : State) (i j : Nat) : Bool := eqFuel s.tags.length s i j

end Sparta.Tag
