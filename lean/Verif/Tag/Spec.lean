import Verif.Tag.Model
/-! What tags are expected to be, independent of sequence counters. -/
namespace Sparta.Tag

/-- one tag: the tag it is a copy of (itself if it is none), how it was made, and its label -/
structure Entry where
  origin : Nat
  made : Op
  label : List Nat
deriving DecidableEq, Repr

/-- number of tags without parent made so far -/
def roots (t : List Entry) : Nat := t.countP fun e => e.made = .new ∨ e.made = .childNull

/-- number of children of tag `p` made so far -/
def kids (t : List Entry) (p : Nat) : Nat := t.countP fun e => e.made = .child p

/-- the n-th tag without parent is labelled `n`, the n-th child of a tag has the label of that tag followed by `n` -/
def specStep (t : List Entry) (o : Op) : List Entry × Unit :=
  match o with
  | .new => (t ++ [⟨t.length, o, [roots t + 1]⟩], ())
  | .childNull => (t ++ [⟨t.length, o, [roots t + 1]⟩], ())
  | .child p => (t ++ [⟨t.length, o, (t[p]?.map (·.label)).getD [] ++ [kids t p + 1]⟩], ())
  | .copy i => (t ++ [⟨(t[i]?.map (·.origin)).getD 0, o, (t[i]?.map (·.label)).getD []⟩], ())
  | .reset => (t, ())

/-- histories without reset in which parents exist and are not copies, and with fewer tags than the counters can count -/
def legal (t : List Entry) (o : Op) : Prop :=
  t.length < 2 ^ 32 - 2 ∧
  match o with
  | .child p => t[p]?.map (·.origin) = some p
  | .copy i => i < t.length
  | .reset => False
  | _ => True

/-- the text of a label: the numbers with points between them -/
def render : List Nat → List Char
  | [] => []
  | [n] => Nat.toDigits 10 n
  | n :: l => Nat.toDigits 10 n ++ '.' :: render l

end Sparta.Tag
