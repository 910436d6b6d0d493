import Verif.PTree.Model
/-!
What was done to parameter trees, told without nodes: the sequence of writes, of nodes asked for without a value, and
of lookups.
-/
namespace Sparta.PTree
open Sparta.Strings (Str)

/-- characters that must not occur in a name: those with a meaning in regular expressions that is not taken away -/
def badChars : List Char := ['\\', '^', '$', '.', '|', '{', '}']

/-- a name or pattern for one level -/
def OkName (s : Str) : Prop := ∀ c ∈ s, c ∉ badChars

instance (s : Str) : Decidable (OkName s) := by unfold OkName; infer_instance

/-- the language of a pattern: `*` stands for any text, `?` for at most one character, `+` for at least one character
(line ends excepted); any other character stands for itself -/
inductive Glob : Str → Str → Prop
  | nil : Glob [] []
  | lit {c : Char} {p s : Str} : c ≠ '*' → c ≠ '?' → c ≠ '+' → Glob p s → Glob (c :: p) (c :: s)
  | star {u p s : Str} : (∀ c ∈ u, c ≠ '\n' ∧ c ≠ '\r') → Glob p s → Glob ('*' :: p) (u ++ s)
  | opt {u p s : Str} : u.length ≤ 1 → (∀ c ∈ u, c ≠ '\n' ∧ c ≠ '\r') → Glob p s → Glob ('?' :: p) (u ++ s)
  | plus {u p s : Str} : u ≠ [] → (∀ c ∈ u, c ≠ '\n' ∧ c ≠ '\r') → Glob p s → Glob ('+' :: p) (u ++ s)

/-- a path given with patterns matches a path: level by level -/
def MatchPath : List Str → List Str → Prop
  | [], [] => True
  | a :: L, b :: p => Glob a b ∧ MatchPath L p
  | _, _ => False

/-- a name without wildcards (the first four are refused in lookups too) and dots -/
def PlainName (s : Str) : Prop := s ≠ [] ∧ ∀ c ∈ s, c ∉ ['(', ')', '[', ']', '*', '?', '+', '.']

instance (s : Str) : Decidable (PlainName s) := by unfold PlainName; infer_instance

/-- something that happened to a tree; `L` are the names of the path -/
inductive Ev
  /-- `set` succeeded -/
  | write (L : List Str) (v org : Str) (req : Bool)
  /-- `create`, or a `set` that gave up at an empty name: the names before it -/
  | touch (L : List Str) (req : Bool)
  /-- `tryGet`, `get`, `exists`, `hasValue` -/
  | look (L : List Str)
  /-- `unrequire` -/
  | unreq (L : List Str)
deriving DecidableEq, Repr

/-- lookups are not taken over from another tree -/
def Ev.keep : Ev → Bool
  | .look _ => false
  | _ => true

/-- the names before the first empty one -/
def upToEmpty (L : List Str) : List Str := L.takeWhile (· ≠ [])

abbrev Hist := Nat → List Ev

/-- a call and its result, added to the history -/
def record (H : Hist) : Op → Res → Hist
  | .set t path v req org, .bool true => upd H t (H t ++ [.write (names path) v org req])
  | .set t path _ _ _, .bool false => upd H t (H t ++ [.touch (upToEmpty (names path)) false])
  | .create t path req, .node _ => upd H t (H t ++ [.touch (upToEmpty (names path)) req])
  | .tryGet t path _, .node _ => upd H t (H t ++ [.look (names path)])
  | .unrequire t path, .bool _ => upd H t (H t ++ [.look (names path), .unreq (names path)])
  | .merge t o, .done => upd H t (H t ++ (H o).filter Ev.keep)
  | .copy t o, .done => upd H t ((H o).filter Ev.keep)
  | .assign t o, .done => upd H t ((H o).filter Ev.keep)
  | .clear t, .done => upd H t []
  | _, _ => H

/-- the history of a run -/
def histOf : Hist → List Op → List Res → Hist
  | H, o :: os, r :: rs => histOf (record H o r) os rs
  | H, _, _ => H

/-- the paths to write to use only characters that patterns treat as such; a tree is not merged into or assigned to
itself -/
def okOp : Op → Prop
  | .set _ path _ _ _ => ∀ c ∈ path, c ∈ badChars → c = '.'
  | .create _ path _ => ∀ c ∈ path, c ∈ badChars → c = '.'
  | .merge t o => t ≠ o
  | .assign t o => t ≠ o
  | _ => True

/-- merging and assigning went through -/
def okRes : Op → Res → Prop
  | .merge _ _, r => r = .done
  | .assign _ _, r => r = .done
  | _, _ => True

/-- a history of such calls -/
def Legal : State → List Op → Prop
  | _, [] => True
  | s, o :: os => okOp o ∧ okRes o (s.step o).2 ∧ Legal (s.step o).1 os

instance (o : Op) : Decidable (okOp o) := by cases o <;> unfold okOp <;> infer_instance
instance (o : Op) (r : Res) : Decidable (okRes o r) := by cases o <;> unfold okRes <;> infer_instance
instance instLegal : (s : State) → (os : List Op) → Decidable (Legal s os)
  | _, [] => by unfold Legal; infer_instance
  | s, o :: os => by
    have := instLegal (s.step o).1 os
    unfold Legal; infer_instance

end Sparta.PTree
