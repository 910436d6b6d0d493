import Verif.TFilter.Model
/-!
# The language of filter expressions

`Der` gives the texts of filter expressions and what they mean as a context-free grammar.
-/
namespace Sparta.TFilter
open Lexical (Str)

/-- White space. -/
def Sp (w : Str) : Prop := ∀ c ∈ w, isSpace c = true

/-- `t` is the word `k` (in small letters) in any spelling. -/
def NC (k t : Str) : Prop := t.map Char.toLower = k

/-- One of some words, each with its meaning, after white space. -/
inductive Word {α : Type} (ws : List (Str × α)) : Str → α → Prop
  | mk {w k t : Str} {x : α} : Sp w → NC k t → (k, x) ∈ ws → Word ws (w ++ t) x

/-- The text of a comparison operator, which may be missing. -/
inductive CmpText {β : Type} (ops : List (Str × β)) (dflt : β) : Str → β → Prop
  | none : CmpText ops dflt [] dflt
  | some {s : Str} {c : β} : Word ops s c → CmpText ops dflt s c

def visOpsDoc : List (Str × VisCmp) :=
  [("==".toList, .eq), (">=".toList, .ge), ("<=".toList, .le), ("<".toList, .lt), (">".toList, .gt), ("!=".toList, .ne)]
def typeOpsDoc : List (Str × TypeCmp) := [("==".toList, .eq), ("!=".toList, .ne)]
def textOpsDoc : List (Str × TextCmp) := [("==".toList, .eq), ("!=".toList, .ne), ("regex".toList, .rem)]

def visWordsDoc : List (Str × Nat) :=
  [("summary".toList, 200000000), ("normal".toList, 100000000), ("detail".toList, 10000000),
   ("support".toList, 1000000), ("hidden".toList, 0)]

/-- The words for types that are accepted: not `statisticdef` and `statdef`. -/
def typeWordsOk : List (Str × Kind) :=
  [("statistic".toList, .statisticdef), ("stat".toList, .statisticdef), ("counter".toList, .counter),
   ("parameter".toList, .parameter), ("param".toList, .parameter), ("histogram".toList, .histogram)]

def constWordsDoc : List (Str × Bool) := [("true".toList, true), ("false".toList, false)]

/-- An attribute, a colon and a value. -/
inductive Attr (key : String) (V : Str → Prop) : Str → Prop
  | mk {w0 k w1 v : Str} : Sp w0 → NC key.toList k → Sp w1 → V v → Attr key V (w0 ++ (k ++ (w1 ++ ':' :: v)))

/-- A number: its characters, perhaps with white space between them, as `smartLexicalCast` takes them. -/
def NumText (s : Str) (v : Nat) : Prop :=
  (∀ c ∈ s, numChar c = true ∨ isSpace c = true) ∧ s.filter numChar ≠ [] ∧ ∃ e, Lexical.smart (s.filter numChar) true true = .ok (v, e)

/-- A pattern in quotes `q`: white space next to the quotes is dropped, except for blanks before the closing one. -/
inductive Quoted (q : Char) (f : Char → Bool) : Str → Str → Prop
  | mk {w0 w1 w2 p : Str} {c : Char} : Sp w0 → Sp w1 → Sp w2 → isSpace c = false → (∀ x ∈ c :: p, f x = true) →
      (∀ x r, w2 = x :: r → f x = false) → Quoted q f (w0 ++ q :: (w1 ++ (c :: p ++ (w2 ++ [q])))) (c :: p)

/-- The value of a tag or name; `o` tells that the text is open, that is, ends in a pattern without quotes. -/
inductive TextVal : Bool → Str → Str → Prop
  | plain {w p : Str} : Sp w → p ≠ [] → (∀ c ∈ p, patChar c = true) → TextVal true (w ++ p) p
  | dq {s p : Str} : Quoted '"' dqChar s p → TextVal false s p
  | sq {s p : Str} : Quoted '\'' sqChar s p → TextVal false s p

/-- Conditions and constants. -/
inductive Leaf : Bool → Str → Expr → Prop
  | vis {a b : Str} {c : VisCmp} {v : Nat} : CmpText visOpsDoc .eq a c →
      Attr "vis" (fun t => Word visWordsDoc t v ∨ NumText t v) b → Leaf false (a ++ b) (.vis c v)
  | type {a b : Str} {c : TypeCmp} {k : Kind} : CmpText typeOpsDoc .eq a c →
      Attr "type" (fun t => Word typeWordsOk t k) b → Leaf false (a ++ b) (.type c k)
  | tag {o : Bool} {a b p : Str} {c : TextCmp} : CmpText textOpsDoc .eq a c →
      Attr "tag" (fun t => TextVal o t p) b → Leaf o (a ++ b) (.tag c p)
  | name {o : Bool} {a b p : Str} {c : TextCmp} : CmpText textOpsDoc .eq a c →
      Attr "name" (fun t => TextVal o t p) b → Leaf o (a ++ b) (.name c p)
  | const {s : Str} {b : Bool} : Word constWordsDoc s b → Leaf false s (.const b)

/-- The levels of precedence. -/
inductive Lvl | comp | inv | and | or | xor
deriving DecidableEq

/-- After an open text there must be white space. -/
def Gap (o : Bool) (w : Str) : Prop := o = true → w ≠ []

/-- The grammar. `&&` binds more tightly than `||`, that more than `^^`; all of them associate to the left. -/
inductive Der : Lvl → Bool → Str → Expr → Prop
  | leaf {o s e} : Leaf o s e → Der .comp o s e
  | paren {o w0 s w e} : Sp w0 → Der .xor o s e → Sp w → Gap o w → Der .comp false (w0 ++ '(' :: (s ++ (w ++ [')']))) e
  | plain {o s e} : Der .comp o s e → Der .inv o s e
  | bang {o w s e} : Sp w → Der .comp o s e → Der .inv o (w ++ '!' :: s) (.not e)
  | not {o w s e} : Sp w → Der .comp o s e → Der .inv o (w ++ 'n' :: 'o' :: 't' :: s) (.not e)
  | and1 {o s e} : Der .inv o s e → Der .and o s e
  | and2 {o1 o2 s1 w s2 a b} : Der .and o1 s1 a → Sp w → Der .inv o2 s2 b →
      Der .and o2 (s1 ++ (w ++ '&' :: '&' :: s2)) (.bin .and a b)
  | or1 {o s e} : Der .and o s e → Der .or o s e
  | or2 {o1 o2 s1 w s2 a b} : Der .or o1 s1 a → Sp w → Der .and o2 s2 b →
      Der .or o2 (s1 ++ (w ++ '|' :: '|' :: s2)) (.bin .or a b)
  | xor1 {o s e} : Der .or o s e → Der .xor o s e
  | xor2 {o1 o2 s1 w s2 a b} : Der .xor o1 s1 a → Sp w → Gap o1 w → Der .or o2 s2 b →
      Der .xor o2 (s1 ++ (w ++ '^' :: '^' :: s2)) (.bin .xor a b)

/-- The texts of filter expressions. -/
def Text (s : Str) (e : Expr) : Prop := ∃ o t w, Der .xor o t e ∧ Sp w ∧ s = t ++ w

/-! ## What an expression means -/

/-- The node fits the expression. -/
def Holds (rx : Rx) (n : Node) : Expr → Prop
  | .const b => b = true
  | .vis c v => ∃ nv k, n.instr = some (nv, k) ∧
      (match c with | .eq => nv = v | .gt => nv > v | .lt => nv < v | .ge => nv ≥ v | .le => nv ≤ v | .ne => nv ≠ v)
  | .type c k => ∃ nv nk, n.instr = some (nv, nk) ∧ (match c with | .eq => nk = k | .ne => nk ≠ k)
  | .tag c p => match c with | .eq => p ∈ n.tags | .ne => p ∉ n.tags | .rem => ∃ t ∈ n.tags, rx.isMatch p t = true
  | .name c p => match c with | .eq => n.name = p | .ne => n.name ≠ p | .rem => rx.isMatch p n.name = true
  | .not a => ¬ Holds rx n a
  | .bin .xor a b => ¬ (Holds rx n a ↔ Holds rx n b)
  | .bin .or a b => Holds rx n a ∨ Holds rx n b
  | .bin .and a b => Holds rx n a ∧ Holds rx n b
  | .short _ _ => False

/-- Every operation has its operands. -/
def Expr.whole : Expr → Prop
  | .not a => a.whole
  | .bin _ a b => a.whole ∧ b.whole
  | .short _ _ => False
  | _ => True

/-- The patterns of an expression. -/
def Expr.patterns : Expr → List Str
  | .tag _ p => [p]
  | .name _ p => [p]
  | .not a => a.patterns
  | .bin _ a b => a.patterns ++ b.patterns
  | _ => []

end Sparta.TFilter
