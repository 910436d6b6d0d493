import Verif.Lexical.Model
/-!
# Tree filter expressions (sparta/sparta/tree/filter/Expression.hpp, Grammar.hpp, Parser.hpp,
sparta/src/TreeFilterExpression.cpp, TreeFilterExpressionGrammar.cpp)

The texts of filter expressions, their parser, the evaluation for a node and the operators that combine
expressions.

The parser is written with Boost.Spirit.Qi.  Modelled as Qi defines it: a literal, character class or rule
without skipper first skips white space; an alternative takes the first branch that succeeds and is not
tried again; a repetition takes as much as it can; an exception from a semantic action leaves the parser.
The character class of the string `a-b` is the range from `a` to `b`, so that in `\-\` the minus sign is not
an element.  Texts are ASCII.  `std::regex` is a parameter: which patterns compile and what they match.
-/
namespace Sparta.TFilter
open Lexical (Str)

/-- Expression.hpp 33-41 `VisibilityComparison`. -/
inductive VisCmp | eq | gt | lt | ge | le | ne
deriving DecidableEq, Repr
/-- Expression.hpp 46-50 `TypeComparison`. -/
inductive TypeCmp | eq | ne
deriving DecidableEq, Repr
/-- Expression.hpp 55-71 `TagComparison` and `NameComparison`. -/
inductive TextCmp | eq | ne | rem
deriving DecidableEq, Repr
/-- InstrumentationNode.hpp 171-196 `Type`. -/
inductive Kind | statisticdef | counter | parameter | histogram
deriving DecidableEq, Repr
/-- Expression.hpp 77-90, the operations with two operands. -/
inductive Op | xor | or | and
deriving DecidableEq, Repr

/-- Expression.hpp 373-421.  `short op a` is an operation of two operands that has but one. -/
inductive Expr
  | const (b : Bool)
  | vis (c : VisCmp) (v : Nat)
  | type (c : TypeCmp) (k : Kind)
  | tag (c : TextCmp) (p : Str)
  | name (c : TextCmp) (p : Str)
  | not (a : Expr)
  | bin (op : Op) (a b : Expr)
  | short (op : Op) (a : Expr)
deriving DecidableEq, Repr

/-! ## Evaluation -/

/-- What is asked of a node: visibility and type of an instrumentation node, tags, name. -/
structure Node where
  instr : Option (Nat × Kind)
  tags : List Str
  name : Str
deriving DecidableEq

/-- `std::regex`: the patterns that compile, and `regex_match pattern text`. -/
structure Rx where
  compiles : Str → Bool
  isMatch : Str → Str → Bool

inductive EvalErr
  /-- a pattern does not compile -/
  | regex
  /-- the wrong number of operands -/
  | operands
deriving DecidableEq, Repr

deriving instance DecidableEq for Except

/-- TreeFilterExpression.cpp 137-172 `evaluateVisibility_`. -/
def evalVis (n : Node) (c : VisCmp) (v : Nat) : Bool :=
  match n.instr with
  | none => false
  | some (nv, _) =>
    match c with
    | .eq => decide (nv = v)
    | .gt => decide (v < nv)
    | .lt => decide (nv < v)
    | .ge => decide (v ≤ nv)
    | .le => decide (nv ≤ v)
    | .ne => decide (nv ≠ v)

/-- TreeFilterExpression.cpp 175-202 `evaluateType_`. -/
def evalType (n : Node) (c : TypeCmp) (k : Kind) : Bool :=
  match n.instr with
  | none => false
  | some (_, nk) =>
    match c with
    | .eq => decide (nk = k)
    | .ne => decide (nk ≠ k)

/-- TreeFilterExpression.cpp 226-265: the loop over the tags and what follows it. -/
def tagLoop (rx : Rx) (c : TextCmp) (p : Str) : List Str → Bool
  | [] =>
    match c with
    | .eq => false
    | .ne => true
    | .rem => false
  | t :: ts =>
    match c with
    | .eq => if t = p then true else tagLoop rx c p ts
    | .ne => if t = p then false else tagLoop rx c p ts
    | .rem => if rx.isMatch p t then true else tagLoop rx c p ts

/-- TreeFilterExpression.cpp 204-266 `evaluateTag_`: the pattern is compiled whatever the comparison. -/
def evalTag (rx : Rx) (n : Node) (c : TextCmp) (p : Str) : Except EvalErr Bool :=
  if rx.compiles p then .ok (tagLoop rx c p n.tags) else .error .regex

/-- TreeFilterExpression.cpp 268-300 `evaluateName_`. -/
def evalName (rx : Rx) (n : Node) (c : TextCmp) (p : Str) : Except EvalErr Bool :=
  if rx.compiles p then
    .ok (match c with
      | .eq => decide (n.name = p)
      | .ne => decide (n.name ≠ p)
      | .rem => rx.isMatch p n.name)
  else .error .regex

/-- TreeFilterExpression.cpp 27-135 `valid`: both operands are evaluated before they are combined. -/
def valid (rx : Rx) (n : Node) : Expr → Except EvalErr Bool
  | .const b => .ok b
  | .vis c v => .ok (evalVis n c v)
  | .type c k => .ok (evalType n c k)
  | .tag c p => evalTag rx n c p
  | .name c p => evalName rx n c p
  | .not a =>
    match valid rx n a with
    | .error e => .error e
    | .ok v => .ok (!v)
  | .bin op a b =>
    match valid rx n a with
    | .error e => .error e
    | .ok v1 =>
      match valid rx n b with
      | .error e => .error e
      | .ok v2 =>
        .ok (match op with
          | .xor => v1 != v2
          | .or => v1 || v2
          | .and => v1 && v2)
  | .short _ _ => .error .operands

/-! ## Operators -/

/-- Expression.hpp 281-354: `a && b`, `a &= b` and so on change `a` and return it.  If `a` and `b` are the same
object, the second operand is a copy taken when the object has its new operation and one operand. -/
def assignOp (env : Nat → Expr) (op : Op) (a b : Nat) : Nat → Expr :=
  if a = b then upd env a (.bin op (env a) (.short op (env a)))
  else upd env a (.bin op (env a) (env b))

/-- Expression.hpp 359-366 `operator!`. -/
def assignNot (env : Nat → Expr) (a : Nat) : Nat → Expr := upd env a (.not (env a))

/-! ## The parser -/

/-- The outcome of a parser: no match, an exception, or a value and the rest of the text. -/
inductive R (α : Type)
  | fail
  | abort
  | ok (x : α) (rest : Str)
deriving DecidableEq, Repr

/-- `ascii::space` -/
def isSpace (c : Char) : Bool := c = ' ' || c = '\t' || c = '\n' || c = '\x0b' || c = '\x0c' || c = '\r'

/-- The skipper. -/
def skip (s : Str) : Str := s.dropWhile isSpace

/-- The rest after a prefix, compared by `f`. -/
def after (f : Char → Char) : Str → Str → Option Str
  | [], s => some s
  | _ :: _, [] => none
  | k :: ks, c :: s => if f c = k then after f ks s else none

/-- A literal. -/
def lit (k s : Str) : Option Str := after id k (skip s)

/-- A literal in `no_case` (`k` in small letters). -/
def litNC (k s : Str) : Option Str := after Char.toLower k (skip s)

/-- An attribute name and the colon (Grammar.hpp 234, 238; TreeFilterExpressionGrammar.cpp 78, 145). -/
def keyed {α : Type} (key : Str) (p : Str → R α) (s : Str) : R α :=
  match litNC key s with
  | none => .fail
  | some s1 =>
    match lit [':'] s1 with
    | none => .fail
    | some s2 => p s2

/-- A comparison: the operators in the order they are tried, then the value alone
(Grammar.hpp 225-230; TreeFilterExpressionGrammar.cpp 67-75, 138-142). -/
def compare {α β : Type} (p : Str → R α) (mk : β → α → Expr) (dflt : β) (s : Str) : List (Str × β) → R Expr
  | [] =>
    match p s with
    | .fail => .fail
    | .abort => .abort
    | .ok x r => .ok (mk dflt x) r
  | (t, c) :: ops =>
    match litNC t s with
    | none => compare p mk dflt s ops
    | some s1 =>
      match p s1 with
      | .fail => compare p mk dflt s ops
      | .abort => .abort
      | .ok x r => .ok (mk c x) r

/-- The first word of a list that matches. -/
def oneOf {α : Type} (s : Str) : List (Str × α) → Option (α × Str)
  | [] => none
  | (w, x) :: ws =>
    match litNC w s with
    | some r => some (x, r)
    | none => oneOf s ws

/-- TreeFilterExpressionGrammar.cpp 79-83 with InstrumentationNode.hpp 46-79. -/
def visWords : List (Str × Nat) :=
  [("summary".toList, 200000000), ("normal".toList, 100000000), ("detail".toList, 10000000),
   ("support".toList, 1000000), ("hidden".toList, 0)]

/-- TreeFilterExpressionGrammar.cpp 88-111: the characters of prefixes, suffixes and decimal digits. -/
def numChar (c : Char) : Bool :=
  "0123456789.xXbBkKmMgGtTpPiInN".toList.contains c

/-- TreeFilterExpressionGrammar.cpp 84, 114 and 18-38: the characters may be separated by white space, which is
dropped, then they are converted. -/
def num (s : Str) : R Nat :=
  let p := fun c => numChar c || isSpace c
  let t := (s.takeWhile p).filter numChar
  if t = [] then .fail
  else
    match Lexical.smart t true true with
    | .ok (v, _) => .ok v (s.dropWhile p)
    | _ => .abort

/-- TreeFilterExpressionGrammar.cpp 77-86 `vis_val`. -/
def visVal (s : Str) : R Nat :=
  match oneOf s visWords with
  | some (v, r) => .ok v r
  | none => num s

/-- TreeFilterExpressionGrammar.cpp 68-73. -/
def visOps : List (Str × VisCmp) :=
  [(['=', '='], .eq), (['>', '='], .ge), (['<', '='], .le), (['<'], .lt), (['>'], .gt), (['!', '='], .ne)]

def visKey : Str := ['v', 'i', 's']

/-- TreeFilterExpressionGrammar.cpp 67-75 `vis_expr`. -/
def visExpr (s : Str) : R Expr := compare (keyed visKey visVal) .vis .eq s visOps

/-- TreeFilterExpressionGrammar.cpp 144-155 `type_val`. -/
def typeWords : List (Str × Kind) :=
  [("statistic".toList, .statisticdef), ("statisticdef".toList, .statisticdef), ("stat".toList, .statisticdef),
   ("statdef".toList, .statisticdef), ("counter".toList, .counter), ("parameter".toList, .parameter),
   ("param".toList, .parameter), ("histogram".toList, .histogram)]

def typeVal (s : Str) : R Kind :=
  match oneOf s typeWords with
  | some (k, r) => .ok k r
  | none => .fail

/-- TreeFilterExpressionGrammar.cpp 139-140. -/
def typeOps : List (Str × TypeCmp) := [(['=', '='], .eq), (['!', '='], .ne)]

def typeKey : Str := ['t', 'y', 'p', 'e']

/-- TreeFilterExpressionGrammar.cpp 138-142 `type_expr`. -/
def typeExpr (s : Str) : R Expr := compare (keyed typeKey typeVal) .type .eq s typeOps

/-- Grammar.hpp 254 `tag_pattern_simple`. -/
def patChar (c : Char) : Bool := c.isAlphanum || "\\._[]+()$^?*".toList.contains c
/-- Grammar.hpp 255 `tag_pattern_indq`. -/
def dqChar (c : Char) : Bool := patChar c || c = ' ' || c = '\''
/-- Grammar.hpp 256 `tag_pattern_insq`. -/
def sqChar (c : Char) : Bool := patChar c || c = ' ' || c = '"'

/-- A pattern: a rule without skipper; white space before it is skipped (Grammar.hpp 277-282). -/
def pattern (f : Char → Bool) (s : Str) : R Str :=
  match (skip s).takeWhile f with
  | [] => .fail
  | c :: t => .ok (c :: t) ((skip s).dropWhile f)

/-- Grammar.hpp 240-249: a quoted pattern. -/
def quoted (q : Char) (f : Char → Bool) (s : Str) : R Str :=
  match lit [q] s with
  | none => .fail
  | some s1 =>
    match pattern f s1 with
    | .ok t s2 =>
      match lit [q] s2 with
      | none => .fail
      | some s3 => .ok t s3
    | _ => .fail

/-- Grammar.hpp 232-252 `tag_val` after the colon. -/
def textVal (s : Str) : R Str :=
  match pattern patChar s with
  | .ok t r => .ok t r
  | _ =>
    match quoted '"' dqChar s with
    | .ok t r => .ok t r
    | _ => quoted '\'' sqChar s

/-- Grammar.hpp 226-228. -/
def textOps : List (Str × TextCmp) :=
  [(['=', '='], .eq), (['!', '='], .ne), (['r', 'e', 'g', 'e', 'x'], .rem)]

def tagKey : Str := ['t', 'a', 'g']
def nameKey : Str := ['n', 'a', 'm', 'e']

/-- Grammar.hpp 225-230 `tag_expr`, for tags and for names. -/
def tagExpr (s : Str) : R Expr := compare (keyed tagKey textVal) .tag .eq s textOps
def nameExpr (s : Str) : R Expr := compare (keyed nameKey textVal) .name .eq s textOps

/-- TreeFilterExpressionGrammar.cpp 41-48 `constants`. -/
def constWords : List (Str × Bool) := [("true".toList, true), ("false".toList, false)]

/-- TreeFilterExpressionGrammar.cpp 207-210 `primary`. -/
def primary (top : Str → R Expr) (s : Str) : R Expr :=
  let alt2 : R Expr :=
    match oneOf s constWords with
    | some (b, r) => .ok (.const b) r
    | none => .fail
  match lit ['('] s with
  | none => alt2
  | some s1 =>
    match top s1 with
    | .fail => alt2
    | .abort => .abort
    | .ok e s2 =>
      match lit [')'] s2 with
      | none => alt2
      | some s3 => .ok e s3

/-- `p | q` -/
def orElse (p q : Str → R Expr) (s : Str) : R Expr :=
  match p s with
  | .fail => q s
  | r => r

/-- TreeFilterExpressionGrammar.cpp 199-205 `vis_comp`. -/
def comp (top : Str → R Expr) : Str → R Expr :=
  orElse visExpr (orElse typeExpr (orElse tagExpr (orElse nameExpr (primary top))))

/-- A literal, then an expression that is inverted. -/
def inverted (k : Str) (p : Str → R Expr) (s : Str) : R Expr :=
  match lit k s with
  | none => .fail
  | some s1 =>
    match p s1 with
    | .ok e r => .ok (.not e) r
    | .fail => .fail
    | .abort => .abort

/-- TreeFilterExpressionGrammar.cpp 193-197 `inversion`. -/
def inversion (top : Str → R Expr) : Str → R Expr :=
  orElse (inverted ['!'] (comp top)) (orElse (inverted ['n', 'o', 't'] (comp top)) (comp top))

/-- The repetition of an operator and an operand (TreeFilterExpressionGrammar.cpp 176, 183, 189); every round takes
two characters, so that the length of the text bounds the rounds. -/
def chain (k : Str) (op : Op) (sub : Str → R Expr) : Nat → Expr → Str → R Expr
  | 0, v, s => .ok v s
  | n + 1, v, s =>
    match lit k s with
    | none => .ok v s
    | some s1 =>
      match sub s1 with
      | .fail => .ok v s
      | .abort => .abort
      | .ok e r => chain k op sub n (.bin op v e) r

/-- TreeFilterExpressionGrammar.cpp 174-191 `logic_xor`, `logic_or`, `logic_and`. -/
def level (k : Str) (op : Op) (sub : Str → R Expr) (s : Str) : R Expr :=
  match sub s with
  | .ok e r => chain k op sub r.length e r
  | .fail => .fail
  | .abort => .abort

def andLevel (top : Str → R Expr) : Str → R Expr := level ['&', '&'] .and (inversion top)
def orLevel (top : Str → R Expr) : Str → R Expr := level ['|', '|'] .or (andLevel top)
def xorLevel (top : Str → R Expr) : Str → R Expr := level ['^', '^'] .xor (orLevel top)

/-- The grammar; every parenthesis takes one character, so that the length of the text bounds the depth. -/
def top : Nat → Str → R Expr
  | 0 => fun _ => .fail
  | n + 1 => xorLevel (top n)

/-- Parser.hpp 54-69 `parse`: `none` is an exception. -/
def parse (s : Str) : Option Expr :=
  match top (s.length + 1) s with
  | .ok e r => if skip r = [] then some e else none
  | _ => none

end Sparta.TFilter
