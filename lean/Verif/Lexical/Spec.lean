/-!
The language of integer literals described in the comment of SmartLexicalCast.hpp 118-163, and their values.
-/
namespace Sparta.Lexical

/-- characters that may stand anywhere between digits -/
def isSep (c : Char) : Prop := c = ' ' ∨ c = '_' ∨ c = ',' ∨ c = '\t' ∨ c = '\n'

instance (c : Char) : Decidable (isSep c) := inferInstanceAs (Decidable (_ ∨ _))

/-- the value of a digit character -/
def digit : Char → Option Nat
  | '0' => some 0 | '1' => some 1 | '2' => some 2 | '3' => some 3 | '4' => some 4
  | '5' => some 5 | '6' => some 6 | '7' => some 7 | '8' => some 8 | '9' => some 9
  | 'a' => some 10 | 'b' => some 11 | 'c' => some 12 | 'd' => some 13 | 'e' => some 14 | 'f' => some 15
  | 'A' => some 10 | 'B' => some 11 | 'C' => some 12 | 'D' => some 13 | 'E' => some 14 | 'F' => some 15
  | _ => none

/-- a digit in the radix -/
def isDigit (radix : Nat) (c : Char) : Prop := ∃ d, digit c = some d ∧ d < radix

/-- positional notation -/
def val (radix : Nat) : List Char → Nat
  | [] => 0
  | c :: r => (digit c).getD 0 * radix ^ r.length + val radix r

/-- the digits of a text that may contain separators -/
def digitsOf (s : List Char) : List Char := s.filter fun c => !decide (isSep c)

/-- kilo, mega, giga (or billion), tera, peta -/
def expo : Char → Option Nat
  | 'k' => some 1 | 'K' => some 1
  | 'm' => some 2 | 'M' => some 2
  | 'g' => some 3 | 'G' => some 3 | 'b' => some 3 | 'B' => some 3
  | 't' => some 4 | 'T' => some 4
  | 'p' => some 5 | 'P' => some 5
  | _ => none

/-- the factor of a unit: none, `n`, powers of 1000, or with `i` powers of 1024 -/
def unitVal : List Char → Option Nat
  | [] => some 1
  | [c] => if c = 'n' ∨ c = 'N' then some 1 else (expo c).map (1000 ^ ·)
  | [c, i] => if i = 'i' ∨ i = 'I' then (expo c).map (1024 ^ ·) else none
  | _ => none

/-- a decimal number with an optional fraction (`frac` empty: no point) and an optional unit -/
structure Num where
  body : List Char
  frac : List Char
  unit : List Char
deriving DecidableEq

/-- how it is written -/
def Num.text (n : Num) : List Char := n.body ++ ((if n.frac = [] then [] else '.' :: n.frac) ++ n.unit)

/-- its value -/
def Num.value (n : Num) : Nat :=
  val 10 (digitsOf n.body) * (unitVal n.unit).getD 1 +
    val 10 (digitsOf n.frac) * (unitVal n.unit).getD 1 / 10 ^ (digitsOf n.frac).length

/-- digits and separators, at least one digit, a known unit; a fraction only if its last place still is an integer -/
def Num.Ok (n : Num) : Prop :=
  (∀ c ∈ n.body ++ n.frac, isDigit 10 c ∨ isSep c) ∧ (n.frac = [] → digitsOf n.body ≠ []) ∧
  (n.frac ≠ [] → digitsOf n.frac ≠ []) ∧
  (unitVal n.unit).isSome ∧ 10 ^ (digitsOf n.frac).length ∣ (unitVal n.unit).getD 1

/-- restriction: at most nine places in the fraction, none of them zero -/
def Num.PlainFrac (n : Num) : Prop := '0' ∉ digitsOf n.frac ∧ (digitsOf n.frac).length ≤ 9

/-- several numbers one after the other, to be added; all but the last have a unit -/
def Chain : List Num → Prop
  | [] => True
  | [n] => n.Ok
  | n :: ns => n.Ok ∧ n.unit ≠ [] ∧ Chain ns

/-- the text of several numbers -/
def texts (ns : List Num) : List Char := ns.flatMap Num.text

/-- their sum -/
def total (ns : List Num) : Nat := (ns.map Num.value).sum

/-- the text does not start with what looks like a radix prefix: its first character is not `0`, or it is a single `0` -/
def DecStart (s : List Char) : Prop :=
  let t := s.dropWhile (fun c => decide (isSep c))
  t.head? ≠ some '0' ∨ ∃ u, t = '0' :: u ∧ (∀ c ∈ u.head?, c ∉ ['x', 'X', 'b', 'B']) ∧
    ∀ c ∈ (u.dropWhile (fun c => decide (isSep c))).head?, ¬ isDigit 8 c

/-- the radix prefixes -/
def radixOf : List Char → Option Nat
  | ['0', 'x'] => some 16 | ['0', 'X'] => some 16
  | ['0', 'b'] => some 2 | ['0', 'B'] => some 2
  | ['0'] => some 8
  | _ => none

end Sparta.Lexical
