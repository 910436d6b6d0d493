import Verif.Common
/-!
Model of `sparta::utils::smartLexicalCast` for the integer types (/repo/sparta/sparta/utils/SmartLexicalCast.hpp) and of the
`lexicalCast<uint64_t>` it uses (/repo/sparta/sparta/utils/LexicalCast.hpp).  A string is a list of characters.  A position
inside the string is represented by the rest of the string from there on, `npos` by the empty rest where the code compares
with `npos`.  Not modelled: the versions for `double` and for other types, the text of the messages.
-/
namespace Sparta.Lexical

/-- `std::string` -/
abbrev Str := List Char

/-- the result of a call: a value, an exception, or undefined behaviour -/
inductive Res (α : Type) where
  | ok (x : α)
  | threw
  | ub
deriving DecidableEq, Repr

/-- SmartLexicalCast.hpp 111 `WHITESPACE` -/
def ws : Str := [' ', '_', ',', '\t', '\n']

/-- SmartLexicalCast.hpp 116 `DECIMAL_DIGITS` -/
def decimalDigits : Str := ['0', '1', '2', '3', '4', '5', '6', '7', '8', '9', '.']

/-- SmartLexicalCast.hpp 40-56 `RadixPrefix` -/
structure RadixPrefix where
  options : List Str
  radix : Nat
  digits : Str

/-- SmartLexicalCast.hpp 73-77 `prefixes` -/
def prefixes : List RadixPrefix :=
  [⟨[['0', 'x'], ['0', 'X']], 16, ['0', '1', '2', '3', '4', '5', '6', '7', '8', '9', 'a', 'b', 'c', 'd', 'e', 'f', 'A', 'B', 'C', 'D', 'E', 'F']⟩,
   ⟨[['0', 'b'], ['0', 'B']], 2, ['0', '1']⟩,
   ⟨[['0']], 8, ['0', '1', '2', '3', '4', '5', '6', '7']⟩]

/-- SmartLexicalCast.hpp 82-106 `suffixes`: spelling and multiplier, in the order they are tried -/
def suffixes : List (List Str × Nat) :=
  [([['k', 'i'], ['K', 'i'], ['k', 'I'], ['K', 'I']], 2 ^ 10),
   ([['m', 'i'], ['M', 'i'], ['m', 'I'], ['M', 'I']], 2 ^ 20),
   ([['g', 'i'], ['G', 'i'], ['b', 'i'], ['B', 'i'], ['g', 'I'], ['G', 'I'], ['b', 'I'], ['B', 'I']], 2 ^ 30),
   ([['t', 'i'], ['T', 'i'], ['t', 'I'], ['T', 'I']], 2 ^ 40),
   ([['p', 'i'], ['P', 'i'], ['p', 'I'], ['P', 'I']], 2 ^ 50),
   ([['n'], ['N']], 1),
   ([['k'], ['K']], 1000),
   ([['m'], ['M']], 1000000),
   ([['g'], ['G'], ['b'], ['B']], 1000000000),
   ([['t'], ['T']], 1000000000000),
   ([['p'], ['P']], 1000000000000000)]

/-- SmartLexicalCast.hpp 185-209 `parseNumericString`: the digits (white space removed) and the rest -/
def parseNumeric (s digits : Str) : Str × Str :=
  let raw := s.takeWhile (fun c => digits.contains c || ws.contains c)
  (raw.filter (!ws.contains ·), s.dropWhile (fun c => digits.contains c || ws.contains c))

/-- the value of a digit character as `strtoul` takes it -/
def digitVal (c : Char) : Nat :=
  if c.toNat ≤ 57 then c.toNat - 48 else if c.toNat ≤ 70 then c.toNat - 55 else c.toNat - 87

/-- LexicalCast.hpp 125-137 `lexicalCast<uint64_t>` on a string of digits of the radix; `none`: `std::out_of_range`, rethrown
as SpartaException -/
def stoul (s : Str) (radix : Nat) : Option Nat :=
  let v := s.foldl (fun a c => a * radix + digitVal c) 0
  if v < 2 ^ 64 then some v else none

/-- SmartLexicalCast.hpp 233-265: the first prefix option that matches and is followed by a number -/
def tryPrefix (s : Str) : Option (Nat × Str × Str) :=
  (prefixes.flatMap fun p => p.options.map fun o => (p, o)).findSome? fun po =>
    if po.2.isPrefixOf s then
      let r := parseNumeric (s.drop po.2.length) po.1.digits
      if r.1 ≠ [] then some (po.1.radix, r.1, r.2) else none
    else none

/-- SmartLexicalCast.hpp 324-342: the first suffix that matches; multiplier and rest -/
def trySuffix (s : Str) : Nat × Str :=
  match (suffixes.flatMap fun e => e.1.map fun o => (o, e.2)).find? fun om => om.1.isPrefixOf s with
  | some om => (om.2, s.drop om.1.length)
  | none => (1, s)

/-- SmartLexicalCast.hpp 351-368: add the fraction digit by digit; `tenDiv` is a `uint32_t`; a division by zero is undefined -/
def fracLoop (mult : Nat) : Nat → Nat → Str → Res Nat
  | _, v, [] => .ok v
  | tenDiv, v, c :: r =>
    let d := (c.toNat + 2 ^ 64 - 48) % 2 ^ 64
    if d < 10 then
      let f := d * mult % 2 ^ 64
      if f < tenDiv then .threw
      else if tenDiv = 0 then .ub
      else fracLoop mult (tenDiv * 10 % 2 ^ 32) ((v + f / tenDiv) % 2 ^ 64) r
    else .threw

/-- SmartLexicalCast.hpp 228-287: the radix, the number without white space, and the rest of the string -/
def number (s : Str) (allowPrefix : Bool) : Nat × Str × Str :=
  match (if allowPrefix then tryPrefix s else none) with
  | some p => p
  | none => (10, parseNumeric s decimalDigits)

/-- SmartLexicalCast.hpp 217-368: one number with its prefix and suffix; the value, and the rest after the suffix, or `none`
if the string ended before the place of a suffix -/
def term (s : Str) (allowPrefix : Bool) : Res (Nat × Option Str) :=
  let s1 := s.dropWhile (ws.contains ·)
  if s1 = [] then .ok (0, none)
  else
    let p := number s1 allowPrefix
    if p.2.1 = [] then .threw
    else
      let ip := p.2.1.takeWhile (· ≠ '.')
      let fp := p.2.1.dropWhile (· ≠ '.')
      if fp = ['.'] then .threw
      else
        match (if ip = [] then some 0 else stoul ip p.1) with
        | none => .threw
        | some v =>
          if p.2.2 = [] then (if fp.drop 1 ≠ [] then .threw else .ok (v, none))
          else
            let m := trySuffix p.2.2
            match fracLoop m.1 10 (v * m.1 % 2 ^ 64) (fp.drop 1) with
            | .ok v => .ok (v, some m.2)
            | .threw => .threw
            | .ub => .ub

theorem parseNumeric_length (s d : Str) : (parseNumeric s d).1.length + (parseNumeric s d).2.length ≤ s.length := by
  unfold parseNumeric
  have h1 := List.length_filter_le (fun c => !ws.contains c) (s.takeWhile (fun c => d.contains c || ws.contains c))
  have h2 := congrArg List.length (List.takeWhile_append_dropWhile (p := fun c => d.contains c || ws.contains c) (l := s))
  rw [List.length_append] at h2
  dsimp only
  omega

theorem tryPrefix_length {s : Str} {r : Nat × Str × Str} (h : tryPrefix s = some r) : r.2.1 ≠ [] ∧ r.2.2.length < s.length := by
  unfold tryPrefix at h
  obtain ⟨po, _, h⟩ := List.exists_of_findSome?_eq_some h
  dsimp only at h
  split at h
  · split at h
    · rename_i hne
      cases h
      refine ⟨hne, ?_⟩
      have := parseNumeric_length (s.drop po.2.length) po.1.digits
      have := List.length_pos_iff.mpr hne
      simp at *
      omega
    · cases h
  · cases h

theorem trySuffix_length (s : Str) : (trySuffix s).2.length ≤ s.length := by
  unfold trySuffix
  split <;> simp

theorem term_rest {s : Str} {a : Bool} {v : Nat} {r : Str} (h : term s a = .ok (v, some r)) : r.length < s.length := by
  unfold term at h
  dsimp only at h
  have hs1 : (s.dropWhile (ws.contains ·)).length ≤ s.length := by
    have := congrArg List.length (List.takeWhile_append_dropWhile (p := (ws.contains ·)) (l := s))
    rw [List.length_append] at this
    omega
  generalize s.dropWhile (ws.contains ·) = s1 at h hs1
  split at h
  · cases h
  generalize hp : number s1 a = p at h
  split at h
  · cases h
  rename_i hne
  have hp2 : p.2.2.length < s1.length := by
    unfold number at hp
    split at hp
    · rename_i q hq
      subst hp
      split at hq
      · exact (tryPrefix_length hq).2
      · cases hq
    · subst hp
      have := parseNumeric_length s1 decimalDigits
      have := List.length_pos_iff.mpr hne
      dsimp only at *
      omega
  split at h
  · cases h
  split at h
  · cases h
  split at h
  · split at h <;> cases h
  · split at h
    · cases h
      have := trySuffix_length p.2.2
      omega
    · cases h
    · cases h

/-- SmartLexicalCast.hpp 382-391: the rest of the string after the end position must be white space -/
def finish (s : Str) (v : Nat) (endPos : Option Nat) : Res (Nat × Option Nat) :=
  match endPos with
  | none => .ok (v, none)
  | some p => if (s.drop p).all (ws.contains ·) then .ok (v, some p) else .threw

/-- SmartLexicalCast.hpp 211-392 `smartLexicalCast<uint64_t>`: the value and `end_pos`; the end position of the recursive call
is one of the shorter string -/
def smart (s : Str) (allowRecursion allowPrefix : Bool) : Res (Nat × Option Nat) :=
  match h : term s allowPrefix with
  | .ok (v, none) => .ok (v, none)
  | .ok (v, some r) =>
    if allowRecursion then
      match smart r true false with
      | .ok (a, e) => finish s ((v + a) % 2 ^ 64) e
      | .threw => .threw
      | .ub => .ub
    else finish s v (some (s.length - r.length))
  | .threw => .threw
  | .ub => .ub
termination_by s.length
decreasing_by exact term_rest h

/-- SmartLexicalCast.hpp 394-431: `uint32_t`, `uint16_t`, `uint8_t` (`bits` 32, 16, 8) -/
def smartU (bits : Nat) (s : Str) (ar ap : Bool) : Res Nat :=
  match smart s ar ap with
  | .ok (v, _) => if 2 ^ bits ≤ v then .threw else .ok v
  | .threw => .threw
  | .ub => .ub

/-- SmartLexicalCast.hpp 433-461 `int64_t`.  `signed_val *= -1` overflows for the smallest value: undefined -/
def smartI64 (s : Str) (ar ap : Bool) : Res Int :=
  let s1 := s.dropWhile (ws.contains ·)
  let negate := s1.head? = some '-'
  match smart (if negate then s1.drop 1 else s) ar ap with
  | .ok (v, _) =>
    if (!negate && decide (2 ^ 63 ≤ v)) || (negate && decide (2 ^ 63 < v)) then .threw
    else if negate then (if v = 2 ^ 63 then .ub else .ok (-v)) else .ok v
  | .threw => .threw
  | .ub => .ub

/-- conversion to a signed type of `bits` bits -/
def wrap (bits : Nat) (v : Int) : Int := (v + 2 ^ (bits - 1)) % 2 ^ bits - 2 ^ (bits - 1)

/-- SmartLexicalCast.hpp 463-503: `int32_t` (`bits` 32, `check` 31), `int16_t` (16, 16), `int8_t` (8, 8): the limits compared
with are `±(1 << check)` -/
def smartI (bits check : Nat) (s : Str) (ar ap : Bool) : Res Int :=
  match smartI64 s ar ap with
  | .ok v => if 2 ^ check ≤ v ∨ v < -(2 ^ check) then .threw else .ok (wrap bits v)
  | .threw => .threw
  | .ub => .ub

/-- SmartLexicalCast.hpp 463-475 -/
def smartI32 := smartI 32 31
/-- SmartLexicalCast.hpp 477-489 -/
def smartI16 := smartI 16 16
/-- SmartLexicalCast.hpp 491-503 -/
def smartI8 := smartI 8 8

end Sparta.Lexical
