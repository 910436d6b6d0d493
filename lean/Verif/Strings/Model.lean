import Verif.Common
/-!
Model of the string helpers of /repo/sparta/sparta/utils/StringUtils.hpp and `replaceSubstring` of
/repo/sparta/sparta/utils/Utils.hpp.  A `std::string` is a list of characters; positions are indices, `npos` is `none`.
A `std::out_of_range` exception is the result `none`.
-/
namespace Sparta.Strings

/-- `std::string` -/
abbrev Str := List Char

/-- `s.substr(p)`, `s.substr(p, n)`: throws (`none`) if `p > s.size()` -/
def substr (s : Str) (p : Nat) (n : Option Nat) : Option Str :=
  if p ≤ s.length then
    some (match n with
      | some n => (s.drop p).take n
      | none => s.drop p)
  else none

/-- `s.find_first_of(ds, p)` -/
def findFirstOf (ds s : Str) (p : Nat) : Option Nat := ((s.drop p).findIdx? (ds.contains ·)).map (p + ·)

theorem findFirstOf_lt {ds s : Str} {p c : Nat} (h : findFirstOf ds s p = some c) : p ≤ c ∧ c < s.length := by
  unfold findFirstOf at h
  rw [Option.map_eq_some_iff] at h
  obtain ⟨i, hi, rfl⟩ := h
  have := (List.findIdx?_eq_some_iff_getElem.mp hi).1
  simp at this
  omega

/-- the loop of StringUtils.hpp 213-220 (`tokenize`): appends to `v` -/
def tokenizeLoop (ds s : Str) (prev : Nat) (v : List Str) : Option (List Str) :=
  match h : findFirstOf ds s prev with
  | some cur =>
    match substr s prev (some (cur - prev)) with
    | some t => tokenizeLoop ds s (cur + 1) (v ++ [t])
    | none => none
  | none => (substr s prev none).map fun t => v ++ [t]
termination_by s.length - prev
decreasing_by have := findFirstOf_lt h; omega

/-- StringUtils.hpp 211-221 `tokenize` -/
def tokenize (s : Str) (v : List Str) (ds : Str) : Option (List Str) := tokenizeLoop ds s 0 v

/-- StringUtils.hpp 162 -/
def blanks : Str := [' ', '\t', '\n', '\r']

/-- `s.find_first_not_of(ds)` -/
def findFirstNotOf (ds s : Str) : Option Nat := s.findIdx? (!ds.contains ·)

/-- `s.find_last_not_of(ds)` -/
def findLastNotOf (ds s : Str) : Option Nat := (s.reverse.findIdx? (!ds.contains ·)).map (s.length - 1 - ·)

/-- StringUtils.hpp 160-168 `strip_whitespace`; with `npos` as start `substr` throws -/
def stripWhitespace (s : Str) : Option Str :=
  match findFirstNotOf blanks s, findLastNotOf blanks s with
  | some a, some b => substr s a (some (b - a + 1))
  | _, _ => none

/-- StringUtils.hpp 279-290 `tokenize_strip_whitespace` -/
def tokenizeStripLoop (ds s : Str) (prev : Nat) (v : List Str) : Option (List Str) :=
  match h : findFirstOf ds s prev with
  | some cur =>
    match (substr s prev (some (cur - prev))).bind stripWhitespace with
    | some t => tokenizeStripLoop ds s (cur + 1) (v ++ [t])
    | none => none
  | none => ((substr s prev none).bind stripWhitespace).map fun t => v ++ [t]
termination_by s.length - prev
decreasing_by have := findFirstOf_lt h; omega

/-- StringUtils.hpp 279-290 -/
def tokenizeStrip (s : Str) (v : List Str) (ds : Str) : Option (List Str) := tokenizeStripLoop ds s 0 v

/-- StringUtils.hpp 318-334 `tokenize_on_whitespace` -/
def wordsLoop (s : Str) (prev : Nat) (v : List Str) : Option (List Str) :=
  match h : findFirstOf blanks s prev with
  | some cur =>
    if cur ≠ prev then
      match substr s prev (some (cur - prev)) with
      | some t => wordsLoop s (cur + 1) (v ++ [t])
      | none => none
    else wordsLoop s (cur + 1) v
  | none => if prev ≠ s.length then (substr s prev none).map fun t => v ++ [t] else some v
termination_by s.length - prev
decreasing_by all_goals (have := findFirstOf_lt h; omega)

/-- StringUtils.hpp 318-334 -/
def tokenizeOnWhitespace (s : Str) (v : List Str) : Option (List Str) := wordsLoop s 0 v

/-- StringUtils.hpp 244-254 `split_lines_around_tokens`; `getline` yields the pieces between separators and no empty piece
after a final separator.  `lines` are the lines `getline` yields. -/
def splitLines (lines : List Str) (v : List (List Str)) (ds : Str) : Option (List (List Str)) :=
  lines.foldl (fun acc l => acc.bind fun v => (tokenize l [] ds).map fun t => v ++ [t]) (some v)

/-- `std::isspace` in the C locale -/
def isSpace (c : Char) : Bool := [' ', '\t', '\n', '\r', '\x0b', '\x0c'].contains c

/-- StringUtils.hpp 147-153 `eliminate_whitespace` -/
def eliminateWhitespace (s : Str) : Str := s.filter (!isSpace ·)

/-- `s.find(pat)` in the text from the current position -/
def find (pat : Str) : Str → Option Nat
  | [] => if pat = [] then some 0 else none
  | c :: r => if pat.isPrefixOf (c :: r) then some 0 else (find pat r).map (· + 1)

/-- `s.rfind(pat)` -/
def rfind (pat s : Str) : Option Nat := (find pat.reverse s.reverse).map fun i => s.length - pat.length - i

/-- StringUtils.hpp 177-200 `strip_string_pattern`.  `end_pos` is `size_t`: if the pattern is not found
`npos + pat.length()` may be `str.length()`, then `end_pos` stays `npos`; if the two matches overlap `end_pos - start_pos`
wraps; in both cases `substr` takes everything up to the end. -/
def stripPattern (pat s : Str) : Option Str :=
  let start := if find pat s = some 0 then pat.length else 0
  match rfind pat s with
  | some e =>
    if e = 0 ∨ e + pat.length ≠ s.length then substr s start none
    else if start ≤ e then substr s start (some (e - start))
    else substr s start none
  | none => substr s start none

/-- the loop of Utils.hpp 276-285 `replaceSubstring`: the text before the position, the text after it, the count.  `none`:
the loop does not end (an empty `from`) -/
def replaceLoop (pat to : Str) (done todo : Str) (n : Nat) : Option (Str × Nat) :=
  if hp : pat = [] then none
  else
    match h : find pat todo with
    | some i => replaceLoop pat to (done ++ todo.take i ++ to) (todo.drop (i + pat.length)) (n + 1)
    | none => some (done ++ todo, n)
termination_by todo.length
decreasing_by
  have : todo ≠ [] := by
    intro e; subst e; simp [find, hp] at h
  have h1 : 0 < todo.length := List.length_pos_iff.mpr this
  have h2 : 0 < pat.length := List.length_pos_iff.mpr hp
  simp; omega

/-- Utils.hpp 276-285 -/
def replaceSubstring (s pat to : Str) : Option (Str × Nat) := replaceLoop pat to [] s 0

/-- StringUtils.hpp 377-401 `LevenshteinDistance`, the entry for the first `j` characters of `s` and the first `i` of `t`,
given reversed; the table is filled with zeros first and row and column 0 are never set.  Simplified: the table is a
recursive function. -/
def lev : Str → Str → Nat
  | [], _ => 0
  | _, [] => 0
  | a :: s, b :: t => if a = b then lev s t else min (lev (a :: s) t + 1) (lev s t + 1)
termination_by s t => s.length + t.length

/-- StringUtils.hpp 377-401 -/
def levenshtein (s t : Str) : Nat := lev s.reverse t.reverse

end Sparta.Strings
