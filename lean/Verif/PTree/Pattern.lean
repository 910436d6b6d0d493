import Verif.PTree.Spec
/-! Search patterns are globs: lemmas. -/
namespace Sparta.PTree
open Sparta.Strings (Str replaceSubstring replaceLoop find)

def subst (a : Char) (to : Str) (x : Char) : Str := if x = a then to else [x]

theorem replaceLoop_single (a : Char) (to : Str) (s done : Str) (n : Nat) :
    ∃ m, replaceLoop [a] to done s n = some (done ++ s.flatMap (subst a to), m) := by
  induction s generalizing done n with
  | nil =>
    unfold replaceLoop
    simp [find]
  | cons x r ih =>
    by_cases hx : x = a
    · subst hx
      obtain ⟨m, hm⟩ := ih (done ++ to) (n + 1)
      refine ⟨m, ?_⟩
      unfold replaceLoop
      have hf : find [x] (x :: r) = some 0 := by simp [find, List.isPrefixOf]
      rw [dif_neg (by simp)]
      split
      · rename_i i hi
        rw [hf] at hi
        obtain rfl := Option.some.inj hi
        simpa [subst] using hm
      · rename_i hi
        rw [hf] at hi; cases hi
    · obtain ⟨m, hm⟩ := ih (done ++ [x]) n
      refine ⟨m, ?_⟩
      have hf : find [a] (x :: r) = (find [a] r).map (· + 1) := by
        simp [find, List.isPrefixOf, Ne.symm hx]
      have e : replaceLoop [a] to done (x :: r) n = replaceLoop [a] to (done ++ [x]) r n := by
        rw [replaceLoop.eq_def [a] to done, replaceLoop.eq_def [a] to (done ++ [x])]
        rw [dif_neg (by simp), dif_neg (by simp)]
        cases hr : find [a] r with
        | none =>
          rw [hr] at hf
          split
          · rename_i i hi; rw [hf] at hi; cases hi
          · simp
        | some k =>
          rw [hr] at hf
          split
          · rename_i i hi
            rw [hf] at hi
            obtain rfl := Option.some.inj hi
            simp
          · rename_i hi; rw [hf] at hi; cases hi
      rw [e, hm]
      simp [subst, hx]

theorem replace_single (a : Char) (to s : Str) :
    applySub s (a, to) = s.flatMap (subst a to) := by
  obtain ⟨m, hm⟩ := replaceLoop_single a to s [] 0
  unfold applySub replaceSubstring
  rw [hm]; rfl

/-- what one character becomes -/
def enc (x : Char) : Str :=
  if x = '(' ∨ x = ')' ∨ x = '[' ∨ x = ']' then ['\\', x]
  else if x = '*' then ['(', '.', '*', ')']
  else if x = '?' then ['(', '.', '?', ')']
  else if x = '+' then ['(', '.', '+', ')']
  else [x]

theorem create_eq (s : Str) : createSearchRegexPattern s = s.flatMap enc := by
  unfold createSearchRegexPattern patternSubs
  simp only [List.foldl, replace_single, List.flatMap_assoc]
  congr 1
  funext x
  unfold enc
  by_cases h1 : x = '('
  · subst h1; decide
  by_cases h2 : x = ')'
  · subst h2; decide
  by_cases h3 : x = '['
  · subst h3; decide
  by_cases h4 : x = ']'
  · subst h4; decide
  by_cases h5 : x = '*'
  · subst h5; decide
  by_cases h6 : x = '?'
  · subst h6; decide
  by_cases h7 : x = '+'
  · subst h7; decide
  simp [subst, h1, h2, h3, h4, h5, h6, h7]

def tok (x : Char) : Tok := if x = '*' then .star else if x = '?' then .opt else if x = '+' then .plus else .lit x

theorem parse_enc (x : Char) (hx : x ∉ badChars) (s : Str) :
    parseRegex (enc x ++ s) = (parseRegex s).map (tok x :: ·) := by
  by_cases h1 : x = '('
  · subst h1; simp [enc, parseRegex, tok]
  by_cases h2 : x = ')'
  · subst h2; simp [enc, parseRegex, tok]
  by_cases h3 : x = '['
  · subst h3; simp [enc, parseRegex, tok]
  by_cases h4 : x = ']'
  · subst h4; simp [enc, parseRegex, tok]
  by_cases h5 : x = '*'
  · subst h5; simp [enc, parseRegex, tok]
  by_cases h6 : x = '?'
  · subst h6; simp [enc, parseRegex, tok]
  by_cases h7 : x = '+'
  · subst h7; simp [enc, parseRegex, tok]
  have e : enc x = [x] := by simp [enc, h1, h2, h3, h4, h5, h6, h7]
  simp only [badChars, List.mem_cons, List.not_mem_nil, or_false, not_or] at hx
  obtain ⟨b1, b2, b3, b4, b5, b6, b7⟩ := hx
  rw [e, List.singleton_append, parseRegex.eq_def]
  split
  · rename_i h; cases h
  · rename_i h; injection h with h _; exact absurd h h1
  · rename_i h; injection h with h _; exact absurd h h1
  · rename_i h; injection h with h _; exact absurd h h1
  · rename_i h; injection h with h _; exact absurd h b1
  · rename_i h
    injection h with h h'
    subst h; subst h'
    rw [if_neg (by simp [regexSpecial, h1, h2, h3, h4, h5, h6, h7, b1, b2, b3, b4, b5, b6, b7])]
    simp [tok, h5, h6, h7]

theorem parse_pattern (p : Str) (h : OkName p) : parseRegex (createSearchRegexPattern p) = some (p.map tok) := by
  rw [create_eq]
  induction p with
  | nil => rfl
  | cons x p ih =>
    rw [List.flatMap_cons, parse_enc x (h x (by simp)), ih (fun c hc => h c (by simp [hc]))]
    rfl

theorem dot_iff {c : Char} : dot c = true ↔ c ≠ '\n' ∧ c ≠ '\r' := by simp [dot]

theorem tokMatch_star (r : List Tok) (s : Str) :
    tokMatch (.star :: r) s = true ↔ ∃ u t, s = u ++ t ∧ (∀ c ∈ u, c ≠ '\n' ∧ c ≠ '\r') ∧ tokMatch r t = true := by
  induction s with
  | nil =>
    rw [tokMatch]
    constructor
    · intro h; exact ⟨[], [], rfl, by simp, h⟩
    · rintro ⟨u, t, e, _, h⟩
      have : t = [] := by
        cases u <;> simp_all
      rw [this] at h; exact h
  | cons d s ih =>
    rw [tokMatch, Bool.or_eq_true, Bool.and_eq_true, ih, dot_iff]
    constructor
    · rintro (h | ⟨hd, u, t, e, hu, h⟩)
      · exact ⟨[], d :: s, rfl, by simp, h⟩
      · exact ⟨d :: u, t, by simp [e], by
          intro c hc
          rcases List.mem_cons.1 hc with rfl | hc
          · exact hd
          · exact hu c hc, h⟩
    · rintro ⟨u, t, e, hu, h⟩
      cases u with
      | nil => left; rw [show d :: s = t from e]; exact h
      | cons x u =>
        injection e with e1 e2
        subst e1
        exact Or.inr ⟨hu d (by simp), u, t, e2, fun c hc => hu c (by simp [hc]), h⟩

theorem tokMatch_plus (r : List Tok) (s : Str) :
    tokMatch (.plus :: r) s = true ↔
      ∃ u t, s = u ++ t ∧ u ≠ [] ∧ (∀ c ∈ u, c ≠ '\n' ∧ c ≠ '\r') ∧ tokMatch r t = true := by
  induction s with
  | nil =>
    rw [tokMatch]
    constructor
    · intro h; cases h
    · rintro ⟨u, t, e, hu, _, h⟩
      cases u with
      | nil => exact absurd rfl hu
      | cons x u => cases e
  | cons d s ih =>
    rw [tokMatch, Bool.and_eq_true, Bool.or_eq_true, ih, dot_iff]
    constructor
    · rintro ⟨hd, h | ⟨u, t, e, h0, hu, h⟩⟩
      · exact ⟨[d], s, rfl, by simp, by simpa using hd, h⟩
      · exact ⟨d :: u, t, by simp [e], by simp, by
          intro c hc
          rcases List.mem_cons.1 hc with rfl | hc
          · exact hd
          · exact hu c hc, h⟩
    · rintro ⟨u, t, e, h0, hu, h⟩
      cases u with
      | nil => exact absurd rfl h0
      | cons x u =>
        injection e with e1 e2
        subst e1
        refine ⟨hu d (by simp), ?_⟩
        cases u with
        | nil => left; rw [show s = t from e2]; exact h
        | cons y u => exact Or.inr ⟨y :: u, t, e2, by simp, fun c hc => hu c (by simp [hc]), h⟩

theorem tokMatch_opt (r : List Tok) (s : Str) :
    tokMatch (.opt :: r) s = true ↔
      ∃ u t, s = u ++ t ∧ u.length ≤ 1 ∧ (∀ c ∈ u, c ≠ '\n' ∧ c ≠ '\r') ∧ tokMatch r t = true := by
  cases s with
  | nil =>
    rw [tokMatch]
    constructor
    · intro h; exact ⟨[], [], rfl, by simp, by simp, h⟩
    · rintro ⟨u, t, e, _, _, h⟩
      have : t = [] := by cases u <;> simp_all
      rw [this] at h; exact h
  | cons d s =>
    rw [tokMatch, Bool.or_eq_true, Bool.and_eq_true, dot_iff]
    constructor
    · rintro (h | ⟨hd, h⟩)
      · exact ⟨[], d :: s, rfl, by simp, by simp, h⟩
      · exact ⟨[d], s, rfl, by simp, by simpa using hd, h⟩
    · rintro ⟨u, t, e, hl, hu, h⟩
      cases u with
      | nil => left; rw [show d :: s = t from e]; exact h
      | cons x u =>
        injection e with e1 e2
        subst e1
        have : u = [] := by cases u with
          | nil => rfl
          | cons y u => simp at hl
        subst this
        exact Or.inr ⟨hu d (by simp), by rw [show s = t from e2]; exact h⟩

theorem tokMatch_glob (p s : Str) : tokMatch (p.map tok) s = true ↔ Glob p s := by
  induction p generalizing s with
  | nil =>
    rw [List.map_nil, tokMatch]
    constructor
    · intro h
      cases s with
      | nil => exact .nil
      | cons d s => cases h
    · intro h; cases h; rfl
  | cons x p ih =>
    rw [List.map_cons]
    by_cases h1 : x = '*'
    · subst h1
      show tokMatch (.star :: p.map tok) s = true ↔ _
      rw [tokMatch_star]
      constructor
      · rintro ⟨u, t, rfl, hu, h⟩; exact .star hu ((ih t).1 h)
      · intro h
        cases h with
        | lit a => exact absurd rfl a
        | star hu h => exact ⟨_, _, rfl, hu, (ih _).2 h⟩
    by_cases h2 : x = '?'
    · subst h2
      show tokMatch (.opt :: p.map tok) s = true ↔ _
      rw [tokMatch_opt]
      constructor
      · rintro ⟨u, t, rfl, hl, hu, h⟩; exact .opt hl hu ((ih t).1 h)
      · intro h
        cases h with
        | lit _ a => exact absurd rfl a
        | opt hl hu h => exact ⟨_, _, rfl, hl, hu, (ih _).2 h⟩
    by_cases h3 : x = '+'
    · subst h3
      show tokMatch (.plus :: p.map tok) s = true ↔ _
      rw [tokMatch_plus]
      constructor
      · rintro ⟨u, t, rfl, hl, hu, h⟩; exact .plus hl hu ((ih t).1 h)
      · intro h
        cases h with
        | lit _ _ a => exact absurd rfl a
        | plus hl hu h => exact ⟨_, _, rfl, hl, hu, (ih _).2 h⟩
    · rw [show tok x = .lit x by simp [tok, h1, h2, h3]]
      cases s with
      | nil =>
        rw [tokMatch]
        constructor
        · intro h; cases h
        · intro h
          generalize hs : ([] : Str) = s at h
          cases h with
          | lit => cases hs
          | star => exact absurd rfl h1
          | opt => exact absurd rfl h2
          | plus => exact absurd rfl h3
      | cons d s =>
        rw [tokMatch, Bool.and_eq_true, beq_iff_eq, ih]
        constructor
        · rintro ⟨rfl, h⟩; exact .lit h1 h2 h3 h
        · intro h
          generalize hs : d :: s = t at h
          cases h with
          | lit _ _ _ h => injection hs with a b; exact ⟨a.symm, b ▸ h⟩
          | star => exact absurd rfl h1
          | opt => exact absurd rfl h2
          | plus => exact absurd rfl h3

theorem patMatches_iff {p : Str} (h : OkName p) (s : Str) : patMatches p s = true ↔ Glob p s := by
  unfold patMatches
  rw [parse_pattern p h]
  exact tokMatch_glob p s

theorem hasWild_false {p : Str} (h : hasWild p = false) :
    ∀ c ∈ p, c ≠ '(' ∧ c ≠ ')' ∧ c ≠ '[' ∧ c ≠ ']' ∧ c ≠ '*' ∧ c ≠ '?' ∧ c ≠ '+' := by
  intro c hc
  simp only [hasWild, patternSubs, List.any_cons, List.any_nil, Bool.or_false, Bool.or_eq_false_iff] at h
  obtain ⟨a1, a2, a3, a4, a5, a6, a7⟩ := h
  simp only [List.contains_eq_mem, decide_eq_false_iff_not] at a1 a2 a3 a4 a5 a6 a7
  refine ⟨?_, ?_, ?_, ?_, ?_, ?_, ?_⟩ <;> (rintro rfl; contradiction)

theorem glob_plain {p s : Str} (h : ∀ c ∈ p, c ≠ '*' ∧ c ≠ '?' ∧ c ≠ '+') : Glob p s ↔ s = p := by
  induction p generalizing s with
  | nil =>
    constructor
    · intro h; cases h; rfl
    · rintro rfl; exact .nil
  | cons x p ih =>
    obtain ⟨h1, h2, h3⟩ := h x (by simp)
    have ih' := fun s => @ih s (fun c hc => h c (by simp [hc]))
    constructor
    · intro hg
      cases hg with
      | lit _ _ _ hg => rw [(ih' _).1 hg]
      | star => exact absurd rfl h1
      | opt => exact absurd rfl h2
      | plus => exact absurd rfl h3
    · rintro rfl
      exact .lit h1 h2 h3 ((ih' p).2 rfl)

theorem patMatches_concrete {p : Str} (h : OkName p) (hw : hasWild p = false) (s : Str) :
    patMatches p s = true ↔ s = p := by
  rw [patMatches_iff h, glob_plain (fun c hc => ⟨(hasWild_false hw c hc).2.2.2.2.1, (hasWild_false hw c hc).2.2.2.2.2⟩)]

end Sparta.PTree
