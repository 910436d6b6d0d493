import Verif.Strings.Model
/-! Properties C39, C74, C75, C76: string helpers. -/
namespace Sparta.Strings

/-! ### C39: tokenize -/

/-- the pieces with the separators between them -/
def join : List Str → Str → Str
  | t :: ts, d :: ds => t ++ d :: join ts ds
  | t :: _, [] => t
  | [], _ => []

/-- `ts` are the pieces of `s` between the delimiters `ds` -/
def Pieces (ds s : Str) (ts : List Str) : Prop :=
  ∃ seps : Str, (∀ c ∈ seps, c ∈ ds) ∧ ts.length = seps.length + 1 ∧ join ts seps = s ∧ ∀ t ∈ ts, ∀ c ∈ t, c ∉ ds

/-- reference: split at every delimiter -/
def split (ds : Str) : Str → List Str
  | [] => [[]]
  | c :: r => if c ∈ ds then [] :: split ds r
    else match split ds r with
      | t :: ts => (c :: t) :: ts
      | [] => [[c]]

theorem split_ne_nil (ds s : Str) : split ds s ≠ [] := by
  cases s with
  | nil => simp [split]
  | cons c r => unfold split; split <;> (try split) <;> simp

theorem split_pieces (ds s : Str) : Pieces ds s (split ds s) := by
  induction s with
  | nil => exact ⟨[], by simp, rfl, rfl, by simp [split]⟩
  | cons c r ih =>
    obtain ⟨seps, h1, h2, h3, h4⟩ := ih
    unfold split
    split
    · rename_i hc
      refine ⟨c :: seps, by simpa using ⟨hc, h1⟩, by simp [h2], by simp [join, h3], ?_⟩
      intro t ht
      rcases List.mem_cons.mp ht with rfl | ht
      · simp
      · exact h4 t ht
    · rename_i hc
      split
      · rename_i t ts e
        rw [e] at h2 h3 h4
        refine ⟨seps, h1, by simpa using h2, ?_, ?_⟩
        · cases seps with
          | nil => simp [join] at h3 ⊢; exact h3
          | cons d sp => simp [join] at h3 ⊢; exact h3
        · intro u hu
          rcases List.mem_cons.mp hu with rfl | hu
          · intro x hx
            rcases List.mem_cons.mp hx with rfl | hx
            · exact hc
            · exact h4 t (List.mem_cons_self ..) x hx
          · exact h4 u (List.mem_cons_of_mem _ hu)
      · rename_i e
        exact absurd e (split_ne_nil ds r)

theorem split_no_delim (ds t : Str) (h : ∀ c ∈ t, c ∉ ds) : split ds t = [t] := by
  induction t with
  | nil => rfl
  | cons c r ih =>
    unfold split
    rw [if_neg (h c (List.mem_cons_self ..)), ih (fun x hx => h x (List.mem_cons_of_mem _ hx))]

theorem split_append (ds t : Str) (d : Char) (r : Str) (h : ∀ c ∈ t, c ∉ ds) (hd : d ∈ ds) :
    split ds (t ++ d :: r) = t :: split ds r := by
  induction t with
  | nil => simp [split, hd]
  | cons c t ih =>
    rw [List.cons_append, split, if_neg (h c (List.mem_cons_self ..)), ih (fun x hx => h x (List.mem_cons_of_mem _ hx))]

theorem pieces_unique {ds s : Str} {ts : List Str} (h : Pieces ds s ts) : ts = split ds s := by
  obtain ⟨seps, h1, h2, h3, h4⟩ := h
  induction seps generalizing s ts with
  | nil =>
    match ts, h2 with
    | [t], _ =>
      simp only [join] at h3
      subst h3
      exact (split_no_delim ds t (h4 t (List.mem_cons_self ..))).symm
  | cons d sp ih =>
    match ts, h2 with
    | t :: ts, h2 =>
      simp only [join] at h3
      subst h3
      rw [split_append ds t d _ (h4 t (List.mem_cons_self ..)) (h1 d (List.mem_cons_self ..))]
      congr 1
      exact ih (fun c hc => h1 c (List.mem_cons_of_mem _ hc)) (by simpa using h2) rfl (fun u hu => h4 u (List.mem_cons_of_mem _ hu))

theorem findFirstOf_some {ds s : Str} {p c : Nat} (h : findFirstOf ds s p = some c) :
    p ≤ c ∧ c < s.length ∧ ∃ d ∈ ds, s.drop p = (s.drop p).take (c - p) ++ d :: s.drop (c + 1) ∧ ∀ x ∈ (s.drop p).take (c - p), x ∉ ds := by
  obtain ⟨h1, h2⟩ := findFirstOf_lt h
  refine ⟨h1, h2, ?_⟩
  unfold findFirstOf at h
  rw [Option.map_eq_some_iff] at h
  obtain ⟨i, hi, rfl⟩ := h
  obtain ⟨hl, hp, hn⟩ := List.findIdx?_eq_some_iff_getElem.mp hi
  refine ⟨(s.drop p)[i], by simpa using hp, ?_, ?_⟩
  · rw [show p + i - p = i by omega]
    conv => lhs; rw [← List.take_append_drop i (s.drop p)]
    rw [List.drop_eq_getElem_cons hl]
    simp [Nat.add_assoc]
  · intro x hx
    rw [show p + i - p = i by omega] at hx
    obtain ⟨j, hj, e⟩ := List.getElem_of_mem hx
    simp at hj
    have := hn j (by omega)
    rw [List.getElem_take] at e
    rw [e] at this
    simpa using this

theorem findFirstOf_none {ds s : Str} {p : Nat} (h : findFirstOf ds s p = none) : ∀ x ∈ s.drop p, x ∉ ds := by
  unfold findFirstOf at h
  rw [Option.map_eq_none_iff, List.findIdx?_eq_none_iff] at h
  intro x hx
  simpa using h x hx

theorem tokenizeLoop_eq (ds s : Str) (p : Nat) (v : List Str) (hp : p ≤ s.length) :
    tokenizeLoop ds s p v = some (v ++ split ds (s.drop p)) := by
  induction hn : s.length - p using Nat.strongRecOn generalizing p v with
  | ind n ih =>
    unfold tokenizeLoop
    split
    · rename_i cur hc
      obtain ⟨h1, h2, d, hd, e, hx⟩ := findFirstOf_some hc
      unfold substr
      rw [if_pos hp]
      dsimp only
      have hs := split_append ds _ d (s.drop (cur + 1)) hx hd
      rw [← e] at hs
      rw [ih (s.length - (cur + 1)) (by omega) (cur + 1) _ (by omega) rfl, hs]
      simp
    · rename_i hc
      have := findFirstOf_none hc
      unfold substr
      rw [if_pos hp, split_no_delim ds _ this]
      rfl

/-- C39: the call appends to the vector exactly the pieces of the string: put together again with some delimiters between
them they are the string, and none contains a delimiter; no other list of pieces has these two properties -/
theorem C39_tokenize (s ds : Str) (v : List Str) :
    ∃ ts, tokenize s v ds = some (v ++ ts) ∧ Pieces ds s ts ∧ ∀ us, Pieces ds s us → us = ts := by
  refine ⟨split ds s, ?_, split_pieces ds s, fun us h => pieces_unique h⟩
  unfold tokenize
  rw [tokenizeLoop_eq ds s 0 v (by omega)]
  simp

/-- with one delimiter: joining the pieces with it gives the string -/
theorem C39_single (s : Str) (d : Char) : ∃ ts, tokenize s [] [d] = some ts ∧ List.intercalate [d] ts = s ∧ ∀ t ∈ ts, d ∉ t := by
  obtain ⟨ts, h, ⟨seps, h1, h2, h3, h4⟩, -⟩ := C39_tokenize s [d] []
  refine ⟨ts, by simpa using h, ?_, ?_⟩
  · clear h h4
    induction seps generalizing ts s with
    | nil =>
      match ts, h2 with
      | [t], _ => simpa [join] using h3
    | cons e sp ih =>
      match ts, h2 with
      | t :: u :: ts, h2 =>
        have he : e = d := by simpa using h1 e (List.mem_cons_self ..)
        subst he
        simp only [join] at h3
        rw [← h3, ← ih _ (u :: ts) (fun c hc => h1 c (List.mem_cons_of_mem _ hc)) (by simpa using h2) rfl]
        simp
  · intro t ht hd
    exact h4 t ht d hd (by simp)

example : tokenize " x   y ".toList [] [' '] = some ["".toList, "x".toList, "".toList, "".toList, "y".toList, "".toList] := by
  have := tokenizeLoop_eq [' '] " x   y ".toList 0 [] (by simp)
  unfold tokenize
  rw [this]
  decide

/-- C39, lines: every line is split on its own, in order -/
theorem C39_lines (lines : List Str) (v : List (List Str)) (ds : Str) :
    ∃ tss, splitLines lines v ds = some (v ++ tss) ∧ tss.length = lines.length ∧
      ∀ i (h : i < tss.length) (h' : i < lines.length), Pieces ds lines[i] tss[i] := by
  refine ⟨lines.map (split ds), ?_, by simp, ?_⟩
  · unfold splitLines
    induction lines generalizing v with
    | nil => simp
    | cons l r ih =>
      rw [List.foldl_cons]
      have : (some v).bind (fun v => (tokenize l [] ds).map fun t => v ++ [t]) = some (v ++ [split ds l]) := by
        unfold tokenize
        rw [tokenizeLoop_eq ds l 0 [] (by omega)]
        simp
      rw [this, ih]
      simp
  · intro i h h'
    rw [List.getElem_map]
    exact split_pieces ds _

/-! ### C74: stripping and words -/

/-- `t` is `s` without the blanks at both ends -/
def Stripped (s t : Str) : Prop :=
  ∃ a b : Str, s = a ++ t ++ b ∧ (∀ x ∈ a, x ∈ blanks) ∧ (∀ x ∈ b, x ∈ blanks) ∧
    (∀ c ∈ t.head?, c ∉ blanks) ∧ (∀ c ∈ t.getLast?, c ∉ blanks)

/-- C74, `strip_whitespace`: for a string with something other than blanks in it, the string without the blanks at both
ends.  Missing: strings of blanks only, for which it throws. -/
theorem C74_strip_partial (s : Str) (h : ∃ c ∈ s, c ∉ blanks) : ∃ t, stripWhitespace s = some t ∧ t ≠ [] ∧ Stripped s t := by
  obtain ⟨c, hc, hcb⟩ := h
  obtain ⟨a, ha⟩ : ∃ a, findFirstNotOf blanks s = some a := by
    cases e : findFirstNotOf blanks s with
    | some a => exact ⟨a, rfl⟩
    | none =>
      unfold findFirstNotOf at e
      rw [List.findIdx?_eq_none_iff] at e
      exact absurd (by simpa using e c hc) hcb
  obtain ⟨i, hi⟩ : ∃ i, s.reverse.findIdx? (fun x => !blanks.contains x) = some i := by
    cases e : s.reverse.findIdx? (fun x => !blanks.contains x) with
    | some a => exact ⟨a, rfl⟩
    | none =>
      rw [List.findIdx?_eq_none_iff] at e
      exact absurd (by simpa using e c (by simpa using hc)) hcb
  have hb : findLastNotOf blanks s = some (s.length - 1 - i) := by
    unfold findLastNotOf
    rw [hi]; rfl
  obtain ⟨al, ap, an⟩ := List.findIdx?_eq_some_iff_getElem.mp ha
  obtain ⟨il, ip, inn⟩ := List.findIdx?_eq_some_iff_getElem.mp hi
  have il' : i < s.length := by simpa using il
  have hbl : s.length - 1 - i < s.length := by omega
  have bp : s[s.length - 1 - i] ∉ blanks := by
    rw [List.getElem_reverse] at ip
    simpa using ip
  have bn : ∀ j (h : j < s.length), s.length - 1 - i < j → s[j] ∈ blanks := by
    intro j h hj
    have := inn (s.length - 1 - j) (by omega)
    rw [List.getElem_reverse] at this
    have e : s.length - 1 - (s.length - 1 - j) = j := by omega
    simpa [e] using this
  have hab : a ≤ s.length - 1 - i := by
    rcases Nat.lt_or_ge (s.length - 1 - i) a with h | h
    · exact absurd (by simpa using an _ h) bp
    · exact h
  generalize s.length - 1 - i = b at *
  have e1 : ((s.drop a).take (b - a + 1)).length = b - a + 1 := by simp; omega
  refine ⟨(s.drop a).take (b - a + 1), ?_, ?_, s.take a, s.drop (b + 1), ?_, ?_, ?_, ?_, ?_⟩
  · unfold stripWhitespace
    rw [ha, hb]
    show substr s a (some (b - a + 1)) = _
    unfold substr
    rw [if_pos (by omega)]
  · intro e; rw [e] at e1; simp at e1
  · rw [List.append_assoc]
    conv => lhs; rw [← List.take_append_drop a s, ← List.take_append_drop (b - a + 1) (s.drop a)]
    rw [List.drop_drop, show a + (b - a + 1) = b + 1 by omega]
  · intro x hx
    obtain ⟨j, hj, e⟩ := List.getElem_of_mem hx
    simp at hj
    have := an j (by omega)
    rw [List.getElem_take] at e
    rw [e] at this
    simpa using this
  · intro x hx
    obtain ⟨j, hj, e⟩ := List.getElem_of_mem hx
    rw [List.getElem_drop] at e
    rw [← e]
    exact bn _ _ (by omega)
  · intro x hx
    rw [List.head?_eq_getElem?, List.getElem?_take, if_pos (by omega), List.getElem?_drop] at hx
    rw [Option.mem_def, List.getElem?_eq_some_iff] at hx
    obtain ⟨_, hx⟩ := hx
    rw [← hx]
    simpa using ap
  · intro x hx
    rw [List.getLast?_eq_getElem?, e1, List.getElem?_take, if_pos (by omega), List.getElem?_drop] at hx
    rw [Option.mem_def, List.getElem?_eq_some_iff] at hx
    obtain ⟨_, hx⟩ := hx
    rw [← hx]
    simpa [show a + (b - a) = b by omega] using bp

/-- the empty string and a string of blanks throw instead of giving the empty string -/
theorem C74_strip_violated : stripWhitespace [] = none ∧ stripWhitespace [' ', ' '] = none := by decide

theorem tokenizeStripLoop_eq (ds s : Str) (p : Nat) (v : List Str) (hp : p ≤ s.length) :
    tokenizeStripLoop ds s p v = ((split ds (s.drop p)).mapM stripWhitespace).map (v ++ ·) := by
  induction hn : s.length - p using Nat.strongRecOn generalizing p v with
  | ind n ih =>
    unfold tokenizeStripLoop
    split
    · rename_i cur hc
      obtain ⟨h1, h2, d, hd, e, hx⟩ := findFirstOf_some hc
      have hs := split_append ds _ d (s.drop (cur + 1)) hx hd
      rw [← e] at hs
      rw [hs, List.mapM_cons]
      have e1 : substr s p (some (cur - p)) = some ((s.drop p).take (cur - p)) := by
        unfold substr; rw [if_pos hp]
      rw [e1, Option.bind_some]
      split
      · rename_i t ht
        rw [ht, ih (s.length - (cur + 1)) (by omega) (cur + 1) _ (by omega) rfl]
        cases (split ds (s.drop (cur + 1))).mapM stripWhitespace <;> simp
      · rename_i ht
        rw [ht]; rfl
    · rename_i hc
      have := findFirstOf_none hc
      have e1 : substr s p none = some (s.drop p) := by
        unfold substr; rw [if_pos hp]
      rw [e1, Option.bind_some, split_no_delim ds _ this, List.mapM_cons]
      cases stripWhitespace (s.drop p) <;> rfl

/-- so does splitting "a,,b" with stripping -/
theorem C74_tokenize_strip_violated : tokenizeStrip ['a', ',', ',', 'b'] [] [','] = none := by
  unfold tokenizeStrip
  rw [tokenizeStripLoop_eq _ _ _ _ (by simp)]
  decide

/-- C74, `tokenize_strip_whitespace`: the pieces, each stripped, if each piece has something other than blanks.  Missing:
pieces of blanks only. -/
theorem C74_tokenize_strip_partial (s ds : Str) (v : List Str) (ts : List Str) (hp : Pieces ds s ts)
    (h : ∀ t ∈ ts, ∃ c ∈ t, c ∉ blanks) :
    ∃ us, tokenizeStrip s v ds = some (v ++ us) ∧ us.length = ts.length ∧
      ∀ i (h : i < us.length) (h' : i < ts.length), Stripped ts[i] us[i] := by
  have key : ∀ ts : List Str, (∀ t ∈ ts, ∃ c ∈ t, c ∉ blanks) → ∃ us, ts.mapM stripWhitespace = some us ∧ us.length = ts.length ∧
      ∀ i (h : i < us.length) (h' : i < ts.length), Stripped ts[i] us[i] := by
    intro ts
    induction ts with
    | nil => intro _; exact ⟨[], rfl, rfl, by simp⟩
    | cons t ts ih =>
      intro h
      obtain ⟨us, e1, e2, e3⟩ := ih (fun u hu => h u (List.mem_cons_of_mem _ hu))
      obtain ⟨u, f1, _, f3⟩ := C74_strip_partial t (h t (List.mem_cons_self ..))
      refine ⟨u :: us, by rw [List.mapM_cons, f1, e1]; rfl, by simp [e2], ?_⟩
      intro i hi hi'
      cases i with
      | zero => exact f3
      | succ i => exact e3 i (by simpa using hi) (by simpa using hi')
  obtain ⟨us, e1, e2, e3⟩ := key ts h
  refine ⟨us, ?_, e2, e3⟩
  unfold tokenizeStrip
  rw [tokenizeStripLoop_eq _ _ _ _ (by omega), List.drop_zero, ← pieces_unique hp, e1]
  rfl

theorem wordsLoop_eq (s : Str) (p : Nat) (v : List Str) (hp : p ≤ s.length) :
    wordsLoop s p v = some (v ++ (split blanks (s.drop p)).filter (· ≠ [])) := by
  induction hn : s.length - p using Nat.strongRecOn generalizing p v with
  | ind n ih =>
    unfold wordsLoop
    split
    · rename_i cur hc
      obtain ⟨h1, h2, d, hd, e, hx⟩ := findFirstOf_some hc
      have hs := split_append blanks _ d (s.drop (cur + 1)) hx hd
      rw [← e] at hs
      rw [hs]
      by_cases hcp : cur = p
      · rw [if_neg (by simpa using hcp), ih (s.length - (cur + 1)) (by omega) (cur + 1) _ (by omega) rfl]
        simp [hcp]
      · rw [if_pos hcp]
        have e1 : substr s p (some (cur - p)) = some ((s.drop p).take (cur - p)) := by
          unfold substr; rw [if_pos hp]
        rw [e1]
        dsimp only
        rw [ih (s.length - (cur + 1)) (by omega) (cur + 1) _ (by omega) rfl]
        have hne : (s.drop p).take (cur - p) ≠ [] := by
          intro h
          have := congrArg List.length h
          simp at this; omega
        rw [List.filter_cons_of_pos (by simpa using hne)]
        simp
    · rename_i hc
      have := findFirstOf_none hc
      have e1 : substr s p none = some (s.drop p) := by
        unfold substr; rw [if_pos hp]
      rw [e1, split_no_delim blanks _ this]
      by_cases hpl : p = s.length
      · rw [if_neg (by simpa using hpl)]
        subst hpl; simp
      · rw [if_pos hpl, List.filter_cons_of_pos (by simp; omega)]
        rfl

/-- C74, `tokenize_on_whitespace`: the non-empty pieces between blanks -/
theorem C74_words (s : Str) (v : List Str) (ts : List Str) (hp : Pieces blanks s ts) :
    tokenizeOnWhitespace s v = some (v ++ ts.filter (· ≠ [])) := by
  unfold tokenizeOnWhitespace
  rw [wordsLoop_eq _ _ _ (by omega), List.drop_zero, ← pieces_unique hp]

example : tokenizeOnWhitespace " x   y ".toList [] = some ["x".toList, "y".toList] ∧
    Pieces blanks " x   y ".toList ["".toList, "x".toList, "".toList, "".toList, "y".toList, "".toList] := by
  constructor
  · unfold tokenizeOnWhitespace
    rw [wordsLoop_eq _ _ _ (by simp)]
    decide
  · have : split blanks " x   y ".toList = ["".toList, "x".toList, "".toList, "".toList, "y".toList, "".toList] := by decide
    rw [← this]
    exact split_pieces _ _

example : stripWhitespace " a b\n ".toList = some "a b".toList := by decide

/-- C74, `eliminate_whitespace`: the other characters, in order: the longest subsequence without white space -/
theorem C74_eliminate (s : Str) :
    (∀ c ∈ eliminateWhitespace s, isSpace c = false) ∧ (eliminateWhitespace s).Sublist s ∧
    (∀ t : Str, t.Sublist s → (∀ c ∈ t, isSpace c = false) → t.Sublist (eliminateWhitespace s)) := by
  refine ⟨fun c hc => by simpa using (List.mem_filter.mp hc).2, List.filter_sublist, ?_⟩
  intro t ht h
  have := ht.filter (fun c => !isSpace c)
  rwa [List.filter_eq_self.mpr (fun c hc => by simpa using h c hc)] at this

/-! `strip_string_pattern` -/

theorem find_zero (pat s : Str) : find pat s = some 0 ↔ pat <+: s := by
  cases s with
  | nil => simp [find]
  | cons c r =>
    unfold find
    by_cases h : pat <+: c :: r
    · rw [if_pos (by simpa using h)]; simpa using h
    · rw [if_neg (by simpa using h)]
      simp [h]

theorem find_some {pat s : Str} {i : Nat} (h : find pat s = some i) :
    s = s.take i ++ pat ++ s.drop (i + pat.length) ∧ i + pat.length ≤ s.length ∧ ∀ j < i, ¬ pat <+: s.drop j := by
  induction s generalizing i with
  | nil =>
    unfold find at h
    split at h
    · rename_i hp; cases h; simp [hp]
    · cases h
  | cons c r ih =>
    unfold find at h
    split at h
    · rename_i hp
      cases h
      have hp : pat <+: c :: r := by simpa using hp
      obtain ⟨t, ht⟩ := hp
      refine ⟨?_, ?_, by simp⟩
      · rw [← ht]; simp
      · rw [← ht]; simp
    · rename_i hp
      rw [Option.map_eq_some_iff] at h
      obtain ⟨j, hj, rfl⟩ := h
      obtain ⟨h1, h2, h3⟩ := ih hj
      refine ⟨?_, by simp; omega, ?_⟩
      · conv => lhs; rw [h1]
        simp [Nat.add_right_comm]
      · intro k hk
        cases k with
        | zero => simpa using hp
        | succ k => simpa using h3 k (by omega)

theorem find_none {pat s : Str} (h : find pat s = none) : ∀ j ≤ s.length, ¬ pat <+: s.drop j := by
  induction s with
  | nil =>
    unfold find at h
    intro j _
    simpa using h
  | cons c r ih =>
    unfold find at h
    split at h
    · cases h
    · rename_i hp
      rw [Option.map_eq_none_iff] at h
      intro j hj
      cases j with
      | zero => simpa using hp
      | succ j => simpa using ih h j (by simpa using hj)

/-- C74, `strip_string_pattern`: a leading pattern is removed, and a trailing one if it does not overlap the leading one -/
theorem C74_pattern (pat s : Str) :
    (¬ pat <+: s → ¬ pat <:+ s → stripPattern pat s = some s) ∧
    (∀ t, s = pat ++ t → ¬ pat <:+ t → stripPattern pat s = some t) ∧
    (∀ t, s = t ++ pat → ¬ pat <+: s → stripPattern pat s = some t) ∧
    (∀ t, s = pat ++ t ++ pat → stripPattern pat s = some t) := by
  have suf : ∀ e, rfind pat s = some e → (e + pat.length = s.length ↔ pat <:+ s) ∧ e + pat.length ≤ s.length := by
    intro e he
    unfold rfind at he
    rw [Option.map_eq_some_iff] at he
    obtain ⟨i, hi, rfl⟩ := he
    obtain ⟨-, h2, -⟩ := find_some hi
    simp at h2
    constructor
    · have : pat <:+ s ↔ i = 0 := by
        rw [← List.reverse_prefix, ← find_zero, hi]; simp
      rw [this]; omega
    · omega
  have suf0 : rfind pat s = none → ¬ pat <:+ s := by
    intro h hs
    unfold rfind at h
    rw [← List.reverse_prefix, ← find_zero] at hs
    rw [hs] at h; simp at h
  have main : ∀ start, start = (if find pat s = some 0 then pat.length else 0) → start ≤ s.length →
      stripPattern pat s = some (if pat <:+ s ∧ s ≠ pat ∧ start + pat.length ≤ s.length then (s.drop start).take (s.length - pat.length - start) else s.drop start) := by
    intro start hst hl
    unfold stripPattern
    rw [← hst]
    dsimp only
    cases he : rfind pat s with
    | none =>
      have := suf0 he
      simp [this, substr, hl]
    | some e =>
      obtain ⟨h1, h2⟩ := suf e he
      dsimp only
      by_cases hs : pat <:+ s
      · have h3 := h1.mpr hs
        by_cases hsp : s = pat
        · have : e = 0 := by rw [hsp] at h3; omega
          rw [if_pos (Or.inl this), if_neg (by simp [hsp])]
          simp [substr, hl]
        · have : e ≠ 0 := by
            intro h0
            apply hsp
            obtain ⟨x, hx⟩ := hs
            have : x.length = 0 := by have := congrArg List.length hx; simp at this; omega
            rw [List.eq_nil_of_length_eq_zero this] at hx
            simpa using hx.symm
          rw [if_neg (by omega)]
          by_cases hse : start ≤ e
          · rw [if_pos hse, if_pos ⟨hs, hsp, by omega⟩]
            unfold substr
            rw [if_pos hl, show e - start = s.length - pat.length - start by omega]
          · rw [if_neg hse, if_neg (by omega)]
            unfold substr
            rw [if_pos hl]
      · rw [if_pos (Or.inr (fun h => hs (h1.mp h))), if_neg (by simp [hs])]
        unfold substr
        rw [if_pos hl]
  refine ⟨?_, ?_, ?_, ?_⟩
  · intro h1 h2
    rw [main 0 (by rw [if_neg (by rw [find_zero]; exact h1)]) (by omega), if_neg (by simp [h2])]
    simp
  · intro t ht hn
    have hp : pat <+: s := ⟨t, ht.symm⟩
    rw [main pat.length (by rw [if_pos ((find_zero _ _).mpr hp)]) hp.length_le]
    rw [if_neg]
    · simp [ht]
    · rintro ⟨h1, _, h3⟩
      apply hn
      rw [ht] at h1 h3
      simp at h3
      exact List.suffix_of_suffix_length_le h1 (List.suffix_append pat t) h3
  · intro t ht hn
    rw [main 0 (by rw [if_neg (by rw [find_zero]; exact hn)]) (by omega)]
    have : s ≠ pat := by
      intro h; apply hn; rw [h]; exact List.prefix_refl _
    rw [if_pos ⟨⟨t, ht.symm⟩, this, by simp [ht]⟩]
    simp [ht]
  · intro t ht
    have hp : pat <+: s := ⟨t ++ pat, by rw [ht]; simp⟩
    rw [main pat.length (by rw [if_pos ((find_zero _ _).mpr hp)]) hp.length_le]
    by_cases hpe : pat = []
    · subst hpe
      have : s = t := by simpa using ht
      subst this
      split <;> simp
    · have : s ≠ pat := by
        intro h
        have h1 := congrArg List.length (ht.symm.trans h)
        have h2 := List.length_pos_iff.mpr hpe
        rw [List.length_append, List.length_append] at h1; omega
      rw [if_pos ⟨⟨pat ++ t, by rw [ht]⟩, this, by simp [ht]⟩]
      simp [ht]

example : stripPattern "out".toList "out_remove_out".toList = some "_remove_".toList ∧ stripPattern "aa".toList "aaa".toList = some ['a'] := by decide

/-! ### C75: replaceSubstring -/

/-- `t` is `s` with the leftmost disjoint occurrences of `pat`, `n` of them, replaced by `to` -/
inductive Replaced (pat to : Str) : Str → Str → Nat → Prop
  | done {s : Str} : (∀ j ≤ s.length, ¬ pat <+: s.drop j) → Replaced pat to s s 0
  | one {a r r' : Str} {n : Nat} : (∀ j < a.length, ¬ pat <+: (a ++ pat ++ r).drop j) → Replaced pat to r r' n →
      Replaced pat to (a ++ pat ++ r) (a ++ to ++ r') (n + 1)

/-- C75: for a non-empty pattern; text put in is never searched again -/
theorem C75_replace_partial (s pat to : Str) (hp : pat ≠ []) :
    ∃ t n, replaceSubstring s pat to = some (t, n) ∧ Replaced pat to s t n := by
  have key : ∀ (m : Nat) (s done : Str) (k : Nat), s.length = m →
      ∃ t n, replaceLoop pat to done s k = some (done ++ t, k + n) ∧ Replaced pat to s t n := by
    intro m
    induction m using Nat.strongRecOn with
    | ind m ih =>
      intro s done k hm
      unfold replaceLoop
      rw [dif_neg hp]
      split
      · rename_i i hi
        obtain ⟨h1, h2, h3⟩ := find_some hi
        have hpl := List.length_pos_iff.mpr hp
        obtain ⟨t, n, e, hr⟩ := ih (s.drop (i + pat.length)).length (by simp; omega) (s.drop (i + pat.length)) (done ++ s.take i ++ to) (k + 1) rfl
        refine ⟨s.take i ++ to ++ t, n + 1, ?_, ?_⟩
        · rw [e]; simp; omega
        · have hone : Replaced pat to (s.take i ++ pat ++ s.drop (i + pat.length)) (s.take i ++ to ++ t) (n + 1) := by
            refine Replaced.one ?_ hr
            rw [← h1]
            intro j hj
            exact h3 j (by simp at hj; omega)
          rwa [← h1] at hone
      · rename_i hn
        exact ⟨s, 0, rfl, Replaced.done (find_none hn)⟩
  obtain ⟨t, n, e, hr⟩ := key s.length s [] 0 rfl
  exact ⟨t, n, by unfold replaceSubstring; simpa using e, hr⟩

/-- the result is determined by `Replaced` -/
theorem C75_replaced_unique {pat to s t t' : Str} {n n' : Nat} (hp : pat ≠ []) (h : Replaced pat to s t n) (h' : Replaced pat to s t' n') :
    t = t' ∧ n = n' := by
  induction h generalizing t' n' with
  | done hd =>
    cases h' with
    | done => exact ⟨rfl, rfl⟩
    | @one a r r' m hm hr =>
      exact absurd (show pat <+: (a ++ pat ++ r).drop a.length by simp) (hd a.length (by simp))
  | @one a r r' m hm hr ih =>
    generalize hs : a ++ pat ++ r = s at h'
    cases h' with
    | done hd =>
      subst hs
      exact absurd (show pat <+: (a ++ pat ++ r).drop a.length by simp) (hd a.length (by simp))
    | @one b q q' k hk hq =>
      have hl : a.length = b.length := by
        rcases Nat.lt_trichotomy a.length b.length with h | h | h
        · refine absurd ?_ (hk a.length h)
          rw [← hs]; simp
        · exact h
        · refine absurd ?_ (hm b.length h)
          rw [hs]; simp
      have hab : a = b := by
        have := congrArg (List.take a.length) hs
        simpa [hl] using this
      subst hab
      have hrq : r = q := by simpa using hs
      subst hrq
      obtain ⟨rfl, rfl⟩ := ih hq
      exact ⟨rfl, rfl⟩

/-- with an empty pattern the loop never ends -/
theorem C75_empty_violated (s to : Str) : replaceSubstring s [] to = none := by
  unfold replaceSubstring replaceLoop; simp

example : ∃ t n, replaceSubstring "aXbX".toList ['X'] "XX".toList = some (t, n) ∧ Replaced ['X'] "XX".toList "aXbX".toList t n :=
  C75_replace_partial _ _ _ (by simp)

/-! ### C76: LevenshteinDistance -/

/-- the edit distance -/
def editDistance : Str → Str → Nat
  | [], t => t.length
  | s, [] => s.length
  | a :: s, b :: t => if a = b then editDistance s t
    else 1 + min (editDistance s t) (min (editDistance (a :: s) t) (editDistance s (b :: t)))
termination_by s t => s.length + t.length

/-- C76: equal strings have distance 0.  Missing: everything else, see below. -/
theorem C76_equal_partial (s : Str) : levenshtein s s = 0 := by
  unfold levenshtein
  induction s.reverse with
  | nil => simp [lev]
  | cons a r ih => rw [lev, if_pos rfl]; exact ih

/-- C76: never more than the number of characters of either string -/
theorem C76_bound_partial (s t : Str) : levenshtein s t ≤ min s.length t.length := by
  have : ∀ s t : Str, lev s t ≤ min s.length t.length := by
    intro s t
    fun_induction lev s t with
    | case1 => simp
    | case2 => simp
    | case3 s b t ih => simp; omega
    | case4 a s b t h ih1 ih2 => simp at *; omega
  unfold levenshtein
  simpa using this s.reverse t.reverse

/-- the distance between "abc" and the empty string, and between "a" and "bbba", is given as 0 -/
theorem C76_distance_violated : levenshtein ['a', 'b', 'c'] [] = 0 ∧ editDistance ['a', 'b', 'c'] [] = 3 ∧
    levenshtein ['a'] ['b', 'b', 'b', 'a'] = 0 ∧ levenshtein ['a', 'b'] ['b'] = 0 := by
  simp [levenshtein, lev, editDistance]

end Sparta.Strings
