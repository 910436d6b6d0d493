import Verif.TFilter.Complete
/-! # Every text of the language is accepted: values, conditions, levels -/
namespace Sparta.TFilter
open Lexical (Str)

/-- What may follow a condition. -/
def Stop (rest : Str) : Prop := ∀ c r, rest = c :: r → isSpace c = true ∨ c ∈ ['&', '|', '^', ')']

theorem stop_lower {rest : Str} (h : Stop rest) : rest = [] ∨ ∃ c r, rest = c :: r ∧ c.toLower ∉ ['o', 'e', 'i'] := by
  cases rest with
  | nil => exact Or.inl rfl
  | cons c r =>
    refine Or.inr ⟨c, r, rfl, ?_⟩
    rcases h c r rfl with k | k
    · exact fun hm => lower_of_space k (List.mem_append_right ['=', '<', '>', '!', 'r'] hm)
    · simp only [List.mem_cons, List.not_mem_nil, or_false] at k
      rcases k with e | e | e | e <;> subst e <;> decide

/-! ## Values -/

theorem oneOf_of_skip {α : Type} {s s' : Str} (h : skip s = s') (hs : skip s' = s') : ∀ (ws : List (Str × α)), oneOf s ws = oneOf s' ws := by
  intro ws
  induction ws with
  | nil => rfl
  | cons p ws ih =>
    obtain ⟨k, x⟩ := p
    unfold oneOf
    rw [litNC_of_skip h, litNC_of_skip hs, ih]

theorem after_pp {c c2 c3 : Char} {s : Str} (h1 : c.toLower = 's') (h2 : c2.toLower = 'u') (h3 : c3.toLower = 'p') :
    after Char.toLower "summary".toList (c :: c2 :: c3 :: s) = none := by
  show after Char.toLower ('s' :: 'u' :: 'm' :: "mary".toList) _ = none
  unfold after; rw [if_pos h1]
  unfold after; rw [if_pos h2]
  exact after_head (by rw [h3]; decide)

theorem visWord_ok {t rest : Str} {v : Nat} (h : Word visWordsDoc t v) : oneOf (t ++ rest) visWords = some (v, rest) := by
  cases h with
  | mk hw hn hm =>
    rename_i w k t
    rw [List.append_assoc]
    simp only [visWordsDoc, List.mem_cons, List.not_mem_nil, or_false, Prod.mk.injEq] at hm
    rcases hm with ⟨e, e'⟩ | ⟨e, e'⟩ | ⟨e, e'⟩ | ⟨e, e'⟩ | ⟨e, e'⟩ <;> subst e <;> subst e' <;>
      rw [oneOf_of_skip (nc_skip hw hn (by decide)) (nc_skip (w := []) (fun _ h => (by cases h)) hn (by decide))]
    · exact oneOf_cons_some (litNC_complete (w := []) (fun _ h => (by cases h)) hn (by decide))
    · have hs : skip (t ++ rest) = t ++ rest := nc_skip (w := []) (r := rest) (fun _ h => (by cases h)) hn (by decide)
      obtain ⟨c, t', rfl, hc, _⟩ := nc_cons.mp hn
      unfold visWords
      rw [oneOf_cons_none (by rw [litNC_of_skip hs]; exact after_head (by rw [hc]; decide))]
      exact oneOf_cons_some (litNC_complete (w := []) (fun _ h => (by cases h)) hn (by decide))
    · have hs : skip (t ++ rest) = t ++ rest := nc_skip (w := []) (r := rest) (fun _ h => (by cases h)) hn (by decide)
      obtain ⟨c, t', rfl, hc, _⟩ := nc_cons.mp hn
      unfold visWords
      rw [oneOf_cons_none (by rw [litNC_of_skip hs]; exact after_head (by rw [hc]; decide)),
        oneOf_cons_none (by rw [litNC_of_skip hs]; exact after_head (by rw [hc]; decide))]
      exact oneOf_cons_some (litNC_complete (w := []) (fun _ h => (by cases h)) hn (by decide))
    · have hs : skip (t ++ rest) = t ++ rest := nc_skip (w := []) (r := rest) (fun _ h => (by cases h)) hn (by decide)
      unfold visWords
      have hn' := hn
      obtain ⟨c, t', rfl, hc, hn2⟩ := nc_cons.mp hn
      obtain ⟨c2, t', rfl, hc2, hn3⟩ := nc_cons.mp hn2
      obtain ⟨c3, t', rfl, hc3, hn4⟩ := nc_cons.mp hn3
      rw [oneOf_cons_none (by rw [litNC_of_skip hs]; exact after_pp hc hc2 hc3),
        oneOf_cons_none (by rw [litNC_of_skip hs]; exact after_head (by rw [hc]; decide)),
        oneOf_cons_none (by rw [litNC_of_skip hs]; exact after_head (by rw [hc]; decide))]
      exact oneOf_cons_some (litNC_complete (w := []) (fun _ h => (by cases h)) hn' (by decide))
    · have hs : skip (t ++ rest) = t ++ rest := nc_skip (w := []) (r := rest) (fun _ h => (by cases h)) hn (by decide)
      obtain ⟨c, t', rfl, hc, _⟩ := nc_cons.mp hn
      unfold visWords
      rw [oneOf_cons_none (by rw [litNC_of_skip hs]; exact after_head (by rw [hc]; decide)),
        oneOf_cons_none (by rw [litNC_of_skip hs]; exact after_head (by rw [hc]; decide)),
        oneOf_cons_none (by rw [litNC_of_skip hs]; exact after_head (by rw [hc]; decide)),
        oneOf_cons_none (by rw [litNC_of_skip hs]; exact after_head (by rw [hc]; decide))]
      exact oneOf_cons_some (litNC_complete (w := []) (fun _ h => (by cases h)) hn (by decide))

theorem constWord_ok {t rest : Str} {b : Bool} (h : Word constWordsDoc t b) : oneOf (t ++ rest) constWords = some (b, rest) := by
  cases h with
  | mk hw hn hm =>
    rename_i w k t
    rw [List.append_assoc]
    simp only [constWordsDoc, List.mem_cons, List.not_mem_nil, or_false, Prod.mk.injEq] at hm
    rcases hm with ⟨e, e'⟩ | ⟨e, e'⟩ <;> subst e <;> subst e' <;>
      rw [oneOf_of_skip (nc_skip hw hn (by decide)) (nc_skip (w := []) (fun _ h => (by cases h)) hn (by decide))]
    · exact oneOf_cons_some (litNC_complete (w := []) (fun _ h => (by cases h)) hn (by decide))
    · have hs : skip (t ++ rest) = t ++ rest := nc_skip (w := []) (r := rest) (fun _ h => (by cases h)) hn (by decide)
      obtain ⟨c, t', rfl, hc, _⟩ := nc_cons.mp hn
      unfold constWords
      rw [oneOf_cons_none (by rw [litNC_of_skip hs]; exact after_head (by rw [hc]; decide))]
      exact oneOf_cons_some (litNC_complete (w := []) (fun _ h => (by cases h)) hn (by decide))

/-- A longer word does not match a shorter one followed by something that does not continue it. -/
theorem after_longer {a : Char} {k d t rest : Str} (h : NC k t) (hr : rest = [] ∨ ∃ c r, rest = c :: r ∧ c.toLower ≠ a) :
    after Char.toLower (k ++ a :: d) (t ++ rest) = none := by
  induction k generalizing t with
  | nil =>
    rw [nc_nil.mp h]
    rcases hr with e | ⟨c, r, e, hc⟩
    · rw [e]; rfl
    · rw [e]; exact after_head hc
  | cons x k ih =>
    obtain ⟨y, t', rfl, hy, hn⟩ := nc_cons.mp h
    show after Char.toLower (x :: (k ++ a :: d)) (y :: (t' ++ rest)) = none
    unfold after
    rw [if_pos hy]
    exact ih hn

theorem typeWord_ok {t rest : Str} {k : Kind} (h : Word typeWordsOk t k) (hr : Stop rest) :
    oneOf (t ++ rest) typeWords = some (k, rest) := by
  rw [typeWords_eq]
  have hst := stop_lower hr
  have h1 : rest = [] ∨ ∃ c r, rest = c :: r ∧ c.toLower ≠ 'i' := by
    rcases hst with e | ⟨c, r, e, hc⟩
    · exact Or.inl e
    · exact Or.inr ⟨c, r, e, fun k => hc (by rw [k]; decide)⟩
  have h2 : rest = [] ∨ ∃ c r, rest = c :: r ∧ c.toLower ≠ 'e' := by
    rcases hst with e | ⟨c, r, e, hc⟩
    · exact Or.inl e
    · exact Or.inr ⟨c, r, e, fun k => hc (by rw [k]; decide)⟩
  cases h with
  | mk hw hn hm =>
    rename_i w key t
    rw [List.append_assoc]
    simp only [typeWordsOk, List.mem_cons, List.not_mem_nil, or_false, Prod.mk.injEq] at hm
    have nil : Sp [] := fun _ h => (by cases h)
    rcases hm with ⟨e, e'⟩ | ⟨e, e'⟩ | ⟨e, e'⟩ | ⟨e, e'⟩ | ⟨e, e'⟩ | ⟨e, e'⟩ <;> subst e <;> subst e' <;>
      rw [oneOf_of_skip (nc_skip hw hn (by decide)) (nc_skip (w := []) nil hn (by decide))] <;>
      have hs : skip (t ++ rest) = t ++ rest := nc_skip (w := []) (r := rest) nil hn (by decide) <;>
      have hit := litNC_complete (w := []) (r := rest) nil hn (by decide) <;>
      unfold typeWordsOk
    · exact oneOf_cons_some hit
    · rw [oneOf_cons_none (by rw [litNC_of_skip hs]; exact after_longer (d := "stic".toList) hn h1)]
      exact oneOf_cons_some hit
    · obtain ⟨c, t', rfl, hc, _⟩ := nc_cons.mp hn
      rw [oneOf_cons_none (by rw [litNC_of_skip hs]; exact after_head (by rw [hc]; decide)),
        oneOf_cons_none (by rw [litNC_of_skip hs]; exact after_head (by rw [hc]; decide))]
      exact oneOf_cons_some hit
    · obtain ⟨c, t', rfl, hc, _⟩ := nc_cons.mp hn
      rw [oneOf_cons_none (by rw [litNC_of_skip hs]; exact after_head (by rw [hc]; decide)),
        oneOf_cons_none (by rw [litNC_of_skip hs]; exact after_head (by rw [hc]; decide)),
        oneOf_cons_none (by rw [litNC_of_skip hs]; exact after_head (by rw [hc]; decide))]
      exact oneOf_cons_some hit
    · have hl : litNC "parameter".toList (t ++ rest) = none := by
        rw [litNC_of_skip hs]; exact after_longer (d := "ter".toList) hn h2
      obtain ⟨c, t', rfl, hc, _⟩ := nc_cons.mp hn
      rw [oneOf_cons_none (by rw [litNC_of_skip hs]; exact after_head (by rw [hc]; decide)),
        oneOf_cons_none (by rw [litNC_of_skip hs]; exact after_head (by rw [hc]; decide)),
        oneOf_cons_none (by rw [litNC_of_skip hs]; exact after_head (by rw [hc]; decide)), oneOf_cons_none hl]
      exact oneOf_cons_some hit
    · obtain ⟨c, t', rfl, hc, _⟩ := nc_cons.mp hn
      rw [oneOf_cons_none (by rw [litNC_of_skip hs]; exact after_head (by rw [hc]; decide)),
        oneOf_cons_none (by rw [litNC_of_skip hs]; exact after_head (by rw [hc]; decide)),
        oneOf_cons_none (by rw [litNC_of_skip hs]; exact after_head (by rw [hc]; decide)),
        oneOf_cons_none (by rw [litNC_of_skip hs]; exact after_head (by rw [hc]; decide)),
        oneOf_cons_none (by rw [litNC_of_skip hs]; exact after_head (by rw [hc]; decide))]
      exact oneOf_cons_some hit

theorem takeWhile_exact {f : Char → Bool} {p rest : Str} (hp : ∀ c ∈ p, f c = true)
    (hr : ∀ c r, rest = c :: r → f c = false) : (p ++ rest).takeWhile f = p ∧ (p ++ rest).dropWhile f = rest := by
  induction p with
  | nil =>
    cases rest with
    | nil => exact ⟨rfl, rfl⟩
    | cons c r =>
      have := hr c r rfl
      exact ⟨by show List.takeWhile f (c :: r) = []; rw [List.takeWhile_cons, this]; rfl,
        by show List.dropWhile f (c :: r) = _; rw [List.dropWhile_cons, this]; rfl⟩
  | cons c p ih =>
    obtain ⟨a, b⟩ := ih (fun x hx => hp x (List.mem_cons_of_mem _ hx))
    have hc := hp c List.mem_cons_self
    exact ⟨by show List.takeWhile f (c :: (p ++ rest)) = _; rw [List.takeWhile_cons, hc, if_pos rfl, a],
      by show List.dropWhile f (c :: (p ++ rest)) = _; rw [List.dropWhile_cons, hc, if_pos rfl, b]⟩

theorem numChar_lower {c : Char} (h : numChar c = true) : c.toLower ∉ ['s', 'd', 'h', 'o'] ∧ isSpace c = false := by
  have : ∀ x ∈ "0123456789.xXbBkKmMgGtTpPiInN".toList, x.toLower ∉ ['s', 'd', 'h', 'o'] ∧ isSpace x = false := by decide
  exact this c (List.contains_iff_mem.mp h)

theorem space_numChar {c : Char} (h : isSpace c = true) : numChar c = false := by
  rcases space_cases h with k | k | k | k | k | k <;> subst k <;> decide

/-- The words for visibilities do not match a number. -/
theorem num_noWord {t rest : Str} (h : ∀ c ∈ t, numChar c = true ∨ isSpace c = true) (hne : t.filter numChar ≠ [])
    (hr : Stop rest) : oneOf (t ++ rest) visWords = none := by
  obtain ⟨w, w1, w2⟩ := skip_split t
  cases hsk : skip t with
  | nil =>
    rw [hsk, List.append_nil] at w2
    refine absurd ?_ hne
    rw [List.filter_eq_nil_iff]
    intro c hc
    rw [w2] at hc
    rw [space_numChar (w1 c hc)]
    decide
  | cons c t' =>
    have hcs := dropWhile_head isSpace t c t' hsk
    have hmem : ∀ x ∈ c :: t', x ∈ t := fun x hx => by rw [w2, hsk]; exact List.mem_append_right _ hx
    have hcn : numChar c = true := by
      rcases h c (hmem c List.mem_cons_self) with k | k
      · exact k
      · rw [hcs] at k; cases k
    obtain ⟨hl, _⟩ := numChar_lower hcn
    simp only [List.mem_cons, List.not_mem_nil, or_false, not_or] at hl
    obtain ⟨l1, l2, l3, l4⟩ := hl
    have hskip : skip (t ++ rest) = c :: (t' ++ rest) := by
      rw [w2, hsk, List.append_assoc, skip_sp w1]
      exact skip_cons hcs
    have h2 : t' ++ rest = [] ∨ ∃ x r, t' ++ rest = x :: r ∧ x.toLower ≠ 'o' := by
      cases t' with
      | nil =>
        rcases stop_lower hr with e | ⟨x, r, e, hx⟩
        · exact Or.inl e
        · exact Or.inr ⟨x, r, e, fun k => hx (by rw [k]; decide)⟩
      | cons x t' =>
        refine Or.inr ⟨x, t' ++ rest, rfl, ?_⟩
        rcases h x (hmem x (List.mem_cons_of_mem _ List.mem_cons_self)) with k | k
        · exact fun e => (numChar_lower k).1 (by rw [e]; decide)
        · exact fun e => lower_of_space k (by rw [e]; decide)
    unfold visWords
    rw [oneOf_cons_none (by rw [litNC_of_skip hskip]; exact after_head l1), oneOf_cons_none ?_,
      oneOf_cons_none (by rw [litNC_of_skip hskip]; exact after_head l2),
      oneOf_cons_none (by rw [litNC_of_skip hskip]; exact after_head l1),
      oneOf_cons_none (by rw [litNC_of_skip hskip]; exact after_head l3)]
    · rfl
    · rw [litNC_of_skip hskip]
      show after Char.toLower ('n' :: ['o', 'r', 'm', 'a', 'l']) (c :: (t' ++ rest)) = none
      unfold after
      split
      · rcases h2 with e | ⟨x, r, e, hx⟩
        · rw [e]; rfl
        · rw [e]; exact after_head hx
      · rfl

theorem num_ok {t rest : Str} {v : Nat} (h : NumText t v) (hr : Stop (skip rest)) : num (t ++ rest) = .ok v (skip rest) := by
  obtain ⟨h1, h2, e, h3⟩ := h
  obtain ⟨w, w1, w2⟩ := skip_split rest
  have hp : ∀ c ∈ t ++ w, (fun c => numChar c || isSpace c) c = true := by
    intro c hc
    rcases List.mem_append.mp hc with k | k
    · rcases h1 c k with j | j <;> simp [j]
    · simp [w1 c k]
  have hq : ∀ c r, skip rest = c :: r → (fun c => numChar c || isSpace c) c = false := by
    intro c r hc
    have hns := dropWhile_head isSpace rest c r hc
    rcases hr c r hc with k | k
    · rw [hns] at k; cases k
    · simp only [List.mem_cons, List.not_mem_nil, or_false] at k
      rcases k with k | k | k | k <;> subst k <;> decide
  obtain ⟨a, b⟩ := takeWhile_exact hp hq
  have hcat : t ++ rest = t ++ w ++ skip rest := by rw [List.append_assoc, ← w2]
  have hf : (t ++ w).filter numChar = t.filter numChar := by
    rw [List.filter_append]
    have : w.filter numChar = [] := by
      rw [List.filter_eq_nil_iff]
      intro c hc
      rw [space_numChar (w1 c hc)]
      decide
    rw [this, List.append_nil]
  unfold num
  rw [hcat]
  simp only [a, b, hf, h2, h3, if_false]

theorem visVal_ok {t rest : Str} {v : Nat} (h : Word visWordsDoc t v ∨ NumText t v) (hr : Stop rest) (hr' : Stop (skip rest)) :
    ∃ r', visVal (t ++ rest) = .ok v r' ∧ skip r' = skip rest := by
  unfold visVal
  rcases h with h | h
  · rw [visWord_ok h]
    exact ⟨rest, rfl, rfl⟩
  · rw [num_noWord h.1 h.2.1 hr]
    refine ⟨skip rest, num_ok h hr', ?_⟩
    cases hs : skip rest with
    | nil => rfl
    | cons c r => exact skip_cons (dropWhile_head isSpace rest c r hs)

theorem patChar_space {c : Char} (h : patChar c = true) : isSpace c = false := by
  cases hc : isSpace c with
  | false => rfl
  | true => rcases space_cases hc with k | k | k | k | k | k <;> subst k <;> revert h <;> decide

theorem pattern_ok {f : Char → Bool} {w p rest : Str} {c : Char} (hw : Sp w) (hc : isSpace c = false)
    (hp : ∀ x ∈ c :: p, f x = true) (hr : ∀ x r, rest = x :: r → f x = false) :
    pattern f (w ++ (c :: p ++ rest)) = .ok (c :: p) rest := by
  have hs : skip (w ++ (c :: p ++ rest)) = c :: p ++ rest := by rw [skip_sp hw]; exact skip_cons hc
  obtain ⟨a, b⟩ := takeWhile_exact hp hr
  unfold pattern
  rw [hs, a, b]

theorem quoted_ok {q : Char} {f : Char → Bool} {t p rest : Str} (h : Quoted q f t p) (hq : isSpace q = false) (hf : f q = false) :
    quoted q f (t ++ rest) = .ok p rest := by
  cases h with
  | mk h0 h1 h2 hc hp hw =>
    rename_i w0 w1 w2 p c
    have e : w0 ++ q :: (w1 ++ (c :: p ++ (w2 ++ [q]))) ++ rest = w0 ++ (q :: ([] ++ (w1 ++ (c :: p ++ (w2 ++ (q :: ([] ++ rest))))))) := by simp
    unfold quoted
    rw [e, lit_complete h0 hq]
    simp only []
    rw [pattern_ok h1 hc hp]
    · simp only []
      rw [lit_complete h2 hq]
    · intro x r hx
      cases w2 with
      | nil => injection hx with hx _; rw [← hx]; exact hf
      | cons y w2 => injection hx with hx _; exact hx ▸ hw y w2 rfl

theorem textVal_ok {o : Bool} {t p rest : Str} (h : TextVal o t p) (hs : Stops o rest) : textVal (t ++ rest) = .ok p rest := by
  cases h with
  | plain hw hne hp =>
    rename_i w
    cases p with
    | nil => exact absurd rfl hne
    | cons c p =>
      unfold textVal
      rw [List.append_assoc, pattern_ok hw (patChar_space (hp c List.mem_cons_self)) hp (hs rfl)]
  | dq h =>
    have hq := quoted_ok (rest := rest) h (by decide) (by decide)
    have hf : pattern patChar (t ++ rest) = .fail := by
      cases h with
      | mk h0 _ _ _ _ _ =>
        unfold pattern
        rw [List.append_assoc, skip_sp h0]
        rfl
    unfold textVal
    rw [hf, hq]
  | sq h =>
    have hq := quoted_ok (rest := rest) h (by decide) (by decide)
    have hf : pattern patChar (t ++ rest) = .fail ∧ quoted '"' dqChar (t ++ rest) = .fail := by
      cases h with
      | mk h0 _ _ _ _ _ =>
        unfold pattern quoted lit
        rw [List.append_assoc, skip_sp h0]
        exact ⟨rfl, rfl⟩
    unfold textVal
    rw [hf.1, hf.2, hq]

/-- The attribute and the colon. -/
theorem keyed_ok {α : Type} {key : String} {p : Str → R α} {V : Str → Prop} {b rest : Str} (hk : key.toList ∈ keys) (h : Attr key V b) :
    ∃ v, V v ∧ keyed key.toList p (b ++ rest) = p (v ++ rest) ∧ KeyAt key.toList (b ++ rest) := by
  cases h with
  | mk h0 hn h1 hv =>
    rename_i w0 k w1 v
    refine ⟨v, hv, ?_, w0, k, w1 ++ ':' :: v ++ rest, h0, hn, by simp⟩
    have e : w0 ++ (k ++ (w1 ++ ':' :: v)) ++ rest = w0 ++ (k ++ (w1 ++ (':' :: ([] ++ (v ++ rest))))) := by simp
    unfold keyed
    rw [e, litNC_of_skip (keyAt_skip hk h0 hn), after_append hn]
    simp only []
    rw [lit_complete h1 (by decide)]

end Sparta.TFilter
