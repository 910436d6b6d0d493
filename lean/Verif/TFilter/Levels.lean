import Verif.TFilter.Accept
/-! # Every text of the language is accepted: conditions and levels -/
namespace Sparta.TFilter
open Lexical (Str)

theorem visOps_texts : ∀ u c, (u, c) ∈ visOps → u ∈ opTexts := by
  intro u c h
  simp only [visOps, List.mem_cons, List.not_mem_nil, or_false, Prod.mk.injEq] at h
  rcases h with ⟨e, _⟩ | ⟨e, _⟩ | ⟨e, _⟩ | ⟨e, _⟩ | ⟨e, _⟩ | ⟨e, _⟩ <;> subst e <;> decide
theorem typeOps_texts : ∀ u c, (u, c) ∈ typeOps → u ∈ opTexts := by
  intro u c h
  simp only [typeOps, List.mem_cons, List.not_mem_nil, or_false, Prod.mk.injEq] at h
  rcases h with ⟨e, _⟩ | ⟨e, _⟩ <;> subst e <;> decide
theorem textOps_texts : ∀ u c, (u, c) ∈ textOps → u ∈ opTexts := by
  intro u c h
  simp only [textOps, List.mem_cons, List.not_mem_nil, or_false, Prod.mk.injEq] at h
  rcases h with ⟨e, _⟩ | ⟨e, _⟩ | ⟨e, _⟩ <;> subst e <;> decide
theorem visOps_fun : ∀ u c c', (u, c) ∈ visOps → (u, c') ∈ visOps → c' = c := by
  intro u c c' h h'
  simp only [visOps, List.mem_cons, List.not_mem_nil, or_false, Prod.mk.injEq] at h h'
  rcases h with ⟨e, e2⟩ | ⟨e, e2⟩ | ⟨e, e2⟩ | ⟨e, e2⟩ | ⟨e, e2⟩ | ⟨e, e2⟩ <;> subst e <;> subst e2 <;> revert h' <;> simp
theorem typeOps_fun : ∀ u c c', (u, c) ∈ typeOps → (u, c') ∈ typeOps → c' = c := by
  intro u c c' h h'
  simp only [typeOps, List.mem_cons, List.not_mem_nil, or_false, Prod.mk.injEq] at h h'
  rcases h with ⟨e, e2⟩ | ⟨e, e2⟩ <;> subst e <;> subst e2 <;> revert h' <;> simp
theorem textOps_fun : ∀ u c c', (u, c) ∈ textOps → (u, c') ∈ textOps → c' = c := by
  intro u c c' h h'
  simp only [textOps, List.mem_cons, List.not_mem_nil, or_false, Prod.mk.injEq] at h h'
  rcases h with ⟨e, e2⟩ | ⟨e, e2⟩ | ⟨e, e2⟩ <;> subst e <;> subst e2 <;> revert h' <;> simp

theorem orElse_right {p q : Str → R Expr} {s : Str} (h : p s = .fail) : orElse p q s = q s := by
  unfold orElse; rw [h]
theorem orElse_left {p q : Str → R Expr} {s r : Str} {e : Expr} (h : p s = .ok e r) : orElse p q s = .ok e r := by
  unfold orElse; rw [h]

/-- No comparison begins here. -/
def NoVar (s : Str) : Prop := (∀ u ∈ opTexts, litNC u s = none) ∧ ∀ key ∈ keys, litNC key s = none

theorem noVar_fail {α β : Type} {key s : Str} {p : Str → R α} {mk : β → α → Expr} {dflt : β} {ops : List (Str × β)}
    (hk : key ∈ keys) (h : NoVar s) (hops : ∀ u c, (u, c) ∈ ops → u ∈ opTexts) : compare (keyed key p) mk dflt s ops = .fail := by
  refine compare_fail (keyed_fail (h.2 key hk)) (fun u c hm s1 hs => ?_)
  rw [h.1 u (hops u c hm)] at hs
  cases hs

theorem comp_noVar {tp : Str → R Expr} {s : Str} (h : NoVar s) : comp tp s = primary tp s := by
  unfold comp
  rw [orElse_right (show visExpr s = .fail from noVar_fail (by decide) h visOps_texts),
    orElse_right (show typeExpr s = .fail from noVar_fail (by decide) h typeOps_texts),
    orElse_right (show tagExpr s = .fail from noVar_fail (by decide) h textOps_texts),
    orElse_right (show nameExpr s = .fail from noVar_fail (by decide) h textOps_texts)]

theorem comp_fail {tp : Str → R Expr} {s : Str} (h : NoVar s) (h1 : lit ['('] s = none) (h2 : oneOf s constWords = none) :
    comp tp s = .fail := by
  rw [comp_noVar h]
  unfold primary
  rw [h1, h2]

theorem op_head {u : Str} {c : Char} {x : Str} (hu : u ∈ opTexts) (hc : c.toLower ∉ ['=', '<', '>', '!', 'r']) :
    after Char.toLower u (c :: x) = none := by
  simp only [List.mem_cons, List.not_mem_nil, or_false, not_or] at hc
  obtain ⟨c1, c2, c3, c4, c5⟩ := hc
  simp only [opTexts, List.mem_cons, List.not_mem_nil, or_false] at hu
  rcases hu with e | e | e | e | e | e | e <;> subst e <;> apply after_head <;> assumption

/-- Before a constant and before a parenthesis. -/
theorem noVar_const {w k t rest : Str} {b : Bool} (hw : Sp w) (hn : NC k t) (hm : (k, b) ∈ constWordsDoc) :
    NoVar (w ++ (t ++ rest)) ∧ ∃ c x, skip (w ++ (t ++ rest)) = c :: x ∧ (c.toLower = 't' ∨ c.toLower = 'f') := by
  simp only [constWordsDoc, List.mem_cons, List.not_mem_nil, or_false, Prod.mk.injEq] at hm
  rcases hm with ⟨e, _⟩ | ⟨e, _⟩ <;> subst e
  · have hs := nc_skip (r := rest) hw hn (by decide)
    obtain ⟨c, t', rfl, hc, hn2⟩ := nc_cons.mp hn
    obtain ⟨c2, t', rfl, hc2, _⟩ := nc_cons.mp hn2
    have hc : c.toLower = 't' := hc
    have hc2 : c2.toLower = 'r' := hc2
    refine ⟨⟨fun u hu => ?_, fun key hk => ?_⟩, c, _, hs, Or.inl hc⟩
    · rw [litNC_of_skip hs]
      exact op_head hu (by rw [hc]; decide)
    · rw [litNC_of_skip hs]
      simp only [keys, visKey, typeKey, tagKey, nameKey, List.mem_cons, List.not_mem_nil, or_false] at hk
      rcases hk with e | e | e | e <;> subst e <;> simp [after, hc, hc2]
  · have hs := nc_skip (r := rest) hw hn (by decide)
    obtain ⟨c, t', rfl, hc, hn2⟩ := nc_cons.mp hn
    have hc : c.toLower = 'f' := hc
    refine ⟨⟨fun u hu => ?_, fun key hk => ?_⟩, c, _, hs, Or.inr hc⟩
    · rw [litNC_of_skip hs]
      exact op_head hu (by rw [hc]; decide)
    · rw [litNC_of_skip hs]
      simp only [keys, visKey, typeKey, tagKey, nameKey, List.mem_cons, List.not_mem_nil, or_false] at hk
      rcases hk with e | e | e | e <;> subst e <;> simp [after, hc]

theorem noVar_paren {w x : Str} (hw : Sp w) : NoVar (w ++ '(' :: x) ∧ skip (w ++ '(' :: x) = '(' :: x := by
  have hs : skip (w ++ '(' :: x) = '(' :: x := by rw [skip_sp hw]; exact skip_cons (by decide)
  refine ⟨⟨fun u hu => ?_, fun key hk => ?_⟩, hs⟩
  · rw [litNC_of_skip hs]
    exact op_head hu (by decide)
  · rw [litNC_of_skip hs]
    simp only [keys, visKey, typeKey, tagKey, nameKey, List.mem_cons, List.not_mem_nil, or_false] at hk
    rcases hk with e | e | e | e <;> subst e <;> exact after_head (by decide)

/-- The text is not an inversion. -/
def NoInv (tp : Str → R Expr) (s : Str) : Prop :=
  inverted ['!'] (comp tp) s = .fail ∧ inverted ['n', 'o', 't'] (comp tp) s = .fail

theorem inverted_none {k s : Str} {p : Str → R Expr} (h : lit k s = none) : inverted k p s = .fail := by
  unfold inverted; rw [h]

theorem noInv_head {tp : Str → R Expr} {s x : Str} {c : Char} (hs : skip s = c :: x) (h1 : c ≠ '!') (h2 : c ≠ 'n') : NoInv tp s :=
  ⟨inverted_none (by rw [lit_of_skip hs]; exact after_head h1), inverted_none (by rw [lit_of_skip hs]; exact after_head h2)⟩

/-- After `!`, the rest of `!=` and an attribute is nothing. -/
theorem comp_eq_fail {tp : Str → R Expr} {key b : Str} {y : Char} (hk : key ∈ keys) (hb : KeyAt key b) (hy : y.toLower = '=') :
    comp tp (y :: b) = .fail := by
  have hs := skip_cons (s := b) (nonspace_of_lower hy (by decide))
  obtain ⟨c, b', e, hc⟩ := keyAt_head hk hb
  have hc1 : c.toLower ≠ '=' := fun k => hc (by rw [k]; decide)
  refine comp_fail ⟨fun u hu => ?_, fun key hk => eq_no_key hk hy⟩ ?_ ?_
  · rw [litNC_of_skip hs, e]
    simp only [opTexts, List.mem_cons, List.not_mem_nil, or_false] at hu
    rcases hu with e | e | e | e | e | e | e <;> subst e <;> simp [after, hy, hc1]
  · rw [lit_of_skip hs]
    exact after_head (fun k => by have k : y = '(' := k; subst k; revert hy; decide)
  · unfold constWords
    rw [oneOf_cons_none (by rw [litNC_of_skip hs]; exact after_head (by rw [hy]; decide)),
      oneOf_cons_none (by rw [litNC_of_skip hs]; exact after_head (by rw [hy]; decide))]
    rfl

theorem key_noInv {tp : Str → R Expr} {key s b : Str} (hk : key ∈ keys) (ho : Opish s b) (hb : KeyAt key b) : NoInv tp s := by
  rcases ho with e | ⟨op, hop, t, ht, e⟩
  · obtain ⟨w0, k, x, h1, h2, h3⟩ := hb
    subst h3
    rw [keyAt_skip hk h1 h2] at e
    obtain ⟨c, b', hc, _, hc'⟩ := key_head (x := x) hk h2
    refine ⟨inverted_none ?_, inverted_none ?_⟩
    · rw [lit_of_skip e, hc]
      exact after_head (fun k => hc' (by have k : c = '!' := k; subst k; decide))
    · rw [lit_of_skip e]
      have ne : ∀ {x a : Char}, x.toLower = a → ∀ d, d.toLower ≠ a → x ≠ d := fun h d hd k => hd (k ▸ h)
      simp only [keys, visKey, typeKey, tagKey, nameKey, List.mem_cons, List.not_mem_nil, or_false] at hk
      rcases hk with e | e | e | e <;> subst e <;> obtain ⟨x1, k', rfl, h1, h2⟩ := nc_cons.mp h2
      · exact after_head (ne h1 'n' (by decide))
      · exact after_head (ne h1 'n' (by decide))
      · exact after_head (ne h1 'n' (by decide))
      · obtain ⟨x2, k', rfl, h2, _⟩ := nc_cons.mp h2
        show after id ('n' :: ['o', 't']) (x1 :: (x2 :: k' ++ x)) = none
        unfold after
        split
        · exact after_head (ne h2 'o' (by decide))
        · rfl
  · have ne : ∀ {x a : Char}, x.toLower = a → ∀ d, d.toLower ≠ a → x ≠ d := fun h d hd k => hd (k ▸ h)
    simp only [opTexts, List.mem_cons, List.not_mem_nil, or_false] at hop
    rcases hop with e' | e' | e' | e' | e' | e' | e' <;> subst e' <;> obtain ⟨x1, k', rfl, h1, h2⟩ := nc_cons.mp ht
    · exact noInv_head e (ne h1 '!' (by decide)) (ne h1 'n' (by decide))
    · exact noInv_head e (ne h1 '!' (by decide)) (ne h1 'n' (by decide))
    · exact noInv_head e (ne h1 '!' (by decide)) (ne h1 'n' (by decide))
    · exact noInv_head e (ne h1 '!' (by decide)) (ne h1 'n' (by decide))
    · exact noInv_head e (ne h1 '!' (by decide)) (ne h1 'n' (by decide))
    · refine ⟨?_, inverted_none (by rw [lit_of_skip e]; exact after_head (ne h1 'n' (by decide)))⟩
      obtain ⟨x2, k', rfl, h2, h3⟩ := nc_cons.mp h2
      rw [nc_nil.mp h3] at e
      unfold inverted
      split
      · rfl
      · rename_i s1 hs1
        rw [lit_of_skip e] at hs1
        have : s1 = x2 :: b := by
          change (if id x1 = '!' then some (x2 :: b) else none) = some s1 at hs1
          by_cases hx : id x1 = '!'
          · rw [if_pos hx] at hs1
            injection hs1 with hs1; exact hs1.symm
          · rw [if_neg hx] at hs1; cases hs1
        rw [this, comp_eq_fail hk hb h2]
    · exact noInv_head e (ne h1 '!' (by decide)) (ne h1 'n' (by decide))

/-- A condition or a constant is accepted. -/
theorem leaf_ok {tp : Str → R Expr} {o : Bool} {s rest : Str} {e : Expr} (h : Leaf o s e) (h1 : Stop rest) (h2 : Stop (skip rest))
    (h3 : Stops o rest) : (∃ r', comp tp (s ++ rest) = .ok e r' ∧ skip r' = skip rest) ∧ NoInv tp (s ++ rest) := by
  cases h with
  | vis hc hb =>
    rename_i a b c v
    obtain ⟨t, t1, t2, t3⟩ := keyed_ok (p := visVal) (rest := rest) (by decide) hb
    obtain ⟨r', r1, r2⟩ := visVal_ok t1 h1 h2
    have hc : CmpText visOps .eq a c := hc
    rw [List.append_assoc]
    refine ⟨⟨r', ?_, r2⟩, key_noInv (by decide) (cmp_opish hc visOps_texts) t3⟩
    exact orElse_left (var_ok (by decide) hc t3 visOps_texts visOps_fun (t2.trans r1))
  | type hc hb =>
    rename_i a b c v
    obtain ⟨t, t1, t2, t3⟩ := keyed_ok (p := typeVal) (rest := rest) (by decide) hb
    have hv : typeVal (t ++ rest) = .ok v rest := by unfold typeVal; rw [typeWord_ok t1 h1]
    have hc : CmpText typeOps .eq a c := hc
    have ho := cmp_opish (b := b ++ rest) hc typeOps_texts
    rw [List.append_assoc]
    refine ⟨⟨rest, ?_, rfl⟩, key_noInv (by decide) ho t3⟩
    unfold comp
    rw [orElse_right (show visExpr (a ++ (b ++ rest)) = .fail from var_fail (by decide) (by decide) (by decide) ho t3 visOps_texts)]
    exact orElse_left (var_ok (by decide) hc t3 typeOps_texts typeOps_fun (t2.trans hv))
  | tag hc hb =>
    rename_i a b p c
    obtain ⟨t, t1, t2, t3⟩ := keyed_ok (p := textVal) (rest := rest) (by decide) hb
    have hv := textVal_ok t1 h3
    have hc : CmpText textOps .eq a c := hc
    have ho := cmp_opish (b := b ++ rest) hc textOps_texts
    rw [List.append_assoc]
    refine ⟨⟨rest, ?_, rfl⟩, key_noInv (by decide) ho t3⟩
    unfold comp
    rw [orElse_right (show visExpr (a ++ (b ++ rest)) = .fail from var_fail (by decide) (by decide) (by decide) ho t3 visOps_texts),
      orElse_right (show typeExpr (a ++ (b ++ rest)) = .fail from var_fail (by decide) (by decide) (by decide) ho t3 typeOps_texts)]
    exact orElse_left (var_ok (by decide) hc t3 textOps_texts textOps_fun (t2.trans hv))
  | name hc hb =>
    rename_i a b p c
    obtain ⟨t, t1, t2, t3⟩ := keyed_ok (p := textVal) (rest := rest) (by decide) hb
    have hv := textVal_ok t1 h3
    have hc : CmpText textOps .eq a c := hc
    have ho := cmp_opish (b := b ++ rest) hc textOps_texts
    rw [List.append_assoc]
    refine ⟨⟨rest, ?_, rfl⟩, key_noInv (by decide) ho t3⟩
    unfold comp
    rw [orElse_right (show visExpr (a ++ (b ++ rest)) = .fail from var_fail (by decide) (by decide) (by decide) ho t3 visOps_texts),
      orElse_right (show typeExpr (a ++ (b ++ rest)) = .fail from var_fail (by decide) (by decide) (by decide) ho t3 typeOps_texts),
      orElse_right (show tagExpr (a ++ (b ++ rest)) = .fail from var_fail (by decide) (by decide) (by decide) ho t3 textOps_texts)]
    exact orElse_left (var_ok (by decide) hc t3 textOps_texts textOps_fun (t2.trans hv))
  | const hw =>
    rename_i b
    have hone := constWord_ok (rest := rest) hw
    cases hw with
    | mk hw hn hm =>
      rename_i w k t
      rw [List.append_assoc] at hone ⊢
      obtain ⟨hv, c, x, hs, hc⟩ := noVar_const (rest := rest) hw hn hm
      refine ⟨⟨rest, ?_, rfl⟩, noInv_head hs (fun k => by subst k; revert hc; decide) (fun k => by subst k; revert hc; decide)⟩
      rw [comp_noVar hv]
      unfold primary
      rw [show lit ['('] (w ++ (t ++ rest)) = none from by
        rw [lit_of_skip hs]; exact after_head (fun k => by have k : c = '(' := k; subst k; revert hc; decide), hone]

/-! ## Levels -/

def heads : Lvl → List Char
  | .comp => ['&', '|', '^', ')']
  | .inv => ['&', '|', '^', ')']
  | .and => ['&', '|', '^', ')']
  | .or => ['|', '^', ')']
  | .xor => ['^', ')']

/-- What follows begins, after white space, with one of some characters. -/
def Fol (F : List Char) (rest : Str) : Prop := ∀ c r, skip rest = c :: r → c ∈ F

theorem heads_sub (l : Lvl) : ∀ c ∈ heads l, c ∈ ['&', '|', '^', ')'] := by
  cases l <;> decide

theorem fol_stop {l : Lvl} {rest : Str} (h : Fol (heads l) rest) : Stop rest ∧ Stop (skip rest) := by
  refine ⟨fun c r hc => ?_, fun c r hc => Or.inr (heads_sub l c (h c r hc))⟩
  cases hs : isSpace c with
  | true => exact Or.inl rfl
  | false => exact Or.inr (heads_sub l c (h c r (by rw [hc]; exact skip_cons hs)))

theorem fol_sub {l l' : Lvl} {rest : Str} (hs : ∀ c ∈ heads l, c ∈ heads l') (h : Fol (heads l) rest) : Fol (heads l') rest :=
  fun c r hc => hs c (h c r hc)

/-- Before an operator. -/
theorem before_op {w x : Str} {c : Char} (hw : Sp w) (hc : isSpace c = false) : skip (w ++ c :: x) = c :: x := by
  rw [skip_sp hw]; exact skip_cons hc

theorem stops_op {o : Bool} {w x : Str} {c : Char} (hw : Sp w) (h : patChar c = false ∨ Gap o w) : Stops o (w ++ c :: x) := by
  intro ho d r hd
  cases w with
  | nil =>
    rcases h with h | h
    · injection hd with hd _; rw [← hd]; exact h
    · exact absurd rfl (h ho)
  | cons y w =>
    injection hd with hd _
    rw [← hd]
    cases hp : patChar y with
    | false => rfl
    | true =>
      have a := patChar_space hp
      rw [hw y List.mem_cons_self] at a
      cases a

/-- The parser does not lengthen the text. -/
def Short (sub : Str → R Expr) : Prop := ∀ s e r, sub s = .ok e r → r.length ≤ s.length

theorem Snd.short {l : Lvl} {sub : Str → R Expr} (h : Snd l sub) : Short sub := by
  intro s e r hs
  obtain ⟨o, t, _, e, _⟩ := h s e r hs
  rw [e, List.length_append]
  omega

theorem lit_length {k s r : Str} (h : lit k s = some r) : r.length + k.length ≤ s.length := by
  obtain ⟨w, _, e⟩ := lit_sound h
  rw [e]
  simp only [List.length_append]
  omega

theorem chain_fuel {a : Char} {k : Str} {op : Op} {sub : Str → R Expr} (hs : Short sub) : ∀ (n m : Nat) (v : Expr) (s : Str),
    s.length ≤ n → s.length ≤ m → chain (a :: k) op sub n v s = chain (a :: k) op sub m v s := by
  have nil : ∀ m v, chain (a :: k) op sub m v [] = .ok v [] := by
    intro m v
    cases m with
    | zero => rfl
    | succ m => rfl
  intro n
  induction n with
  | zero =>
    intro m v s h1 _
    have : s = [] := List.length_eq_zero_iff.mp (by omega)
    subst this
    rw [nil, nil]
  | succ n ih =>
    intro m v s h1 h2
    cases m with
    | zero =>
      have : s = [] := List.length_eq_zero_iff.mp (by omega)
      subst this
      rw [nil, nil]
    | succ m =>
      unfold chain
      split
      · rfl
      · rename_i s1 hl
        have l1 := lit_length hl
        simp only [List.length_cons] at l1
        split
        · rfl
        · rfl
        · rename_i e r hr
          have l2 := hs _ _ _ hr
          exact ih m _ _ (by omega) (by omega)

theorem chain_stop {k s : Str} {op : Op} {sub : Str → R Expr} {n : Nat} {v : Expr} (h : lit k s = none) :
    chain k op sub n v s = .ok v s := by
  cases n with
  | zero => rfl
  | succ n => unfold chain; rw [h]

/-- Another operand. -/
theorem chain_step {a : Char} {k x s1 r : Str} {op : Op} {sub : Str → R Expr} {v e : Expr} (hs : Short sub)
    (hx : skip s1 = a :: (k ++ x)) (hr : sub x = .ok e r) :
    chain (a :: k) op sub s1.length v s1 = chain (a :: k) op sub r.length (.bin op v e) r := by
  have hl : lit (a :: k) s1 = some x := by
    rw [lit_of_skip hx]
    show after id (a :: k) ((a :: k) ++ x) = some x
    exact after_append (List.map_id _)
  have l1 := lit_length hl
  have l2 := hs _ _ _ hr
  simp only [List.length_cons] at l1
  cases hn : s1.length with
  | zero => omega
  | succ n =>
    conv => lhs; unfold chain
    simp only [hl, hr]
    exact chain_fuel hs _ _ _ _ (by omega) (Nat.le_refl _)

theorem no_lit {l : Lvl} {a : Char} {k r rest : Str} (h : Fol (heads l) rest) (ha : a ∉ heads l) (hr : skip r = skip rest) :
    lit (a :: k) r = none := by
  rw [lit_of_skip hr]
  cases hs : skip rest with
  | nil => rfl
  | cons c x => exact after_head (fun e => ha (by have e : c = a := e; exact e ▸ h c x hs))

/-- What is to be shown of a text of a level. -/
def Good (n : Nat) (s : Str) (e : Expr) (rest : Str) : Lvl → Prop
  | .comp => (∃ r', comp (top n) (s ++ rest) = .ok e r' ∧ skip r' = skip rest) ∧ NoInv (top n) (s ++ rest)
  | .inv => ∃ r', inversion (top n) (s ++ rest) = .ok e r' ∧ skip r' = skip rest
  | .and => ∃ r', andLevel (top n) (s ++ rest) = chain ['&', '&'] .and (inversion (top n)) r'.length e r' ∧ skip r' = skip rest
  | .or => ∃ r', orLevel (top n) (s ++ rest) = chain ['|', '|'] .or (andLevel (top n)) r'.length e r' ∧ skip r' = skip rest
  | .xor => ∃ r', xorLevel (top n) (s ++ rest) = chain ['^', '^'] .xor (orLevel (top n)) r'.length e r' ∧ skip r' = skip rest

theorem andLevel_sound {tp : Str → R Expr} (ht : Snd .xor tp) : Snd .and (andLevel tp) :=
  level_sound (l := .inv) (inversion_sound ht) .and1 (fun h1 _ h3 h4 => .and2 h1 h3 h4)
theorem orLevel_sound {tp : Str → R Expr} (ht : Snd .xor tp) : Snd .or (orLevel tp) :=
  level_sound (l := .and) (andLevel_sound ht) .or1 (fun h1 _ h3 h4 => .or2 h1 h3 h4)

theorem level_one {k s r : Str} {op : Op} {sub : Str → R Expr} {e : Expr} (h : sub s = .ok e r) :
    level k op sub s = chain k op sub r.length e r := by
  unfold level; rw [h]

theorem der_good {l : Lvl} {o : Bool} {s : Str} {e : Expr} (h : Der l o s e) :
    ∀ n rest, s.length ≤ n → Fol (heads l) rest → Stops o rest → Good n s e rest l := by
  induction h with
  | leaf h =>
    intro n rest _ hf ho
    obtain ⟨a, b⟩ := fol_stop hf
    exact leaf_ok h a b ho
  | @paren o w0 s w e hw0 _ hw hg ih =>
    intro n rest hl hf ho
    cases n with
    | zero => simp at hl
    | succ n =>
      have hcat : w0 ++ '(' :: (s ++ (w ++ [')'])) ++ rest = w0 ++ '(' :: (s ++ (w ++ ')' :: rest)) := by simp
      rw [show Good (n + 1) (w0 ++ '(' :: (s ++ (w ++ [')']))) e rest .comp =
        ((∃ r', comp (top (n + 1)) (w0 ++ '(' :: (s ++ (w ++ [')'])) ++ rest) = .ok e r' ∧ skip r' = skip rest)
          ∧ NoInv (top (n + 1)) (w0 ++ '(' :: (s ++ (w ++ [')'])) ++ rest)) from rfl, hcat]
      obtain ⟨hv, hs⟩ := noVar_paren (x := s ++ (w ++ ')' :: rest)) hw0
      refine ⟨⟨rest, ?_, rfl⟩, noInv_head hs (by decide) (by decide)⟩
      have hsk := before_op (x := rest) (c := ')') hw (by decide)
      have hf' : Fol (heads .xor) (w ++ ')' :: rest) := by
        intro c r hc
        rw [hsk] at hc
        injection hc with hc _
        rw [← hc]; decide
      obtain ⟨r', r1, r2⟩ := ih n (w ++ ')' :: rest) (by simp at hl; omega) hf' (stops_op hw (Or.inr hg))
      have ht : top (n + 1) (s ++ (w ++ ')' :: rest)) = .ok e r' := by
        show xorLevel (top n) _ = _
        rw [r1]
        refine chain_stop ?_
        rw [lit_of_skip (r2.trans hsk)]
        exact after_head (by decide)
      rw [comp_noVar hv]
      unfold primary
      rw [lit_of_skip hs, show after id ['('] ('(' :: (s ++ (w ++ ')' :: rest))) = some (s ++ (w ++ ')' :: rest)) from rfl]
      simp only []
      rw [ht]
      simp only []
      rw [lit_of_skip (r2.trans hsk)]
      rfl
  | plain _ ih =>
    intro n rest hl hf ho
    obtain ⟨⟨r', r1, r2⟩, h1, h2⟩ := ih n rest hl hf ho
    refine ⟨r', ?_, r2⟩
    unfold inversion
    rw [orElse_right h1, orElse_right h2, r1]
  | @bang o w s e hw _ ih =>
    intro n rest hl hf ho
    obtain ⟨⟨r', r1, r2⟩, _⟩ := ih n rest (by simp at hl; omega) hf ho
    refine ⟨r', orElse_left ?_, r2⟩
    unfold inverted
    rw [show w ++ '!' :: s ++ rest = w ++ ('!' :: ([] ++ (s ++ rest))) from by simp, lit_complete hw (by decide)]
    simp only []
    rw [r1]
  | @not o w s e hw _ ih =>
    intro n rest hl hf ho
    obtain ⟨⟨r', r1, r2⟩, _⟩ := ih n rest (by simp at hl; omega) hf ho
    refine ⟨r', ?_, r2⟩
    have hcat : w ++ 'n' :: 'o' :: 't' :: s ++ rest = w ++ ('n' :: (['o', 't'] ++ (s ++ rest))) := by simp
    rw [hcat]
    unfold inversion
    rw [orElse_right (inverted_none (by
      rw [lit_of_skip (before_op hw (by decide))]; exact after_head (by decide)))]
    refine orElse_left ?_
    unfold inverted
    rw [lit_complete hw (by decide)]
    simp only []
    rw [r1]
  | and1 _ ih =>
    intro n rest hl hf ho
    obtain ⟨r', r1, r2⟩ := ih n rest hl hf ho
    exact ⟨r', level_one r1, r2⟩
  | @and2 o1 o2 s1 w s2 a b _ hw _ ih1 ih2 =>
    intro n rest hl hf ho
    have hsk := before_op (x := '&' :: (s2 ++ rest)) (c := '&') hw (by decide)
    have hf' : Fol (heads .and) (w ++ '&' :: '&' :: (s2 ++ rest)) := by
      intro c r hc
      rw [hsk] at hc
      injection hc with hc _
      rw [← hc]; decide
    obtain ⟨r1, a1, a2⟩ := ih1 n _ (by simp at hl; omega) hf' (stops_op hw (Or.inl (by decide)))
    obtain ⟨r2, b1, b2⟩ := ih2 n rest (by simp at hl; omega) hf ho
    refine ⟨r2, ?_, b2⟩
    rw [show s1 ++ (w ++ '&' :: '&' :: s2) ++ rest = s1 ++ (w ++ '&' :: '&' :: (s2 ++ rest)) from by simp, a1]
    exact chain_step (inversion_sound (top_sound n)).short (a2.trans hsk) b1
  | or1 _ ih =>
    intro n rest hl hf ho
    obtain ⟨r', r1, r2⟩ := ih n rest hl (fol_sub (by decide) hf) ho
    rw [chain_stop (no_lit hf (by decide) r2)] at r1
    exact ⟨r', level_one r1, r2⟩
  | @or2 o1 o2 s1 w s2 a b _ hw _ ih1 ih2 =>
    intro n rest hl hf ho
    have hsk := before_op (x := '|' :: (s2 ++ rest)) (c := '|') hw (by decide)
    have hf' : Fol (heads .or) (w ++ '|' :: '|' :: (s2 ++ rest)) := by
      intro c r hc
      rw [hsk] at hc
      injection hc with hc _
      rw [← hc]; decide
    obtain ⟨r1, a1, a2⟩ := ih1 n _ (by simp at hl; omega) hf' (stops_op hw (Or.inl (by decide)))
    obtain ⟨r2, b1, b2⟩ := ih2 n rest (by simp at hl; omega) (fol_sub (by decide) hf) ho
    rw [chain_stop (no_lit hf (by decide) b2)] at b1
    refine ⟨r2, ?_, b2⟩
    rw [show s1 ++ (w ++ '|' :: '|' :: s2) ++ rest = s1 ++ (w ++ '|' :: '|' :: (s2 ++ rest)) from by simp, a1]
    exact chain_step (andLevel_sound (top_sound n)).short (a2.trans hsk) b1
  | xor1 _ ih =>
    intro n rest hl hf ho
    obtain ⟨r', r1, r2⟩ := ih n rest hl (fol_sub (by decide) hf) ho
    rw [chain_stop (no_lit hf (by decide) r2)] at r1
    exact ⟨r', level_one r1, r2⟩
  | @xor2 o1 o2 s1 w s2 a b _ hw hg _ ih1 ih2 =>
    intro n rest hl hf ho
    have hsk := before_op (x := '^' :: (s2 ++ rest)) (c := '^') hw (by decide)
    have hf' : Fol (heads .xor) (w ++ '^' :: '^' :: (s2 ++ rest)) := by
      intro c r hc
      rw [hsk] at hc
      injection hc with hc _
      rw [← hc]; decide
    obtain ⟨r1, a1, a2⟩ := ih1 n _ (by simp at hl; omega) hf' (stops_op hw (Or.inr hg))
    obtain ⟨r2, b1, b2⟩ := ih2 n rest (by simp at hl; omega) (fol_sub (by decide) hf) ho
    rw [chain_stop (no_lit hf (by decide) b2)] at b1
    refine ⟨r2, ?_, b2⟩
    rw [show s1 ++ (w ++ '^' :: '^' :: s2) ++ rest = s1 ++ (w ++ '^' :: '^' :: (s2 ++ rest)) from by simp, a1]
    exact chain_step (orLevel_sound (top_sound n)).short (a2.trans hsk) b1

theorem skip_of_sp {w : Str} (h : Sp w) : skip w = [] := by
  have := skip_sp (s := []) h
  rw [List.append_nil] at this
  rw [this]; rfl

theorem parse_complete {s : Str} {e : Expr} (h : Text s e) : parse s = some e := by
  obtain ⟨o, t, w, hd, hw, rfl⟩ := h
  have hsk := skip_of_sp hw
  obtain ⟨r, r1, r2⟩ := der_good hd (t ++ w).length w (by simp) (fun c r hc => by rw [hsk] at hc; cases hc) (by
    intro _ c r hc
    cases hp : patChar c with
    | false => rfl
    | true =>
      have a := patChar_space hp
      rw [hw c (by rw [hc]; exact List.mem_cons_self)] at a
      cases a)
  rw [hsk] at r2
  have hl : lit ['^', '^'] r = none := by rw [lit_of_skip r2]; rfl
  rw [chain_stop hl] at r1
  unfold parse
  rw [show top ((t ++ w).length + 1) (t ++ w) = .ok e r from r1]
  simp only []
  rw [if_pos r2]

end Sparta.TFilter
