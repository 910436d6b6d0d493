import Verif.TFilter.Sound
/-! # Every text of the language is accepted -/
namespace Sparta.TFilter
open Lexical (Str)

/-! ## Words -/

theorem skip_sp {w s : Str} (h : Sp w) : skip (w ++ s) = skip s := by
  induction w with
  | nil => rfl
  | cons c w ih =>
    show List.dropWhile isSpace (c :: (w ++ s)) = _
    rw [List.dropWhile_cons, if_pos (h c List.mem_cons_self)]
    exact ih (fun x hx => h x (List.mem_cons_of_mem _ hx))

theorem skip_cons {c : Char} {s : Str} (h : isSpace c = false) : skip (c :: s) = c :: s := by
  show List.dropWhile isSpace (c :: s) = _
  rw [List.dropWhile_cons, h]
  rfl

theorem space_cases {c : Char} (h : isSpace c = true) :
    c = ' ' ∨ c = '\t' ∨ c = '\n' ∨ c = '\x0b' ∨ c = '\x0c' ∨ c = '\r' := by
  unfold isSpace at h
  simpa [or_assoc] using h

theorem lower_space {c : Char} (h : isSpace c = true) : c.toLower = c := by
  rcases space_cases h with k | k | k | k | k | k <;> subst k <;> decide

theorem nonspace_of_lower {c a : Char} (h : c.toLower = a) (ha : isSpace a = false) : isSpace c = false := by
  cases hc : isSpace c with
  | false => rfl
  | true =>
    rw [lower_space hc] at h
    rw [h, ha] at hc
    cases hc

theorem nc_nil {t : Str} : NC [] t ↔ t = [] := by
  unfold NC
  cases t <;> simp

theorem nc_cons {a : Char} {k t : Str} : NC (a :: k) t ↔ ∃ x t', t = x :: t' ∧ x.toLower = a ∧ NC k t' := by
  unfold NC
  cases t with
  | nil => simp
  | cons x t =>
    rw [List.map_cons, List.cons.injEq]
    constructor
    · exact fun h => ⟨x, t, rfl, h.1, h.2⟩
    · rintro ⟨y, u, e, h1, h2⟩
      injection e with e1 e2
      subst e1; subst e2
      exact ⟨h1, h2⟩

theorem after_append {f : Char → Char} : ∀ {k t r : Str}, t.map f = k → after f k (t ++ r) = some r := by
  intro k
  induction k with
  | nil => intro t r h; cases t with | nil => rfl | cons => cases h
  | cons a k ih =>
    intro t r h
    cases t with
    | nil => cases h
    | cons c t =>
      injection h with h1 h2
      show after f (a :: k) (c :: (t ++ r)) = _
      unfold after
      rw [if_pos h1]
      exact ih h2

/-- A key word in some spelling. -/
theorem nc_skip {a : Char} {k t r w : Str} (hw : Sp w) (h : NC (a :: k) t) (ha : isSpace a = false) :
    skip (w ++ (t ++ r)) = t ++ r := by
  rw [skip_sp hw]
  obtain ⟨x, t', e, hx, _⟩ := nc_cons.mp h
  subst e
  exact skip_cons (nonspace_of_lower hx ha)

theorem litNC_complete {a : Char} {k t r w : Str} (hw : Sp w) (h : NC (a :: k) t) (ha : isSpace a = false) :
    litNC (a :: k) (w ++ (t ++ r)) = some r := by
  unfold litNC
  rw [nc_skip hw h ha]
  exact after_append h

theorem lit_complete {a : Char} {k r w : Str} (hw : Sp w) (ha : isSpace a = false) :
    lit (a :: k) (w ++ (a :: (k ++ r))) = some r := by
  unfold lit
  rw [skip_sp hw, skip_cons ha]
  have : a :: (k ++ r) = (a :: k) ++ r := rfl
  rw [this]
  exact after_append (List.map_id _)

theorem lit_of_skip {k s s' : Str} (h : skip s = s') : lit k s = after id k s' := by unfold lit; rw [h]
theorem litNC_of_skip {k s s' : Str} (h : skip s = s') : litNC k s = after Char.toLower k s' := by unfold litNC; rw [h]

/-! ## Operators and attributes -/

def opTexts : List Str := ["==".toList, ">=".toList, "<=".toList, "<".toList, ">".toList, "!=".toList, "regex".toList]
def keys : List Str := [visKey, typeKey, tagKey, nameKey]

/-- The text begins with an attribute. -/
def KeyAt (key b : Str) : Prop := ∃ w0 k x, Sp w0 ∧ NC key k ∧ b = w0 ++ (k ++ x)

/-- The text begins with an operator followed by `b`, or with `b`. -/
def Opish (s b : Str) : Prop := skip s = skip b ∨ ∃ op ∈ opTexts, ∃ t, NC op t ∧ skip s = t ++ b

theorem lower_of_space {c : Char} (h : isSpace c = true) : c.toLower ∉ ['=', '<', '>', '!', 'r', 'o', 'e', 'i'] := by
  rcases space_cases h with k | k | k | k | k | k <;> subst k <;> decide

theorem key_head {key k x : Str} (hk : key ∈ keys) (h : NC key k) :
    ∃ c b', k ++ x = c :: b' ∧ isSpace c = false ∧ c.toLower ∉ ['=', '<', '>', '!', 'r', '('] := by
  simp only [keys, List.mem_cons, List.not_mem_nil, or_false] at hk
  rcases hk with e | e | e | e <;> subst e <;> obtain ⟨c, t, e, hc, _⟩ := nc_cons.mp h <;> subst e <;>
    exact ⟨c, _, rfl, nonspace_of_lower hc (by decide), by rw [hc]; decide⟩

theorem keyAt_head {key b : Str} (hk : key ∈ keys) (h : KeyAt key b) :
    ∃ c b', b = c :: b' ∧ c.toLower ∉ ['=', '<', '>', '!', 'r'] := by
  obtain ⟨w0, k, x, h1, h2, h3⟩ := h
  cases w0 with
  | nil =>
    obtain ⟨c, b', e, _, hc⟩ := key_head (x := x) hk h2
    refine ⟨c, b', by rw [h3]; exact e, fun hm => hc ?_⟩
    exact List.mem_append_left ['('] hm
  | cons c w =>
    refine ⟨c, w ++ (k ++ x), h3, fun hm => lower_of_space (h1 c List.mem_cons_self) ?_⟩
    exact List.mem_append_left ['o', 'e', 'i'] hm

/-- Which operators match at the start of a comparison. -/
theorem op_after {u op t b s1 : Str} (hu : u ∈ opTexts) (hop : op ∈ opTexts) (ht : NC op t)
    (hb : ∃ c b', b = c :: b' ∧ c.toLower ∉ ['=', '<', '>', '!', 'r']) (h : after Char.toLower u (t ++ b) = some s1) :
    (u = op ∧ s1 = b) ∨ ∃ x, x.toLower = '=' ∧ s1 = x :: b := by
  obtain ⟨c, b', hb, hc⟩ := hb
  subst hb
  simp only [List.mem_cons, List.not_mem_nil, or_false, not_or] at hc
  obtain ⟨c1, c2, c3, c4, c5⟩ := hc
  have e1 : "==".toList = ['=', '='] := by decide
  have e2 : ">=".toList = ['>', '='] := by decide
  have e3 : "<=".toList = ['<', '='] := by decide
  have e4 : "<".toList = ['<'] := by decide
  have e5 : ">".toList = ['>'] := by decide
  have e6 : "!=".toList = ['!', '='] := by decide
  have e7 : "regex".toList = ['r', 'e', 'g', 'e', 'x'] := by decide
  simp only [opTexts, e1, e2, e3, e4, e5, e6, e7, List.mem_cons, List.not_mem_nil, or_false] at hu hop
  rcases hop with e | e | e | e | e | e | e <;> subst e <;> simp only [nc_cons, nc_nil] at ht <;>
    (try obtain ⟨x1, _, rfl, h1, x2, _, rfl, h2, rfl⟩ := ht) <;> (try obtain ⟨x1, _, rfl, h1, rfl⟩ := ht) <;>
    (try obtain ⟨x1, _, rfl, h1, x2, _, rfl, h2, x3, _, rfl, h3, x4, _, rfl, h4, x5, _, rfl, h5, rfl⟩ := ht) <;>
    rcases hu with e | e | e | e | e | e | e <;> subst e <;>
    simp [after, *] at h <;> first | exact Or.inl ⟨rfl, h.symm⟩ | exact Or.inr ⟨_, h2, h.symm⟩

theorem after_head {f : Char → Char} {a c : Char} {k s : Str} (h : f c ≠ a) : after f (a :: k) (c :: s) = none := by
  unfold after
  rw [if_neg h]

/-- A text that begins with one attribute does not begin with another. -/
theorem other_key {key key' k x : Str} (hk : key ∈ keys) (hk' : key' ∈ keys) (hne : key' ≠ key) (h : NC key k) :
    after Char.toLower key' (k ++ x) = none := by
  simp only [keys, visKey, typeKey, tagKey, nameKey, List.mem_cons, List.not_mem_nil, or_false] at hk hk'
  rcases hk with e | e | e | e <;> subst e <;> simp only [nc_cons, nc_nil] at h <;>
    (try obtain ⟨x1, _, rfl, h1, x2, _, rfl, h2, x3, _, rfl, h3, rfl⟩ := h) <;>
    (try obtain ⟨x1, _, rfl, h1, x2, _, rfl, h2, x3, _, rfl, h3, x4, _, rfl, h4, rfl⟩ := h) <;>
    rcases hk' with e | e | e | e <;> subst e <;> first | exact absurd rfl hne | simp [after, *]

theorem eq_no_key {key x : Str} {c : Char} (hk : key ∈ keys) (hc : c.toLower = '=') : litNC key (c :: x) = none := by
  rw [litNC_of_skip (skip_cons (nonspace_of_lower hc (by decide)))]
  simp only [keys, visKey, typeKey, tagKey, nameKey, List.mem_cons, List.not_mem_nil, or_false] at hk
  rcases hk with e | e | e | e <;> subst e <;> exact after_head (by rw [hc]; decide)

theorem keyAt_skip {key w0 k x : Str} (hk : key ∈ keys) (h1 : Sp w0) (h2 : NC key k) : skip (w0 ++ (k ++ x)) = k ++ x := by
  rw [skip_sp h1]
  obtain ⟨c, b', e, hc, _⟩ := key_head (x := x) hk h2
  rw [e, skip_cons hc]

theorem keyed_fail {α : Type} {key s : Str} {p : Str → R α} (h : litNC key s = none) : keyed key p s = .fail := by
  unfold keyed; rw [h]

theorem keyAt_other {key key' b : Str} (hk : key ∈ keys) (hk' : key' ∈ keys) (hne : key' ≠ key) (h : KeyAt key b) :
    litNC key' b = none := by
  obtain ⟨w0, k, x, h1, h2, h3⟩ := h
  subst h3
  rw [litNC_of_skip (keyAt_skip hk h1 h2)]
  exact other_key hk hk' hne h2

/-- No operator before the attribute. -/
theorem no_op {key b u : Str} (hk : key ∈ keys) (hu : u ∈ opTexts) (h : KeyAt key b) : after Char.toLower u (skip b) = none := by
  obtain ⟨w0, k, x, h1, h2, h3⟩ := h
  subst h3
  rw [keyAt_skip hk h1 h2]
  obtain ⟨c, b', e, _, hc⟩ := key_head (x := x) hk h2
  rw [e]
  simp only [List.mem_cons, List.not_mem_nil, or_false, not_or] at hc
  obtain ⟨c1, c2, c3, c4, c5, _⟩ := hc
  simp only [opTexts, List.mem_cons, List.not_mem_nil, or_false] at hu
  rcases hu with e | e | e | e | e | e | e <;> subst e <;> exact after_head (by assumption)

theorem op_match {key s b u s1 : Str} (hk : key ∈ keys) (ho : Opish s b) (hb : KeyAt key b) (hu : u ∈ opTexts)
    (h : litNC u s = some s1) : s1 = b ∨ ∃ x, x.toLower = '=' ∧ s1 = x :: b := by
  rcases ho with e | ⟨op, hop, t, ht, e⟩
  · rw [litNC_of_skip e, no_op hk hu hb] at h
    cases h
  · rw [litNC_of_skip e] at h
    rcases op_after hu hop ht (keyAt_head hk hb) h with k | k
    · exact Or.inl k.2
    · exact Or.inr k

theorem compare_fail {α β : Type} {p : Str → R α} {mk : β → α → Expr} {dflt : β} {s : Str} :
    ∀ {ops : List (Str × β)}, p s = .fail → (∀ u c, (u, c) ∈ ops → ∀ s1, litNC u s = some s1 → p s1 = .fail) →
      compare p mk dflt s ops = .fail := by
  intro ops
  induction ops with
  | nil => intro h _; unfold compare; rw [h]
  | cons o ops ih =>
    obtain ⟨u, c⟩ := o
    intro h ho
    have ih := ih h (fun u c hm => ho u c (List.mem_cons_of_mem _ hm))
    unfold compare
    cases hl : litNC u s with
    | none => exact ih
    | some s1 =>
      simp only []
      rw [ho u c List.mem_cons_self s1 hl]
      exact ih

theorem compare_ok {α β : Type} {p : Str → R α} {mk : β → α → Expr} {dflt : β} {s r op b : Str} {c : β} {x : α} :
    ∀ {ops : List (Str × β)}, (op, c) ∈ ops → (∀ c', (op, c') ∈ ops → c' = c) → litNC op s = some b → p b = .ok x r →
      (∀ u c, (u, c) ∈ ops → ∀ s1, litNC u s = some s1 → u = op ∨ p s1 = .fail) →
      compare p mk dflt s ops = .ok (mk c x) r := by
  intro ops
  induction ops with
  | nil => intro h; cases h
  | cons o ops ih =>
    obtain ⟨u, c'⟩ := o
    intro hm hf hl hp ho
    unfold compare
    by_cases hu : u = op
    · subst hu
      rw [hl]
      simp only [hp, hf c' List.mem_cons_self]
    · have hm' : (op, c) ∈ ops := by
        rcases List.mem_cons.mp hm with k | k
        · injection k with k1 _; exact absurd k1.symm hu
        · exact k
      have ih := ih hm' (fun c' h => hf c' (List.mem_cons_of_mem _ h)) hl hp (fun u c h => ho u c (List.mem_cons_of_mem _ h))
      cases hl' : litNC u s with
      | none => exact ih
      | some s1 =>
        simp only []
        rw [(ho u c' List.mem_cons_self s1 hl').resolve_left hu]
        exact ih

theorem compare_dflt {α β : Type} {p : Str → R α} {mk : β → α → Expr} {dflt : β} {s r : Str} {x : α} :
    ∀ {ops : List (Str × β)}, p s = .ok x r → (∀ u c, (u, c) ∈ ops → litNC u s = none) →
      compare p mk dflt s ops = .ok (mk dflt x) r := by
  intro ops
  induction ops with
  | nil => intro h _; unfold compare; rw [h]
  | cons o ops ih =>
    obtain ⟨u, c⟩ := o
    intro h ho
    unfold compare
    rw [ho u c List.mem_cons_self]
    exact ih h (fun u c hm => ho u c (List.mem_cons_of_mem _ hm))

/-- A comparison of another attribute does not match. -/
theorem var_fail {α β : Type} {key key' s b : Str} {p : Str → R α} {mk : β → α → Expr} {dflt : β} {ops : List (Str × β)}
    (hk : key ∈ keys) (hk' : key' ∈ keys) (hne : key' ≠ key) (ho : Opish s b) (hb : KeyAt key b)
    (hops : ∀ u c, (u, c) ∈ ops → u ∈ opTexts) : compare (keyed key' p) mk dflt s ops = .fail := by
  have hb' := keyAt_other hk hk' hne hb
  refine compare_fail ?_ (fun u c hm s1 hs => ?_)
  · rcases ho with e | ⟨op, hop, t, ht, e⟩
    · refine keyed_fail ?_
      rw [litNC_of_skip e]; exact hb'
    · refine keyed_fail ?_
      rw [litNC_of_skip e]
      simp only [opTexts, List.mem_cons, List.not_mem_nil, or_false] at hop
      simp only [keys, visKey, typeKey, tagKey, nameKey, List.mem_cons, List.not_mem_nil, or_false] at hk'
      rcases hop with e | e | e | e | e | e | e <;> subst e <;> obtain ⟨x, t', rfl, hx, _⟩ := nc_cons.mp ht <;>
        rcases hk' with e | e | e | e <;> subst e <;> exact after_head (by rw [hx]; decide)
  · rcases op_match hk ho hb (hops u c hm) hs with e | ⟨x, hx, e⟩
    · subst e; exact keyed_fail hb'
    · subst e; exact keyed_fail (eq_no_key hk' hx)

/-- A comparison of its attribute. -/
theorem var_ok {α β : Type} {key a b r : Str} {p : Str → R α} {mk : β → α → Expr} {dflt c : β} {ops : List (Str × β)} {x : α}
    (hk : key ∈ keys) (hc : CmpText ops dflt a c) (hb : KeyAt key b)
    (hops : ∀ u c, (u, c) ∈ ops → u ∈ opTexts) (hfun : ∀ u c c', (u, c) ∈ ops → (u, c') ∈ ops → c' = c)
    (hp : keyed key p b = .ok x r) : compare (keyed key p) mk dflt (a ++ b) ops = .ok (mk c x) r := by
  cases hc with
  | none =>
    refine compare_dflt hp (fun u c hm => ?_)
    show after Char.toLower u (skip b) = none
    exact no_op hk (hops u c hm) hb
  | some hw =>
    cases hw with
    | mk hw hn hm =>
      rename_i w op t
      have hop := hops _ _ hm
      have hskip : skip (w ++ t ++ b) = t ++ b := by
        rw [List.append_assoc]
        simp only [opTexts, List.mem_cons, List.not_mem_nil, or_false] at hop
        rcases hop with e | e | e | e | e | e | e <;> subst e <;> exact nc_skip hw hn (by decide)
      refine compare_ok hm (fun c' h => hfun _ _ _ hm h) ?_ hp (fun u c' hm' s1 hs => ?_)
      · rw [litNC_of_skip hskip]; exact after_append hn
      · rw [litNC_of_skip hskip] at hs
        rcases op_after (hops _ _ hm') hop hn (keyAt_head hk hb) hs with k | ⟨y, hy, e⟩
        · exact Or.inl k.1
        · subst e; exact Or.inr (keyed_fail (eq_no_key hk hy))

theorem cmp_opish {β : Type} {ops : List (Str × β)} {dflt c : β} {a b : Str} (hc : CmpText ops dflt a c)
    (hops : ∀ u c, (u, c) ∈ ops → u ∈ opTexts) : Opish (a ++ b) b := by
  cases hc with
  | none => exact Or.inl rfl
  | some hw =>
    cases hw with
    | mk hw hn hm =>
      rename_i w op t
      have hop := hops _ _ hm
      refine Or.inr ⟨op, hop, t, hn, ?_⟩
      rw [List.append_assoc]
      simp only [opTexts, List.mem_cons, List.not_mem_nil, or_false] at hop
      rcases hop with e | e | e | e | e | e | e <;> subst e <;> exact nc_skip hw hn (by decide)

end Sparta.TFilter
