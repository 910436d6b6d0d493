import Verif.TFilter.Spec
/-! # What the parser accepts is in the language -/
namespace Sparta.TFilter
open Lexical (Str)

theorem takeWhile_all (f : Char → Bool) : ∀ (s : Str), ∀ c ∈ s.takeWhile f, f c = true := by
  intro s
  induction s with
  | nil => intro c hc; cases hc
  | cons x s ih =>
    intro c hc
    rw [List.takeWhile_cons] at hc
    split at hc
    · rcases List.mem_cons.mp hc with k | k
      · rw [k]; assumption
      · exact ih c k
    · cases hc

theorem skip_split (s : Str) : ∃ w, Sp w ∧ s = w ++ skip s :=
  ⟨s.takeWhile isSpace, takeWhile_all isSpace s, (List.takeWhile_append_dropWhile).symm⟩

theorem after_sound {f : Char → Char} : ∀ {k s r : Str}, after f k s = some r → ∃ t, t.map f = k ∧ s = t ++ r := by
  intro k
  induction k with
  | nil => intro s r h; injection h with h; exact ⟨[], rfl, by rw [h]; rfl⟩
  | cons a k ih =>
    intro s r h
    cases s with
    | nil => cases h
    | cons c s =>
      unfold after at h
      split at h
      · rename_i hc
        obtain ⟨t, t1, t2⟩ := ih h
        exact ⟨c :: t, by rw [List.map_cons, hc, t1], by rw [t2]; rfl⟩
      · cases h

theorem lit_sound {k s r : Str} (h : lit k s = some r) : ∃ w, Sp w ∧ s = w ++ (k ++ r) := by
  obtain ⟨t, t1, t2⟩ := after_sound h
  obtain ⟨w, w1, w2⟩ := skip_split s
  rw [List.map_id] at t1
  exact ⟨w, w1, by rw [← t1, ← t2]; exact w2⟩

theorem litNC_sound {k s r : Str} (h : litNC k s = some r) : ∃ w t, Sp w ∧ NC k t ∧ s = w ++ (t ++ r) := by
  obtain ⟨t, t1, t2⟩ := after_sound h
  obtain ⟨w, w1, w2⟩ := skip_split s
  exact ⟨w, t, w1, t1, by rw [← t2]; exact w2⟩

theorem oneOf_sound {α : Type} {s r : Str} {x : α} : ∀ {ws : List (Str × α)}, oneOf s ws = some (x, r) →
    ∃ t, Word ws t x ∧ s = t ++ r := by
  intro ws
  induction ws with
  | nil => intro h; cases h
  | cons p ws ih =>
    obtain ⟨k, y⟩ := p
    intro h
    unfold oneOf at h
    split at h
    · rename_i r' hr
      injection h with h
      injection h with h1 h2
      subst h1; subst h2
      obtain ⟨w, t, w1, t1, e⟩ := litNC_sound hr
      exact ⟨w ++ t, .mk w1 t1 List.mem_cons_self, by rw [e, List.append_assoc]⟩
    · obtain ⟨t, ht, e⟩ := ih h
      refine ⟨t, ?_, e⟩
      cases ht with
      | mk a b c => exact .mk a b (List.mem_cons_of_mem _ c)

theorem compare_sound {α β : Type} {p : Str → R α} {mk : β → α → Expr} {dflt : β} {s r : Str} {e : Expr} :
    ∀ {ops : List (Str × β)}, compare p mk dflt s ops = .ok e r →
      ∃ a s1 c x, CmpText ops dflt a c ∧ s = a ++ s1 ∧ p s1 = .ok x r ∧ e = mk c x := by
  intro ops
  induction ops with
  | nil =>
    intro h
    unfold compare at h
    split at h
    · cases h
    · cases h
    · rename_i x r' hp
      injection h with h1 h2
      subst h1; subst h2
      exact ⟨[], s, dflt, x, .none, rfl, hp, rfl⟩
  | cons o ops ih =>
    obtain ⟨k, c⟩ := o
    intro h
    have lift : compare p mk dflt s ops = .ok e r →
        ∃ a s1 c' x, CmpText ((k, c) :: ops) dflt a c' ∧ s = a ++ s1 ∧ p s1 = .ok x r ∧ e = mk c' x := by
      intro h
      obtain ⟨a, s1, c', x, h1, h2, h3, h4⟩ := ih h
      refine ⟨a, s1, c', x, ?_, h2, h3, h4⟩
      cases h1 with
      | none => exact .none
      | some hw =>
        cases hw with
        | mk u v w => exact .some (.mk u v (List.mem_cons_of_mem _ w))
    unfold compare at h
    split at h
    · exact lift h
    · rename_i s1 hs
      split at h
      · exact lift h
      · cases h
      · rename_i x r' hp
        injection h with h1 h2
        subst h1; subst h2
        obtain ⟨w, t, w1, t1, e⟩ := litNC_sound hs
        exact ⟨w ++ t, s1, c, x, .some (.mk w1 t1 List.mem_cons_self), by rw [e, List.append_assoc], hp, rfl⟩

theorem keyed_sound {α : Type} {key : String} {p : Str → R α} {s r : Str} {x : α} {V : Str → Prop}
    (h : keyed key.toList p s = .ok x r) (hp : ∀ s, p s = .ok x r → ∃ v, V v ∧ s = v ++ r) :
    ∃ t, Attr key V t ∧ s = t ++ r := by
  unfold keyed at h
  split at h
  · cases h
  · rename_i s1 h1
    split at h
    · cases h
    · rename_i s2 h2
      obtain ⟨w0, k, a1, a2, a3⟩ := litNC_sound h1
      obtain ⟨w1, b1, b2⟩ := lit_sound h2
      obtain ⟨v, v1, v2⟩ := hp s2 h
      exact ⟨_, .mk a1 a2 b1 v1, by rw [a3, b2, v2]; simp⟩

theorem dropWhile_head (f : Char → Bool) : ∀ (s : Str) (c : Char) (r : Str), s.dropWhile f = c :: r → f c = false := by
  intro s
  induction s with
  | nil => intro c r h; cases h
  | cons x s ih =>
    intro c r h
    rw [List.dropWhile_cons] at h
    split at h
    · exact ih c r h
    · injection h with h1 h2
      subst h1
      simpa using ‹¬ f x = true›

theorem num_sound {s r : Str} {v : Nat} (h : num s = .ok v r) : ∃ t, NumText t v ∧ s = t ++ r := by
  unfold num at h
  simp only [] at h
  split at h
  · cases h
  · rename_i hne
    split at h
    · rename_i v' e he
      injection h with h1 h2
      subst h1; subst h2
      refine ⟨s.takeWhile (fun c => numChar c || isSpace c), ⟨fun c hc => ?_, hne, e, he⟩, (List.takeWhile_append_dropWhile).symm⟩
      have := takeWhile_all _ s c hc
      simpa using this
    · cases h

theorem visVal_sound {s r : Str} {v : Nat} (h : visVal s = .ok v r) :
    ∃ t, (Word visWordsDoc t v ∨ NumText t v) ∧ s = t ++ r := by
  unfold visVal at h
  split at h
  · rename_i x r' hx
    injection h with h1 h2
    subst h1; subst h2
    obtain ⟨t, t1, t2⟩ := oneOf_sound hx
    exact ⟨t, Or.inl t1, t2⟩
  · obtain ⟨t, t1, t2⟩ := num_sound h
    exact ⟨t, Or.inr t1, t2⟩

theorem after_prefix {f : Char → Char} : ∀ {a b s : Str}, after f a s = none → after f (a ++ b) s = none := by
  intro a
  induction a with
  | nil => intro b s h; cases h
  | cons x a ih =>
    intro b s h
    cases s with
    | nil => rfl
    | cons c s =>
      unfold after at h
      show after f (x :: (a ++ b)) (c :: s) = none
      unfold after
      split at h
      · rename_i hc; rw [if_pos hc]; exact ih h
      · rename_i hc; rw [if_neg hc]

theorem oneOf_cons_none {α : Type} {s k : Str} {x : α} {ws : List (Str × α)} (h : litNC k s = none) :
    oneOf s ((k, x) :: ws) = oneOf s ws := by
  show (match litNC k s with | some r => some (x, r) | none => oneOf s ws) = _
  rw [h]

theorem oneOf_cons_some {α : Type} {s k r : Str} {x : α} {ws : List (Str × α)} (h : litNC k s = some r) :
    oneOf s ((k, x) :: ws) = some (x, r) := by
  show (match litNC k s with | some r => some (x, r) | none => oneOf s ws) = _
  rw [h]

/-- The words `statisticdef` and `statdef` are never reached. -/
theorem typeWords_eq (s : Str) : oneOf s typeWords = oneOf s typeWordsOk := by
  have key : ∀ (k d : Str) (x : Kind) (ws ws' : List (Str × Kind)), oneOf s ws = oneOf s ws' →
      oneOf s ((k, x) :: (k ++ d, x) :: ws) = oneOf s ((k, x) :: ws') := by
    intro k d x ws ws' h
    cases hl : litNC k s with
    | some r => rw [oneOf_cons_some hl, oneOf_cons_some hl]
    | none => rw [oneOf_cons_none hl, oneOf_cons_none hl, oneOf_cons_none (after_prefix hl), h]
  exact key "statistic".toList "def".toList _ _ _ (key "stat".toList "def".toList _ _ _ rfl)

theorem typeVal_sound {s r : Str} {k : Kind} (h : typeVal s = .ok k r) : ∃ t, Word typeWordsOk t k ∧ s = t ++ r := by
  unfold typeVal at h
  rw [typeWords_eq] at h
  split at h
  · rename_i x r' hx
    injection h with h1 h2
    subst h1; subst h2
    exact oneOf_sound hx
  · cases h

/-- The text does not go on with a character of a pattern. -/
def Stops (o : Bool) (r : Str) : Prop := o = true → ∀ c r', r = c :: r' → patChar c = false

theorem pattern_sound {f : Char → Bool} {s r p : Str} (h : pattern f s = .ok p r) :
    ∃ w, Sp w ∧ s = w ++ (p ++ r) ∧ p ≠ [] ∧ (∀ c ∈ p, f c = true) ∧ (∀ c r', r = c :: r' → f c = false)
      ∧ ∀ c r', p = c :: r' → isSpace c = false := by
  obtain ⟨w, w1, w2⟩ := skip_split s
  unfold pattern at h
  split at h
  · cases h
  · rename_i c t hct
    injection h with h1 h2
    subst h1; subst h2
    refine ⟨w, w1, ?_, by simp, ?_, fun x r' hx => dropWhile_head f _ x r' hx, fun x r' hx => ?_⟩
    · rw [← hct, List.takeWhile_append_dropWhile]; exact w2
    · rw [← hct]; exact takeWhile_all f _
    · injection hx with hx _
      subst hx
      cases hsk : skip s with
      | nil => rw [hsk] at hct; cases hct
      | cons y l =>
        rw [hsk, List.takeWhile_cons] at hct
        split at hct
        · injection hct with e1 _
          subst e1
          exact dropWhile_head isSpace s y l hsk
        · cases hct

theorem quoted_sound {q : Char} {f : Char → Bool} {s r p : Str} (h : quoted q f s = .ok p r) :
    ∃ t, Quoted q f t p ∧ s = t ++ r := by
  unfold quoted at h
  split at h
  · cases h
  · rename_i s1 h1
    split at h
    · rename_i t s2 h2
      split at h
      · cases h
      · rename_i s3 h3
        injection h with e1 e2
        subst e1; subst e2
        obtain ⟨w0, a1, a2⟩ := lit_sound h1
        obtain ⟨w1, b1, b2, b3, b4, b5, b6⟩ := pattern_sound h2
        obtain ⟨w2, c1, c2⟩ := lit_sound h3
        cases t with
        | nil => exact absurd rfl b3
        | cons c t =>
          refine ⟨_, .mk a1 b1 c1 (b6 c t rfl) b4 (fun x r' hx => b5 x (r' ++ q :: s3) ?_), ?_⟩
          · rw [c2, hx]; rfl
          · rw [a2, b2, c2]; simp
    · cases h

theorem textVal_sound {s r p : Str} (h : textVal s = .ok p r) : ∃ o t, TextVal o t p ∧ s = t ++ r ∧ Stops o r := by
  unfold textVal at h
  split at h
  · rename_i t r' hp
    injection h with e1 e2
    subst e1; subst e2
    obtain ⟨w, a1, a2, a3, a4, a5, _⟩ := pattern_sound hp
    exact ⟨true, w ++ t, .plain a1 a3 a4, by rw [a2, List.append_assoc], fun _ => a5⟩
  · split at h
    · rename_i t r' hp
      injection h with e1 e2
      subst e1; subst e2
      obtain ⟨u, u1, u2⟩ := quoted_sound hp
      exact ⟨false, u, .dq u1, u2, fun k => by cases k⟩
    · obtain ⟨u, u1, u2⟩ := quoted_sound h
      exact ⟨false, u, .sq u1, u2, fun k => by cases k⟩

theorem mem_visOps {k : Str} {c : VisCmp} (h : (k, c) ∈ visOps) : (k, c) ∈ visOpsDoc := h
theorem mem_textOps {k : Str} {c : TextCmp} (h : (k, c) ∈ textOps) : (k, c) ∈ textOpsDoc := h

/-- What a parser accepts is a text of its level. -/
def Snd (l : Lvl) (p : Str → R Expr) : Prop :=
  ∀ s e r, p s = .ok e r → ∃ o t, Der l o t e ∧ s = t ++ r ∧ Stops o r

theorem visExpr_sound : Snd .comp visExpr := by
  intro s e r h
  obtain ⟨a, s1, c, x, h1, h2, h3, h4⟩ := compare_sound h
  obtain ⟨t, t1, t2⟩ := keyed_sound (key := "vis") (V := fun t => Word visWordsDoc t x ∨ NumText t x) h3 (fun _ k => visVal_sound k)
  exact ⟨false, a ++ t, h4 ▸ .leaf (.vis h1 t1), by rw [h2, t2, List.append_assoc], fun k => by cases k⟩

theorem typeExpr_sound : Snd .comp typeExpr := by
  intro s e r h
  obtain ⟨a, s1, c, x, h1, h2, h3, h4⟩ := compare_sound h
  obtain ⟨t, t1, t2⟩ := keyed_sound (key := "type") (V := fun t => Word typeWordsOk t x) h3 (fun _ k => typeVal_sound k)
  exact ⟨false, a ++ t, h4 ▸ .leaf (.type h1 t1), by rw [h2, t2, List.append_assoc], fun k => by cases k⟩

/-- The value of an attribute with a text, with what it tells about the end. -/
theorem keyed_text {key : String} {s r p : Str} (h : keyed key.toList textVal s = .ok p r) :
    ∃ o t, Attr key (fun t => TextVal o t p) t ∧ s = t ++ r ∧ Stops o r := by
  unfold keyed at h
  split at h
  · cases h
  · rename_i s1 h1
    split at h
    · cases h
    · rename_i s2 h2
      obtain ⟨w0, k, a1, a2, a3⟩ := litNC_sound h1
      obtain ⟨w1, b1, b2⟩ := lit_sound h2
      obtain ⟨o, v, v1, v2, v3⟩ := textVal_sound h
      exact ⟨o, _, .mk a1 a2 b1 v1, by rw [a3, b2, v2]; simp, v3⟩

theorem tagExpr_sound : Snd .comp tagExpr := by
  intro s e r h
  obtain ⟨a, s1, c, x, h1, h2, h3, h4⟩ := compare_sound h
  obtain ⟨o, t, t1, t2, t3⟩ := keyed_text (key := "tag") h3
  exact ⟨o, a ++ t, h4 ▸ .leaf (.tag h1 t1), by rw [h2, t2, List.append_assoc], t3⟩

theorem nameExpr_sound : Snd .comp nameExpr := by
  intro s e r h
  obtain ⟨a, s1, c, x, h1, h2, h3, h4⟩ := compare_sound h
  obtain ⟨o, t, t1, t2, t3⟩ := keyed_text (key := "name") h3
  exact ⟨o, a ++ t, h4 ▸ .leaf (.name h1 t1), by rw [h2, t2, List.append_assoc], t3⟩

/-- Before a character of a pattern, an open text needs white space. -/
theorem gap_of_stops {o : Bool} {w r : Str} {c : Char} (h : Stops o (w ++ (c :: r))) (hc : patChar c = true) : Gap o w := by
  intro ho hw
  subst hw
  have := h ho c r rfl
  rw [hc] at this
  cases this

theorem primary_sound {top : Str → R Expr} (ht : Snd .xor top) : Snd .comp (primary top) := by
  intro s e r h
  have alt2 : (match oneOf s constWords with
      | some (b, r) => R.ok (.const b) r
      | none => .fail) = R.ok e r → ∃ o t, Der .comp o t e ∧ s = t ++ r ∧ Stops o r := by
    intro h
    split at h
    · rename_i b r' hb
      injection h with e1 e2
      subst e1; subst e2
      obtain ⟨t, t1, t2⟩ := oneOf_sound hb
      exact ⟨false, t, .leaf (.const t1), t2, fun k => by cases k⟩
    · cases h
  unfold primary at h
  simp only [] at h
  split at h
  · exact alt2 h
  · rename_i s1 h1
    split at h
    · exact alt2 h
    · cases h
    · rename_i e' s2 h2
      split at h
      · exact alt2 h
      · rename_i s3 h3
        injection h with e1 e2
        subst e1; subst e2
        obtain ⟨w0, a1, a2⟩ := lit_sound h1
        obtain ⟨o, t, b1, b2, b3⟩ := ht _ _ _ h2
        obtain ⟨w, c1, c2⟩ := lit_sound h3
        refine ⟨false, _, .paren a1 b1 c1 (gap_of_stops (c := ')') (r := s3) ?_ (by decide)), ?_, fun k => by cases k⟩
        · rw [c2] at b3; exact b3
        · rw [a2, b2, c2]; simp

theorem orElse_sound {l : Lvl} {p q : Str → R Expr} (hp : Snd l p) (hq : Snd l q) : Snd l (orElse p q) := by
  intro s e r h
  unfold orElse at h
  split at h
  · exact hq s e r h
  · exact hp s e r h

theorem comp_sound {top : Str → R Expr} (ht : Snd .xor top) : Snd .comp (comp top) :=
  orElse_sound visExpr_sound (orElse_sound typeExpr_sound (orElse_sound tagExpr_sound
    (orElse_sound nameExpr_sound (primary_sound ht))))

theorem inversion_sound {top : Str → R Expr} (ht : Snd .xor top) : Snd .inv (inversion top) := by
  have hc := comp_sound ht
  refine orElse_sound ?_ (orElse_sound ?_ ?_)
  · intro s e r h
    unfold inverted at h
    split at h
    · cases h
    · rename_i s1 h1
      split at h
      · rename_i e' r' h2
        injection h with e1 e2
        subst e1; subst e2
        obtain ⟨w, a1, a2⟩ := lit_sound h1
        obtain ⟨o, t, b1, b2, b3⟩ := hc _ _ _ h2
        exact ⟨o, _, .bang a1 b1, by rw [a2, b2]; simp, b3⟩
      · cases h
      · cases h
  · intro s e r h
    unfold inverted at h
    split at h
    · cases h
    · rename_i s1 h1
      split at h
      · rename_i e' r' h2
        injection h with e1 e2
        subst e1; subst e2
        obtain ⟨w, a1, a2⟩ := lit_sound h1
        obtain ⟨o, t, b1, b2, b3⟩ := hc _ _ _ h2
        exact ⟨o, _, .not a1 b1, by rw [a2, b2]; simp, b3⟩
      · cases h
      · cases h
  · intro s e r h
    obtain ⟨o, t, b1, b2, b3⟩ := hc _ _ _ h
    exact ⟨o, t, .plain b1, b2, b3⟩

/-- A level of operators. -/
theorem level_sound {l l' : Lvl} {k : Str} {op : Op} {sub : Str → R Expr} (hs : Snd l sub)
    (one : ∀ {o s e}, Der l o s e → Der l' o s e)
    (more : ∀ {o1 o2 s1 w s2 a b r}, Der l' o1 s1 a → Stops o1 (w ++ (k ++ r)) → Sp w → Der l o2 s2 b →
      Der l' o2 (s1 ++ (w ++ (k ++ s2))) (.bin op a b)) : Snd l' (level k op sub) := by
  have hch : ∀ (n : Nat) (v : Expr) (s : Str) (e : Expr) (r : Str), chain k op sub n v s = .ok e r →
      ∀ o t, Der l' o t v → Stops o s → ∃ o' t', Der l' o' t' e ∧ t ++ s = t' ++ r ∧ Stops o' r := by
    intro n
    induction n with
    | zero =>
      intro v s e r h o t hd hst
      unfold chain at h
      injection h with e1 e2
      subst e1; subst e2
      exact ⟨o, t, hd, rfl, hst⟩
    | succ n ih =>
      intro v s e r h o t hd hst
      unfold chain at h
      split at h
      · injection h with e1 e2
        subst e1; subst e2
        exact ⟨o, t, hd, rfl, hst⟩
      · rename_i s1 h1
        split at h
        · injection h with e1 e2
          subst e1; subst e2
          exact ⟨o, t, hd, rfl, hst⟩
        · cases h
        · rename_i e' r' h2
          obtain ⟨w, a1, a2⟩ := lit_sound h1
          obtain ⟨o2, t2, b1, b2, b3⟩ := hs _ _ _ h2
          rw [a2] at hst
          obtain ⟨o', t', c1, c2, c3⟩ := ih _ _ _ _ h _ _ (more hd hst a1 b1) b3
          refine ⟨o', t', c1, ?_, c3⟩
          rw [← c2, a2, b2]
          simp
  intro s e r h
  unfold level at h
  split at h
  · rename_i e' r' h1
    obtain ⟨o, t, b1, b2, b3⟩ := hs _ _ _ h1
    obtain ⟨o', t', c1, c2, c3⟩ := hch _ _ _ _ _ h _ _ (one b1) b3
    exact ⟨o', t', c1, by rw [b2]; exact c2, c3⟩
  · cases h
  · cases h

theorem xorLevel_sound {top : Str → R Expr} (ht : Snd .xor top) : Snd .xor (xorLevel top) := by
  refine level_sound (l := .or) ?_ .xor1 (fun h1 h2 h3 h4 => .xor2 h1 h3 (gap_of_stops h2 (by decide)) h4)
  refine level_sound (l := .and) ?_ .or1 (fun h1 _ h3 h4 => .or2 h1 h3 h4)
  exact level_sound (l := .inv) (inversion_sound ht) .and1 (fun h1 _ h3 h4 => .and2 h1 h3 h4)

theorem top_sound : ∀ n, Snd .xor (top n) := by
  intro n
  induction n with
  | zero => intro s e r h; cases h
  | succ n ih => exact xorLevel_sound ih

theorem sp_of_skip {r : Str} (h : skip r = []) : Sp r := by
  obtain ⟨w, w1, w2⟩ := skip_split r
  rw [h, List.append_nil] at w2
  rw [w2]; exact w1

theorem parse_sound {s : Str} {e : Expr} (h : parse s = some e) : Text s e := by
  unfold parse at h
  split at h
  · rename_i e' r hr
    split at h
    · rename_i hsk
      injection h with h
      subst h
      obtain ⟨o, t, a, b, _⟩ := top_sound _ _ _ _ hr
      exact ⟨o, t, r, a, sp_of_skip hsk, b⟩
    · cases h
  · cases h

end Sparta.TFilter
