import Verif.TFilter.Levels
import Verif.Lexical.Props
/-! # Properties of tree filter expressions -/
namespace Sparta.TFilter
open Lexical (Str)

/-! ## C217: the language -/

/-- C217: the parser accepts exactly the texts of the grammar, with the meaning the grammar gives them. -/
theorem C217_grammar (s : Str) (e : Expr) : parse s = some e ↔ Text s e := ⟨parse_sound, parse_complete⟩

/-- C217: a text has one meaning. -/
theorem C217_unique (s : Str) (e e' : Expr) (h : Text s e) (h' : Text s e') : e = e' := by
  have a := parse_complete h
  rw [parse_complete h'] at a
  injection a with a
  exact a.symm

example : parse "(not regex tag:.*buz.* ) && regex tag:fiz.+".toList =
    some (.bin .and (.not (.tag .rem ".*buz.*".toList)) (.tag .rem "fiz.+".toList)) := by decide +kernel
example : parse "!= Type : Counter||vis:normal &&name:'a b'".toList =
    some (.bin .or (.type .ne .counter) (.bin .and (.vis .eq 100000000) (.name .eq "a b".toList))) := by decide +kernel

/-- How an operator is written. -/
def Op.text : Op → Str
  | .xor => " ^^ ".toList
  | .or => " || ".toList
  | .and => " && ".toList
/-- How tightly an operator binds. -/
def Op.rank : Op → Nat
  | .xor => 0
  | .or => 1
  | .and => 2

theorem sp_blank : Sp [' '] := by
  intro c hc
  rw [List.mem_singleton] at hc
  subst hc; rfl

theorem der_blank {l : Lvl} {o : Bool} {s : Str} {e : Expr} (h : Der l o s e) : Der l o (' ' :: s) e := by
  have sp : ∀ {w : Str}, Sp w → Sp (' ' :: w) := fun hw c hc => by
    rcases List.mem_cons.mp hc with k | k
    · subst k; rfl
    · exact hw c k
  have hattr : ∀ {key V b}, Attr key V b → Attr key V (' ' :: b) := fun h => by
    cases h with | mk h0 h1 h2 h3 => exact .mk (sp h0) h1 h2 h3
  have hword : ∀ {α : Type} {ws : List (Str × α)} {t x}, Word ws t x → Word ws (' ' :: t) x := fun h => by
    cases h with | mk h0 h1 h2 => exact .mk (sp h0) h1 h2
  induction h with
  | leaf h =>
    cases h with
    | vis hc hb =>
      cases hc with
      | none => exact .leaf (.vis (a := []) .none (hattr hb))
      | some hw => exact .leaf (.vis (.some (hword hw)) hb)
    | type hc hb =>
      cases hc with
      | none => exact .leaf (.type (a := []) .none (hattr hb))
      | some hw => exact .leaf (.type (.some (hword hw)) hb)
    | tag hc hb =>
      cases hc with
      | none => exact .leaf (.tag (a := []) .none (hattr hb))
      | some hw => exact .leaf (.tag (.some (hword hw)) hb)
    | name hc hb =>
      cases hc with
      | none => exact .leaf (.name (a := []) .none (hattr hb))
      | some hw => exact .leaf (.name (.some (hword hw)) hb)
    | const hw => exact .leaf (.const (hword hw))
  | paren h0 h1 h2 h3 => exact .paren (sp h0) h1 h2 h3
  | plain _ ih => exact .plain ih
  | bang h0 h1 => exact .bang (sp h0) h1
  | not h0 h1 => exact .not (sp h0) h1
  | and1 _ ih => exact .and1 ih
  | and2 _ h2 h3 ih _ => exact .and2 ih h2 h3
  | or1 _ ih => exact .or1 ih
  | or2 _ h2 h3 ih _ => exact .or2 ih h2 h3
  | xor1 _ ih => exact .xor1 ih
  | xor2 _ h2 h3 h4 ih _ => exact .xor2 ih h2 h3 h4

/-- C217: `&&` binds more tightly than `||`, that more than `^^`; all of them associate to the left. -/
theorem C217_precedence (p q : Op) (a b c : Str) (x y z : Expr) (o1 o2 o3 : Bool) (ha : Der .inv o1 a x) (hb : Der .inv o2 b y)
    (hc : Der .inv o3 c z) : parse (a ++ (p.text ++ (b ++ (q.text ++ c)))) =
      some (if p.rank < q.rank then .bin p x (.bin q y z) else .bin q (.bin p x y) z) := by
  refine parse_complete ⟨o3, _, [], ?_, fun _ h => (by cases h), (List.append_nil _).symm⟩
  have hb := der_blank hb
  have hc := der_blank hc
  have g : ∀ {o}, Gap o [' '] := fun {_} _ h => by cases h
  have sp := sp_blank
  have cat : ∀ (u : Char) (t : Str), a ++ ([' ', u, u, ' '] ++ t) = a ++ ([' '] ++ u :: u :: (' ' :: t)) := fun _ _ => by simp
  cases p <;> cases q
  · have := Der.xor2 (.xor2 (.xor1 (.or1 (.and1 ha))) sp g (.or1 (.and1 hb))) sp g (.or1 (.and1 hc))
    simpa [Op.text, Op.rank] using this
  · have := Der.xor2 (.xor1 (.or1 (.and1 ha))) sp g (.or2 (.or1 (.and1 hb)) sp (.and1 hc))
    simpa [Op.text, Op.rank] using this
  · have := Der.xor2 (.xor1 (.or1 (.and1 ha))) sp g (.or1 (.and2 (.and1 hb) sp hc))
    simpa [Op.text, Op.rank] using this
  · have := Der.xor2 (.xor1 (.or2 (.or1 (.and1 ha)) sp (.and1 hb))) sp g (.or1 (.and1 hc))
    simpa [Op.text, Op.rank] using this
  · have := Der.xor1 (.or2 (.or2 (.or1 (.and1 ha)) sp (.and1 hb)) sp (.and1 hc))
    simpa [Op.text, Op.rank] using this
  · have := Der.xor1 (.or2 (.or1 (.and1 ha)) sp (.and2 (.and1 hb) sp hc))
    simpa [Op.text, Op.rank] using this
  · have := Der.xor2 (.xor1 (.or1 (.and2 (.and1 ha) sp hb))) sp g (.or1 (.and1 hc))
    simpa [Op.text, Op.rank] using this
  · have := Der.xor1 (.or2 (.or1 (.and2 (.and1 ha) sp hb)) sp (.and1 hc))
    simpa [Op.text, Op.rank] using this
  · have := Der.xor1 (.or1 (.and2 (.and2 (.and1 ha) sp hb) sp hc))
    simpa [Op.text, Op.rank] using this

example : Der .inv false "!true".toList (.not (.const true)) :=
  .bang (w := []) (fun _ h => (by cases h)) (.leaf (.const (.mk (w := []) (k := "true".toList) (fun _ h => (by cases h)) (by unfold NC; decide) (by decide))))
example : parse "true ^^ false || !true && not(false)".toList =
    some (.bin .xor (.const true) (.bin .or (.const false) (.bin .and (.not (.const true)) (.not (.const false))))) := by decide +kernel

/-- C217: characters accepted without quotes, and with each kind of quotes. -/
theorem C217_characters (c : Char) :
    (patChar c = true ↔ ('0' ≤ c ∧ c ≤ '9') ∨ ('A' ≤ c ∧ c ≤ 'Z') ∨ ('a' ≤ c ∧ c ≤ 'z') ∨
      c ∈ ['\\', '.', '_', '[', ']', '+', '(', ')', '$', '^', '?', '*']) ∧
    (dqChar c = true ↔ patChar c = true ∨ c = ' ' ∨ c = '\'') ∧
    (sqChar c = true ↔ patChar c = true ∨ c = ' ' ∨ c = '"') := by
  refine ⟨?_, ?_, ?_⟩
  · unfold patChar Char.isAlphanum Char.isAlpha Char.isUpper Char.isLower Char.isDigit
    simp only [show "\\._[]+()$^?*".toList = ['\\', '.', '_', '[', ']', '+', '(', ')', '$', '^', '?', '*'] from rfl,
      Bool.or_eq_true, List.contains_eq_mem, decide_eq_true_eq, Bool.and_eq_true, Char.le_def]
    constructor
    · rintro (((h | h) | h) | h)
      · exact Or.inr (Or.inl h)
      · exact Or.inr (Or.inr (Or.inl h))
      · exact Or.inl h
      · exact Or.inr (Or.inr (Or.inr h))
    · rintro (h | h | h | h)
      · exact Or.inl (Or.inr h)
      · exact Or.inl (Or.inl (Or.inl h))
      · exact Or.inl (Or.inl (Or.inr h))
      · exact Or.inr h
  · simp [dqChar, or_assoc]
  · simp [sqChar, or_assoc]

example : patChar '5' = true ∧ patChar '-' = false ∧ dqChar ' ' = true ∧ sqChar '"' = true ∧ dqChar '"' = false := by decide

/-- C217: a decimal number without leading zero stands for its value. -/
theorem C217_decimal (s : Str) (hs : ∀ c ∈ s, Lexical.isDigit 10 c) (hne : s ≠ []) (h0 : s.head? ≠ some '0') (hv : Lexical.val 10 s < 2 ^ 64) :
    parse ("vis:".toList ++ s) = some (.vis .eq (Lexical.val 10 s)) := by
  have sep : ∀ c ∈ s, ¬ Lexical.isSep c := fun c hc => (Lexical.digit_ne_dot (hs c hc)).2
  have dg : Lexical.digitsOf s = s := by
    unfold Lexical.digitsOf
    rw [List.filter_eq_self]
    intro c hc
    simp [sep c hc]
  have dn : Lexical.digitsOf [] = [] := rfl
  have vn : Lexical.val 10 [] = 0 := rfl
  have hnum : ∀ c ∈ s, numChar c = true := by
    intro c hc
    have := Lexical.dec_mem (hs c hc)
    unfold numChar
    rw [List.contains_iff_mem]
    exact (by decide : ∀ x ∈ Lexical.decimalDigits, x ∈ "0123456789.xXbBkKmMgGtTpPiInN".toList) c this
  have hf : s.filter numChar = s := List.filter_eq_self.mpr hnum
  have hsm := Lexical.C40_decimal_partial [⟨s, [], []⟩] [] ⟨by simpa using fun c hc => Or.inl (hs c hc), fun _ => by rw [dg]; exact hne,
    fun h => absurd rfl h, rfl, Nat.one_dvd _⟩ (by
      intro n hn
      rw [List.mem_singleton] at hn
      subst hn
      exact ⟨by simp [Lexical.digitsOf], by simp [Lexical.digitsOf]⟩) (fun _ h => (by cases h)) (Or.inl rfl) (by
      refine Or.inl ?_
      cases s with
      | nil => exact absurd rfl hne
      | cons c s =>
        simp only [Lexical.texts, Lexical.Num.text, List.flatMap_cons, List.flatMap_nil, if_true, List.append_nil, List.cons_append]
        rw [List.dropWhile_cons, if_neg (by simp [sep c List.mem_cons_self])]
        exact h0) (by simpa [Lexical.total, Lexical.Num.value, dg, dn, vn, Lexical.unitVal] using hv)
  refine parse_complete ⟨false, _, [], .xor1 (.or1 (.and1 (.plain (.leaf (.vis (a := []) .none
    (.mk (w0 := []) (k := "vis".toList) (w1 := []) (v := s) (fun _ h => (by cases h)) (by unfold NC; decide) (fun _ h => (by cases h)) (Or.inr ?_))))))),
    fun _ h => (by cases h), (List.append_nil _).symm⟩
  refine ⟨fun c hc => Or.inl (hnum c hc), by rw [hf]; exact hne, none, ?_⟩
  rw [hf]
  simpa [Lexical.texts, Lexical.Num.text, Lexical.total, Lexical.Num.value, dg, dn, vn, Lexical.unitVal] using hsm

example : parse "vis:1234567".toList = some (.vis .eq 1234567) := by decide +kernel

/-- C217: the words `statdef` and `statisticdef` of the documented grammar are never accepted, since a prefix of each is
accepted before it. -/
theorem C217_statdef_violated : parse "type:statdef".toList = none ∧ parse "type:statisticdef".toList = none ∧
    parse "type:stat".toList = some (.type .eq .statisticdef) := by decide +kernel

/-- C217: a pattern without quotes takes a parenthesis or a `^^` that follows it. -/
theorem C217_pattern_violated : parse "(tag:foo)".toList = none ∧ parse "(tag:foo )".toList = some (.tag .eq "foo".toList) ∧
    parse "name:a^^name:b".toList = none ∧
    parse "name:a&&name:b".toList = some (.bin .and (.name .eq "a".toList) (.name .eq "b".toList)) := by decide +kernel

/-- C217: `-` is listed among the characters of patterns but is not accepted, with quotes or without. -/
theorem C217_hyphen_violated : parse "name:a-b".toList = none ∧ parse "name:\"a-b\"".toList = none := by decide +kernel

/-- C217: numbers: blanks inside are dropped, a leading zero means octal, hexadecimal digits are not accepted. -/
theorem C217_number_violated : parse "vis:1 0 k".toList = some (.vis .eq 10000) ∧ parse "vis:010".toList = some (.vis .eq 8) ∧
    parse "vis:0xff".toList = none ∧ parse "vis:0x11".toList = some (.vis .eq 17) := by decide +kernel

/-- C217: blanks after an opening quote are not part of the pattern. -/
theorem C217_quoted_violated : parse "name:\"  a b \"".toList = some (.name .eq "a b ".toList) := by decide +kernel

/-- C217: an inversion cannot be inverted, and `not` is not accepted in capitals, unlike all other words. -/
theorem C217_not_violated : parse "not not true".toList = none ∧ parse "!!true".toList = none ∧ parse "NOT true".toList = none ∧
    parse "not(not TRUE)".toList = some (.not (.not (.const true))) := by decide +kernel

/-! ## C218: evaluation -/

theorem holds_tag (rx : Rx) (n : Node) (c : TextCmp) (p : Str) : tagLoop rx c p n.tags = true ↔ Holds rx n (.tag c p) := by
  unfold Holds
  generalize n.tags = ts
  induction ts with
  | nil => cases c <;> simp [tagLoop]
  | cons t ts ih =>
    cases c
    · unfold tagLoop
      by_cases h : t = p
      · simp [h]
      · simp only [if_neg h] at ih ⊢
        rw [ih]
        simp only [List.mem_cons]
        exact ⟨Or.inr, fun k => k.elim (fun k => absurd k.symm h) id⟩
    · unfold tagLoop
      by_cases h : t = p
      · simp [h]
      · simp only [if_neg h] at ih ⊢
        rw [ih]
        simp only [List.mem_cons, not_or]
        exact ⟨fun k => ⟨fun e => h e.symm, k⟩, fun k => k.2⟩
    · unfold tagLoop
      by_cases h : rx.isMatch p t = true
      · simp [h]
      · simp only [if_neg h] at ih ⊢
        rw [ih]
        simp only [List.mem_cons, exists_eq_or_imp]
        exact ⟨Or.inr, fun k => k.elim (fun k => absurd k h) id⟩

/-- C218: if every pattern is a regular expression, evaluating tells whether the node fits. -/
theorem C218_holds (rx : Rx) (n : Node) (e : Expr) (hw : e.whole) (hp : ∀ p ∈ e.patterns, rx.compiles p = true) :
    ∃ v, valid rx n e = .ok v ∧ (v = true ↔ Holds rx n e) := by
  induction e with
  | const b => exact ⟨b, rfl, Iff.rfl⟩
  | vis c v =>
    refine ⟨_, rfl, ?_⟩
    unfold evalVis Holds
    cases h : n.instr with
    | none => simp
    | some i =>
      obtain ⟨nv, k⟩ := i
      cases c <;> simp
  | type c k =>
    refine ⟨_, rfl, ?_⟩
    unfold evalType Holds
    cases h : n.instr with
    | none => simp
    | some i =>
      obtain ⟨nv, k⟩ := i
      cases c
      · simp
      · exact ⟨fun hh => ⟨nv, k, rfl, of_decide_eq_true hh⟩, fun ⟨_, _, he, hh⟩ => by cases he; exact decide_eq_true hh⟩
  | tag c p =>
    refine ⟨_, ?_, holds_tag rx n c p⟩
    show evalTag rx n c p = _
    unfold evalTag
    rw [if_pos (hp p List.mem_cons_self)]
  | name c p =>
    refine ⟨_, by show evalName rx n c p = _; unfold evalName; rw [if_pos (hp p List.mem_cons_self)], ?_⟩
    unfold Holds
    cases c <;> simp
  | not a ih =>
    obtain ⟨v, h1, h2⟩ := ih hw hp
    refine ⟨!v, by unfold valid; rw [h1], ?_⟩
    unfold Holds
    rw [← h2]
    cases v <;> simp
  | bin op a b iha ihb =>
    obtain ⟨v, h1, h2⟩ := iha hw.1 (fun p hm => hp p (List.mem_append_left _ hm))
    obtain ⟨u, k1, k2⟩ := ihb hw.2 (fun p hm => hp p (List.mem_append_right _ hm))
    refine ⟨_, by unfold valid; rw [h1, k1], ?_⟩
    cases op <;> unfold Holds <;> rw [← h2, ← k2] <;> cases v <;> cases u <;> simp
  | short op a => exact absurd hw (by unfold Expr.whole; simp)

/-- C218: evaluating throws if and only if some pattern is no regular expression, even if the pattern is only compared
for equality and even if the other operand of its operation would decide. -/
theorem C218_throws (rx : Rx) (n : Node) (e : Expr) (hw : e.whole) :
    valid rx n e = .error .regex ↔ ∃ p ∈ e.patterns, rx.compiles p = false := by
  have key : (∃ p ∈ e.patterns, rx.compiles p = false) → valid rx n e = .error .regex := by
    induction e with
    | const b => rintro ⟨p, hp, _⟩; cases hp
    | vis c v => rintro ⟨p, hp, _⟩; cases hp
    | type c k => rintro ⟨p, hp, _⟩; cases hp
    | tag c q =>
      rintro ⟨p, hp, hc⟩
      rw [List.mem_singleton.mp hp] at hc
      show evalTag rx n c q = _
      unfold evalTag
      rw [hc]; rfl
    | name c q =>
      rintro ⟨p, hp, hc⟩
      rw [List.mem_singleton.mp hp] at hc
      show evalName rx n c q = _
      unfold evalName
      rw [hc]; rfl
    | not a ih =>
      intro h
      unfold valid
      rw [ih hw h]
    | bin op a b iha ihb =>
      rintro ⟨p, hp, hc⟩
      by_cases ha : ∃ p ∈ a.patterns, rx.compiles p = false
      · unfold valid
        rw [iha hw.1 ha]
      · have hb : ∃ p ∈ b.patterns, rx.compiles p = false := by
          rcases List.mem_append.mp hp with k | k
          · exact absurd ⟨p, k, hc⟩ ha
          · exact ⟨p, k, hc⟩
        obtain ⟨v, h1, _⟩ := C218_holds rx n a hw.1 (fun p hm => by
          cases hq : rx.compiles p with
          | true => rfl
          | false => exact absurd ⟨p, hm, hq⟩ ha)
        unfold valid
        rw [h1, ihb hw.2 hb]
    | short op a => exact absurd hw (by unfold Expr.whole; simp)
  refine ⟨fun h => ?_, key⟩
  by_cases hx : ∃ p ∈ e.patterns, rx.compiles p = false
  · exact hx
  · obtain ⟨v, h1, _⟩ := C218_holds rx n e hw (fun p hm => by
      cases hq : rx.compiles p with
      | true => rfl
      | false => exact absurd ⟨p, hm, hq⟩ hx)
    rw [h1] at h
    cases h

theorem leaf_whole {o : Bool} {s : Str} {e : Expr} (h : Leaf o s e) : e.whole := by
  cases h <;> exact trivial

/-- C218: what the parser returns can be evaluated. -/
theorem C218_parsed (s : Str) (e : Expr) (h : parse s = some e) : e.whole := by
  obtain ⟨o, t, w, hd, _, _⟩ := parse_sound h
  clear h
  have : ∀ {l o s e}, Der l o s e → e.whole := by
    intro l o s e h
    induction h with
    | leaf h => exact leaf_whole h
    | paren _ _ _ _ ih => exact ih
    | plain _ ih => exact ih
    | bang _ _ ih => exact ih
    | not _ _ ih => exact ih
    | and1 _ ih => exact ih
    | and2 _ _ _ ih1 ih2 => exact ⟨ih1, ih2⟩
    | or1 _ ih => exact ih
    | or2 _ _ _ ih1 ih2 => exact ⟨ih1, ih2⟩
    | xor1 _ ih => exact ih
    | xor2 _ _ _ _ ih1 ih2 => exact ⟨ih1, ih2⟩
  exact this hd

/-- Patterns without `[` compile and match themselves. -/
def rx0 : Rx := ⟨fun p => !p.contains '[', fun p t => decide (p = t)⟩
example : ∃ e, parse "vis:normal ^^ tag:foo && ! name:bar".toList = some e ∧ e.whole ∧ (∀ p ∈ e.patterns, rx0.compiles p = true) ∧
    valid rx0 ⟨some (100000000, .counter), ["foo".toList], "bar".toList⟩ e = .ok true :=
  ⟨.bin .xor (.vis .eq 100000000) (.bin .and (.tag .eq "foo".toList) (.not (.name .eq "bar".toList))), by decide +kernel,
    ⟨trivial, trivial, trivial⟩, by decide +kernel, by decide +kernel⟩
example : ∃ e, parse "true || name:a[b".toList = some e ∧ valid rx0 ⟨none, [], "a[b".toList⟩ e = .error .regex :=
  ⟨.bin .or (.const true) (.name .eq "a[b".toList), by decide +kernel, by decide +kernel⟩

/-- C218: `!=` on visibilities and types is not the inversion of `==`: a node that is no instrumentation fits neither. -/
theorem C218_ne_violated (rx : Rx) (n : Node) (v : Nat) (k : Kind) (h : n.instr = none) :
    valid rx n (.vis .eq v) = .ok false ∧ valid rx n (.vis .ne v) = .ok false ∧
    valid rx n (.type .eq k) = .ok false ∧ valid rx n (.type .ne k) = .ok false := by
  simp [valid, evalVis, evalType, h]

example : (⟨none, [], "core0".toList⟩ : Node).instr = none := rfl

/-! ## C219: combining expressions -/

/-- C219: after `a op= b` or `a op b`, for two expressions, `a` is their combination and nothing else has changed. -/
theorem C219_combined (rx : Rx) (n : Node) (env : Nat → Expr) (op : Op) (a b : Nat) (hab : a ≠ b) (u v : Bool)
    (hu : valid rx n (env a) = .ok u) (hv : valid rx n (env b) = .ok v) :
    valid rx n (assignOp env op a b a) =
      .ok (match op with | .xor => decide (u ≠ v) | .or => decide (u = true ∨ v = true) | .and => decide (u = true ∧ v = true)) ∧
    ∀ c, c ≠ a → assignOp env op a b c = env c := by
  unfold assignOp
  rw [if_neg hab]
  refine ⟨?_, fun c hc => upd_other _ _ hc⟩
  rw [upd_same]
  unfold valid
  rw [hu, hv]
  cases op <;> cases u <;> cases v <;> rfl

/-- C219: after `!a`, `a` is inverted and nothing else has changed. -/
theorem C219_inverted (rx : Rx) (n : Node) (env : Nat → Expr) (a : Nat) (u : Bool) (hu : valid rx n (env a) = .ok u) :
    valid rx n (assignNot env a a) = .ok (!u) ∧ ∀ c, c ≠ a → assignNot env a c = env c := by
  unfold assignNot
  refine ⟨?_, fun c hc => upd_other _ _ hc⟩
  rw [upd_same]
  unfold valid
  rw [hu]

example : ∃ env : Nat → Expr, valid rx0 ⟨none, [], []⟩ (env 0) = .ok true ∧ valid rx0 ⟨none, [], []⟩ (env 1) = .ok false :=
  ⟨fun i => if i = 0 then .const true else .const false, by decide, by decide⟩

/-- C219: `a && b` and `!a`, which look like they leave `a` alone, change it. -/
theorem C219_operand_violated : ∃ env : Nat → Expr, valid rx0 ⟨none, [], []⟩ (env 0) = .ok true ∧
    valid rx0 ⟨none, [], []⟩ (assignOp env .and 0 1 0) = .ok false ∧ valid rx0 ⟨none, [], []⟩ (assignNot env 0 0) = .ok false :=
  ⟨fun i => if i = 0 then .const true else .const false, by decide, by decide, by decide⟩

/-- C219: an expression combined with itself cannot be evaluated any more. -/
theorem C219_self_violated (rx : Rx) (n : Node) (env : Nat → Expr) (op : Op) (a : Nat) (u : Bool)
    (hu : valid rx n (env a) = .ok u) : valid rx n (assignOp env op a a a) = .error .operands := by
  unfold assignOp
  rw [if_pos rfl, upd_same]
  unfold valid
  rw [hu]
  rfl

end Sparta.TFilter
