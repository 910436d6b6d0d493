import Verif.StHist.Spec
/-!
C244: a state histogram counts each cycle for the state it was spent in.
-/
namespace Sparta.StHist
open Sparta.Counter (Cyc word)

/-- what the bin of a value should hold: the ended cycles spent in it, and the current one once it is fixed -/
def Log.cnt (l : Log) (v : Nat) : Nat := l.past.count v + if l.fixed = some v then 1 else 0

/-- the counter of a value -/
structure BinOk (b : Cyc) (now : Nat) (l : Log) (v : Nat) : Prop where
  mult : b.mult = 1
  counting : b.counting = decide (v = l.cur)
  on : v = l.cur → ((b.start ≤ now ∧ l.fixed = none) ∨ (b.start = now + 1 ∧ l.fixed ≠ none)) ∧ b.count + (now - b.start) = l.cnt v
  off : v ≠ l.cur → b.count = l.cnt v

structure Ok (first last t0 : Nat) (h : Hist) (l : Log) : Prop where
  range : first + 2 ≤ last ∧ last ≤ 2 ^ 32
  lower : h.lower = first
  upper : h.upper = last - 1
  len : h.bins.length = last - first
  cur : h.cur = l.cur
  curLe : first ≤ l.cur ∧ l.cur < last
  now : h.now = t0 + l.past.length
  bins : ∀ (i : Nat) b, h.bins[i]? = some b → BinOk b h.now l (first + i)

theorem cnt_le (l : Log) (v : Nat) : l.cnt v ≤ l.past.length + 1 := by
  unfold Log.cnt
  have := List.count_le_length (a := v) (l := l.past)
  split <;> omega

theorem bin_get {b : Cyc} {now : Nat} {l : Log} {v : Nat} (h : BinOk b now l v) (hw : l.past.length + 1 < word) : b.get now = l.cnt v := by
  have hc := cnt_le l v
  unfold Cyc.get
  rw [h.counting, h.mult, Nat.mul_one]
  by_cases e : v = l.cur
  · obtain ⟨_, g2⟩ := h.on e
    rw [decide_eq_true e, Bool.true_and]
    by_cases g : now > b.start
    · rw [if_pos (decide_eq_true g), g2, Nat.mod_eq_of_lt (by omega)]
    · rw [if_neg (by rw [decide_eq_false g]; decide)]
      omega
  · rw [decide_eq_false e, Bool.false_and, if_neg (by decide), h.off e]

theorem count_snoc (p : List Nat) (x v : Nat) : (p ++ [x]).count v = p.count v + if x = v then 1 else 0 := by
  rw [List.count_append, List.count_cons, List.count_nil]
  simp

theorem tick_ok {first last t0 : Nat} {h : Hist} {l : Log} (ok : Ok first last t0 h l) :
    Ok first last t0 { h with now := h.now + 1 } (l.step .tick) := by
  refine ⟨ok.range, ok.lower, ok.upper, ok.len, ok.cur, ok.curLe, ?_, ?_⟩
  · show h.now + 1 = t0 + (l.past ++ [_]).length
    rw [List.length_append, List.length_singleton, ok.now, Nat.add_assoc]
  · intro i b hb
    have hk := ok.bins i b hb
    have hcnt : (l.step .tick).cnt (first + i) = l.past.count (first + i) + if l.fixed.getD l.cur = first + i then 1 else 0 := by
      unfold Log.cnt Log.step
      dsimp only
      rw [count_snoc, if_neg (c := none = some (first + i)) (fun e => by cases e), Nat.add_zero]
    refine ⟨hk.mult, hk.counting, ?_, ?_⟩
    · intro e
      have e' : first + i = l.cur := e
      obtain ⟨g1, g2⟩ := hk.on e'
      rw [hcnt]
      unfold Log.cnt at g2
      dsimp only
      rcases g1 with ⟨g, f⟩ | ⟨g, f⟩
      · refine ⟨Or.inl ⟨by omega, rfl⟩, ?_⟩
        rw [f] at g2 ⊢
        rw [if_neg (fun e => by cases e)] at g2
        rw [if_pos (show Option.getD none l.cur = first + i from e'.symm)]
        omega
      · refine ⟨Or.inl ⟨by omega, rfl⟩, ?_⟩
        cases hf : l.fixed with
        | none => exact absurd hf f
        | some c =>
          rw [hf] at g2
          show _ = _ + if c = first + i then 1 else 0
          by_cases hc : c = first + i
          · rw [if_pos (by rw [hc])] at g2
            rw [if_pos hc]; omega
          · rw [if_neg (fun e => hc (Option.some.inj e))] at g2
            rw [if_neg hc]; omega
    · intro e
      have e' : first + i ≠ l.cur := e
      rw [hcnt, hk.off e']
      unfold Log.cnt
      cases hf : l.fixed with
      | none => rw [if_neg (fun e => by cases e), if_neg (fun e => e' e.symm)]
      | some c =>
        show _ = _ + if c = first + i then 1 else 0
        by_cases hc : c = first + i
        · rw [if_pos (by rw [hc]), if_pos hc]
        · rw [if_neg (fun e => hc (Option.some.inj e)), if_neg hc]

theorem stop_eq {first last t0 : Nat} {h : Hist} {l : Log} (ok : Ok first last t0 h l) (d : Nat) (hd : d ≤ 1) (hf : d = 1 ∨ l.fixed = none)
    (hw : h.now + 2 < word) :
    ∃ b, h.bins[l.cur - first]? = some b ∧ BinOk b h.now l l.cur ∧
      h.stopCounting h.cur d = some { h with bins := h.bins.set (l.cur - first) { b with count := b.count + (h.now + d - b.start), counting := false } } := by
  have hr := ok.curLe
  have hl := ok.len
  obtain ⟨b, hb⟩ : ∃ b, h.bins[l.cur - first]? = some b := ⟨_, List.getElem?_eq_getElem (by omega)⟩
  have hk := ok.bins _ b hb
  rw [show first + (l.cur - first) = l.cur by omega] at hk
  refine ⟨b, hb, hk, ?_⟩
  obtain ⟨g1, g2⟩ := hk.on rfl
  have hc := cnt_le l l.cur
  have hn := ok.now
  unfold Hist.stopCounting
  rw [ok.cur, ok.lower, ok.upper, if_neg (by omega), if_neg (by omega), hb]
  dsimp only
  have hs1 : b.start ≤ h.now + d := by
    rcases g1 with ⟨g, _⟩ | ⟨g, f⟩
    · omega
    · have := hf.resolve_right f; omega
  have hs2 : b.count + (h.now + d - b.start) < word := by
    rcases g1 with ⟨g, _⟩ | ⟨g, f⟩ <;> omega
  have hs : b.stop h.now d = some { b with count := b.count + (h.now + d - b.start), counting := false } := by
    unfold Cyc.stop
    rw [if_neg (by rw [hk.counting]; simp), Nat.mod_eq_of_lt (show h.now + d < word by omega), if_neg (by omega), hk.mult, Nat.mul_one,
      Nat.mod_eq_of_lt hs2]
  rw [hs]

theorem change_ok {first last t0 : Nat} {h : Hist} {l : Log} (ok : Ok first last t0 h l) (v d : Nat) (hd : d ≤ 1)
    (hf : d = 1 ∨ l.fixed = none) (hw : h.now + 2 < word) (hv : first ≤ v ∧ v < last) (hne : v ≠ l.cur) :
    ∃ h', h.change v d = (h', .done) ∧
      Ok first last t0 h' { l with fixed := if d = 1 then some (l.fixed.getD l.cur) else l.fixed, cur := v } := by
  obtain ⟨b, hb, hk, hs⟩ := stop_eq ok d hd hf hw
  have hr := ok.curLe
  have hl := ok.len
  have h32 := ok.range
  obtain ⟨b2, hb2⟩ : ∃ b, h.bins[v - first]? = some b := ⟨_, List.getElem?_eq_getElem (by omega)⟩
  have hk2 := ok.bins _ b2 hb2
  rw [show first + (v - first) = v by omega] at hk2
  have hne' : l.cur - first ≠ v - first := by omega
  let bs := (h.bins.set (l.cur - first) { b with count := b.count + (h.now + d - b.start), counting := false }).set (v - first) { b2 with mult := 1, start := h.now + d, counting := true }
  refine ⟨{ h with bins := bs, cur := v }, ?_, ?_⟩
  · unfold Hist.change
    dsimp only
    rw [Nat.mod_eq_of_lt (show v < 2 ^ 32 by omega), if_pos (by rw [ok.cur]; exact hne), hs]
    dsimp only
    unfold Hist.startCounting
    dsimp only
    rw [ok.lower, ok.upper, if_neg (by omega), if_neg (by omega), List.getElem?_set_ne hne', hb2]
    dsimp only
    have : b2.start_ h.now 1 d = some { b2 with mult := 1, start := h.now + d, counting := true } := by
      unfold Cyc.start_
      rw [hk2.counting, decide_eq_false hne, Nat.mod_eq_of_lt (show h.now + d < word by omega)]
      rfl
    rw [this]
  · have hcnt : ∀ w, ({ l with fixed := if d = 1 then some (l.fixed.getD l.cur) else l.fixed, cur := v } : Log).cnt w =
        l.cnt w + if d = 1 ∧ l.fixed = none ∧ w = l.cur then 1 else 0 := by
      intro w
      unfold Log.cnt
      dsimp only
      by_cases e : d = 1
      · rw [if_pos e]
        cases hx : l.fixed with
        | none =>
          show _ + (if some l.cur = some w then 1 else 0) = _
          by_cases hw : w = l.cur
          · rw [if_pos (by rw [hw]), if_neg (fun e => by cases e), if_pos ⟨e, rfl, hw⟩]
          · rw [if_neg (fun e => hw (Option.some.inj e).symm), if_neg (fun e => by cases e), if_neg (fun h => hw h.2.2)]
        | some c => rw [if_neg (c := d = 1 ∧ _) (fun h => by cases h.2.1)]; rfl
      · rw [if_neg e, if_neg (c := d = 1 ∧ _) (fun h => e h.1)]
        rfl
    have hfix : (if d = 1 then some (l.fixed.getD l.cur) else l.fixed) = none ↔ d = 0 := by
      by_cases e : d = 1
      · rw [if_pos e, e]; simp
      · rw [if_neg e]
        exact ⟨fun _ => by omega, fun _ => hf.resolve_left e⟩
    refine ⟨ok.range, ok.lower, ok.upper, ?_, rfl, hv, ok.now, ?_⟩
    · show ((h.bins.set _ _).set _ _).length = _
      rw [List.length_set, List.length_set, hl]
    · intro i c hc
      have hc' : bs[i]? = some c := hc
      show BinOk c h.now _ _
      by_cases e2 : v - first = i
      · have hlt : i < last - first := by omega
        rw [show bs[i]? = some { b2 with mult := 1, start := h.now + d, counting := true } by
          show (List.set _ _ _)[i]? = _
          rw [e2, List.getElem?_set_self (by rw [List.length_set, hl]; exact hlt)]] at hc'
        have hc2 := Option.some.inj hc'
        rw [← hc2, show first + i = v by omega]
        refine ⟨rfl, by simp, ?_, fun h => absurd rfl h⟩
        intro _
        have hcv := hcnt v
        rw [if_neg (c := d = 1 ∧ _) (fun h => hne h.2.2)] at hcv
        have := hk2.off hne
        rw [hcv]
        dsimp only
        refine ⟨?_, by omega⟩
        by_cases e : d = 0
        · exact Or.inl ⟨by omega, hfix.2 e⟩
        · exact Or.inr ⟨by omega, fun g => e (hfix.1 g)⟩
      · have hb' : bs[i]? = (h.bins.set (l.cur - first) { b with count := b.count + (h.now + d - b.start), counting := false })[i]? :=
          List.getElem?_set_ne e2
        rw [hb'] at hc'
        by_cases e1 : l.cur - first = i
        · have hlt : i < last - first := by omega
          rw [e1, List.getElem?_set_self (by rw [hl]; exact hlt)] at hc'
          have hc2 := Option.some.inj hc'
          rw [← hc2, show first + i = l.cur by omega]
          refine ⟨hk.mult, (decide_eq_false (fun h => hne h.symm)).symm, fun h => absurd h (fun h => hne h.symm), ?_⟩
          intro _
          rw [hcnt]
          obtain ⟨g1, g2⟩ := hk.on rfl
          dsimp only
          rcases g1 with ⟨g, f⟩ | ⟨g, f⟩
          · by_cases e : d = 1
            · rw [if_pos ⟨e, f, rfl⟩]; omega
            · rw [if_neg (fun h => e h.1)]; omega
          · rw [if_neg (fun h => f h.2.1)]
            have := hf.resolve_right f
            omega
        · rw [List.getElem?_set_ne e1] at hc'
          have hk3 := ok.bins i c hc'
          have n1 : first + i ≠ l.cur := by omega
          have n2 : first + i ≠ v := by omega
          refine ⟨hk3.mult, ?_, fun h => absurd h n2, ?_⟩
          · rw [hk3.counting, decide_eq_false n1]
            exact (decide_eq_false n2).symm
          · intro _
            rw [hcnt, if_neg (fun h => n1 h.2.2), hk3.off n1]
            rfl

theorem change_same {first last t0 : Nat} {h : Hist} {l : Log} (ok : Ok first last t0 h l) (v d : Nat) (e : v = l.cur) :
    h.change v d = (h, .done) := by
  have := ok.range
  have := ok.curLe
  unfold Hist.change
  dsimp only
  rw [Nat.mod_eq_of_lt (show v < 2 ^ 32 by omega), if_neg (fun g => g (by rw [ok.cur]; exact e))]

theorem step_ok {first last t0 : Nat} {h : Hist} {l : Log} (ok : Ok first last t0 h l) (o : Op) (hl : l.ok first last o)
    (hw : h.now + 2 < word) : Ok first last t0 (step h o).1 (l.step o) ∧ (step h o).2 ≠ .threw ∨ ∃ v, o = .bin v := by
  cases o with
  | tick => exact Or.inl ⟨tick_ok ok, fun e => (nomatch e)⟩
  | setState v =>
    left
    obtain ⟨h1, h2, h3⟩ := hl
    show Ok first last t0 (h.change v 0).1 _ ∧ (h.change v 0).2 ≠ _
    by_cases e : v = l.cur
    · rw [change_same ok v 0 e]
      refine ⟨?_, fun e => (nomatch e)⟩
      unfold Log.step
      dsimp only
      rw [e]
      exact ok
    · obtain ⟨h', g1, g2⟩ := change_ok ok v 0 (by decide) (Or.inr (h3.resolve_right e)) hw ⟨h1, h2⟩ e
      rw [g1]
      exact ⟨g2, fun e => (nomatch e)⟩
  | setNextState v =>
    left
    show Ok first last t0 (h.change v 1).1 _ ∧ (h.change v 1).2 ≠ _
    by_cases e : v = l.cur
    · rw [change_same ok v 1 e]
      refine ⟨?_, fun e => (nomatch e)⟩
      unfold Log.step
      dsimp only
      rw [if_pos e]
      exact ok
    · obtain ⟨h', g1, g2⟩ := change_ok ok v 1 (by decide) (Or.inl rfl) hw hl e
      rw [g1]
      refine ⟨?_, fun e => (nomatch e)⟩
      unfold Log.step
      dsimp only
      rw [if_neg e]
      exact g2
  | bin v => exact Or.inr ⟨v, rfl⟩
  | getState => exact Or.inl ⟨ok, fun e => (nomatch e)⟩
  | total => exact Or.inl ⟨ok, fun e => (nomatch e)⟩

theorem step_ok' {first last t0 : Nat} {h : Hist} {l : Log} (ok : Ok first last t0 h l) (o : Op) (hl : l.ok first last o)
    (hw : h.now + 2 < word) : Ok first last t0 (step h o).1 (l.step o) := by
  rcases step_ok ok o hl hw with h | ⟨v, e⟩
  · exact h.1
  · subst e; exact ok

theorem past_le (l : Log) (o : Op) : (l.step o).past.length ≤ l.past.length + 1 := by
  cases o with
  | tick =>
    show (l.past ++ [_]).length ≤ _
    rw [List.length_append]; exact Nat.le_refl _
  | setNextState v =>
    unfold Log.step
    dsimp only
    split <;> exact Nat.le_succ _
  | _ => exact Nat.le_succ _

theorem run_ok {first last t0 : Nat} (os : List Op) : ∀ {h : Hist} {l : Log}, Ok first last t0 h l → Log.legal first last l os →
    h.now + os.length + 2 < word → Ok first last t0 (runOps step h os).1 (l.run os) ∧ (l.run os).past.length ≤ l.past.length + os.length := by
  induction os with
  | nil => exact fun ok _ _ => ⟨ok, Nat.le_refl _⟩
  | cons o os ih =>
    intro h l ok hl hw
    rw [List.length_cons] at hw
    have h1 := step_ok' ok o hl.1 (by omega)
    have h2 := past_le l o
    have h3 : (step h o).1.now ≤ h.now + 1 := by rw [h1.now, ok.now]; omega
    obtain ⟨g1, g2⟩ := ih h1 hl.2 (by omega)
    refine ⟨g1, ?_⟩
    rw [List.length_cons]
    have : (l.run (o :: os)) = ((l.step o).run os) := rfl
    rw [this]
    omega

/-- C244: a histogram can be made exactly for an enumeration of at least two values, with one of them as the idle state -/
theorem C244_make (first last idle now : Nat) (h0 : 0 < last) (hl : last < 2 ^ 32) (hi : idle < 2 ^ 32) (hw : now < word) :
    (Hist.make first last idle now ≠ none ↔ first + 2 ≤ last ∧ first ≤ idle ∧ idle < last) ∧
    ∀ h, Hist.make first last idle now = some h → Ok first last now h (Log.start idle) := by
  have hu : (last + 2 ^ 64 - 1) % 2 ^ 64 = last - 1 := by omega
  unfold Hist.make
  dsimp only
  rw [hu, Nat.mod_eq_of_lt hi]
  by_cases c1 : last - 1 > first
  · rw [if_pos c1]
    unfold Hist.startCounting
    dsimp only
    by_cases c2 : idle < first
    · rw [if_pos c2]
      exact ⟨⟨fun h => absurd rfl h, fun h => by omega⟩, fun _ h => (nomatch h)⟩
    · rw [if_neg c2]
      by_cases c3 : idle > last - 1
      · rw [if_pos c3]
        exact ⟨⟨fun h => absurd rfl h, fun h => by omega⟩, fun _ h => (nomatch h)⟩
      · rw [if_neg c3]
        by_cases full : (last - 1 - first + 1) % 2 ^ 32 = last - first
        · rw [full, List.getElem?_replicate, if_pos (by omega)]
          dsimp only
          unfold Cyc.start_
          rw [if_neg (by decide)]
          refine ⟨⟨fun _ => ⟨by omega, by omega, by omega⟩, fun _ h => (nomatch h)⟩, ?_⟩
          intro h e
          have e := Option.some.inj e
          rw [← e]
          refine ⟨⟨by omega, by omega⟩, rfl, rfl, ?_, rfl, ⟨by show first ≤ idle; omega, by show idle < last; omega⟩, rfl, ?_⟩
          · show (List.set _ _ _).length = _
            rw [List.length_set, List.length_replicate]
          · intro i b hb
            have hb : (List.set _ _ _)[i]? = some b := hb
            by_cases ei : idle - first = i
            · rw [ei, List.getElem?_set_self (by rw [List.length_replicate]; omega)] at hb
              have hb := Option.some.inj hb
              rw [← hb]
              have e2 : first + i = idle := by omega
              refine ⟨rfl, (decide_eq_true e2).symm, ?_, fun g => absurd e2 g⟩
              intro _
              have : (now + 0) % word = now := Nat.mod_eq_of_lt hw
              dsimp only
              rw [this]
              refine ⟨Or.inl ⟨Nat.le_refl _, rfl⟩, ?_⟩
              show 0 + (now - now) = 0
              omega
            · rw [List.getElem?_set_ne ei, List.getElem?_replicate] at hb
              have e2 : first + i ≠ idle := by omega
              by_cases ilt : i < last - first
              · rw [if_pos ilt] at hb
                rw [← Option.some.inj hb]
                exact ⟨rfl, (decide_eq_false e2).symm, fun g => absurd g e2, fun _ => rfl⟩
              · rw [if_neg ilt] at hb
                exact nomatch hb
        · exact absurd (by rw [Nat.mod_eq_of_lt (by omega)]; omega) full
  · rw [if_neg c1]
    exact ⟨⟨fun h => absurd rfl h, fun h => by omega⟩, fun _ h => (nomatch h)⟩

example : Hist.make 0 3 1 5 ≠ none ∧ Hist.make 0 3 3 5 = none ∧ Hist.make 0 1 0 5 = none := by decide +kernel

/-- C244 (violated): an enumeration of one value has no histogram -/
theorem C244_one_state_violated (first now : Nat) (h : first < 2 ^ 32 - 1) (hw : now < word) : Hist.make first (first + 1) first now = none := by
  have := (C244_make first (first + 1) first now (by omega) (by omega) (by omega) hw).1
  cases e : Hist.make first (first + 1) first now with
  | none => rfl
  | some x =>
    rw [e] at this
    have := this.1 (fun h => (nomatch h))
    omega

/-- the histogram after a history of allowed calls -/
structure Run (first last idle t0 : Nat) (os : List Op) (h : Hist) : Prop where
  range : 0 < last ∧ last < 2 ^ 32 ∧ idle < 2 ^ 32
  made : ∃ h0, Hist.make first last idle t0 = some h0 ∧ (runOps step h0 os).1 = h
  legal : Log.legal first last (Log.start idle) os
  short : t0 + os.length + 2 < word

theorem run_all {first last idle t0 : Nat} {os : List Op} {h : Hist} (r : Run first last idle t0 os h) :
    Ok first last t0 h ((Log.start idle).run os) ∧ ((Log.start idle).run os).past.length ≤ os.length := by
  obtain ⟨h0, e1, e2⟩ := r.made
  have hs := r.short
  have ok := (C244_make first last idle t0 r.range.1 r.range.2.1 r.range.2.2 (by omega)).2 h0 e1
  have hn : h0.now = t0 := ok.now
  obtain ⟨g1, g2⟩ := run_ok os ok r.legal (by rw [hn]; exact hs)
  rw [e2] at g1
  have g3 : (Log.start idle).past.length = 0 := rfl
  exact ⟨g1, by omega⟩

/-- C244: after any history of allowed calls the counter of a state holds the number of cycles spent in it. Missing: a cycle in which the
next state was set is counted before it ends. -/
theorem C244_bins_partial {first last idle t0 : Nat} {os : List Op} {h : Hist} (r : Run first last idle t0 os h) (v : Nat) (hv : first ≤ v ∧ v < last) :
    step h (.bin v) = (h, .num (((Log.start idle).run os).past.count v + if ((Log.start idle).run os).fixed = some v then 1 else 0)) := by
  obtain ⟨ok, hp⟩ := run_all r
  have hs := r.short
  obtain ⟨b, hb⟩ : ∃ b, h.bins[v - first]? = some b := ⟨_, List.getElem?_eq_getElem (by rw [ok.len]; omega)⟩
  have hk := ok.bins _ b hb
  rw [show first + (v - first) = v by omega] at hk
  show (h, match h.bins[v - h.lower]? with | some b => Out.num (b.get h.now) | none => .threw) = _
  rw [ok.lower, hb]
  dsimp only
  rw [bin_get hk (by omega)]
  rfl

/-- C244: allowed calls do not throw, and the state reported is the last one set, for now or for the next cycle -/
theorem C244_state {first last idle t0 : Nat} {os : List Op} {h : Hist} (r : Run first last idle t0 os h) :
    step h .getState = (h, .num ((Log.start idle).run os).cur) ∧
    ∀ o, ((Log.start idle).run os).ok first last o → (∀ v, o ≠ .bin v) → (step h o).2 ≠ .threw := by
  obtain ⟨ok, hp⟩ := run_all r
  have hs := r.short
  refine ⟨by show (h, Out.num h.cur) = _; rw [ok.cur], ?_⟩
  intro o ho hb
  rcases step_ok ok o ho (by rw [ok.now]; omega) with g | ⟨v, e⟩
  · exact g.2
  · exact absurd e (hb v)

theorem sum_single (n x : Nat) (h : x < n) : ((List.range n).map fun i => if x = i then 1 else 0).sum = 1 := by
  have zero : ∀ m, m ≤ x → ((List.range m).map fun i => if x = i then 1 else 0).sum = 0 := by
    intro m
    induction m with
    | zero => exact fun _ => rfl
    | succ m ih =>
      intro hm
      rw [List.range_succ, List.map_append, List.sum_append, ih (by omega)]
      simp; omega
  induction n with
  | zero => omega
  | succ n ih =>
    rw [List.range_succ, List.map_append, List.sum_append]
    by_cases e : x = n
    · rw [zero n (by omega)]
      simp [e]
    · rw [ih (by omega)]
      simp [e]

theorem sum_add (f g : Nat → Nat) (l : List Nat) : (l.map fun i => f i + g i).sum = (l.map f).sum + (l.map g).sum := by
  induction l with
  | nil => rfl
  | cons a l ih => simp only [List.map_cons, List.sum_cons, ih]; omega

theorem sum_count (first n : Nat) (p : List Nat) (h : ∀ x ∈ p, first ≤ x ∧ x < first + n) :
    ((List.range n).map fun i => p.count (first + i)).sum = p.length := by
  induction p with
  | nil =>
    have z : ∀ l : List Nat, (l.map fun i => ([] : List Nat).count (first + i)).sum = 0 := by
      intro l
      induction l with
      | nil => rfl
      | cons a l ih => rw [List.map_cons, List.sum_cons, ih]; rfl
    exact z _
  | cons a p ih =>
    have ha := h a (List.mem_cons_self ..)
    have e : (fun i => (a :: p).count (first + i)) = fun i => p.count (first + i) + if a - first = i then 1 else 0 := by
      funext i
      rw [List.count_cons]
      congr 1
      by_cases e : a - first = i
      · rw [if_pos e, if_pos (by rw [beq_iff_eq]; omega)]
      · rw [if_neg e, if_neg (by rw [beq_iff_eq]; omega)]
    rw [e, sum_add, ih (fun x hx => h x (List.mem_cons_of_mem _ hx)), sum_single n (a - first) (by omega), List.length_cons]

theorem log_range {first last : Nat} (os : List Op) : ∀ (l : Log), Log.legal first last l os → first ≤ l.cur ∧ l.cur < last →
    (∀ x ∈ l.past, first ≤ x ∧ x < last) → (∀ x, l.fixed = some x → first ≤ x ∧ x < last) →
    (∀ x ∈ (l.run os).past, first ≤ x ∧ x < last) ∧ (∀ x, (l.run os).fixed = some x → first ≤ x ∧ x < last) := by
  induction os with
  | nil => exact fun l _ _ h g => ⟨h, g⟩
  | cons o os ih =>
    intro l hl hc hp hf
    have hfix : first ≤ l.fixed.getD l.cur ∧ l.fixed.getD l.cur < last := by
      cases e : l.fixed with
      | none => exact hc
      | some x => exact hf x e
    refine ih (l.step o) hl.2 ?_ ?_ ?_
    · cases o with
      | setState v => exact ⟨hl.1.1, hl.1.2.1⟩
      | setNextState v =>
        unfold Log.step
        dsimp only
        split
        · exact hc
        · exact hl.1
      | _ => exact hc
    · cases o with
      | tick =>
        intro x hx
        rcases List.mem_append.1 hx with g | g
        · exact hp x g
        · rw [List.mem_singleton.1 g]; exact hfix
      | setNextState v =>
        unfold Log.step
        dsimp only
        split <;> exact hp
      | _ => exact hp
    · cases o with
      | tick => exact fun x h => (nomatch h)
      | setNextState v =>
        unfold Log.step
        dsimp only
        split
        · exact hf
        · intro x hx
          rw [← Option.some.inj hx]; exact hfix
      | _ => exact hf

/-- C244: the counters of all states add up to the number of cycles since the histogram was made; each cycle is counted once. Missing: the
current cycle is included once the next state was set in it. -/
theorem C244_total_partial {first last idle t0 : Nat} {os : List Op} {h : Hist} (r : Run first last idle t0 os h) :
    step h .total = (h, .num (os.count .tick + if ((Log.start idle).run os).fixed = none then 0 else 1)) := by
  obtain ⟨ok, hp⟩ := run_all r
  have hs := r.short
  have hcur : first ≤ idle ∧ idle < last := by
    obtain ⟨h0, e1, _⟩ := r.made
    exact ((C244_make first last idle t0 r.range.1 r.range.2.1 r.range.2.2 (by omega)).1.1 (by rw [e1]; exact fun h => (nomatch h))).2
  obtain ⟨g1, g2⟩ := log_range os (Log.start idle) r.legal hcur (fun _ h => (nomatch h)) (fun _ h => (nomatch h))
  have hticks : ∀ (os : List Op) (l : Log), (l.run os).past.length = l.past.length + os.count .tick := by
    intro os
    induction os with
    | nil => exact fun l => rfl
    | cons o os ih =>
      intro l
      show ((l.step o).run os).past.length = _
      rw [ih, List.count_cons]
      cases o with
      | tick =>
        show (l.past ++ [_]).length + _ = _
        rw [List.length_append]
        simp; omega
      | setNextState v =>
        unfold Log.step
        dsimp only
        split <;> rfl
      | _ => rfl
  have hgets : (h.bins.map fun b => b.get h.now) = (List.range (last - first)).map fun i => ((Log.start idle).run os).cnt (first + i) := by
    apply List.ext_getElem?
    intro i
    rw [List.getElem?_map, List.getElem?_map]
    by_cases hi : i < last - first
    · obtain ⟨b, hb⟩ : ∃ b, h.bins[i]? = some b := ⟨_, List.getElem?_eq_getElem (by rw [ok.len]; exact hi)⟩
      rw [hb, List.getElem?_range hi]
      show some (b.get h.now) = some (Log.cnt _ (first + i))
      rw [bin_get (ok.bins i b hb) (by omega)]
    · rw [List.getElem?_eq_none (by rw [ok.len]; omega), List.getElem?_eq_none (by rw [List.length_range]; omega)]
      rfl
  show (h, Out.num _) = _
  rw [hgets]
  have hr := ok.range
  have e1 := sum_count first (last - first) _ (fun x hx => ⟨(g1 x hx).1, by have := (g1 x hx).2; omega⟩)
  have e2 := hticks os (Log.start idle)
  have e3 : (Log.start idle).past.length = 0 := rfl
  have e4 : ((List.range (last - first)).map fun i => if ((Log.start idle).run os).fixed = some (first + i) then 1 else 0).sum =
      if ((Log.start idle).run os).fixed = none then 0 else 1 := by
    cases e : ((Log.start idle).run os).fixed with
    | none =>
      have : ∀ n, ((List.range n).map fun i => if (none : Option Nat) = some (first + i) then 1 else 0).sum = 0 := by
        intro n
        induction n with
        | zero => rfl
        | succ n ih => rw [List.range_succ, List.map_append, List.sum_append, ih]; rfl
      exact this _
    | some x =>
      have hx := g2 x e
      have : (fun i => if some x = some (first + i) then 1 else 0) = fun i => if x - first = i then 1 else 0 := by
        funext i
        by_cases q : x - first = i
        · rw [if_pos q, if_pos (by congr 1; omega)]
        · rw [if_neg q, if_neg (fun w => q (by have := Option.some.inj w; omega))]
      rw [this, sum_single _ _ (by omega)]
      rfl
  have := sum_add (fun i => ((Log.start idle).run os).past.count (first + i)) (fun i => if ((Log.start idle).run os).fixed = some (first + i) then 1 else 0) (List.range (last - first))
  rw [e1, e4, e2, e3, Nat.zero_add] at this
  exact congrArg (fun n => (h, Out.num n)) this

/-- a history of allowed calls, its log and the counters -/
def history : List Op := [.tick, .setState 2, .tick, .tick, .setNextState 0, .setNextState 1, .tick, .tick, .setState 0]

def after : Option Hist := (Hist.make 0 3 1 5).map fun h => (runOps step h history).1

example : (∃ h, after = some h ∧ Run 0 3 1 5 history h ∧ (step h (.bin 1)).2 = .num 2 ∧ (step h (.bin 2)).2 = .num 3 ∧ (step h .total).2 = .num 5) ∧
    ((Log.start 1).run history).past = [1, 2, 2, 2, 1] := by
  refine ⟨?_, by decide⟩
  cases e : after with
  | none => exact absurd e (by decide +kernel)
  | some h =>
    refine ⟨h, rfl, ⟨by decide, ?_, by decide, by decide⟩, ?_⟩
    · unfold after at e
      cases g : Hist.make 0 3 1 5 with
      | none => rw [g] at e; exact nomatch e
      | some h0 => rw [g] at e; exact ⟨h0, rfl, Option.some.inj e⟩
    · have : after.map (fun h => ((step h (.bin 1)).2, (step h (.bin 2)).2, (step h .total).2)) = some (.num 2, .num 3, .num 5) := by decide +kernel
      rw [e] at this
      have := Option.some.inj this
      exact ⟨congrArg (·.1) this, congrArg (·.2.1) this, congrArg (·.2.2) this⟩

/-- results of a history -/
def results (first last idle t0 : Nat) (os : List Op) : Option (List Out) := (Hist.make first last idle t0).map fun h => (runOps step h os).2

/-- C244 (violated): once the next state is set a cycle is counted that has not ended -/
theorem C244_early_violated : results 0 2 0 0 [.tick, .setNextState 1, .total] = some [.done, .done, .num 2] := by decide +kernel

/-- C244 (violated): in a cycle in which the next state was set the state cannot be set -/
theorem C244_set_after_next_violated : results 0 3 0 0 [.setNextState 1, .setState 2, .setState 0, .tick, .setState 2] =
    some [.done, .threw, .threw, .done, .done] := by decide +kernel

/-- C244 (violated): a refused state leaves a histogram that counts for no state any more and refuses all changes of the state -/
theorem C244_refused_violated : results 0 2 0 0 [.tick, .setState 2, .getState, .tick, .total, .setState 1, .setNextState 1, .tick, .total] =
    some [.done, .threw, .num 0, .done, .num 1, .threw, .threw, .done, .num 1] := by decide +kernel

end Sparta.StHist
