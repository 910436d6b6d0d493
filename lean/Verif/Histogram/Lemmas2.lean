import Verif.Histogram.Lemmas

/-!
# Lemmas on cycle histograms
-/

namespace Sparta.Histogram

open Sparta.Counter (word half Cyc)

attribute [local irreducible] word half

/-- the counters of a cycle histogram -/
inductive Slot where
  | under
  | over
  | bin (i : Nat)
  deriving DecidableEq

def slotOf (lower upper shift v : Nat) : Slot :=
  if v < lower then .under else if v > upper then .over else .bin ((v - lower) >>> shift)

def CHist.slot (h : CHist) (v : Nat) : Slot := slotOf h.lower h.upper h.shift v

def CHist.ctr (h : CHist) : Slot → Option Cyc
  | .under => some h.under
  | .over => some h.over
  | .bin i => h.bins[i]?

def CHist.put (h : CHist) (c : Cyc) : Slot → CHist
  | .under => { h with under := c }
  | .over => { h with over := c }
  | .bin i => { h with bins := h.bins.set i c }

theorem count_eq (h : CHist) (v : Nat) (f : Cyc → Option Cyc) :
    h.count v f = (h.ctr (h.slot v)).bind fun c => (f c).map fun c => h.put c (h.slot v) := by
  unfold CHist.count CHist.slot slotOf
  by_cases h1 : v < h.lower
  · rw [if_pos h1, if_pos h1]; rfl
  rw [if_neg h1, if_neg h1]
  by_cases h2 : v > h.upper
  · rw [if_pos h2, if_pos h2]; rfl
  rw [if_neg h2, if_neg h2]
  dsimp only [CHist.ctr, CHist.put]
  cases h.bins[(v - h.lower) >>> h.shift]? <;> rfl

theorem ctr_put (h : CHist) (c : Cyc) {sl : Slot} (hs : (h.ctr sl).isSome) (sl' : Slot) :
    (h.put c sl).ctr sl' = if sl' = sl then some c else h.ctr sl' := by
  cases sl <;> cases sl' <;> simp [CHist.put, CHist.ctr]
  rename_i i j
  simp [CHist.ctr] at hs
  rw [List.getElem?_set]
  by_cases e : i = j
  · subst e; simp [hs]
  · rw [if_neg e, if_neg fun e' => e e'.symm]

/-- everything but the counters and the last value is the same -/
structure Frame (h h' : CHist) : Prop where
  now : h'.now = h.now
  lower : h'.lower = h.lower
  upper : h'.upper = h.upper
  shift : h'.shift = h.shift
  idle : h'.idle = h.idle
  total : h'.total = h.total
  max : h'.max = h.max
  len : h'.bins.length = h.bins.length

theorem frame_put (h : CHist) (c : Cyc) (sl : Slot) : Frame h (h.put c sl) := by
  cases sl <;> exact ⟨rfl, rfl, rfl, rfl, rfl, rfl, rfl, by simp [CHist.put]⟩

theorem last_put (h : CHist) (c : Cyc) (sl : Slot) : (h.put c sl).last = h.last := by cases sl <;> rfl

theorem Frame.trans {a b c : CHist} (h : Frame a b) (k : Frame b c) : Frame a c :=
  ⟨k.1.trans h.1, k.2.trans h.2, k.3.trans h.3, k.4.trans h.4, k.5.trans h.5, k.6.trans h.6, k.7.trans h.7, k.8.trans h.8⟩

theorem Frame.slot {h h' : CHist} (k : Frame h h') (v : Nat) : h'.slot v = h.slot v := by
  unfold CHist.slot; rw [k.lower, k.upper, k.shift]

/-- the number of values that are counted in a slot -/
def CHist.cnt (h : CHist) (sl : Slot) (vs : List Nat) : Nat := vs.countP fun v => h.slot v == sl

theorem Frame.cnt {h h' : CHist} (k : Frame h h') (sl : Slot) (vs : List Nat) : h'.cnt sl vs = h.cnt sl vs := by
  unfold CHist.cnt
  simp only [k.slot]

theorem cnt_append (h : CHist) (sl : Slot) (vs : List Nat) (v : Nat) :
    h.cnt sl (vs ++ [v]) = h.cnt sl vs + if h.slot v = sl then 1 else 0 := by
  simp [CHist.cnt, List.countP_append, List.countP_singleton]

theorem cnt_le (h : CHist) (sl : Slot) (vs : List Nat) : h.cnt sl vs ≤ vs.length := List.countP_le_length

/-- there is a counter for every value -/
def CHist.Total (h : CHist) : Prop := ∀ v i, h.slot v = .bin i → i < h.bins.length

theorem CHist.Total.some {h : CHist} (ht : h.Total) (v : Nat) : (h.ctr (h.slot v)).isSome := by
  cases hs : h.slot v with
  | under => rfl
  | over => rfl
  | bin i => simpa [CHist.ctr] using ht v i hs

theorem Frame.ok {h h' : CHist} (k : Frame h h') (ht : h.Total) : h'.Total := fun v i hv => by
  rw [k.slot] at hv
  rw [k.len]
  exact ht v i hv

/-- no counter counts and each has the number of its values -/
def CHist.Idle (h : CHist) (vs : List Nat) : Prop :=
  ∀ sl c, h.ctr sl = some c → c.counting = false ∧ c.count = h.cnt sl vs

/-- the counter of `v` counts since `s`; with the cycles until `e` each counter has the number of its values -/
def CHist.Active (h : CHist) (vs : List Nat) (v s e : Nat) : Prop :=
  ∀ sl c, h.ctr sl = some c →
    if sl = h.slot v then c.counting = true ∧ c.mult = 1 ∧ c.start = s ∧ c.count + (e - s) = h.cnt sl vs
    else c.counting = false ∧ c.count = h.cnt sl vs

theorem start_idle {h : CHist} {vs : List Nat} (ht : h.Total) (hi : h.Idle vs) (v d : Nat)
    (hw : h.now + d < word) :
    ∃ h', h.start_ v d = some h' ∧ Frame h h' ∧ h'.last = v ∧ h'.Active vs v (h.now + d) (h.now + d) := by
  have hs := ht.some v
  obtain ⟨c, hc⟩ := Option.isSome_iff_exists.1 hs
  obtain ⟨h1, h2⟩ := hi _ _ hc
  unfold CHist.start_
  rw [count_eq, hc]
  simp only [Option.bind_some, Cyc.start_, h1, Bool.false_eq_true, if_false, Option.map_some, Nat.mod_eq_of_lt hw]
  have hf := frame_put h { c with mult := 1, start := h.now + d, counting := true } (h.slot v)
  refine ⟨_, rfl, ⟨hf.1, hf.2, hf.3, hf.4, hf.5, hf.6, hf.7, hf.8⟩, rfl, fun sl c' hc' => ?_⟩
  replace hc' : (h.put _ (h.slot v)).ctr sl = some c' := hc'
  rw [ctr_put h _ hs] at hc'
  show if sl = CHist.slot (h.put _ (h.slot v)) v then _ ∧ _ ∧ _ ∧ _ = CHist.cnt (h.put _ (h.slot v)) sl vs
    else _ ∧ _ = CHist.cnt (h.put _ (h.slot v)) sl vs
  rw [hf.slot, hf.cnt]
  by_cases e : sl = h.slot v
  · rw [if_pos e] at hc' ⊢
    obtain rfl := Option.some.inj hc'
    subst e
    exact ⟨rfl, rfl, rfl, by simpa using h2⟩
  · rw [if_neg e] at hc' ⊢
    exact hi sl c' hc'

theorem stop_active {h : CHist} {vs : List Nat} {v s e d : Nat} (ht : h.Total) (ha : h.Active vs v s e)
    (hd : s ≤ h.now + d) (hw : h.now + d < word) (hl : vs.length + (h.now + d - e) < word) (hse : s ≤ e)
    (he : e ≤ h.now + d) :
    ∃ h', h.stop v d = some h' ∧ Frame h h' ∧ h'.last = h.last ∧
      h'.Idle (vs ++ List.replicate (h.now + d - e) v) := by
  have hs := ht.some v
  obtain ⟨c, hc⟩ := Option.isSome_iff_exists.1 hs
  have hac := ha _ _ hc
  rw [if_pos rfl] at hac
  obtain ⟨h1, h2, h3, h4⟩ := hac
  have hcount : ∀ sl, h.cnt sl (vs ++ List.replicate (h.now + d - e) v) =
      h.cnt sl vs + if h.slot v = sl then (h.now + d - e) else 0 := by
    intro sl
    simp only [CHist.cnt, List.countP_append, List.countP_replicate, beq_iff_eq]
  unfold CHist.stop
  rw [count_eq, hc]
  simp only [Option.bind_some, Cyc.stop, h1, Bool.true_eq_false, if_false, Nat.mod_eq_of_lt hw]
  rw [h3, if_neg (by omega), h2]
  have hle := cnt_le h (h.slot v) vs
  have e4 : (c.count + (h.now + d - s) * 1) % word = c.count + (h.now + d - s) := by
    rw [Nat.mul_one]
    exact Nat.mod_eq_of_lt (by omega)
  rw [e4]
  have hf := frame_put h ⟨1, c.count + (h.now + d - s), s, false⟩ (h.slot v)
  refine ⟨_, rfl, hf, last_put .., fun sl c' hc' => ?_⟩
  replace hc' : (h.put _ (h.slot v)).ctr sl = some c' := hc'
  rw [ctr_put h _ hs] at hc'
  show _ ∧ _ = CHist.cnt (h.put _ (h.slot v)) sl _
  rw [hf.cnt, hcount]
  by_cases ee : sl = h.slot v
  · rw [if_pos ee] at hc'
    obtain rfl := Option.some.inj hc'
    subst ee
    rw [if_pos rfl]
    exact ⟨rfl, by show c.count + _ = _; omega⟩
  · rw [if_neg ee] at hc'
    rw [if_neg fun x => ee x.symm]
    have := ha sl c' hc'
    rw [if_neg ee] at this
    exact this

theorem stop_early {h : CHist} {vs : List Nat} {v s e d : Nat} (ht : h.Total) (ha : h.Active vs v s e)
    (hd : h.now + d < s) (hw : h.now + d < word) : h.stop v d = none := by
  obtain ⟨c, hc⟩ := Option.isSome_iff_exists.1 (ht.some v)
  have hac := ha _ _ hc
  rw [if_pos rfl] at hac
  obtain ⟨h1, h2, h3, h4⟩ := hac
  unfold CHist.stop
  rw [count_eq, hc]
  simp only [Option.bind_some, Cyc.stop, h1, Bool.true_eq_false, if_false, Nat.mod_eq_of_lt hw]
  rw [h3, if_pos hd]; rfl

/-! ## simulation -/

structure CRep (h : CHist) (t : CSpec) : Prop where
  now : h.now = t.now
  fits : t.now < word - half
  lo : h.lower = t.lower
  up : h.upper = t.upper
  lt : t.lower < t.upper
  shift : t.n = 2 ^ h.shift
  idle : h.idle = t.idle
  len : h.bins.length = binCount t.lower t.upper t.n
  last : h.last = t.cur
  max : h.max = t.seen.foldl max 0
  curSeen : t.cur ∈ t.seen
  idleSeen : t.idle ∈ t.seen
  total : ∃ s, h.total = ⟨1, 0, s, true⟩ ∧ s + t.cycles.length = t.now
  active : ∃ s e, s ≤ e ∧ e = t.now + t.busy.toList.length ∧ (t.busy.isSome → s = e) ∧ h.Active t.values t.cur s e

theorem CRep.ok {h : CHist} {t : CSpec} (r : CRep h t) : h.Total := by
  intro v i hv
  unfold CHist.slot slotOf at hv
  rw [r.len]
  split at hv
  · cases hv
  · split at hv
    · cases hv
    · obtain rfl := Slot.bin.inj hv
      rw [Nat.shiftRight_eq_div_pow, ← r.shift, r.lo]
      exact idx_lt (by rw [← r.up]; omega)

theorem CRep.npos {h : CHist} {t : CSpec} (r : CRep h t) : 0 < t.n := by rw [r.shift]; exact Nat.pow_pos (by decide)

theorem CRep.len_le {h : CHist} {t : CSpec} (r : CRep h t) : t.values.length + 1 < word := by
  obtain ⟨s, _, h2⟩ := r.total
  have := r.fits
  have : 2 ≤ half := by unfold half; decide
  have hv : t.values.length ≤ t.cycles.length + 1 := by
    unfold CSpec.values
    cases t.busy <;> simp
  omega

theorem slot_bin {h : CHist} {t : CSpec} (r : CRep h t) (i v : Nat) :
    (h.slot v == .bin i) = inBin t.lower t.upper t.n i v := by
  unfold CHist.slot slotOf
  rw [r.lo, r.up]
  by_cases h1 : v < t.lower
  · rw [if_pos h1, inBin_under h1]; rfl
  rw [if_neg h1]
  by_cases h2 : v > t.upper
  · rw [if_pos h2, inBin_over h2]; rfl
  rw [if_neg h2, inBin_iff r.npos (by omega) (by omega), Nat.shiftRight_eq_div_pow, ← r.shift]
  rw [Bool.eq_iff_iff]
  simp

theorem slot_under {h : CHist} {t : CSpec} (r : CRep h t) (v : Nat) :
    (h.slot v == .under) = decide (v < t.lower) := by
  unfold CHist.slot slotOf
  rw [r.lo, r.up]
  by_cases h1 : v < t.lower
  · rw [if_pos h1]; simp [h1]
  rw [if_neg h1]
  by_cases h2 : v > t.upper
  · rw [if_pos h2]; simp [h1]
  · rw [if_neg h2]; simp [h1]

theorem slot_over {h : CHist} {t : CSpec} (r : CRep h t) (v : Nat) :
    (h.slot v == .over) = decide (v > t.upper) := by
  have := r.lt
  unfold CHist.slot slotOf
  rw [r.lo, r.up]
  by_cases h1 : v < t.lower
  · rw [if_pos h1]
    have : ¬ v > t.upper := by omega
    simp [this]
  rw [if_neg h1]
  by_cases h2 : v > t.upper
  · rw [if_pos h2]; simp [h2]
  · rw [if_neg h2]; simp [h2]

theorem get_ctr {h : CHist} {t : CSpec} (r : CRep h t) {sl : Slot} {c : Cyc} (hc : h.ctr sl = some c) :
    c.get h.now = h.cnt sl t.values := by
  obtain ⟨s, e, h1, h2, h3, h4⟩ := r.active
  have hlen := r.len_le
  have hle := cnt_le h sl t.values
  have ha := h4 sl c hc
  unfold Cyc.get
  by_cases es : sl = h.slot t.cur
  · rw [if_pos es] at ha
    obtain ⟨a1, a2, a3, a4⟩ := ha
    rw [a1, a2, a3, r.now]
    by_cases hb : t.now > s
    · have : t.busy = none := by
        cases hbs : t.busy with
        | none => rfl
        | some x => have := h3 (by simp [hbs]); simp [hbs] at h2; omega
      rw [this] at h2
      simp at h2
      rw [if_pos (by simp [hb]), Nat.mul_one, Nat.mod_eq_of_lt (by omega)]
      omega
    · rw [if_neg (by simp [hb])]
      have : e - s = 0 := by
        cases hbs : t.busy with
        | none => simp [hbs] at h2; omega
        | some x => have := h3 (by simp [hbs]); omega
      omega
  · rw [if_neg es] at ha
    rw [ha.1, if_neg (by simp), ha.2]

theorem reading_eq {h : CHist} {t : CSpec} (r : CRep h t) : h.reading = t.reading := by
  unfold CHist.reading CSpec.reading
  have hlen := r.len_le
  congr 1
  · apply List.ext_getElem
    · simp [r.len]
    · intro i h1 h2
      simp only [List.getElem_map, List.getElem_range]
      rw [List.length_map] at h1
      rw [get_ctr r (sl := .bin i) (by simp [CHist.ctr])]
      unfold CHist.cnt
      simp only [slot_bin r]
  · rw [get_ctr r (sl := .under) rfl]
    unfold CHist.cnt
    simp only [slot_under r]
  · rw [get_ctr r (sl := .over) rfl]
    unfold CHist.cnt
    simp only [slot_over r]
  · obtain ⟨s, h1, h2⟩ := r.total
    have : t.cycles.length ≤ t.values.length := by simp [CSpec.values]
    rw [h1, r.now]
    unfold Cyc.get
    simp only [Bool.true_and]
    by_cases hs : t.now > s
    · rw [if_pos (by simp [hs]), Nat.mul_one, Nat.mod_eq_of_lt (by omega)]; omega
    · rw [if_neg (by simp [hs])]; omega
  · exact r.max

theorem foldl_max_le (l : List Nat) (a : Nat) : a ≤ l.foldl max a := by
  induction l generalizing a with
  | nil => exact Nat.le_refl _
  | cons x l ih => exact Nat.le_trans (Nat.le_max_left a x) (ih _)

theorem le_foldl_max (l : List Nat) (a v : Nat) (h : v ∈ l) : v ≤ l.foldl max a := by
  induction l generalizing a with
  | nil => cases h
  | cons x l ih =>
    rcases List.mem_cons.1 h with rfl | h
    · exact Nat.le_trans (Nat.le_max_right a v) (foldl_max_le l _)
    · exact ih _ h

theorem updateMax_eq {h : CHist} {l : List Nat} (v : Nat) (hm : h.max = l.foldl max 0) :
    h.updateMax v = { h with max := (l ++ [v]).foldl max 0 } := by
  unfold CHist.updateMax
  rw [List.foldl_append, ← hm]
  simp only [List.foldl_cons, List.foldl_nil]
  by_cases hv : v > h.max
  · rw [if_pos hv, Nat.max_eq_right (by omega)]
  · rw [if_neg hv, Nat.max_eq_left (by omega)]

theorem crep_tick1 {h : CHist} {t : CSpec} (r : CRep h t) (hf : t.now + 1 < word - half) :
    CRep { h with now := h.now + 1 } t.tick := by
  obtain ⟨s, h1, h2⟩ := r.total
  obtain ⟨s', e, a1, a2, a3, a4⟩ := r.active
  refine ⟨by simp [CSpec.tick, r.now], hf, r.lo, r.up, r.lt, r.shift, r.idle, r.len, r.last, r.max, r.curSeen, r.idleSeen,
    ⟨s, h1, by simp [CSpec.tick]; omega⟩, s', t.now + 1, ?_, by simp [CSpec.tick], by simp [CSpec.tick], ?_⟩
  · cases hb : t.busy <;> simp [hb] at a2 <;> omega
  intro sl c hc
  have ha := a4 sl c hc
  show if sl = h.slot t.cur then _ ∧ _ ∧ _ ∧ _ = h.cnt sl t.tick.values else _ ∧ _ = h.cnt sl t.tick.values
  cases hb : t.busy with
  | some x =>
    have hv : t.tick.values = t.values := by simp [CSpec.tick, CSpec.values, hb]
    rw [hv]
    have : e = t.now + 1 := by simp [hb] at a2; exact a2
    rw [this] at ha
    exact ha
  | none =>
    have hv : t.tick.values = t.values ++ [t.cur] := by simp [CSpec.tick, CSpec.values, hb]
    rw [hv, cnt_append]
    simp [hb] at a2
    by_cases es : sl = h.slot t.cur
    · rw [if_pos es] at ha ⊢
      obtain ⟨b1, b2, b3, b4⟩ := ha
      rw [if_pos es.symm]
      exact ⟨b1, b2, b3, by omega⟩
    · rw [if_neg es] at ha ⊢
      rw [if_neg fun x => es x.symm]
      exact ha

theorem crep_ticks {h : CHist} {t : CSpec} (r : CRep h t) (k : Nat) (hf : t.now + k < word - half) :
    CRep { h with now := h.now + k } (t.ticks k) ∧ (t.ticks k).now = t.now + k := by
  induction k with
  | zero => exact ⟨r, rfl⟩
  | succ k ih =>
    obtain ⟨h1, h2⟩ := ih (by omega)
    exact ⟨crep_tick1 h1 (by omega), by simp [CSpec.ticks, CSpec.tick, h2]; omega⟩

theorem crep_step (h : CHist) (t : CSpec) (o : COp) (hl : t.legal o) (r : CRep h t) :
    CRep (h.step o).1 (t.step o).1 ∧ (h.step o).2 = (t.step o).2 := by
  have hwf : t.now + 2 < word := by
    have := r.fits
    have : 2 ≤ half := by unfold half; decide
    omega
  obtain ⟨s0, T1, T2⟩ := r.total
  obtain ⟨s, e, a1, a2, a3, a4⟩ := r.active
  have hlen := r.len_le
  cases o with
  | read => exact ⟨r, by simp only [CHist.step, CSpec.step, reading_eq r]⟩
  | tick k => exact ⟨(crep_ticks r k hl).1, rfl⟩
  | add v =>
    cases hb : t.busy with
    | some x =>
      have he : e = t.now + 1 := by simp [hb] at a2; exact a2
      have hs : s = e := a3 (by simp [hb])
      have := stop_early (d := 0) r.ok a4 (by rw [r.now]; omega) (by rw [r.now]; omega)
      have e1 : h.addValue v = none := by unfold CHist.addValue; rw [r.last, this]; rfl
      simp only [CHist.step, CSpec.step, e1, hb, Option.isSome_some, if_true]
      exact ⟨r, trivial⟩
    | none =>
      have he : e = t.now := by simp [hb] at a2; exact a2
      have hvals : t.values = t.cycles := by simp [CSpec.values, hb]
      obtain ⟨h1, p1, p2, p3, p4⟩ := stop_active (d := 0) r.ok a4 (by rw [r.now]; omega) (by rw [r.now]; omega)
        (by rw [r.now]; omega) a1 (by rw [r.now]; omega)
      have z : h.now + 0 - e = 0 := by rw [r.now]; omega
      rw [z] at p4
      simp only [List.replicate_zero, List.append_nil] at p4
      have k1 : h1.now = t.now := by rw [p2.now, r.now]
      have ok1 := p2.ok r.ok
      obtain ⟨h2, q1, q2, q3, q4⟩ := start_idle ok1 p4 v 0 (by omega)
      have k2 : h2.now = t.now := by rw [q2.now, k1]
      have ok2 := q2.ok ok1
      obtain ⟨h3, u1, u2, u3, u4⟩ := stop_active (d := 1) ok2 q4 (by omega) (by omega) (by omega) (Nat.le_refl _)
        (by omega)
      have z' : h2.now + 1 - (h1.now + 0) = 1 := by omega
      rw [z'] at u4
      have k3 : h3.now = t.now := by rw [u2.now, k2]
      have ok3 := u2.ok ok2
      have F3 := (p2.trans q2).trans u2
      have hidle : h3.idle = t.idle := by rw [F3.idle, r.idle]
      obtain ⟨h4, w1, w2, w3, w4⟩ := start_idle ok3 u4 t.idle 1 (by omega)
      have F := F3.trans w2
      have hm : h4.max = t.seen.foldl max 0 := by rw [F.max]; exact r.max
      have e1 : h.addValue v = some { h4 with max := (t.seen ++ [v]).foldl max 0 } := by
        unfold CHist.addValue
        rw [r.last, p1, Option.bind_some, q1, Option.bind_some, u1, Option.bind_some, hidle, w1, Option.map_some,
          updateMax_eq v hm]
      simp only [CHist.step, CSpec.step, e1, hb, Option.isSome_none, Bool.false_eq_true, if_false]
      refine ⟨⟨by rw [← r.now]; exact F.now, r.fits, by rw [← r.lo]; exact F.lower, by rw [← r.up]; exact F.upper, r.lt, ?_,
        by rw [← r.idle]; exact F.idle, by rw [← r.len]; exact F.len, w3, rfl,
        List.mem_append_left _ r.idleSeen, List.mem_append_left _ r.idleSeen,
        ⟨s0, by rw [← T1]; exact F.total, T2⟩, t.now + 1, t.now + 1, Nat.le_refl _, rfl, fun _ => rfl, ?_⟩, trivial⟩
      · show t.n = 2 ^ h4.shift
        rw [F.shift]; exact r.shift
      · rw [k3, hvals] at w4
        exact w4
  | set v =>
    by_cases hv : v = t.cur
    · have e1 : h.setValue v = some h := by
        unfold CHist.setValue
        rw [r.last, if_neg (by simp [hv])]
      simp only [CHist.step, CSpec.step, e1, if_pos hv]
      refine ⟨⟨r.now, r.fits, r.lo, r.up, r.lt, r.shift, r.idle, r.len, r.last, ?_, List.mem_append_left _ r.curSeen,
        List.mem_append_left _ r.idleSeen, r.total, r.active⟩, trivial⟩
      show h.max = (t.seen ++ [v]).foldl max 0
      rw [List.foldl_append, ← r.max]
      have := le_foldl_max t.seen 0 v (by rw [hv]; exact r.curSeen)
      rw [← r.max] at this
      simp only [List.foldl_cons, List.foldl_nil]
      omega
    have hv' : h.last ≠ v := by rw [r.last]; exact fun x => hv x.symm
    cases hb : t.busy with
    | some x =>
      have he : e = t.now + 1 := by simp [hb] at a2; exact a2
      have hs : s = e := a3 (by simp [hb])
      have := stop_early (d := 0) r.ok a4 (by rw [r.now]; omega) (by rw [r.now]; omega)
      have e1 : h.setValue v = none := by unfold CHist.setValue; rw [if_pos hv', r.last, this]; rfl
      simp only [CHist.step, CSpec.step, e1, if_neg hv, hb, Option.isSome_some, if_true]
      exact ⟨r, trivial⟩
    | none =>
      have he : e = t.now := by simp [hb] at a2; exact a2
      obtain ⟨h1, p1, p2, p3, p4⟩ := stop_active (d := 0) r.ok a4 (by rw [r.now]; omega) (by rw [r.now]; omega)
        (by rw [r.now]; omega) a1 (by rw [r.now]; omega)
      have z : h.now + 0 - e = 0 := by rw [r.now]; omega
      rw [z] at p4
      simp only [List.replicate_zero, List.append_nil] at p4
      have k1 : h1.now = t.now := by rw [p2.now, r.now]
      have ok1 := p2.ok r.ok
      obtain ⟨h2, q1, q2, q3, q4⟩ := start_idle ok1 p4 v 0 (by omega)
      have F := p2.trans q2
      have hm : h2.max = t.seen.foldl max 0 := by rw [F.max]; exact r.max
      have e1 : h.setValue v = some { h2 with max := (t.seen ++ [v]).foldl max 0 } := by
        unfold CHist.setValue
        rw [if_pos hv', r.last, p1, Option.bind_some, q1, Option.map_some, updateMax_eq v hm]
      simp only [CHist.step, CSpec.step, e1, hb, if_neg hv, Option.isSome_none, Bool.false_eq_true, if_false]
      refine ⟨⟨by rw [← r.now]; exact F.now, r.fits, by rw [← r.lo]; exact F.lower, by rw [← r.up]; exact F.upper, r.lt, ?_,
        by rw [← r.idle]; exact F.idle, by rw [← r.len]; exact F.len, q3, rfl,
        List.mem_append_right _ (List.mem_singleton.2 rfl), List.mem_append_left _ r.idleSeen,
        ⟨s0, by rw [← T1]; exact F.total, T2⟩, t.now, t.now, Nat.le_refl _, by simp [hb], fun _ => rfl, ?_⟩, trivial⟩
      · show t.n = 2 ^ h2.shift
        rw [F.shift]; exact r.shift
      · rw [k1] at q4
        have hvals : t.values = ({ t with cur := v, seen := t.seen ++ [v], busy := none } : CSpec).values := by
          simp [CSpec.values, hb]
        rw [hvals] at q4
        exact q4

theorem crep_init {now lower upper n idle : Nat} {h : CHist} (hu : upper < word) (hn : n < word) (hi : idle < word)
    (hnow : now < word - half) (h0 : CHist.init now lower upper n idle = some h) :
    CRep h (.init now lower upper n idle) := by
  have hw : now + 0 < word := by omega
  unfold CHist.init at h0
  split at h0
  · cases h0
  next hlt =>
  split at h0
  · cases h0
  next hp =>
  split at h0
  · cases h0
  obtain ⟨k, hk⟩ := pow_of hn (by simpa using hp)
  have hn0 : 0 < n := by rw [hk]; exact Nat.pow_pos (by decide)
  rw [show Cyc.init.start_ now 1 0 = some ⟨1, 0, now, true⟩ by
    simp [Cyc.start_, Cyc.init, Nat.mod_eq_of_lt (show now < word from hw)]] at h0
  rw [Option.bind_some] at h0
  have hbw : binCount lower upper n < word := by
    refine Nat.lt_of_le_of_ne ?_ fun hb => ?_
    · unfold binCount
      have : (upper - lower) / n ≤ upper - lower := Nat.div_le_self ..
      omega
    · exfalso
      have hz : numBins lower upper n = 0 := by
        unfold numBins
        unfold binCount at hb
        rw [hb, Nat.mod_self]
      have hfull : lower = 0 ∧ upper = word - 1 := by
        unfold binCount at hb
        have : (upper - lower) / n ≤ upper - lower := Nat.div_le_self ..
        omega
      rw [hz] at h0
      unfold CHist.start_ CHist.count at h0
      simp only [List.replicate_zero] at h0
      rw [if_neg (by omega), if_neg (by omega)] at h0
      simp at h0
  rw [numBins_eq hbw] at h0
  let hh : CHist := ⟨now, lower, upper, shift64 n, idle, ⟨1, 0, now, true⟩, .init, .init,
    List.replicate (binCount lower upper n) .init, 0, 0⟩
  have hsh : n = 2 ^ shift64 n := by rw [shift64_eq hn hk]; exact hk
  have hT : hh.Total := by
    intro v i hv
    unfold CHist.slot slotOf at hv
    show i < (List.replicate (binCount lower upper n) Cyc.init).length
    rw [List.length_replicate]
    split at hv
    · cases hv
    · split at hv
      · cases hv
      · next h1 h2 =>
        obtain rfl := Slot.bin.inj hv
        show (v - lower) >>> shift64 n < _
        rw [Nat.shiftRight_eq_div_pow, ← hsh]
        have : ¬ v > upper := h2
        exact idx_lt (by omega)
  have hI : hh.Idle [] := by
    intro sl c hc
    have : c = .init := by
      cases sl with
      | under => exact (Option.some.inj hc).symm
      | over => exact (Option.some.inj hc).symm
      | bin i =>
        have hc' : (List.replicate (binCount lower upper n) Cyc.init)[i]? = some c := hc
        rw [List.getElem?_replicate] at hc'
        split at hc'
        · exact (Option.some.inj hc').symm
        · cases hc'
    subst this
    exact ⟨rfl, rfl⟩
  obtain ⟨h2, q1, q2, q3, q4⟩ := start_idle hT hI idle 0 hw
  replace h0 : (hh.start_ idle 0).map (fun h => h.updateMax idle) = some h := h0
  rw [q1, Option.map_some] at h0
  have hm : h2.max = ([] : List Nat).foldl max 0 := q2.max
  rw [updateMax_eq idle hm] at h0
  obtain rfl := Option.some.inj h0
  exact ⟨q2.now, hnow, q2.lower, q2.upper, by show lower < upper; omega,
    by show n = 2 ^ h2.shift; rw [q2.shift]; exact hsh, q2.idle,
    by show h2.bins.length = _; rw [q2.len]; exact List.length_replicate, q3, rfl,
    List.mem_singleton.2 rfl, List.mem_singleton.2 rfl, ⟨now, q2.total, rfl⟩,
    now, now, Nat.le_refl _, rfl, fun _ => rfl, q4⟩

end Sparta.Histogram
