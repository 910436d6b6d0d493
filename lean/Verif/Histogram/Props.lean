import Verif.Histogram.Lemmas2

/-!
# Properties C114 to C118: histograms
-/

namespace Sparta.Histogram

open Sparta.Counter (word half)

theorem sum_bins {lower upper n : Nat} {vs : List Nat} (hn : 0 < n) (hlu : lower < upper) :
    ∀ m i, i + m = binCount lower upper n → 0 < m →
      vs.countP (fun v => decide (v < lower + i * n)) +
          ((List.range' i m).map fun i => vs.countP (inBin lower upper n i)).sum =
        vs.countP fun v => decide (v ≤ upper)
  | m + 1, i, h, _ => by
    rw [List.range'_succ, List.map_cons, List.sum_cons, ← Nat.add_assoc, count_bin hn hlu (by omega)]
    cases m with
    | zero => rw [(lastOf_last hn hlu (i := i) (by omega)).2.1]; rfl
    | succ m =>
      obtain ⟨h1, h2⟩ := lastOf_inner hn hlu (i := i) (by omega)
      have e1 : (vs.countP fun v => decide (v ≤ lastOf lower upper n i)) =
          vs.countP fun v => decide (v < lower + (i + 1) * n) := by
        refine List.countP_congr fun v _ => ?_
        have : 0 < (i + 1) * n := Nat.mul_pos (by omega) hn
        simp only [decide_eq_true_eq]
        omega
      rw [e1]
      exact sum_bins hn hlu (m + 1) (i + 1) (by omega) (by omega)

theorem sum_all {lower upper n : Nat} (vs : List Nat) (hn : 0 < n) (hlu : lower < upper) :
    vs.countP (fun v => decide (v < lower)) +
        ((List.range (binCount lower upper n)).map fun i => vs.countP (inBin lower upper n i)).sum +
        vs.countP (fun v => decide (v > upper)) = vs.length := by
  have h := sum_bins (vs := vs) hn hlu (binCount lower upper n) 0 (by omega) (Nat.succ_pos _)
  rw [List.range_eq_range']
  simp only [Nat.zero_mul, Nat.add_zero] at h
  rw [h]
  have : vs.countP (fun v => decide (v ≤ upper)) + vs.countP (fun v => decide (v > upper)) =
      vs.countP fun _ => true :=
    countP_add (fun v => by rw [Bool.eq_iff_iff]; simp; omega) (fun v => by simp)
  rw [this]
  simp

/-- C114, part: after any values were added, the total is their number and the sum their sum, each of the underflow
count, the overflow count and the count of the `i`-th bin is the number of values below the lower limit, above the upper
limit and in `[lower + i * n, lower + (i + 1) * n)`; together they are the total. Missing: a histogram over all 64 bit
numbers with one value per bin. -/
theorem C114_counts_partial {lower upper n maxVals : Nat} {h : Hist} (hn : n < half)
    (hb : (upper - lower) / n + 1 < word) (hi : Hist.init lower upper n maxVals = some h) (vs : List Nat)
    (hv : vs.length < word) :
    ∃ h', h.addAll vs = (h', true) ∧ h'.total = vs.length ∧ h'.sum = vs.sum % word ∧
      h'.under = vs.countP (fun v => decide (v < lower)) ∧
      h'.over = vs.countP (fun v => decide (v > upper)) ∧
      h'.bins.length = (upper - lower) / n + 1 ∧
      (∀ i c, h'.bins[i]? = some c → c = vs.countP fun v =>
        decide (lower + i * n ≤ v) && decide (v < lower + (i + 1) * n) && decide (v ≤ upper)) ∧
      h'.under + h'.bins.sum + h'.over = h'.total := by
  obtain ⟨r, hlu, hh⟩ := hrep_init hn hb hi
  obtain ⟨h', e, r'⟩ := hrep_addAll hh hlu vs r
  rw [List.nil_append] at r'
  have hn0 : 0 < n := by rw [r'.shift]; exact Nat.pow_pos (by decide)
  have hc : ∀ p : Nat → Bool, vs.countP p % word = vs.countP p := fun p =>
    Nat.mod_eq_of_lt (Nat.lt_of_le_of_lt List.countP_le_length hv)
  have hbins : h'.bins = (List.range (binCount lower upper n)).map fun i => vs.countP (inBin lower upper n i) := by
    rw [r'.bins]
    exact List.map_congr_left fun i _ => hc _
  have hT : h'.total = vs.length := by rw [r'.total]; exact Nat.mod_eq_of_lt hv
  have hU := r'.under.trans (hc _)
  have hO := r'.over.trans (hc _)
  refine ⟨h', e, hT, r'.sum, hU, hO, by rw [hbins]; simp [binCount], fun i c hic => ?_, ?_⟩
  · rw [hbins] at hic
    simp only [List.getElem?_map, Option.map_eq_some_iff] at hic
    obtain ⟨j, hj, rfl⟩ := hic
    rw [List.getElem?_eq_some_iff] at hj
    obtain ⟨hj1, hj2⟩ := hj
    rw [List.getElem_range] at hj2
    subst hj2
    rfl
  · rw [hU, hO, hT, hbins]
    exact sum_all vs hn0 hlu

example : ∃ h, Hist.init 5 20 4 2 = some h ∧ (4 : Nat) < half ∧ (20 - 5) / 4 + 1 < word ∧
    (h.addAll [3, 5, 8, 9, 20, 21, 100, 19]).1.bins = [2, 1, 0, 2] := ⟨_, rfl, by decide, by decide, by decide⟩

/-- C114 is violated: a histogram over all 64 bit numbers with one value per bin is constructed without bins, and
adding a value throws after the total was incremented -/
theorem C114_range_violated :
    ∃ h : Hist, Hist.init 0 (2 ^ 64 - 1) 1 0 = some h ∧ h.bins = [] ∧
      ∀ v, v < 2 ^ 64 → (h.addValue v).2 = false ∧ (h.addValue v).1.total = 1 := by
  refine ⟨⟨0, 2 ^ 64 - 1, 1, 0, [], 0, 0, 0, 0, [], [], []⟩, by decide +kernel, rfl, fun v hv => ?_⟩
  have h1 : ¬ v < 0 := by omega
  have h2 : ¬ v > 2 ^ 64 - 1 := by omega
  have h3 : (0 + 1) % word = 1 := by decide +kernel
  unfold Hist.addValue
  dsimp only
  rw [if_neg h1, if_neg h2, h3]
  simp

/-- C115, part: the limits in the name of the `i`-th bin are the least and the greatest value counted in it, and the
line of the cumulative display for a bin shows the number of values up to the end of the bin, the last line the total.
Missing: histograms whose upper limit is less than the width of a bin below 2^64, and those of 2^64 bins. -/
theorem C115_names_partial {lower upper n maxVals : Nat} {h : Hist} (hn : n < half) (hw : upper + n ≤ word)
    (hb : (upper - lower) / n + 1 < word) (hi : Hist.init lower upper n maxVals = some h) (vs : List Nat) (hv : vs.length < word) :
    ∃ h', h.addAll vs = (h', true) ∧
      h'.names = (List.range ((upper - lower) / n + 1)).map (fun i => (lower + i * n, min (lower + (i + 1) * n - 1) upper)) ∧
      h'.cumulative = (vs.countP (fun v => decide (v < lower)),
        (List.range ((upper - lower) / n + 1)).map (fun i =>
          (min (lower + (i + 1) * n - 1) upper, vs.countP fun v => decide (v ≤ min (lower + (i + 1) * n - 1) upper))),
        vs.length) := by
  obtain ⟨r, hlu, hh⟩ := hrep_init hn hb hi
  obtain ⟨h', e, r'⟩ := hrep_addAll hh hlu vs r
  rw [List.nil_append] at r'
  have hn0 : 0 < n := by rw [r'.shift]; exact Nat.pow_pos (by decide)
  have hc : ∀ p : Nat → Bool, vs.countP p % word = vs.countP p := fun p =>
    Nat.mod_eq_of_lt (Nat.lt_of_le_of_lt List.countP_le_length hv)
  refine ⟨h', e, by rw [r'.names, labels_eq hn0 hlu hw]; rfl, ?_⟩
  have hcum := cumLoop_eq (vs := vs) hn0 hlu hw hv (binCount lower upper n) 0 (by omega)
  have hfold := fold_eq (vs := vs) hn0 hlu hv (binCount lower upper n) 0 (by omega) (Nat.succ_pos _)
  simp only [Nat.zero_mul, Nat.add_zero, Nat.zero_add, Nat.one_mul, ← List.range_eq_range'] at hcum hfold
  unfold Hist.cumulative
  rw [r'.under, hc, r'.lo, r'.up, r'.per, r'.bins, r'.over, hc, hcum, hfold]
  have : vs.countP (fun v => decide (v ≤ upper)) + vs.countP (fun v => decide (v > upper)) =
      vs.countP fun _ => true :=
    countP_add (fun v => by rw [Bool.eq_iff_iff]; simp; omega) (fun v => by simp)
  rw [this, List.countP_true, Nat.mod_eq_of_lt hv]
  rfl

example : ∃ h, Hist.init 5 18 4 0 = some h ∧ 18 + 4 ≤ word ∧ h.names = [(5, 8), (9, 12), (13, 16), (17, 18)] ∧
    (h.addAll [3, 5, 8, 9, 20, 21, 100, 18]).1.cumulative = (1, [(8, 3), (12, 4), (16, 4), (18, 5)], 8) :=
  ⟨_, rfl, by decide, by decide +kernel, by decide +kernel⟩

/-- C115 is violated: the bin of the values from 2^64 - 4 to 2^64 - 2 is named as if it ended at 3 -/
theorem C115_names_violated :
    ∃ h : Hist, Hist.init (2 ^ 64 - 4) (2 ^ 64 - 2) 8 0 = some h ∧ h.names = [(2 ^ 64 - 4, 3)] ∧
      (h.addAll [2 ^ 64 - 3]).1.bins = [1] := by
  refine ⟨_, rfl, ?_, ?_⟩ <;> decide +kernel

/-- C116: the counters for the greatest values show, in ascending order, the greatest of the values added (and zeros):
what they show and the other values are all values and zeros, and no other value is greater than one shown -/
theorem C116_greatest {lower upper n maxVals : Nat} {h : Hist} (hn : n < half)
    (hb : (upper - lower) / n + 1 < word) (hi : Hist.init lower upper n maxVals = some h) (vs : List Nat) :
    ∃ h', h.addAll vs = (h', true) ∧ h'.maxs.length = maxVals ∧ h'.maxs.Pairwise (· ≤ ·) ∧
      ∃ rest, (h'.maxs ++ rest).Perm (vs ++ List.replicate maxVals 0) ∧ ∀ x ∈ rest, ∀ y ∈ h'.maxs, x ≤ y := by
  obtain ⟨r, hlu, hh⟩ := hrep_init hn hb hi
  obtain ⟨h', e, r'⟩ := hrep_addAll hh hlu vs r
  rw [List.nil_append] at r'
  have := r'.tops
  rw [← r'.maxs] at this
  exact ⟨h', e, this⟩

example : ∃ h, Hist.init 5 20 4 3 = some h ∧ (h.addAll [3, 30, 8, 30, 20, 1]).1.maxs = [20, 30, 30] :=
  ⟨_, rfl, by decide⟩

/-- the histogram after a history -/
def after (h : CHist) (os : List COp) : CHist := (runOps CHist.step h os).1

/-- the specification after a history: the value of each cycle -/
def specAfter (now lower upper n idle : Nat) (os : List COp) : CSpec :=
  (runOps CSpec.step (.init now lower upper n idle) os).1

theorem crep_run {now lower upper n idle : Nat} {h : CHist} (hu : upper < word) (hn : n < word) (hi : idle < word)
    (hnow : now < word - half) (h0 : CHist.init now lower upper n idle = some h) (os : List COp)
    (hl : legalOps CSpec.step CSpec.legal (.init now lower upper n idle) os) :
    CRep (after h os) (specAfter now lower upper n idle os) ∧
      (runOps CHist.step h os).2 = (runOps CSpec.step (.init now lower upper n idle) os).2 :=
  runOps_simulation_legal CHist.step CSpec.step CSpec.legal CRep
    (fun s t o r hl => crep_step s t o hl r) _ _ (crep_init hu hn hi hnow h0) os hl

theorem static (os : List COp) (t : CSpec) :
    (runOps CSpec.step t os).1.lower = t.lower ∧ (runOps CSpec.step t os).1.upper = t.upper ∧
      (runOps CSpec.step t os).1.n = t.n ∧
      (t.now ≤ (runOps CSpec.step t os).1.now ∧
        (runOps CSpec.step t os).1.cycles.length + t.now = t.cycles.length + (runOps CSpec.step t os).1.now) := by
  induction os generalizing t with
  | nil => exact ⟨rfl, rfl, rfl, Nat.le_refl _, rfl⟩
  | cons o os ih =>
    have hk : ∀ k, (t.ticks k).lower = t.lower ∧ (t.ticks k).upper = t.upper ∧ (t.ticks k).n = t.n ∧
        t.now ≤ (t.ticks k).now ∧ (t.ticks k).cycles.length + t.now = t.cycles.length + (t.ticks k).now := by
      intro k
      induction k with
      | zero => exact ⟨rfl, rfl, rfl, Nat.le_refl _, rfl⟩
      | succ k ih =>
        obtain ⟨a, b, c, d, e⟩ := ih
        refine ⟨a, b, c, ?_, ?_⟩
        · show t.now ≤ (t.ticks k).now + 1; omega
        · show ((t.ticks k).cycles ++ [_]).length + t.now = t.cycles.length + ((t.ticks k).now + 1)
          simp only [List.length_append, List.length_singleton]
          omega
    have hstep : (t.step o).1.lower = t.lower ∧ (t.step o).1.upper = t.upper ∧ (t.step o).1.n = t.n ∧
        t.now ≤ (t.step o).1.now ∧ (t.step o).1.cycles.length + t.now = t.cycles.length + (t.step o).1.now := by
      cases o with
      | tick k => exact hk k
      | add v => unfold CSpec.step; by_cases hb : t.busy.isSome <;> simp [hb]
      | set v =>
        unfold CSpec.step
        by_cases hc : v = t.cur
        · simp [hc]
        · by_cases hb : t.busy.isSome <;> simp [hc, hb]
      | read => exact ⟨rfl, rfl, rfl, Nat.le_refl _, rfl⟩
    obtain ⟨a, b, c, d, e⟩ := hstep
    obtain ⟨a', b', c', d', e'⟩ := ih (t.step o).1
    exact ⟨a'.trans a, b'.trans b, c'.trans c, Nat.le_trans d d', by simp only [runOps]; omega⟩

/-- C117: after every history a cycle histogram shows for each bin, for underflow and for overflow the number of cycles
whose value is in the range, where the value of a cycle is the one added in it, or else the one set last until its end,
or else the idle value; the value added in the current cycle counts at once. A value can be added once in a cycle and
none can be set after that in the cycle, other than the idle value: such calls throw. -/
theorem C117_cycles {now lower upper n idle : Nat} {h : CHist} (hu : upper < word) (hn : n < word) (hi : idle < word)
    (hnow : now < word - half) (h0 : CHist.init now lower upper n idle = some h) (os : List COp)
    (hl : legalOps CSpec.step CSpec.legal (.init now lower upper n idle) os) :
    let vs := (specAfter now lower upper n idle os).values
    (runOps CHist.step h os).2 = (runOps CSpec.step (.init now lower upper n idle) os).2 ∧
      (after h os).reading.bins = (List.range ((upper - lower) / n + 1)).map (fun i => vs.countP fun v =>
        decide (lower + i * n ≤ v) && decide (v < lower + (i + 1) * n) && decide (v ≤ upper)) ∧
      (after h os).reading.under = vs.countP (fun v => decide (v < lower)) ∧
      (after h os).reading.over = vs.countP (fun v => decide (v > upper)) := by
  intro vs
  obtain ⟨r, hr⟩ := crep_run hu hn hi hnow h0 os hl
  obtain ⟨s1, s2, s3, _⟩ := static os (.init now lower upper n idle)
  have s1' : (specAfter now lower upper n idle os).lower = lower := s1
  have s2' : (specAfter now lower upper n idle os).upper = upper := s2
  have s3' : (specAfter now lower upper n idle os).n = n := s3
  refine ⟨hr, ?_, ?_, ?_⟩
  · rw [reading_eq r]; unfold CSpec.reading; rw [s1', s2', s3']; rfl
  · rw [reading_eq r]; unfold CSpec.reading; rw [s1']
  · rw [reading_eq r]; unfold CSpec.reading; rw [s2']

example : ∃ h, CHist.init 7 2 9 4 0 = some h ∧
    legalOps CSpec.step CSpec.legal (.init 7 2 9 4 0) [.tick 2, .add 5, .set 8, .tick 3, .set 8, .set 9, .tick 4, .add 20, .read] ∧
    (runOps CHist.step h [.tick 2, .add 5, .set 8, .tick 3, .set 8, .set 9, .tick 4, .add 20, .read]).2 =
      [.done, .done, .threw, .done, .done, .done, .done, .done, .read ⟨[1, 4], 4, 1, 9, 20⟩] :=
  ⟨_, rfl, by decide +kernel, by decide +kernel⟩

/-- C118: the total of a cycle histogram is the number of cycles since its construction; the bins with underflow and
overflow are the total, and one more after a value was added in the current cycle; the maximum is the greatest of the
idle value and all values given. -/
theorem C118_total {now lower upper n idle : Nat} {h : CHist} (hu : upper < word) (hn : n < word) (hi : idle < word)
    (hnow : now < word - half) (h0 : CHist.init now lower upper n idle = some h) (os : List COp)
    (hl : legalOps CSpec.step CSpec.legal (.init now lower upper n idle) os) :
    let t := specAfter now lower upper n idle os
    let r := (after h os).reading
    now + r.total = t.now ∧ (after h os).now = t.now ∧
      r.under + r.bins.sum + r.over = r.total + t.busy.toList.length ∧
      (r.max ∈ t.seen ∧ ∀ v ∈ t.seen, v ≤ r.max) := by
  intro t r
  have hr := (crep_run hu hn hi hnow h0 os hl).1
  obtain ⟨s1, s2, s3, s4, s5⟩ := static os (.init now lower upper n idle)
  have e : r = t.reading := reading_eq hr
  have hmem : ∀ (l : List Nat) (a : Nat), l.foldl max a = a ∨ l.foldl max a ∈ l := by
    intro l
    induction l with
    | nil => exact fun a => .inl rfl
    | cons x l ih =>
      intro a
      rcases ih (max a x) with h | h
      · rcases Nat.le_total a x with hx | hx
        · rw [Nat.max_eq_right hx] at h
          right; rw [List.foldl_cons, Nat.max_eq_right hx, h]; exact List.mem_cons_self ..
        · rw [Nat.max_eq_left hx] at h
          left; rw [List.foldl_cons, Nat.max_eq_left hx, h]
      · right; exact List.mem_cons_of_mem _ h
  refine ⟨?_, hr.now, ?_, ?_, ?_⟩
  · rw [e]
    have : t.cycles.length + now = 0 + t.now := s5
    show now + t.cycles.length = t.now
    omega
  · rw [e]
    have := sum_all t.values hr.npos hr.lt
    have hlen : t.values.length = t.cycles.length + t.busy.toList.length := by simp [CSpec.values]
    exact this.trans hlen
  · rw [e]
    show t.seen.foldl max 0 ∈ t.seen
    rcases hmem t.seen 0 with h | h
    · have hi := le_foldl_max t.seen 0 t.idle hr.idleSeen
      rw [h] at hi
      have : t.idle = 0 := by omega
      rw [h, ← this]
      exact hr.idleSeen
    · exact h
  · intro v hv
    rw [e]
    exact le_foldl_max t.seen 0 v hv

example : ∃ h, CHist.init 7 2 9 4 3 = some h ∧
    legalOps CSpec.step CSpec.legal (.init 7 2 9 4 3) [.tick 2, .add 5, .tick 3, .set 12, .tick 1] ∧
    (after h [.tick 2, .add 5, .tick 3, .set 12, .tick 1]).reading = ⟨[5, 0], 0, 1, 6, 12⟩ :=
  ⟨_, rfl, by decide +kernel, by decide +kernel⟩

end Sparta.Histogram
