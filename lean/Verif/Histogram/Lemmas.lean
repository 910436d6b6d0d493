import Verif.Histogram.Spec
import Verif.MathUtils.Props

/-!
# Lemmas on histograms
-/

namespace Sparta.Histogram

open Sparta.Counter (word half Cyc)

theorem word_eq : word = 2 ^ 64 := rfl
theorem half_eq : half = 2 ^ 32 := rfl
theorem half_lt : half < word := by decide
theorem half_pos : 0 < half := by decide
attribute [local irreducible] word half

theorem pow_of {n : Nat} (hn : n < word) (h : MathUtils.isPowerOf2 (BitVec.ofNat 64 n) = true) :
    ∃ k, n = 2 ^ k := by
  obtain ⟨k, hk⟩ := (MathUtils.C30_is_power_of_2 _).1 h
  rw [BitVec.toNat_ofNat, Nat.mod_eq_of_lt (by rw [← word_eq]; exact hn)] at hk
  exact ⟨k, hk⟩

theorem shift64_eq {n k : Nat} (hn : n < word) (h : n = 2 ^ k) : shift64 n = k := by
  unfold shift64
  rw [MathUtils.floorLog2_64_eq, BitVec.toNat_ofNat, Nat.mod_eq_of_lt (by rw [← word_eq]; exact hn), h,
    Nat.log2_two_pow]

theorem shift32_eq {n k : Nat} (hn : n < half) (h : n = 2 ^ k) : shift32 n = k := by
  unfold shift32
  rw [MathUtils.floorLog2_32_eq, BitVec.toNat_ofNat, Nat.mod_eq_of_lt (by rw [← half_eq]; exact hn), h,
    Nat.log2_two_pow]

theorem inBin_iff {lower upper n v : Nat} (hn : 0 < n) (h1 : lower ≤ v) (h2 : v ≤ upper) (i : Nat) :
    inBin lower upper n i v = decide ((v - lower) / n = i) := by
  have h := @Nat.div_eq_iff n (v - lower) i hn
  unfold inBin
  simp only [Nat.add_mul, Nat.one_mul, h2, decide_true, Bool.and_true]
  rw [Bool.eq_iff_iff]
  simp only [Bool.and_eq_true, decide_eq_true_eq, h]
  omega

theorem inBin_under {lower upper n v : Nat} (h : v < lower) (i : Nat) : inBin lower upper n i v = false := by
  unfold inBin
  have : 0 ≤ i * n := Nat.zero_le _
  have : ¬ lower + i * n ≤ v := by omega
  simp [this]

theorem inBin_over {lower upper n v : Nat} (h : upper < v) (i : Nat) : inBin lower upper n i v = false := by
  unfold inBin
  have : ¬ v ≤ upper := by omega
  simp [this]

theorem idx_lt {lower upper n v : Nat} (h2 : v ≤ upper) :
    (v - lower) / n < binCount lower upper n := by
  unfold binCount
  have : (v - lower) / n ≤ (upper - lower) / n := Nat.div_le_div_right (by omega)
  omega

theorem set_map_range {β : Type} {K idx : Nat} {f g : Nat → β} {x : β} (hx : g idx = x)
    (ho : ∀ i, i ≠ idx → g i = f i) : ((List.range K).map f).set idx x = (List.range K).map g := by
  apply List.ext_getElem
  · simp
  · intro i h1 h2
    rw [List.getElem_set]
    by_cases h : idx = i
    · subst h; simp [hx]
    · simp [h, ho i (fun e => h e.symm)]

theorem numBins_eq {lower upper n : Nat} (h : binCount lower upper n < word) :
    numBins lower upper n = binCount lower upper n := Nat.mod_eq_of_lt h

/-! ## the greatest values -/

theorem insert_perm (v : Nat) (l : List Nat) : (insert v l).Perm (v :: l) := by
  induction l with
  | nil => exact .refl _
  | cons x xs ih =>
    unfold insert
    split
    · exact .refl _
    · exact (List.Perm.cons x ih).trans (List.Perm.swap ..)

theorem insert_sorted (v : Nat) (l : List Nat) (h : l.Pairwise (· ≤ ·)) : (insert v l).Pairwise (· ≤ ·) := by
  induction l with
  | nil => exact List.pairwise_singleton ..
  | cons x xs ih =>
    have hx := List.pairwise_cons.1 h
    unfold insert
    split
    · next hv =>
      refine List.pairwise_cons.2 ⟨fun y hy => ?_, h⟩
      rcases List.mem_cons.1 hy with rfl | hy
      · omega
      · exact Nat.le_trans (Nat.le_of_lt hv) (hx.1 y hy)
    · next hv =>
      refine List.pairwise_cons.2 ⟨fun y hy => ?_, ih hx.2⟩
      rcases List.mem_cons.1 ((insert_perm v xs).mem_iff.1 hy) with rfl | hy
      · omega
      · exact hx.1 y hy

/-- `l` holds, in ascending order, the `N` greatest of the values and `N` zeros -/
def Greatest (N : Nat) (vs l : List Nat) : Prop :=
  l.length = N ∧ l.Pairwise (· ≤ ·) ∧
    ∃ rest, (l ++ rest).Perm (vs ++ List.replicate N 0) ∧ ∀ x ∈ rest, ∀ y ∈ l, x ≤ y

theorem greatest_init (N : Nat) : Greatest N [] (List.replicate N 0) := by
  refine ⟨by simp, ?_, [], by simp, by simp⟩
  rw [List.pairwise_replicate]
  exact .inr (Nat.le_refl _)

/-- the list after a value -/
def newTops (v : Nat) : List Nat → List Nat
  | [] => []
  | m :: rest => if m ≥ v then m :: rest else insert v rest

theorem greatest_step {N : Nat} {vs l : List Nat} {v : Nat} (h : Greatest N vs l) :
    Greatest N (vs ++ [v]) (newTops v l) := by
  obtain ⟨h1, h2, rest, h3, h4⟩ := h
  have hperm : ((v :: l) ++ rest).Perm ((vs ++ [v]) ++ List.replicate N 0) := by
    refine (List.Perm.cons v h3).trans ?_
    rw [List.append_assoc]
    exact List.perm_middle.symm
  cases l with
  | nil => exact ⟨h1, h2, v :: rest, hperm, fun _ _ _ h => absurd h (List.not_mem_nil)⟩
  | cons m l =>
    have hm := List.pairwise_cons.1 h2
    show Greatest N _ (if m ≥ v then m :: l else insert v l)
    by_cases hv : m ≥ v
    · rw [if_pos hv]
      refine ⟨h1, h2, v :: rest, List.perm_middle.trans hperm, fun x hx y hy => ?_⟩
      rcases List.mem_cons.1 hx with rfl | hx
      · rcases List.mem_cons.1 hy with rfl | hy
        · exact hv
        · exact Nat.le_trans hv (hm.1 y hy)
      · exact h4 x hx y hy
    · rw [if_neg hv]
      refine ⟨by rw [(insert_perm v l).length_eq]; exact h1, insert_sorted v l hm.2, m :: rest, ?_, fun x hx y hy => ?_⟩
      · refine ((insert_perm v l).append_right (m :: rest)).trans (.trans ?_ hperm)
        exact (List.Perm.cons v (List.perm_middle (a := m) (l₁ := l) (l₂ := rest)))
      · have hle : x ≤ m := by
          rcases List.mem_cons.1 hx with rfl | hx
          · exact Nat.le_refl _
          · exact h4 x hx m (List.mem_cons_self ..)
        rcases List.mem_cons.1 ((insert_perm v l).mem_iff.1 hy) with rfl | hy
        · omega
        · exact Nat.le_trans hle (hm.1 y hy)

/-! ## `Hist` -/

structure HRep (lower upper n N : Nat) (h : Hist) (vs : List Nat) : Prop where
  lo : h.lower = lower
  up : h.upper = upper
  per : h.perBin = n
  shift : n = 2 ^ h.shift
  names : h.names = labels lower upper n (binCount lower upper n)
  total : h.total = vs.length % word
  sum : h.sum = vs.sum % word
  under : h.under = vs.countP (fun v => decide (v < lower)) % word
  over : h.over = vs.countP (fun v => decide (v > upper)) % word
  bins : h.bins = (List.range (binCount lower upper n)).map fun i => vs.countP (inBin lower upper n i) % word
  maxs : h.maxs = h.tops
  tops : Greatest N vs h.tops

theorem hrep_init {lower upper n N : Nat} {h : Hist} (hn : n < half) (hb : binCount lower upper n < word)
    (hi : Hist.init lower upper n N = some h) :
    HRep lower upper n N h [] ∧ lower < upper ∧ binCount lower upper n < half := by
  unfold Hist.init at hi
  split at hi
  · cases hi
  · next hlt =>
    split at hi
    · cases hi
    · next hp =>
      split at hi
      · cases hi
      · next hh =>
        rw [numBins_eq hb] at hi hh
        obtain ⟨k, hk⟩ := pow_of (Nat.lt_trans hn half_lt) (by simpa using hp)
        obtain rfl := Option.some.inj hi
        refine ⟨⟨rfl, rfl, rfl, by rw [shift32_eq hn hk]; exact hk, rfl, rfl, rfl, rfl, rfl, ?_, rfl,
          greatest_init N⟩, by omega, by omega⟩
        simp [List.map_const']

theorem mod_succ (x : Nat) : (x % word + 1) % word = (x + 1) % word := Nat.mod_add_mod ..

theorem HRep.fin {lower upper n N : Nat} {h : Hist} {vs : List Nat} {v : Nat}
    (h1 : h.lower = lower) (h2 : h.upper = upper) (h3 : h.perBin = n) (h4 : n = 2 ^ h.shift)
    (hn : h.names = labels lower upper n (binCount lower upper n))
    (h5 : h.total = (vs ++ [v]).length % word) (h6 : h.sum = (vs ++ [v]).sum % word)
    (h7 : h.under = (vs ++ [v]).countP (fun v => decide (v < lower)) % word)
    (h8 : h.over = (vs ++ [v]).countP (fun v => decide (v > upper)) % word)
    (h9 : h.bins = (List.range (binCount lower upper n)).map fun i => (vs ++ [v]).countP (inBin lower upper n i) % word)
    (h10 : h.maxs = h.tops) (h11 : Greatest N vs h.tops) :
    HRep lower upper n N (h.track v) (vs ++ [v]) := by
  have hs := greatest_step (v := v) h11
  unfold Hist.track Hist.updateMax
  cases ht : h.tops with
  | nil =>
    rw [ht] at h10 hs
    rw [if_neg (by simp [h10])]
    exact ⟨h1, h2, h3, h4, hn, h5, h6, h7, h8, h9, by rw [h10, ht], by rw [ht]; exact hs⟩
  | cons m l =>
    rw [ht] at h10 hs
    rw [if_pos (by simp [h10])]
    dsimp only
    by_cases hv : m ≥ v
    · rw [if_pos hv]
      simp only [newTops, if_pos hv] at hs
      exact ⟨h1, h2, h3, h4, hn, h5, h6, h7, h8, h9, by rw [h10, ht], by rw [ht]; exact hs⟩
    · rw [if_neg hv]
      simp only [newTops, if_neg hv] at hs
      exact ⟨h1, h2, h3, h4, hn, h5, h6, h7, h8, h9, rfl, hs⟩

theorem hrep_add {lower upper n N : Nat} {h : Hist} {vs : List Nat} (hh : binCount lower upper n < half)
    (hlu : lower < upper) (r : HRep lower upper n N h vs) (v : Nat) :
    ∃ h', h.addValue v = (h', true) ∧ HRep lower upper n N h' (vs ++ [v]) := by
  have hn : 0 < n := by rw [r.shift]; exact Nat.pow_pos (by decide)
  have ht : (h.total + 1) % word = (vs ++ [v]).length % word := by rw [r.total, mod_succ]; simp
  have hs : (h.sum + v) % word = (vs ++ [v]).sum % word := by rw [r.sum, Nat.mod_add_mod]; simp
  have e1 : ∀ p : Nat → Bool, (vs ++ [v]).countP p = vs.countP p + (if p v then 1 else 0) := fun p => by
    rw [List.countP_append, List.countP_singleton]
  unfold Hist.addValue
  dsimp only
  rw [r.lo, r.up]
  by_cases hl : v < lower
  · rw [if_pos hl]
    refine ⟨_, rfl, ?_⟩
    refine HRep.fin ?_ ?_ ?_ ?_ ?_ ?_ ?_ ?_ ?_ ?_ ?_ ?_
    · rfl
    · rfl
    · exact r.per
    · exact r.shift
    · exact r.names
    · exact ht
    · exact hs
    · show (h.under + 1) % word = _
      rw [r.under, mod_succ, e1, if_pos (by simpa using hl)]
    · show h.over = _
      rw [e1, if_neg (by simp; omega), r.over]; rfl
    · show h.bins = _
      rw [r.bins]
      refine List.map_congr_left fun i _ => ?_
      rw [e1, inBin_under hl]; simp
    · exact r.maxs
    · exact r.tops
  rw [if_neg hl]
  by_cases hu : v > upper
  · rw [if_pos hu]
    refine ⟨_, rfl, ?_⟩
    refine HRep.fin ?_ ?_ ?_ ?_ ?_ ?_ ?_ ?_ ?_ ?_ ?_ ?_
    · rfl
    · rfl
    · exact r.per
    · exact r.shift
    · exact r.names
    · exact ht
    · exact hs
    · show h.under = _
      rw [e1, if_neg (by simp; omega), r.under]; rfl
    · show (h.over + 1) % word = _
      rw [r.over, mod_succ, e1, if_pos (by simpa using hu)]
    · show h.bins = _
      rw [r.bins]
      refine List.map_congr_left fun i _ => ?_
      rw [e1, inBin_over hu]; simp
    · exact r.maxs
    · exact r.tops
  rw [if_neg hu]
  have hidx : (v - lower) / n < binCount lower upper n := idx_lt (by omega)
  have hsh : ((v - lower) >>> h.shift) % half = (v - lower) / n := by
    rw [Nat.shiftRight_eq_div_pow, ← r.shift, Nat.mod_eq_of_lt (by omega)]
  have hget : h.bins[(v - lower) / n]? = some (vs.countP (inBin lower upper n ((v - lower) / n)) % word) := by
    rw [r.bins]; simp [hidx]
  rw [hsh, hget]
  refine ⟨_, rfl, ?_⟩
  refine HRep.fin ?_ ?_ ?_ ?_ ?_ ?_ ?_ ?_ ?_ ?_ ?_ ?_
  · rfl
  · rfl
  · exact r.per
  · exact r.shift
  · exact r.names
  · exact ht
  · exact hs
  · show h.under = _
    rw [e1, if_neg (by simp; omega), r.under]; rfl
  · show h.over = _
    rw [e1, if_neg (by simp; omega), r.over]; rfl
  · show h.bins.set _ _ = _
    rw [r.bins]
    refine set_map_range ?_ fun i hi => ?_
    · rw [e1, mod_succ, inBin_iff hn (by omega) (by omega)]; simp
    · rw [e1, inBin_iff hn (by omega) (by omega), if_neg (by simpa using fun e => hi e.symm)]; rfl
  · exact r.maxs
  · exact r.tops

theorem hrep_addAll {lower upper n N : Nat} (hh : binCount lower upper n < half) (hlu : lower < upper)
    (vs : List Nat) {h : Hist} {us : List Nat} (r : HRep lower upper n N h us) :
    ∃ h', h.addAll vs = (h', true) ∧ HRep lower upper n N h' (us ++ vs) := by
  induction vs generalizing h us with
  | nil => exact ⟨h, rfl, by rw [List.append_nil]; exact r⟩
  | cons v vs ih =>
    obtain ⟨h', e, r'⟩ := hrep_add hh hlu r v
    obtain ⟨h'', e', r''⟩ := ih r'
    exact ⟨h'', by rw [Hist.addAll, e]; exact e', by rw [List.append_assoc] at r''; exact r''⟩

/-! ## names and the cumulative display -/

theorem lastOf_inner {lower upper n i : Nat} (hn : 0 < n) (hlu : lower < upper)
    (hi : i + 1 < binCount lower upper n) :
    lower + (i + 1) * n ≤ upper ∧ lastOf lower upper n i = lower + (i + 1) * n - 1 := by
  unfold binCount at hi
  have : (i + 1) * n ≤ upper - lower := by
    have h1 : i + 1 ≤ (upper - lower) / n := by omega
    exact (Nat.le_div_iff_mul_le hn).1 h1
  unfold lastOf
  omega

theorem lastOf_last {lower upper n i : Nat} (hn : 0 < n) (hlu : lower < upper)
    (hi : i + 1 = binCount lower upper n) :
    lower + i * n ≤ upper ∧ lastOf lower upper n i = upper ∧ upper < lower + (i + 1) * n := by
  unfold binCount at hi
  have h2 : i = (upper - lower) / n := by omega
  have h3 : i * n ≤ upper - lower := by rw [h2]; exact Nat.div_mul_le_self ..
  have h4 : upper - lower < (i + 1) * n := by
    rw [h2]
    exact (Nat.div_lt_iff_lt_mul hn).1 (Nat.lt_succ_self _)
  unfold lastOf
  omega

theorem stop_mod {lower upper n i : Nat} (hn : 0 < n) (hlu : lower < upper) (hw : upper + n ≤ word)
    (hi : i < binCount lower upper n) : (lower + (i + 1) * n - 1) % word = lower + (i + 1) * n - 1 := by
  apply Nat.mod_eq_of_lt
  have h1 : (i + 1) * n = i * n + n := by rw [Nat.add_mul, Nat.one_mul]
  by_cases h : i + 1 = binCount lower upper n
  · have := (lastOf_last hn hlu h).1
    omega
  · have := (lastOf_inner hn hlu (i := i) (by omega)).1
    omega

theorem clip {lower upper n i : Nat} :
    (if lower + (i + 1) * n - 1 > upper then upper else lower + (i + 1) * n - 1) = lastOf lower upper n i := by
  unfold lastOf
  split <;> omega

theorem labelLoop_eq {lower upper n : Nat} (hn : 0 < n) (hlu : lower < upper) (hw : upper + n ≤ word) :
    ∀ m i, i + m = binCount lower upper n →
      labelLoop upper n (lower + i * n) ((lower + (i + 1) * n - 1) % word) m =
        (List.range' i m).map fun i => (lower + i * n, lastOf lower upper n i)
  | 0, _, _ => rfl
  | m + 1, i, h => by
    rw [labelLoop, stop_mod hn hlu hw (by omega), List.range'_succ, List.map_cons]
    rw [clip]
    congr 1
    cases m with
    | zero => rfl
    | succ m =>
      obtain ⟨h1, h2⟩ := lastOf_inner hn hlu (i := i) (by omega)
      have e1 : (lastOf lower upper n i + 1) % word = lower + (i + 1) * n := by
        have : 0 < (i + 1) * n := Nat.mul_pos (by omega) hn
        rw [h2, Nat.sub_add_cancel (by omega), Nat.mod_eq_of_lt (by omega)]
      have e2 : lastOf lower upper n i + n = lower + (i + 1 + 1) * n - 1 := by
        have h3 : (i + 1 + 1) * n = (i + 1) * n + n := by rw [Nat.add_mul (i + 1), Nat.one_mul]
        have : 0 < (i + 1) * n := Nat.mul_pos (by omega) hn
        omega
      rw [e1, e2]
      exact labelLoop_eq hn hlu hw (m + 1) (i + 1) (by omega)

theorem labels_eq {lower upper n : Nat} (hn : 0 < n) (hlu : lower < upper) (hw : upper + n ≤ word) :
    labels lower upper n (binCount lower upper n) =
      (List.range (binCount lower upper n)).map fun i => (lower + i * n, lastOf lower upper n i) := by
  have h := labelLoop_eq hn hlu hw (binCount lower upper n) 0 (by omega)
  rw [List.range_eq_range', ← h]
  simp [labels]

theorem countP_add {vs : List Nat} {p q r : Nat → Bool} (h : ∀ v, r v = (p v || q v)) (hd : ∀ v, ¬(p v ∧ q v)) :
    vs.countP p + vs.countP q = vs.countP r := by
  induction vs with
  | nil => rfl
  | cons v vs ih =>
    have := hd v
    simp only [List.countP_cons, h v]
    cases hp : p v <;> cases hq : q v <;> simp_all <;> omega

theorem count_bin {lower upper n i : Nat} {vs : List Nat} (hn : 0 < n) (hlu : lower < upper)
    (hi : i < binCount lower upper n) :
    vs.countP (fun v => decide (v < lower + i * n)) + vs.countP (inBin lower upper n i) =
      vs.countP fun v => decide (v ≤ lastOf lower upper n i) := by
  have h0 : (i + 1) * n = i * n + n := by rw [Nat.add_mul, Nat.one_mul]
  have hlast : lower + i * n ≤ upper ∧ lastOf lower upper n i = min (lower + (i + 1) * n - 1) upper := by
    refine ⟨?_, rfl⟩
    by_cases h : i + 1 = binCount lower upper n
    · exact (lastOf_last hn hlu h).1
    · have := (lastOf_inner hn hlu (i := i) (by omega)).1; omega
  refine countP_add (fun v => ?_) (fun v => ?_)
  · unfold inBin
    rw [Bool.eq_iff_iff]
    simp only [Bool.or_eq_true, Bool.and_eq_true, decide_eq_true_eq]
    omega
  · unfold inBin
    simp only [Bool.and_eq_true, decide_eq_true_eq]
    omega

theorem cumLoop_eq {lower upper n : Nat} {vs : List Nat} (hn : 0 < n) (hlu : lower < upper) (hw : upper + n ≤ word)
    (hv : vs.length < word) :
    ∀ m i, i + m = binCount lower upper n →
      cumLoop upper n ((lower + (i + 1) * n - 1) % word) (vs.countP fun v => decide (v < lower + i * n))
          ((List.range' i m).map fun i => vs.countP (inBin lower upper n i) % word) =
        (List.range' i m).map fun i => (lastOf lower upper n i, vs.countP fun v => decide (v ≤ lastOf lower upper n i))
  | 0, _, _ => rfl
  | m + 1, i, h => by
    have hc : ∀ p : Nat → Bool, vs.countP p % word = vs.countP p := fun p =>
      Nat.mod_eq_of_lt (Nat.lt_of_le_of_lt List.countP_le_length hv)
    rw [List.range'_succ, List.map_cons, List.map_cons, cumLoop, stop_mod hn hlu hw (by omega)]
    rw [clip, hc, count_bin hn hlu (by omega), hc]
    congr 1
    cases m with
    | zero => rfl
    | succ m =>
      obtain ⟨h1, h2⟩ := lastOf_inner hn hlu (i := i) (by omega)
      have e2 : lastOf lower upper n i + n = lower + (i + 1 + 1) * n - 1 := by
        have h3 : (i + 1 + 1) * n = (i + 1) * n + n := by rw [Nat.add_mul (i + 1), Nat.one_mul]
        have : 0 < (i + 1) * n := Nat.mul_pos (by omega) hn
        omega
      have e1 : (vs.countP fun v => decide (v ≤ lastOf lower upper n i)) =
          vs.countP fun v => decide (v < lower + (i + 1) * n) := by
        refine List.countP_congr fun v _ => ?_
        have : 0 < (i + 1) * n := Nat.mul_pos (by omega) hn
        simp only [decide_eq_true_eq]
        omega
      rw [e1, e2]
      exact cumLoop_eq hn hlu hw hv (m + 1) (i + 1) (by omega)

theorem fold_eq {lower upper n : Nat} {vs : List Nat} (hn : 0 < n) (hlu : lower < upper)
    (hv : vs.length < word) :
    ∀ m i, i + m = binCount lower upper n → 0 < m →
      ((List.range' i m).map fun i => vs.countP (inBin lower upper n i) % word).foldl (fun r b => (r + b) % word)
          (vs.countP fun v => decide (v < lower + i * n)) = vs.countP fun v => decide (v ≤ upper)
  | m + 1, i, h, _ => by
    have hc : ∀ p : Nat → Bool, vs.countP p % word = vs.countP p := fun p =>
      Nat.mod_eq_of_lt (Nat.lt_of_le_of_lt List.countP_le_length hv)
    rw [List.range'_succ, List.map_cons, List.foldl_cons, hc, count_bin hn hlu (by omega), hc]
    cases m with
    | zero => rw [(lastOf_last hn hlu (i := i) (by omega)).2.1]; rfl
    | succ m =>
      obtain ⟨h1, h2⟩ := lastOf_inner hn hlu (i := i) (by omega)
      have e1 : (vs.countP fun v => decide (v ≤ lastOf lower upper n i)) =
          vs.countP fun v => decide (v < lower + (i + 1) * n) := by
        refine List.countP_congr fun v _ => ?_
        have : 0 < (i + 1) * n := Nat.mul_pos (by omega) hn
        simp only [decide_eq_true_eq]
        omega
      rw [e1]
      exact fold_eq hn hlu hv (m + 1) (i + 1) (by omega) (by omega)

end Sparta.Histogram
