import Verif.MathUtils.Model
/-! Helper lemmas for MathUtils. -/
namespace Sparta.MathUtils

/-- every non-zero number is a power of two times an odd number -/
theorem exists_odd_part (n : Nat) (h : n ≠ 0) : ∃ k m, n = 2 ^ k * (2 * m + 1) := by
  induction n using Nat.strongRecOn with
  | _ n ih =>
    by_cases hp : n % 2 = 1
    · exact ⟨0, n / 2, by omega⟩
    · obtain ⟨k, m, e⟩ := ih (n / 2) (by omega) (by omega)
      refine ⟨k + 1, m, ?_⟩
      rw [Nat.pow_succ, Nat.mul_comm (2 ^ k) 2, Nat.mul_assoc, ← e]; omega

theorem and_compl (m n : Nat) : m &&& (2 ^ n - (m + 1)) = 0 ∨ ¬ m < 2 ^ n := by
  by_cases h : m < 2 ^ n
  · left
    apply Nat.eq_of_testBit_eq
    intro i
    rw [Nat.testBit_and, Nat.testBit_two_pow_sub_succ h]
    cases m.testBit i <;> simp
  · right; exact h

theorem odd_and_odd (a b : Nat) : (2 * a + 1) &&& (2 * b + 1) = 2 * (a &&& b) + 1 := by
  apply Nat.eq_of_testBit_eq
  intro i
  cases i with
  | zero => simp [Nat.testBit_zero]
  | succ i =>
    rw [Nat.testBit_and, Nat.testBit_add_one, Nat.testBit_add_one, Nat.testBit_add_one]
    have h1 : (2 * a + 1) / 2 = a := by omega
    have h2 : (2 * b + 1) / 2 = b := by omega
    have h3 : (2 * (a &&& b) + 1) / 2 = a &&& b := by omega
    rw [h1, h2, h3, Nat.testBit_and]

theorem mul_and_mul (k a b : Nat) : (2 ^ k * a) &&& (2 ^ k * b) = 2 ^ k * (a &&& b) := by
  apply Nat.eq_of_testBit_eq
  intro i
  simp only [Nat.testBit_and, Nat.testBit_two_pow_mul]
  by_cases h : i ≥ k <;> simp [h]

/-- isolating the lowest set bit -/
theorem and_neg_eq {w : Nat} (x : BitVec w) (k m : Nat) (hx : x.toNat = 2 ^ k * (2 * m + 1)) :
    x &&& -x = BitVec.twoPow w k ∧ k < w := by
  have hlt := x.isLt
  rw [hx] at hlt
  have hk : k < w := by
    apply Nat.lt_of_not_le
    intro hle
    have h1 : 2 ^ w ≤ 2 ^ k := Nat.pow_le_pow_right (by omega) hle
    have h2 : 2 ^ k ≤ 2 ^ k * (2 * m + 1) := Nat.le_mul_of_pos_right _ (by omega)
    omega
  refine ⟨?_, hk⟩
  apply BitVec.eq_of_toNat_eq
  obtain ⟨j, rfl⟩ : ∃ j, w = k + (j + 1) := ⟨w - k - 1, by omega⟩
  have hp : 2 ^ (k + (j + 1)) = 2 ^ k * (2 * 2 ^ j) := by
    rw [Nat.pow_add, Nat.pow_succ, Nat.mul_comm (2 ^ j) 2]
  have hm : m < 2 ^ j := by
    rw [hp] at hlt
    have := Nat.lt_of_mul_lt_mul_left hlt
    omega
  rw [BitVec.toNat_and, BitVec.toNat_neg, BitVec.toNat_twoPow, hx]
  have hpos : 0 < 2 ^ k * (2 * m + 1) := Nat.mul_pos (Nat.two_pow_pos k) (by omega)
  rw [Nat.mod_eq_of_lt (by omega), hp]
  have e : 2 ^ k * (2 * 2 ^ j) - 2 ^ k * (2 * m + 1) = 2 ^ k * (2 * (2 ^ j - (m + 1)) + 1) := by
    rw [← Nat.mul_sub]; congr 1; omega
  rw [e, mul_and_mul, odd_and_odd]
  rcases and_compl m j with h | h
  · rw [h]
    rw [Nat.mod_eq_of_lt]
    · omega
    · rw [← hp]; exact Nat.pow_lt_pow_right (by omega) (by omega)
  · omega

theorem table_lsb32 : ∀ k : Fin 32,
    index32.getD ((BitVec.twoPow 32 k * 0x077CB531#32) >>> 27).toNat 0 = k := by decide +kernel
theorem table_lsb64 : ∀ k : Fin 64,
    index64.getD ((BitVec.twoPow 64 k * 0x07EDD5E59A4E28C2#64) >>> 58).toNat 0 = k := by decide +kernel

theorem log2Lsb32_eq (x : BitVec 32) (k m : Nat) (hx : x.toNat = 2 ^ k * (2 * m + 1)) :
    log2Lsb32 x = k := by
  obtain ⟨h1, h2⟩ := and_neg_eq x k m hx
  unfold log2Lsb32
  rw [h1]; exact table_lsb32 ⟨k, h2⟩

theorem log2Lsb64_eq (x : BitVec 64) (k m : Nat) (hx : x.toNat = 2 ^ k * (2 * m + 1)) :
    log2Lsb64 x = k := by
  obtain ⟨h1, h2⟩ := and_neg_eq x k m hx
  unfold log2Lsb64
  rw [h1]; exact table_lsb64 ⟨k, h2⟩

/-! ### floor_log2 -/

/-- bit `i` of `y` is set iff one of the bits `i .. i+n` of `x` is -/
def Smeared {w : Nat} (x y : BitVec w) (n : Nat) : Prop :=
  ∀ i, y.getLsbD i = true ↔ ∃ d, d ≤ n ∧ x.getLsbD (i + d) = true

theorem Smeared.refl {w : Nat} (x : BitVec w) : Smeared x x 0 := by
  intro i
  constructor
  · intro h; exact ⟨0, Nat.le_refl _, h⟩
  · rintro ⟨d, hd, h⟩
    have : d = 0 := by omega
    subst this; exact h

theorem Smeared.step {w : Nat} {x y : BitVec w} {n : Nat} (h : Smeared x y n) :
    Smeared x (smear y (n + 1)) (2 * n + 1) := by
  intro i
  unfold smear
  rw [BitVec.getLsbD_or, BitVec.getLsbD_ushiftRight, Bool.or_eq_true, h i, h (n + 1 + i)]
  constructor
  · rintro (⟨d, hd, hx⟩ | ⟨d, hd, hx⟩)
    · exact ⟨d, by omega, hx⟩
    · exact ⟨n + 1 + d, by omega, by rw [← hx]; congr 1; omega⟩
  · rintro ⟨d, hd, hx⟩
    by_cases hdn : d ≤ n
    · exact Or.inl ⟨d, hdn, hx⟩
    · exact Or.inr ⟨d - (n + 1), by omega, by rw [← hx]; congr 1; omega⟩

theorem Smeared.ones {w : Nat} {x y : BitVec w} {n : Nat} (h : Smeared x y n) (hn : w ≤ n + 1)
    (hx : x.toNat ≠ 0) : y = BitVec.ofNat w (2 ^ (Nat.log2 x.toNat + 1) - 1) := by
  have hl : Nat.log2 x.toNat < w := (Nat.log2_lt hx).2 x.isLt
  have htop : x.getLsbD (Nat.log2 x.toNat) = true := by
    rw [BitVec.getLsbD, ← Nat.testBit_log2 hx]
  have habove : ∀ j, Nat.log2 x.toNat < j → x.getLsbD j = false := by
    intro j hj
    rw [BitVec.getLsbD]
    exact Nat.testBit_lt_two_pow (Nat.lt_of_lt_of_le (Nat.lt_log2_self) (Nat.pow_le_pow_right (by omega) hj))
  apply BitVec.eq_of_getLsbD_eq
  intro i hi
  rw [BitVec.getLsbD_ofNat, Nat.testBit_two_pow_sub_one]
  rw [Bool.eq_iff_iff, h i]
  simp only [hi, decide_true, Bool.true_and, decide_eq_true_eq]
  constructor
  · rintro ⟨d, hd, hx⟩
    apply Nat.lt_of_not_le
    intro hle
    rw [habove (i + d) (by omega)] at hx
    exact absurd hx (by decide)
  · intro hle
    exact ⟨Nat.log2 x.toNat - i, by omega, by
      rw [← htop]; congr 1; omega⟩

theorem table_floor32 : ∀ h : Fin 32,
    lut32.getD ((BitVec.ofNat 32 (2 ^ (h.1 + 1) - 1) * 0x07C4ACDD#32) >>> 27).toNat 0 = h := by
  decide +kernel
theorem table_floor64 : ∀ h : Fin 64,
    index64.getD (((BitVec.ofNat 64 (2 ^ (h.1 + 1) - 1) - (BitVec.ofNat 64 (2 ^ (h.1 + 1) - 1) >>> 1))
      * 0x07EDD5E59A4E28C2#64) >>> 58).toNat 0 = h := by
  decide +kernel

theorem toNat_ne_zero {w : Nat} {x : BitVec w} (h : x ≠ 0#w) : x.toNat ≠ 0 := by
  intro e; exact h (BitVec.eq_of_toNat_eq (by simpa using e))

theorem floorLog2_32_eq (x : BitVec 32) : floorLog2_32 x = Nat.log2 x.toNat := by
  unfold floorLog2_32
  split
  · next h => subst h; decide
  · next h =>
    have hx := toNat_ne_zero h
    have hs := ((((Smeared.refl x).step).step).step).step.step
    have := hs.ones (by omega) hx
    simp only [Nat.reduceMul, Nat.reduceAdd] at this
    simp only [this]
    exact table_floor32 ⟨Nat.log2 x.toNat, (Nat.log2_lt hx).2 x.isLt⟩

theorem floorLog2_64_eq (x : BitVec 64) : floorLog2_64 x = Nat.log2 x.toNat := by
  unfold floorLog2_64
  split
  · next h => subst h; decide
  · next h =>
    have hx := toNat_ne_zero h
    have hs := ((((Smeared.refl x).step).step).step).step.step.step
    have := hs.ones (by omega) hx
    simp only [Nat.reduceMul, Nat.reduceAdd] at this
    simp only [this]
    exact table_floor64 ⟨Nat.log2 x.toNat, (Nat.log2_lt hx).2 x.isLt⟩

theorem floorLog2Iter_eq (x : Nat) : floorLog2Iter x = Nat.log2 x := by
  fun_induction floorLog2Iter x with
  | case1 x h =>
    rw [Nat.shiftRight_eq_div_pow] at h
    rw [Nat.log2_def]
    split
    · omega
    · rfl
  | case2 x h ih =>
    rw [ih, Nat.shiftRight_eq_div_pow]
    rw [Nat.shiftRight_eq_div_pow] at h
    conv => rhs; rw [Nat.log2_def]
    rw [if_pos (by omega), Nat.pow_one]

/-! ### gcd -/

/-- what the gcd code needs from `log2_lsb` -/
def LsbSpec {w : Nat} (lsb : BitVec w → Nat) : Prop :=
  ∀ (x : BitVec w) k m, x.toNat = 2 ^ k * (2 * m + 1) → lsb x = k

theorem shiftRight_odd {w : Nat} {lsb : BitVec w → Nat} (hl : LsbSpec lsb) (v : BitVec w)
    (hv : v.toNat ≠ 0) : ∃ k, v.toNat = 2 ^ k * (v >>> lsb v).toNat ∧ (v >>> lsb v).toNat % 2 = 1 := by
  obtain ⟨k, m, e⟩ := exists_odd_part _ hv
  refine ⟨k, ?_⟩
  rw [hl v k m e, BitVec.toNat_ushiftRight, Nat.shiftRight_eq_div_pow, e,
    Nat.mul_div_cancel_left _ (Nat.two_pow_pos k)]
  exact ⟨rfl, by omega⟩

theorem coprime_pow_two_odd (k u : Nat) (hu : u % 2 = 1) : Nat.Coprime (2 ^ k) u := by
  apply Nat.Coprime.pow_left
  rw [Nat.coprime_iff_gcd_eq_one]
  have h1 : Nat.gcd 2 u = Nat.gcd (u % 2) 2 := by rw [Nat.gcd_rec]
  rw [h1, hu]; decide

theorem gcd_odd_pow (u v k : Nat) (hu : u % 2 = 1) : Nat.gcd u (2 ^ k * v) = Nat.gcd u v := by
  exact Nat.Coprime.gcd_mul_left_cancel_right v (coprime_pow_two_odd k u hu)

theorem gcdLoop_eq {w : Nat} {lsb : BitVec w → Nat} (hl : LsbSpec lsb) :
    ∀ (fuel : Nat) (u v : BitVec w), u.toNat % 2 = 1 → v.toNat ≠ 0 → u.toNat + v.toNat ≤ fuel →
      ∃ r, gcdLoop lsb fuel u v = some r ∧ r.toNat = Nat.gcd u.toNat v.toNat := by
  intro fuel
  induction fuel with
  | zero => intro u v hu; omega
  | succ fuel ih =>
    intro u v hu hv hf
    obtain ⟨k, hk, hodd⟩ := shiftRight_odd hl v hv
    unfold gcdLoop
    generalize v >>> lsb v = v' at hk hodd
    have hle : v'.toNat ≤ v.toNat := by
      rw [hk]; exact Nat.le_mul_of_pos_left _ (Nat.two_pow_pos k)
    have hg : Nat.gcd u.toNat v.toNat = Nat.gcd u.toNat v'.toNat := by
      rw [hk, gcd_odd_pow _ _ _ hu]
    rw [hg]
    simp only
    by_cases hc : u.toNat > v'.toNat
    · simp only [if_pos hc]
      have hsub : (u - v').toNat = u.toNat - v'.toNat := BitVec.toNat_sub_of_le (by
        rw [BitVec.le_def]; omega)
      rw [if_neg (by intro e; rw [e] at hsub; simp at hsub; omega)]
      obtain ⟨r, hr, hr'⟩ := ih v' (u - v') hodd (by omega) (by omega)
      refine ⟨r, hr, ?_⟩
      rw [hr', hsub, Nat.gcd_sub_self_right (by omega), Nat.gcd_comm]
    · simp only [if_neg hc]
      have hsub : (v' - u).toNat = v'.toNat - u.toNat := BitVec.toNat_sub_of_le (by
        rw [BitVec.le_def]; omega)
      split
      · next h =>
        rw [h] at hsub
        simp at hsub
        have : u.toNat = v'.toNat := by omega
        exact ⟨u, rfl, by rw [this, Nat.gcd_self]⟩
      · next h =>
        have := toNat_ne_zero h
        obtain ⟨r, hr, hr'⟩ := ih u (v' - u) hu (by omega) (by omega)
        refine ⟨r, hr, ?_⟩
        rw [hr', hsub, Nat.gcd_sub_self_right (by omega)]

theorem or_zero_iff (a b : Nat) : a ||| b = 0 ↔ a = 0 ∧ b = 0 := by
  constructor
  · intro h
    have h1 : a ≤ a ||| b := Nat.left_le_or
    have h2 : b ≤ a ||| b := Nat.right_le_or
    omega
  · rintro ⟨rfl, rfl⟩; rfl

/-- the trailing zeros of `u ||| v` divide both, and one quotient is odd -/
theorem or_lsb (u v k m : Nat) (h : u ||| v = 2 ^ k * (2 * m + 1)) :
    ∃ a b, u = 2 ^ k * a ∧ v = 2 ^ k * b ∧ (a % 2 = 1 ∨ b % 2 = 1) := by
  have hmod : (u % 2 ^ k) ||| (v % 2 ^ k) = 0 := by
    rw [← Nat.or_mod_two_pow, h, Nat.mul_mod_right]
  obtain ⟨hu, hv⟩ := (or_zero_iff _ _).1 hmod
  obtain ⟨a, ha⟩ := Nat.dvd_of_mod_eq_zero hu
  obtain ⟨b, hb⟩ := Nat.dvd_of_mod_eq_zero hv
  refine ⟨a, b, ha, hb, ?_⟩
  have hbit : (u ||| v).testBit k = true := by
    rw [h, Nat.testBit_two_pow_mul]; simp [Nat.testBit_zero]
  rw [Nat.testBit_or, ha, hb, Nat.testBit_two_pow_mul, Nat.testBit_two_pow_mul] at hbit
  simpa [Nat.testBit_zero] using hbit

theorem gcd_eq {w : Nat} {lsb : BitVec w → Nat} (hl : LsbSpec lsb) (u v : BitVec w) :
    ∃ r, gcd lsb u v = some r ∧ r.toNat = Nat.gcd u.toNat v.toNat := by
  unfold gcd
  split
  · next h =>
    refine ⟨_, rfl, ?_⟩
    rcases h with h | h <;> subst h <;> simp
  · next h =>
    rw [not_or] at h
    have hu := toNat_ne_zero h.1
    have hv := toNat_ne_zero h.2
    have hor : (u ||| v).toNat ≠ 0 := by
      rw [BitVec.toNat_or]; intro e; exact hu ((or_zero_iff _ _).1 e).1
    obtain ⟨k, m, e⟩ := exists_odd_part _ hor
    have hs : lsb (u ||| v) = k := hl _ k m e
    rw [BitVec.toNat_or] at e
    obtain ⟨a, b, ha, hb, hab⟩ := or_lsb _ _ _ _ e
    simp only [hs]
    have ha' : (u >>> k).toNat = a := by
      rw [BitVec.toNat_ushiftRight, Nat.shiftRight_eq_div_pow, ha,
        Nat.mul_div_cancel_left _ (Nat.two_pow_pos k)]
    have hb' : (v >>> k).toNat = b := by
      rw [BitVec.toNat_ushiftRight, Nat.shiftRight_eq_div_pow, hb,
        Nat.mul_div_cancel_left _ (Nat.two_pow_pos k)]
    have ha0 : a ≠ 0 := by rintro rfl; simp at ha; exact hu ha
    have hb0 : b ≠ 0 := by rintro rfl; simp at hb; exact hv hb
    obtain ⟨j, hj, hjo⟩ := shiftRight_odd hl (u >>> k) (by rw [ha']; exact ha0)
    have hul := ((u >>> k) >>> lsb (u >>> k)).isLt
    have hvl := (v >>> k).isLt
    obtain ⟨r, hr, hr'⟩ := gcdLoop_eq hl (2 ^ (w + 1)) _ (v >>> k) hjo (by rw [hb']; exact hb0) (by
      rw [Nat.pow_succ]; omega)
    refine ⟨r <<< k, by rw [hr]; rfl, ?_⟩
    have hgab : Nat.gcd ((u >>> k) >>> lsb (u >>> k)).toNat b = Nat.gcd a b := by
      rw [ha'] at hj
      rcases hab with hao | hbo
      · -- then j = 0
        have : j = 0 := by
          apply Nat.eq_zero_of_not_pos
          intro hpos
          obtain ⟨i, rfl⟩ : ∃ i, j = i + 1 := ⟨j - 1, by omega⟩
          rw [Nat.pow_succ, Nat.mul_comm (2 ^ i) 2, Nat.mul_assoc] at hj
          omega
        subst this
        rw [Nat.pow_zero, Nat.one_mul] at hj
        rw [← hj]
      · conv => rhs; rw [hj, Nat.gcd_comm, gcd_odd_pow _ _ _ hbo, Nat.gcd_comm]
    rw [hb', hgab] at hr'
    have hg : Nat.gcd u.toNat v.toNat = 2 ^ k * Nat.gcd a b := by
      rw [ha, hb, Nat.gcd_mul_left]
    rw [BitVec.toNat_shiftLeft, Nat.shiftLeft_eq, hr', hg, Nat.mul_comm, Nat.mod_eq_of_lt]
    rw [← hg]
    exact Nat.lt_of_le_of_lt (Nat.gcd_le_left _ (by omega)) u.isLt

theorem lcm_eq {w : Nat} (hw : 0 < w) {g : BitVec w → BitVec w → Option (BitVec w)}
    (hg : ∀ u v, ∃ r, g u v = some r ∧ r.toNat = Nat.gcd u.toNat v.toNat) (u v : BitVec w)
    (hne : u ≠ 0#w ∨ v ≠ 0#w) (hfit : Nat.lcm u.toNat v.toNat < 2 ^ w) :
    ∃ r, lcm g u v = some r ∧ r.toNat = Nat.lcm u.toNat v.toNat := by
  have h1 : (1#w).toNat = 1 := by
    rw [BitVec.toNat_ofNat, Nat.mod_eq_of_lt (Nat.one_lt_two_pow (by omega))]
  unfold lcm
  split
  · next h => subst h; exact ⟨v, rfl, by rw [h1, Nat.lcm_one_left]⟩
  · split
    · next h => subst h; exact ⟨u, rfl, by rw [h1, Nat.lcm_one_right]⟩
    · obtain ⟨r, hr, hr'⟩ := hg u v
      have hpos : 0 < Nat.gcd u.toNat v.toNat := by
        rcases hne with h | h
        · exact Nat.gcd_pos_of_pos_left _ (Nat.pos_of_ne_zero (toNat_ne_zero h))
        · exact Nat.gcd_pos_of_pos_right _ (Nat.pos_of_ne_zero (toNat_ne_zero h))
      have hr0 : r ≠ 0#w := by intro e; rw [e] at hr'; simp at hr'; omega
      refine ⟨u / r * v, by rw [hr, Option.bind_some, if_neg hr0], ?_⟩
      have e : u.toNat / Nat.gcd u.toNat v.toNat * v.toNat = Nat.lcm u.toNat v.toNat := by
        rw [Nat.lcm, Nat.mul_comm, ← Nat.mul_div_assoc _ (Nat.gcd_dvd_left _ _), Nat.mul_comm]
      rw [BitVec.toNat_mul, BitVec.toNat_udiv, hr', e, Nat.mod_eq_of_lt hfit]

theorem lsbSpec32 : LsbSpec log2Lsb32 := log2Lsb32_eq
theorem lsbSpec64 : LsbSpec log2Lsb64 := log2Lsb64_eq

theorem powLoop_fits {w : Nat} (n : BitVec w) : ∀ (k : Nat) (r : BitVec w),
    r.toNat * n.toNat ^ k < 2 ^ w → (n.toNat = 0 → r.toNat = 0) →
    ∃ p, powLoop n k r = some p ∧ p.toNat = r.toNat * n.toNat ^ k := by
  intro k
  induction k with
  | zero => intro r _ _; exact ⟨r, rfl, by simp⟩
  | succ k ih =>
    intro r h h0
    unfold powLoop
    by_cases hn : n.toNat = 0
    · have hr := h0 hn
      have hz : (r * n).toNat = 0 := by rw [BitVec.toNat_mul, hn]; simp
      simp only
      rw [if_neg (by omega)]
      obtain ⟨p, hp, hp'⟩ := ih (r * n) (by rw [hz]; simp; exact Nat.two_pow_pos w) (fun _ => hz)
      exact ⟨p, hp, by rw [hp', hz, hr]; simp⟩
    · have hpow : 0 < n.toNat ^ k := Nat.pow_pos (by omega)
      have e : r.toNat * n.toNat ^ (k + 1) = (r.toNat * n.toNat) * n.toNat ^ k := by
        rw [Nat.pow_succ, Nat.mul_comm (n.toNat ^ k), Nat.mul_assoc]
      have hle : r.toNat * n.toNat < 2 ^ w := by
        rw [e] at h
        exact Nat.lt_of_le_of_lt (Nat.le_mul_of_pos_right _ hpow) h
      have hz : (r * n).toNat = r.toNat * n.toNat := by
        rw [BitVec.toNat_mul, Nat.mod_eq_of_lt hle]
      simp only
      rw [if_neg (by
        rw [hz]
        have : r.toNat ≤ r.toNat * n.toNat := Nat.le_mul_of_pos_right _ (by omega)
        omega)]
      obtain ⟨p, hp, hp'⟩ := ih (r * n) (by rw [hz, ← e]; exact h) (fun h => absurd h hn)
      exact ⟨p, hp, by rw [hp', hz, e]⟩

end Sparta.MathUtils
