import Verif.MathUtils.Lemmas
/-! C28-C31, C54: MathUtils.hpp -/
namespace Sparta.MathUtils

/-- C28, 64 bit: position of the highest set bit -/
theorem C28_floor_log2_64 (x : BitVec 64) (hx : x ≠ 0#64) :
    2 ^ floorLog2_64 x ≤ x.toNat ∧ x.toNat < 2 ^ (floorLog2_64 x + 1) := by
  rw [floorLog2_64_eq]
  exact ⟨Nat.log2_self_le (toNat_ne_zero hx), Nat.lt_log2_self⟩

/-- C28, 32 bit -/
theorem C28_floor_log2_32 (x : BitVec 32) (hx : x ≠ 0#32) :
    2 ^ floorLog2_32 x ≤ x.toNat ∧ x.toNat < 2 ^ (floorLog2_32 x + 1) := by
  rw [floorLog2_32_eq]
  exact ⟨Nat.log2_self_le (toNat_ne_zero hx), Nat.lt_log2_self⟩

/-- C28, the iterative version used for the other integer types -/
theorem C28_floor_log2_iter (x : Nat) (hx : x ≠ 0) :
    2 ^ floorLog2Iter x ≤ x ∧ x < 2 ^ (floorLog2Iter x + 1) := by
  rw [floorLog2Iter_eq]
  exact ⟨Nat.log2_self_le hx, Nat.lt_log2_self⟩

/-- All versions agree on zero: the result is 0, as documented in the source. -/
theorem C28_floor_log2_zero :
    floorLog2_64 0#64 = 0 ∧ floorLog2_32 0#32 = 0 ∧ floorLog2Iter 0 = 0 := by
  refine ⟨by decide, by decide, ?_⟩
  rw [floorLog2Iter_eq]; decide

/-- C28: `log2_lsb` is the position of the lowest set bit: that bit is set and all lower ones are clear. -/
theorem C28_log2_lsb_64 (x : BitVec 64) (hx : x ≠ 0#64) :
    x.getLsbD (log2Lsb64 x) = true ∧ ∀ i, i < log2Lsb64 x → x.getLsbD i = false := by
  obtain ⟨k, m, e⟩ := exists_odd_part _ (toNat_ne_zero hx)
  rw [log2Lsb64_eq x k m e]
  simp only [BitVec.getLsbD, e, Nat.testBit_two_pow_mul]
  refine ⟨by simp [Nat.testBit_zero], ?_⟩
  intro i hi
  simp; omega

theorem C28_log2_lsb_32 (x : BitVec 32) (hx : x ≠ 0#32) :
    x.getLsbD (log2Lsb32 x) = true ∧ ∀ i, i < log2Lsb32 x → x.getLsbD i = false := by
  obtain ⟨k, m, e⟩ := exists_odd_part _ (toNat_ne_zero hx)
  rw [log2Lsb32_eq x k m e]
  simp only [BitVec.getLsbD, e, Nat.testBit_two_pow_mul]
  refine ⟨by simp [Nat.testBit_zero], ?_⟩
  intro i hi
  simp; omega

example : (0x5000#64 : BitVec 64) ≠ 0#64 ∧ floorLog2_64 0x5000#64 = 14 ∧ log2Lsb64 0x5000#64 = 12 := by
  decide

/-- C29: the loop always ends and gives the greatest common divisor (with gcd(0,x) = x). -/
theorem C29_gcd_64 (u v : BitVec 64) :
    ∃ r, gcd64 u v = some r ∧ r.toNat = Nat.gcd u.toNat v.toNat := gcd_eq lsbSpec64 u v

theorem C29_gcd_32 (u v : BitVec 32) :
    ∃ r, gcd32 u v = some r ∧ r.toNat = Nat.gcd u.toNat v.toNat := gcd_eq lsbSpec32 u v

/-- C29 for `lcm`: exact whenever representable. Missing: both arguments zero, where the code divides by
zero (`C29_lcm_zero_violated`). -/
theorem C29_lcm_64_partial (u v : BitVec 64) (hne : u ≠ 0#64 ∨ v ≠ 0#64)
    (hfit : Nat.lcm u.toNat v.toNat < 2 ^ 64) :
    ∃ r, lcm64 u v = some r ∧ r.toNat = Nat.lcm u.toNat v.toNat :=
  lcm_eq (by omega) C29_gcd_64 u v hne hfit

theorem C29_lcm_32_partial (u v : BitVec 32) (hne : u ≠ 0#32 ∨ v ≠ 0#32)
    (hfit : Nat.lcm u.toNat v.toNat < 2 ^ 32) :
    ∃ r, lcm32 u v = some r ∧ r.toNat = Nat.lcm u.toNat v.toNat :=
  lcm_eq (by omega) C29_gcd_32 u v hne hfit

example : (12#64 ≠ 0#64 ∨ 18#64 ≠ 0#64) ∧ Nat.lcm (12#64).toNat (18#64).toNat < 2 ^ 64 := by decide

/-- `lcm(0,0)` divides by zero although 0 is the least common multiple. -/
theorem C29_lcm_zero_violated : lcm64 0#64 0#64 = none ∧ Nat.lcm 0 0 = 0 := by
  constructor
  · simp [lcm64, lcm, gcd64, gcd]
  · rfl

/-- C30: `is_power_of_2` -/
theorem C30_is_power_of_2 (x : BitVec 64) : isPowerOf2 x = true ↔ ∃ k, x.toNat = 2 ^ k := by
  unfold isPowerOf2
  simp only [Bool.and_eq_true, bne_iff_ne, ne_eq, beq_iff_eq]
  constructor
  · rintro ⟨h0, h⟩
    have hx := toNat_ne_zero h0
    refine ⟨Nat.log2 x.toNat, ?_⟩
    have hle := Nat.log2_self_le hx
    rcases Nat.lt_or_eq_of_le hle with hlt | heq
    · -- the top bit would survive
      exfalso
      have hs : (x - 1#64).toNat = x.toNat - 1 := by
        rw [BitVec.toNat_sub_of_le (by rw [BitVec.le_def]; simp; omega)]; rfl
      have hl : Nat.log2 (x.toNat - 1) = Nat.log2 x.toNat := by
        refine (Nat.log2_eq_iff (by have := Nat.two_pow_pos (Nat.log2 x.toNat); omega)).2 ⟨by omega, ?_⟩
        have := Nat.lt_log2_self (n := x.toNat)
        omega
      have ht : (x &&& (x - 1#64)).toNat.testBit (Nat.log2 x.toNat) = true := by
        rw [BitVec.toNat_and, Nat.testBit_and, hs, Nat.testBit_log2 hx]
        rw [← hl, Nat.testBit_log2 (by have := Nat.two_pow_pos (Nat.log2 x.toNat); omega)]; rfl
      rw [h] at ht
      simp at ht
    · exact heq.symm
  · rintro ⟨k, hk⟩
    have hx0 : x ≠ 0#64 := by
      intro e; rw [e] at hk; have := Nat.two_pow_pos k; simp at hk; omega
    refine ⟨hx0, ?_⟩
    apply BitVec.eq_of_toNat_eq
    have hs : (x - 1#64).toNat = x.toNat - 1 := by
      have := Nat.two_pow_pos k
      rw [BitVec.toNat_sub_of_le (by rw [BitVec.le_def]; simp; omega)]; rfl
    rw [BitVec.toNat_and, hs, hk, Nat.and_two_pow_sub_one_eq_mod]
    simp

/-- C30: `next_power_of_2` is the least power of two at least `v`, whenever that fits 64 bits. -/
theorem C30_next_power_of_2 (v : BitVec 64) (hfit : v.toNat ≤ 2 ^ 63) :
    ∃ r k, nextPowerOf2 v = some r ∧ r.toNat = 2 ^ k ∧ v.toNat ≤ 2 ^ k ∧
      ∀ j, v.toNat ≤ 2 ^ j → 2 ^ k ≤ 2 ^ j := by
  unfold nextPowerOf2
  split
  · next h =>
    exact ⟨1#64, 0, rfl, rfl, by omega, fun j _ => Nat.pow_le_pow_right (by omega) (by omega)⟩
  · next h =>
    have hs : (v - 1#64).toNat = v.toNat - 1 := by
      rw [BitVec.toNat_sub_of_le (by rw [BitVec.le_def]; simp; omega)]; rfl
    have h0 : v.toNat - 1 ≠ 0 := by omega
    have hb : sigBits (v - 1#64) < 64 := by
      unfold sigBits
      rw [hs]
      have : Nat.log2 (v.toNat - 1) < 63 := (Nat.log2_lt h0).2 (by omega)
      omega
    rw [if_pos hb]
    refine ⟨_, sigBits (v - 1#64), rfl, ?_, ?_, ?_⟩
    · rw [BitVec.toNat_shiftLeft, Nat.shiftLeft_eq]
      rw [Nat.mod_eq_of_lt]
      · simp
      · simp; exact Nat.pow_lt_pow_right (by omega) hb
    · unfold sigBits; rw [hs]
      have := Nat.lt_log2_self (n := v.toNat - 1)
      omega
    · intro j hj
      apply Nat.pow_le_pow_right (by omega)
      unfold sigBits; rw [hs]
      exact (Nat.log2_lt h0).2 (by omega)

/-- Above 2^63 there is no representable answer and the code shifts by 64 (undefined behaviour). -/
theorem C30_next_power_of_2_unrepresentable (v : BitVec 64) (h : 2 ^ 63 < v.toNat) :
    nextPowerOf2 v = none := by
  unfold nextPowerOf2
  have hs : (v - 1#64).toNat = v.toNat - 1 := by
    rw [BitVec.toNat_sub_of_le (by rw [BitVec.le_def]; simp; omega)]; rfl
  rw [if_neg (by omega), if_neg]
  unfold sigBits; rw [hs]
  have h0 : v.toNat - 1 ≠ 0 := by omega
  have : ¬ Nat.log2 (v.toNat - 1) < 63 := by rw [Nat.log2_lt h0]; omega
  omega

/-- C30: `ceil_log2` is the least exponent -/
theorem C30_ceil_log2 (x : BitVec 64) (hx : x ≠ 0#64) :
    x.toNat ≤ 2 ^ ceilLog2 x ∧ ∀ e, x.toNat ≤ 2 ^ e → ceilLog2 x ≤ e := by
  have h0 := toNat_ne_zero hx
  have hl : Nat.log2 x.toNat < 64 := (Nat.log2_lt h0).2 x.isLt
  have hsh : (1#64 <<< Nat.log2 x.toNat).toNat = 2 ^ Nat.log2 x.toNat := by
    rw [BitVec.toNat_shiftLeft, Nat.shiftLeft_eq, Nat.mod_eq_of_lt]
    · simp
    · simp; exact Nat.pow_lt_pow_right (by omega) hl
  have h1 := Nat.log2_self_le h0
  have h2 := Nat.lt_log2_self (n := x.toNat)
  unfold ceilLog2
  rw [floorLog2_64_eq]
  simp only
  split
  · next h =>
    have hne : 2 ^ Nat.log2 x.toNat ≠ x.toNat := by
      intro e; exact h (BitVec.eq_of_toNat_eq (by rw [hsh, e]))
    refine ⟨by omega, ?_⟩
    intro e he
    have : 2 ^ Nat.log2 x.toNat < 2 ^ e := by omega
    exact (Nat.pow_lt_pow_iff_right (by omega)).1 this
  · next h =>
    have he : 2 ^ Nat.log2 x.toNat = x.toNat := by
      rw [← hsh]; exact congrArg BitVec.toNat (Classical.not_not.1 h)
    refine ⟨by omega, ?_⟩
    intro e h'
    rw [← he] at h'
    exact (Nat.pow_le_pow_iff_right (by omega)).1 h'

/-- C30: `pow2` and `ones` for exponents below 64 (others are undefined behaviour in C++) -/
theorem C30_pow2_ones (n : BitVec 64) (hn : n.toNat < 64) :
    (∃ r, pow2 n = some r ∧ r.toNat = 2 ^ n.toNat) ∧
    (∃ r, ones n = some r ∧ ∀ i, r.getLsbD i = decide (i < n.toNat)) := by
  have hsh : (1#64 <<< n.toNat).toNat = 2 ^ n.toNat := by
    rw [BitVec.toNat_shiftLeft, Nat.shiftLeft_eq, Nat.mod_eq_of_lt]
    · simp
    · simp; exact Nat.pow_lt_pow_right (by omega) hn
  constructor
  · exact ⟨_, by rw [pow2, if_pos hn], hsh⟩
  · refine ⟨_, by rw [ones, if_pos hn], ?_⟩
    intro i
    have hp := Nat.two_pow_pos n.toNat
    rw [BitVec.getLsbD, BitVec.toNat_sub_of_le (by rw [BitVec.le_def, hsh]; exact hp), hsh]
    show Nat.testBit (2 ^ n.toNat - 1) i = _
    rw [Nat.testBit_two_pow_sub_one]

example : (5#64 : BitVec 64) ≠ 0#64 ∧ (5#64 : BitVec 64).toNat < 64 ∧ (5#64).toNat ≤ 2 ^ 63 ∧
    nextPowerOf2 5#64 = some 8#64 ∧ ceilLog2 5#64 = 3 := by decide

/-- C31 (half): whenever n^e fits the type, safe_power returns it. Missing: "throws otherwise", which the
code violates (`C31_safe_power_violated`). -/
theorem C31_safe_power_partial {w : Nat} (hw : 0 < w) (n e : BitVec w)
    (hfit : n.toNat ^ e.toNat < 2 ^ w) :
    ∃ r, safePower n e = some r ∧ r.toNat = n.toNat ^ e.toNat := by
  unfold safePower
  split
  · next h =>
    refine ⟨1#w, rfl, ?_⟩
    rw [h]
    simp [Nat.mod_eq_of_lt (Nat.one_lt_two_pow (show w ≠ 0 by omega))]
  · next h =>
    have he := toNat_ne_zero h
    obtain ⟨k, hk⟩ : ∃ k, e.toNat = k + 1 := ⟨e.toNat - 1, by omega⟩
    rw [hk] at hfit ⊢
    have e1 : n.toNat ^ (k + 1) = n.toNat * n.toNat ^ k := by rw [Nat.pow_succ, Nat.mul_comm]
    rw [e1] at hfit ⊢
    exact powLoop_fits n k n hfit (fun h => h)

example : (3#32).toNat ^ (4#32).toNat < 2 ^ 32 ∧ safePower 3#32 4#32 = some 81#32 := by decide

/-- C31 is violated: in 32 bits 10^10 does not fit, but the wrapped products keep growing, so a wrong
value is returned instead of an exception. -/
theorem C31_safe_power_violated :
    safePower 10#32 10#32 = some 1410065408#32 ∧ ¬ 10 ^ 10 < 2 ^ 32 := by decide

/-- C54: `abs` of an unsigned type is the magnitude of the value read as a signed number. -/
theorem C54_abs {w : Nat} (hw : 0 < w) (x : BitVec w) : (abs x).toNat = x.toInt.natAbs := by
  have hmask : x.sshiftRight (w - 1) = if x.msb then BitVec.allOnes w else 0#w := by
    apply BitVec.eq_of_getLsbD_eq
    intro i hi
    rw [BitVec.getLsbD_sshiftRight]
    have hm : x.msb = x.getLsbD (w - 1) := BitVec.msb_eq_getLsbD_last x
    by_cases h0 : i = 0
    · subst h0
      have : w - 1 + 0 < w := by omega
      simp only [this, if_true]
      rw [Nat.add_zero, ← hm]
      cases x.msb <;> simp [Nat.pos_iff_ne_zero.1 hw, hw]
    · have : ¬ (w - 1 + i < w) := by omega
      simp only [this, if_false]
      cases x.msb <;> simp [hi]
  unfold abs
  simp only [hmask]
  cases hmsb : x.msb
  · simp [BitVec.toInt_eq_msb_cond, hmsb]
  · simp only [if_true]
    have hx1 : x.toNat ≠ 0 := by
      intro e
      rw [BitVec.msb_eq_decide] at hmsb
      simp only [e] at hmsb
      have := Nat.two_pow_pos (w - 1)
      simp at hmsb
    have hall : (x + BitVec.allOnes w) ^^^ BitVec.allOnes w = ~~~(x + BitVec.allOnes w) := by
      simp [BitVec.xor_allOnes]
    have hneg : ~~~(x + BitVec.allOnes w) = -x := by
      have : BitVec.allOnes w = -1#w := by simp [BitVec.neg_one_eq_allOnes]
      rw [this, ← BitVec.sub_eq_add_neg, BitVec.not_eq_neg_add, BitVec.sub_eq_add_neg x,
        BitVec.neg_add, BitVec.sub_eq_add_neg, BitVec.sub_eq_add_neg, BitVec.add_assoc, BitVec.add_left_neg,
        BitVec.add_zero]
    rw [hall, hneg, BitVec.toInt_eq_msb_cond, hmsb]
    simp only [if_true]
    have := x.isLt
    rw [BitVec.toNat_neg, Nat.mod_eq_of_lt (by omega)]
    omega

example : (abs 0xff#8) = 1#8 ∧ (abs 0x80#8) = 0x80#8 ∧ abs 0x7f#8 = 0x7f#8 := by decide

end Sparta.MathUtils
