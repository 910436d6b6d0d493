import Verif.Rational.Model
import Verif.MathUtils.Props
/-! Property C33: Rational arithmetic. -/
namespace Sparta.Rational
open Sparta.MathUtils
variable {w : Nat}

/-- `r` is the fraction `p / q` in lowest terms -/
def Is (r : Rat w) (p q : Nat) : Prop :=
  r.d.toNat ≠ 0 ∧ r.n.toNat * q = p * r.d.toNat ∧ Nat.Coprime r.n.toNat r.d.toNat

/-- what is used of `gcd` (C29) -/
def GcdOk (g : BitVec w → BitVec w → Option (BitVec w)) : Prop :=
  ∀ u v, ∃ r, g u v = some r ∧ r.toNat = Nat.gcd u.toNat v.toNat

theorem ne0 {x : BitVec w} (h : x.toNat ≠ 0) : x ≠ 0#w := by
  intro e; subst e; simp at h

theorem simplify_is {g : BitVec w → BitVec w → Option (BitVec w)} (hg : GcdOk g) (hw : 0 < w) (a : Rat w) (hd : a.d.toNat ≠ 0) :
    ∃ r, simplify g a = some r ∧ Is r a.n.toNat a.d.toNat := by
  unfold simplify
  rw [if_pos (ne0 hd)]
  by_cases hn : a.n = 0#w
  · rw [if_pos hn]
    have h1 : (1#w).toNat = 1 := by simp; omega
    refine ⟨_, rfl, ?_, ?_, ?_⟩ <;> simp [hn, h1]
  · rw [if_neg hn]
    obtain ⟨k, e, hk⟩ := hg a.n a.d
    rw [e]
    have hn' : a.n.toNat ≠ 0 := fun h => hn (BitVec.eq_of_toNat_eq (by simpa using h))
    have hpos : 0 < Nat.gcd a.n.toNat a.d.toNat := Nat.gcd_pos_of_pos_left _ (by omega)
    refine ⟨_, rfl, ?_⟩
    dsimp only
    split
    · rename_i h1
      have hdn := Nat.gcd_dvd_left a.n.toNat a.d.toNat
      have hdd := Nat.gcd_dvd_right a.n.toNat a.d.toNat
      refine ⟨?_, ?_, ?_⟩
      · simp only [BitVec.toNat_udiv, hk]
        have := Nat.div_pos (Nat.le_of_dvd (by omega) hdd) hpos
        omega
      · simp only [BitVec.toNat_udiv, hk]
        obtain ⟨x, hx⟩ := hdn
        obtain ⟨y, hy⟩ := hdd
        generalize Nat.gcd a.n.toNat a.d.toNat = G at *
        rw [hx, hy, Nat.mul_div_cancel_left _ hpos, Nat.mul_div_cancel_left _ hpos]
        rw [Nat.mul_left_comm, Nat.mul_assoc]
      · simp only [BitVec.toNat_udiv, hk]
        exact Nat.coprime_div_gcd_div_gcd hpos
    · rename_i h1
      refine ⟨hd, rfl, ?_⟩
      show Nat.gcd _ _ = 1
      omega

theorem make_is {g : BitVec w → BitVec w → Option (BitVec w)} (hg : GcdOk g) (hw : 0 < w) (n d : BitVec w) (hd : d.toNat ≠ 0) :
    ∃ r, make g n d = some r ∧ Is r n.toNat d.toNat := by
  unfold make
  rw [if_neg (ne0 hd)]
  exact simplify_is hg hw ⟨n, d⟩ hd

theorem Is.congr {r : Rat w} {p q p' q' : Nat} (h : Is r p q) (hq : q ≠ 0) (e : p * q' = p' * q) : Is r p' q' := by
  refine ⟨h.1, ?_, h.2.2⟩
  have := h.2.1
  refine Nat.eq_of_mul_eq_mul_right (Nat.pos_of_ne_zero hq) ?_
  calc r.n.toNat * q' * q = (r.n.toNat * q) * q' := by rw [Nat.mul_assoc, Nat.mul_comm q' q, ← Nat.mul_assoc]
    _ = p * r.d.toNat * q' := by rw [this]
    _ = p * q' * r.d.toNat := by rw [Nat.mul_assoc, Nat.mul_comm r.d.toNat q', ← Nat.mul_assoc]
    _ = p' * q * r.d.toNat := by rw [e]
    _ = p' * r.d.toNat * q := by rw [Nat.mul_assoc, Nat.mul_comm q, ← Nat.mul_assoc]

theorem toNat_mul_fit (a b : BitVec w) (h : a.toNat * b.toNat < 2 ^ w) : (a * b).toNat = a.toNat * b.toNat := by
  rw [BitVec.toNat_mul, Nat.mod_eq_of_lt h]

/-- for a given `gcd`: products, quotients, sums and differences -/
theorem mul_is {g : BitVec w → BitVec w → Option (BitVec w)} (hg : GcdOk g) (hw : 0 < w) (a b : Rat w) (ha : a.d.toNat ≠ 0)
    (hb : b.d.toNat ≠ 0) (hn : a.n.toNat * b.n.toNat < 2 ^ w) (hd : a.d.toNat * b.d.toNat < 2 ^ w) :
    ∃ r, mul g a b = some r ∧ mulAssign g a b = some r ∧ Is r (a.n.toNat * b.n.toNat) (a.d.toNat * b.d.toNat) := by
  have hd' : (a.d * b.d).toNat ≠ 0 := by rw [toNat_mul_fit _ _ hd]; exact Nat.mul_ne_zero ha hb
  obtain ⟨r, e, h⟩ := simplify_is hg hw ⟨a.n * b.n, a.d * b.d⟩ hd'
  simp only [toNat_mul_fit _ _ hd, toNat_mul_fit _ _ hn] at h
  exact ⟨r, by unfold mul make; rw [if_neg (ne0 hd')]; exact e, e, h⟩

theorem div_is {g : BitVec w → BitVec w → Option (BitVec w)} (hg : GcdOk g) (hw : 0 < w) (a b : Rat w) (ha : a.d.toNat ≠ 0)
    (hb : b.n.toNat ≠ 0) (hn : a.n.toNat * b.d.toNat < 2 ^ w) (hd : a.d.toNat * b.n.toNat < 2 ^ w) :
    ∃ r, div g a b = some r ∧ divAssign g a b = some r ∧ Is r (a.n.toNat * b.d.toNat) (a.d.toNat * b.n.toNat) := by
  have hd' : (a.d * b.n).toNat ≠ 0 := by rw [toNat_mul_fit _ _ hd]; exact Nat.mul_ne_zero ha hb
  obtain ⟨r, e, h⟩ := simplify_is hg hw ⟨a.n * b.d, a.d * b.n⟩ hd'
  simp only [toNat_mul_fit _ _ hd, toNat_mul_fit _ _ hn] at h
  exact ⟨r, by unfold div make; rw [if_neg (ne0 hd')]; exact e, e, h⟩

/-- both numerators brought to the common denominator, computed as the code does -/
theorem scale {n m d : BitVec w} (hd : d.toNat ∣ m.toNat) (hfit : n.toNat * m.toNat < 2 ^ w) :
    (n * m / d).toNat = n.toNat * (m.toNat / d.toNat) := by
  rw [BitVec.toNat_udiv, toNat_mul_fit _ _ hfit, Nat.mul_div_assoc _ hd]

theorem common (n d e L : Nat) (hd : d ∣ L) : n * (L / d) * (d * e) = n * e * L := by
  obtain ⟨k, rfl⟩ := hd
  by_cases h : d = 0
  · subst h; simp
  · rw [Nat.mul_div_cancel_left _ (by omega)]
    simp only [Nat.mul_assoc, Nat.mul_comm, Nat.mul_left_comm]

/-- no intermediate value of a sum or difference overflows -/
def Fits (w : Nat) (a b : Rat w) : Prop :=
  Nat.lcm a.d.toNat b.d.toNat < 2 ^ w ∧ a.n.toNat * Nat.lcm a.d.toNat b.d.toNat < 2 ^ w ∧
    b.n.toNat * Nat.lcm a.d.toNat b.d.toNat < 2 ^ w ∧
    a.n.toNat * (Nat.lcm a.d.toNat b.d.toNat / a.d.toNat) + b.n.toNat * (Nat.lcm a.d.toNat b.d.toNat / b.d.toNat) < 2 ^ w

theorem add_is {g : BitVec w → BitVec w → Option (BitVec w)} (hg : GcdOk g) (hw : 0 < w) (a b : Rat w) (ha : a.d.toNat ≠ 0)
    (hb : b.d.toNat ≠ 0) (hf : Fits w a b) :
    ∃ r, add g a b = some r ∧ addAssign g a b = some r ∧
      Is r (a.n.toNat * b.d.toNat + b.n.toNat * a.d.toNat) (a.d.toNat * b.d.toNat) := by
  obtain ⟨h1, h2, h3, h4⟩ := hf
  by_cases hdd : a.d = b.d
  · have hL : Nat.lcm a.d.toNat b.d.toNat = a.d.toNat := by rw [← hdd, Nat.lcm_self]
    rw [hL, ← hdd, Nat.div_self (by omega), Nat.mul_one, Nat.mul_one] at h4
    have en : (a.n + b.n).toNat = a.n.toNat + b.n.toNat := by rw [BitVec.toNat_add, Nat.mod_eq_of_lt h4]
    obtain ⟨r, e, h⟩ := simplify_is hg hw ⟨a.n + b.n, a.d⟩ ha
    have hp : addParts g a b = some ⟨a.n + b.n, a.d⟩ := by unfold addParts; rw [if_neg (by simpa using hdd)]
    refine ⟨r, ?_, ?_, ?_⟩
    · unfold add; rw [hp]; simp only [Option.bind_some]; unfold make; rw [if_neg (ne0 ha)]; exact e
    · unfold addAssign; rw [hp]; exact e
    · refine h.congr ha ?_
      simp only [en, ← hdd]
      rw [← Nat.add_mul, Nat.mul_assoc]
  · obtain ⟨m, em, hm⟩ := lcm_eq hw hg a.d b.d (Or.inl (ne0 ha)) h1
    have hm0 : m.toNat ≠ 0 := by rw [hm]; exact Nat.lcm_ne_zero ha hb
    have ea := scale (n := a.n) (m := m) (d := a.d) (by rw [hm]; exact Nat.dvd_lcm_left _ _) (by rw [hm]; exact h2)
    have eb := scale (n := b.n) (m := m) (d := b.d) (by rw [hm]; exact Nat.dvd_lcm_right _ _) (by rw [hm]; exact h3)
    have en : (a.n * m / a.d + b.n * m / b.d).toNat = a.n.toNat * (m.toNat / a.d.toNat) + b.n.toNat * (m.toNat / b.d.toNat) := by
      rw [BitVec.toNat_add, ea, eb, Nat.mod_eq_of_lt (by rw [hm]; exact h4)]
    have hp : addParts g a b = some ⟨a.n * m / a.d + b.n * m / b.d, m⟩ := by
      unfold addParts; rw [if_pos hdd, if_neg (by simp [ne0 ha, ne0 hb]), em]; rfl
    obtain ⟨r, e, h⟩ := simplify_is hg hw ⟨a.n * m / a.d + b.n * m / b.d, m⟩ hm0
    refine ⟨r, ?_, ?_, ?_⟩
    · unfold add; rw [hp]; simp only [Option.bind_some]; unfold make; rw [if_neg (ne0 hm0)]; exact e
    · unfold addAssign; rw [hp]; exact e
    · refine h.congr hm0 ?_
      simp only [en, hm]
      rw [Nat.add_mul, Nat.add_mul, common _ _ _ _ (Nat.dvd_lcm_left _ _), Nat.mul_comm a.d.toNat b.d.toNat,
        common _ _ _ _ (Nat.dvd_lcm_right _ _)]

theorem abs_diff (hw : 0 < w) (x y : BitVec w) (h : ((x.toNat : Int) - y.toNat).natAbs < 2 ^ (w - 1)) :
    (MathUtils.abs (x - y)).toNat = ((x.toNat : Int) - y.toNat).natAbs := by
  rw [C54_abs hw]
  congr 1
  have e : (x - y).toInt = ((x.toNat : Int) - y.toNat).bmod (2 ^ w) := by
    rw [BitVec.toInt_sub, BitVec.toInt_eq_toNat_bmod, BitVec.toInt_eq_toNat_bmod]
    simp
  rw [e]
  have hp : (2 : Nat) ^ w = 2 * 2 ^ (w - 1) := by rw [← Nat.pow_succ']; congr 1; omega
  rw [hp]
  generalize 2 ^ (w - 1) = H at *
  apply Int.bmod_eq_of_le <;> omega

theorem sub_is {g : BitVec w → BitVec w → Option (BitVec w)} (hg : GcdOk g) (hw : 0 < w) (a b : Rat w) (ha : a.d.toNat ≠ 0)
    (hb : b.d.toNat ≠ 0) (hf : Fits w a b)
    (hs : ((a.n.toNat * (Nat.lcm a.d.toNat b.d.toNat / a.d.toNat) : Nat) - (b.n.toNat * (Nat.lcm a.d.toNat b.d.toNat / b.d.toNat) : Nat) : Int).natAbs < 2 ^ (w - 1)) :
    ∃ r, sub g a b = some r ∧ subAssign g a b = some r ∧
      Is r ((a.n.toNat * b.d.toNat : Nat) - (b.n.toNat * a.d.toNat : Nat) : Int).natAbs (a.d.toNat * b.d.toNat) := by
  obtain ⟨h1, h2, h3, _⟩ := hf
  by_cases hdd : a.d = b.d
  · have hL : Nat.lcm a.d.toNat b.d.toNat = a.d.toNat := by rw [← hdd, Nat.lcm_self]
    rw [hL, ← hdd, Nat.div_self (by omega), Nat.mul_one, Nat.mul_one] at hs
    have en := abs_diff hw a.n b.n hs
    obtain ⟨r, e, h⟩ := simplify_is hg hw ⟨MathUtils.abs (a.n - b.n), a.d⟩ ha
    have hp : subParts g a b = some ⟨MathUtils.abs (a.n - b.n), a.d⟩ := by unfold subParts; rw [if_neg (by simpa using hdd)]
    refine ⟨r, ?_, ?_, ?_⟩
    · unfold sub; rw [hp]; simp only [Option.bind_some]; unfold make; rw [if_neg (ne0 ha)]; exact e
    · unfold subAssign; rw [hp]; exact e
    · refine h.congr ha ?_
      simp only [en, ← hdd]
      rw [Int.natCast_mul, Int.natCast_mul, ← Int.sub_mul, Int.natAbs_mul, Int.natAbs_natCast, Nat.mul_assoc]
  · obtain ⟨m, em, hm⟩ := lcm_eq hw hg a.d b.d (Or.inl (ne0 ha)) h1
    have hm0 : m.toNat ≠ 0 := by rw [hm]; exact Nat.lcm_ne_zero ha hb
    have ea := scale (n := a.n) (m := m) (d := a.d) (by rw [hm]; exact Nat.dvd_lcm_left _ _) (by rw [hm]; exact h2)
    have eb := scale (n := b.n) (m := m) (d := b.d) (by rw [hm]; exact Nat.dvd_lcm_right _ _) (by rw [hm]; exact h3)
    have en := abs_diff hw (a.n * m / a.d) (b.n * m / b.d) (by rw [ea, eb, hm]; exact hs)
    rw [ea, eb] at en
    have hp : subParts g a b = some ⟨MathUtils.abs (a.n * m / a.d - b.n * m / b.d), m⟩ := by
      unfold subParts; rw [if_pos hdd, if_neg (by simp [ne0 ha, ne0 hb]), em]; rfl
    obtain ⟨r, e, h⟩ := simplify_is hg hw ⟨MathUtils.abs (a.n * m / a.d - b.n * m / b.d), m⟩ hm0
    refine ⟨r, ?_, ?_, ?_⟩
    · unfold sub; rw [hp]; simp only [Option.bind_some]; unfold make; rw [if_neg (ne0 hm0)]; exact e
    · unfold subAssign; rw [hp]; exact e
    · refine h.congr hm0 ?_
      simp only [en, hm]
      have c1 := common a.n.toNat a.d.toNat b.d.toNat _ (Nat.dvd_lcm_left a.d.toNat b.d.toNat)
      have c2 := common b.n.toNat b.d.toNat a.d.toNat _ (Nat.dvd_lcm_right a.d.toNat b.d.toNat)
      rw [Nat.mul_comm b.d.toNat a.d.toNat] at c2
      generalize Nat.lcm a.d.toNat b.d.toNat = L at *
      generalize a.n.toNat * (L / a.d.toNat) = A at *
      generalize b.n.toNat * (L / b.d.toNat) = B at *
      generalize a.d.toNat * b.d.toNat = D at *
      have f1 : ((A : Int) - B).natAbs * D = (((A * D : Nat) : Int) - (B * D : Nat)).natAbs := by
        rw [Int.natCast_mul, Int.natCast_mul, ← Int.sub_mul, Int.natAbs_mul, Int.natAbs_natCast]
      rw [f1, c1, c2]
      rw [Int.natCast_mul (_ * _) L, Int.natCast_mul (_ * _) L, ← Int.sub_mul, Int.natAbs_mul, Int.natAbs_natCast]

/-! ### the two types -/

/-- the two instances of the template: `uint32_t` and `uint64_t` with their `gcd` -/
inductive Inst : (w : Nat) → (BitVec w → BitVec w → Option (BitVec w)) → Prop
  | u32 : Inst 32 gcd32
  | u64 : Inst 64 gcd64

theorem Inst.ok {g : BitVec w → BitVec w → Option (BitVec w)} (h : Inst w g) : GcdOk g ∧ 0 < w := by
  cases h with
  | u32 => exact ⟨C29_gcd_32, by omega⟩
  | u64 => exact ⟨C29_gcd_64, by omega⟩

variable {g : BitVec w → BitVec w → Option (BitVec w)}

/-- C33: construction reduces to lowest terms -/
theorem C33_make (hi : Inst w g) (n d : BitVec w) (hd : d.toNat ≠ 0) : ∃ r, make g n d = some r ∧ Is r n.toNat d.toNat :=
  make_is hi.ok.1 hi.ok.2 n d hd

/-- C33: `*` and `*=` -/
theorem C33_mul (hi : Inst w g) (a b : Rat w) (ha : a.d.toNat ≠ 0) (hb : b.d.toNat ≠ 0)
    (hn : a.n.toNat * b.n.toNat < 2 ^ w) (hd : a.d.toNat * b.d.toNat < 2 ^ w) :
    ∃ r, mul g a b = some r ∧ mulAssign g a b = some r ∧ Is r (a.n.toNat * b.n.toNat) (a.d.toNat * b.d.toNat) :=
  mul_is hi.ok.1 hi.ok.2 a b ha hb hn hd

/-- C33: `/` and `/=` -/
theorem C33_div (hi : Inst w g) (a b : Rat w) (ha : a.d.toNat ≠ 0) (hb : b.n.toNat ≠ 0)
    (hn : a.n.toNat * b.d.toNat < 2 ^ w) (hd : a.d.toNat * b.n.toNat < 2 ^ w) :
    ∃ r, div g a b = some r ∧ divAssign g a b = some r ∧ Is r (a.n.toNat * b.d.toNat) (a.d.toNat * b.n.toNat) :=
  div_is hi.ok.1 hi.ok.2 a b ha hb hn hd

/-- C33: `+` and `+=` -/
theorem C33_add (hi : Inst w g) (a b : Rat w) (ha : a.d.toNat ≠ 0) (hb : b.d.toNat ≠ 0) (hf : Fits w a b) :
    ∃ r, add g a b = some r ∧ addAssign g a b = some r ∧
      Is r (a.n.toNat * b.d.toNat + b.n.toNat * a.d.toNat) (a.d.toNat * b.d.toNat) :=
  add_is hi.ok.1 hi.ok.2 a b ha hb hf

/-- C33: `-` and `-=` give the absolute difference, if over the common denominator it is less than half the range of the
type.  Missing: the larger differences. -/
theorem C33_sub_partial (hi : Inst w g) (a b : Rat w) (ha : a.d.toNat ≠ 0) (hb : b.d.toNat ≠ 0) (hf : Fits w a b)
    (hs : ((a.n.toNat * (Nat.lcm a.d.toNat b.d.toNat / a.d.toNat) : Nat) - (b.n.toNat * (Nat.lcm a.d.toNat b.d.toNat / b.d.toNat) : Nat) : Int).natAbs < 2 ^ (w - 1)) :
    ∃ r, sub g a b = some r ∧ subAssign g a b = some r ∧
      Is r ((a.n.toNat * b.d.toNat : Nat) - (b.n.toNat * a.d.toNat : Nat) : Int).natAbs (a.d.toNat * b.d.toNat) :=
  sub_is hi.ok.1 hi.ok.2 a b ha hb hf hs

/-- a difference of 3000000000 between integers is reported as 1294967296 -/
theorem C33_sub_violated : Fits 32 ⟨3000000000#32, 1#32⟩ ⟨0#32, 1#32⟩ ∧
    sub gcd32 ⟨3000000000#32, 1#32⟩ ⟨0#32, 1#32⟩ = some ⟨1294967296#32, 1#32⟩ := by
  refine ⟨by unfold Fits; decide +kernel, ?_⟩
  obtain ⟨r, e, h1, h2, h3⟩ := C33_make Inst.u32 1294967296#32 1#32 (by decide)
  have : sub gcd32 ⟨3000000000#32, 1#32⟩ ⟨0#32, 1#32⟩ = make gcd32 1294967296#32 1#32 := by
    have : MathUtils.abs (3000000000#32 - 0#32) = 1294967296#32 := by decide +kernel
    unfold sub subParts
    rw [if_neg (by decide)]
    simp only [Option.bind_some, this]
  rw [this, e]
  simp only [BitVec.toNat_ofNat] at h2
  have hr : r.n.toNat = 1294967296 * r.d.toNat := by omega
  have h4 : r.d.toNat = 1 := by
    have hdv : r.d.toNat ∣ r.n.toNat := ⟨1294967296, by omega⟩
    have := Nat.dvd_gcd hdv (Nat.dvd_refl r.d.toNat)
    rw [h3] at this
    exact Nat.dvd_one.1 this
  obtain ⟨n, d⟩ := r
  simp only at hr h4
  congr 2
  · exact BitVec.eq_of_toNat_eq (by simp; omega)
  · exact BitVec.eq_of_toNat_eq (by simp; omega)

/-- C33: `inv` is the reciprocal; only zero has none -/
theorem C33_inv (hi : Inst w g) (a : Rat w) :
    (a.n.toNat ≠ 0 → ∃ r, inv g a = some r ∧ Is r a.d.toNat a.n.toNat) ∧ (a.n.toNat = 0 → inv g a = none) := by
  constructor
  · intro h; exact make_is hi.ok.1 hi.ok.2 a.d a.n h
  · intro h
    unfold inv make
    rw [if_pos (BitVec.eq_of_toNat_eq (by simpa using h))]

/-- C33: `==` decides equality of the fractions (the left one in lowest terms, as every result is) -/
theorem C33_eq (hi : Inst w g) (a b : Rat w) (ha : a.d.toNat ≠ 0) (hl : Nat.Coprime a.n.toNat a.d.toNat) (hb : b.d.toNat ≠ 0) :
    eq g a b = some (decide (a.n.toNat * b.d.toNat = b.n.toNat * a.d.toNat)) := by
  unfold eq
  obtain ⟨t, e, h1, h2, h3⟩ := simplify_is hi.ok.1 hi.ok.2 b hb
  rw [e, Option.map_some]
  congr 1
  rw [Bool.eq_iff_iff]
  simp only [Bool.and_eq_true, beq_iff_eq, decide_eq_true_eq]
  constructor
  · rintro ⟨e1, e2⟩
    rw [e1, e2]; exact h2
  · intro h
    have e3 : a.n.toNat * t.d.toNat = t.n.toNat * a.d.toNat := by
      refine Nat.eq_of_mul_eq_mul_right (Nat.pos_of_ne_zero hb) ?_
      calc a.n.toNat * t.d.toNat * b.d.toNat = a.n.toNat * b.d.toNat * t.d.toNat := by
            rw [Nat.mul_assoc, Nat.mul_comm t.d.toNat, ← Nat.mul_assoc]
        _ = b.n.toNat * t.d.toNat * a.d.toNat := by rw [h, Nat.mul_assoc, Nat.mul_comm a.d.toNat, ← Nat.mul_assoc]
        _ = t.n.toNat * a.d.toNat * b.d.toNat := by rw [← h2, Nat.mul_assoc, Nat.mul_comm b.d.toNat, ← Nat.mul_assoc]
    have d1 : a.d.toNat ∣ t.d.toNat := by
      refine Nat.Coprime.dvd_of_dvd_mul_left (k := a.d.toNat) (m := a.n.toNat) (by rw [Nat.coprime_comm]; exact hl) ?_
      exact ⟨t.n.toNat, by rw [e3, Nat.mul_comm]⟩
    have d2 : t.d.toNat ∣ a.d.toNat := by
      refine Nat.Coprime.dvd_of_dvd_mul_left (k := t.d.toNat) (m := t.n.toNat) (by rw [Nat.coprime_comm]; exact h3) ?_
      exact ⟨a.n.toNat, by rw [← e3, Nat.mul_comm]⟩
    have e4 : a.d.toNat = t.d.toNat := Nat.dvd_antisymm d1 d2
    refine ⟨BitVec.eq_of_toNat_eq ?_, BitVec.eq_of_toNat_eq e4⟩
    rw [e4] at e3
    exact Nat.eq_of_mul_eq_mul_right (Nat.pos_of_ne_zero h1) e3

/-- C33: conversion to an integer -/
theorem C33_toInt (hw : 0 < w) (a : Rat w) (p q : Nat) (hq : q ≠ 0) (h : Is a p q) :
    (∀ v, toInt a = some v → v.toNat * q = p) ∧ (q ∣ p → (toInt a).isSome) := by
  have h1 : (1#w).toNat = 1 := by simp; omega
  constructor
  · intro v hv
    unfold toInt at hv
    split at hv
    · rename_i hd
      cases hv
      rw [h.2.1, hd, h1, Nat.mul_one]
    · cases hv
  · rintro ⟨k, rfl⟩
    have e : a.n.toNat = k * a.d.toNat := by
      refine Nat.eq_of_mul_eq_mul_right (Nat.pos_of_ne_zero hq) ?_
      rw [h.2.1, Nat.mul_comm q k, Nat.mul_assoc, Nat.mul_assoc, Nat.mul_comm q]
    have hd : a.d.toNat = 1 := by
      have := Nat.dvd_gcd (⟨k, by rw [e, Nat.mul_comm]⟩ : a.d.toNat ∣ a.n.toNat) (Nat.dvd_refl _)
      rw [h.2.2] at this
      exact Nat.dvd_one.1 this
    unfold toInt
    rw [if_pos (BitVec.eq_of_toNat_eq (by rw [hd, h1]))]
    rfl

example : Fits 32 ⟨12#32, 1#32⟩ ⟨2#32, 3#32⟩ ∧ Inst 32 gcd32 ∧ Is ⟨38#32, 3#32⟩ (12 * 3 + 2 * 1) (1 * 3) ∧
    Is ⟨34#32, 3#32⟩ ((12 * 3 : Nat) - (2 * 1 : Nat) : Int).natAbs (1 * 3) :=
  ⟨by unfold Fits; decide +kernel, .u32, by unfold Is; decide, by unfold Is; decide⟩

end Sparta.Rational
