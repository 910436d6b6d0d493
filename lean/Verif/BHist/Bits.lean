import Verif.Common
/-!
Model of the bit counts of /repo/sparta/sparta/utils/Bits.hpp, and theorems about them (C237).
-/
namespace Sparta.BHist

/-- Bits.hpp 26-35 `count_1_bits<uint32_t>` -/
def count32 (n : UInt32) : UInt32 :=
  let x : UInt32 := n - ((n >>> (1 : UInt32)) &&& (0x55555555 : UInt32))
  let x : UInt32 := (x &&& (0x33333333 : UInt32)) + ((x >>> (2 : UInt32)) &&& (0x33333333 : UInt32))
  let x : UInt32 := (x + (x >>> (4 : UInt32))) &&& (0x0F0F0F0F : UInt32)
  let x : UInt32 := x + (x >>> (8 : UInt32))
  let x : UInt32 := x + (x >>> (16 : UInt32))
  x &&& (0x3F : UInt32)

/-- Bits.hpp 37-47 `count_1_bits<uint64_t>`; the result is converted to 32 bits -/
def count64 (n : UInt64) : UInt32 :=
  let x : UInt64 := n - ((n >>> (1 : UInt64)) &&& (0x5555555555555555 : UInt64))
  let x : UInt64 := (x &&& (0x3333333333333333 : UInt64)) + ((x >>> (2 : UInt64)) &&& (0x3333333333333333 : UInt64))
  let x : UInt64 := (x + (x >>> (4 : UInt64))) &&& (0x0F0F0F0F0F0F0F0F : UInt64)
  let x : UInt64 := x + (x >>> (8 : UInt64))
  let x : UInt64 := x + (x >>> (16 : UInt64))
  let x : UInt64 := x + (x >>> (32 : UInt64))
  (x &&& (0x7F : UInt64)).toUInt32

/-! ### fields -/

/-- the sum of the lowest `k` fields of `2 ^ w` values -/
def fsum (B : Nat) : Nat → Nat → Nat
  | 0, _ => 0
  | k + 1, x => x % B + fsum B k (x / B)

/-- the mask that selects the low halves of `k` fields of `2 * h` bits -/
def mask (h : Nat) : Nat → Nat
  | 0 => 0
  | k + 1 => (2 ^ h - 1) + 2 ^ (2 * h) * mask h k

theorem low_high {a W : Nat} (y : Nat) (h : a < W) : (a + W * y) % W = a ∧ (a + W * y) / W = y := by
  constructor
  · rw [Nat.add_mul_mod_self_left, Nat.mod_eq_of_lt h]
  · rw [Nat.add_mul_div_left _ _ (by omega), Nat.div_eq_of_lt h, Nat.zero_add]

theorem and_mask (h k y : Nat) : y &&& mask h (k + 1) = y % 2 ^ h + 2 ^ (2 * h) * ((y / 2 ^ (2 * h)) &&& mask h k) := by
  have hp : 0 < 2 ^ h := Nat.pow_pos (by omega)
  have hle : 2 ^ h ≤ 2 ^ (2 * h) := Nat.pow_le_pow_right (by omega) (by omega)
  have hW : 0 < 2 ^ (2 * h) := Nat.pow_pos (by omega)
  have e1 : mask h (k + 1) % 2 ^ (2 * h) = 2 ^ h - 1 := by
    unfold mask
    rw [Nat.add_mul_mod_self_left]
    exact Nat.mod_eq_of_lt (by omega)
  have e2 : mask h (k + 1) / 2 ^ (2 * h) = mask h k := by
    show ((2 ^ h - 1) + 2 ^ (2 * h) * mask h k) / 2 ^ (2 * h) = mask h k
    rw [Nat.add_mul_div_left _ _ hW, Nat.div_eq_of_lt (by omega), Nat.zero_add]
  have d := Nat.mod_add_div (y &&& mask h (k + 1)) (2 ^ (2 * h))
  rw [Nat.and_mod_two_pow, Nat.and_div_two_pow, e1, e2, Nat.and_two_pow_sub_one_eq_mod,
    Nat.mod_mod_of_dvd _ (Nat.pow_dvd_pow 2 (by omega))] at d
  exact d.symm

/-- adding neighbours -/
def pairs (h : Nat) : Nat → Nat → Nat
  | 0, _ => 0
  | k + 1, x => (x % 2 ^ h + x / 2 ^ h % 2 ^ h) + 2 ^ (2 * h) * pairs h k (x / 2 ^ (2 * h))

theorem div_div_comm' (x a b : Nat) : x / a / b = x / b / a := by rw [Nat.div_div_eq_div_mul, Nat.mul_comm, ← Nat.div_div_eq_div_mul]

theorem pairs_eq (h : Nat) : ∀ k x, (x &&& mask h k) + ((x / 2 ^ h) &&& mask h k) = pairs h k x
  | 0, x => by simp [mask, pairs]
  | k + 1, x => by
    rw [and_mask, and_mask, div_div_comm' x (2 ^ h)]
    unfold pairs
    rw [← pairs_eq h k, Nat.mul_add]
    omega

theorem pow_two_mul (h : Nat) : 2 ^ (2 * h) = 2 ^ h * 2 ^ h := by rw [Nat.two_mul, Nat.pow_add]

theorem fsum_pairs (h : Nat) (h0 : 0 < h) : ∀ k x, fsum (2 ^ (2 * h)) k (pairs h k x) = fsum (2 ^ h) (2 * k) x
  | 0, _ => rfl
  | k + 1, x => by
    have hp : 0 < 2 ^ h := Nat.pow_pos (by omega)
    have h2 : 2 ≤ 2 ^ h := by
      have := Nat.pow_le_pow_right (n := 2) (by omega) h0
      omega
    have hb : 2 * 2 ^ h ≤ 2 ^ (2 * h) := by rw [pow_two_mul]; exact Nat.mul_le_mul_right _ h2
    have ha := Nat.mod_lt x hp
    have hc := Nat.mod_lt (x / 2 ^ h) hp
    rw [show 2 * (k + 1) = 2 * k + 1 + 1 by omega]
    obtain ⟨g1, g2⟩ := low_high (pairs h k (x / 2 ^ (2 * h))) (show x % 2 ^ h + x / 2 ^ h % 2 ^ h < 2 ^ (2 * h) by omega)
    show (x % 2 ^ h + x / 2 ^ h % 2 ^ h + 2 ^ (2 * h) * pairs h k (x / 2 ^ (2 * h))) % 2 ^ (2 * h) +
      fsum (2 ^ (2 * h)) k ((x % 2 ^ h + x / 2 ^ h % 2 ^ h + 2 ^ (2 * h) * pairs h k (x / 2 ^ (2 * h))) / 2 ^ (2 * h)) =
      x % 2 ^ h + (x / 2 ^ h % 2 ^ h + fsum (2 ^ h) (2 * k) (x / 2 ^ h / 2 ^ h))
    rw [g1, g2, fsum_pairs h h0 k, Nat.div_div_eq_div_mul, ← pow_two_mul]
    omega

/-- the first step: what is subtracted are the high bits -/
theorem sub_pairs : ∀ k x, x < 4 ^ k → (x / 2) &&& mask 1 k ≤ x ∧ x - ((x / 2) &&& mask 1 k) = pairs 1 k x
  | 0, x, h => by
    have : x = 0 := by simpa using h
    subst this
    exact ⟨by simp [mask], by simp [mask, pairs]⟩
  | k + 1, x, h => by
    have hk : x / 4 < 4 ^ k := by rw [Nat.pow_succ] at h; omega
    obtain ⟨i1, i2⟩ := sub_pairs k (x / 4) hk
    rw [and_mask]
    unfold pairs
    rw [show (2 : Nat) ^ (2 * 1) = 4 from rfl, show (2 : Nat) ^ 1 = 2 from rfl, div_div_comm' x 2 4, ← i2]
    omega

/-- all of the lowest `k` fields are at most `m` -/
def Small (B m : Nat) : Nat → Nat → Prop
  | 0, x => x = 0
  | k + 1, x => x % B ≤ m ∧ Small B m k (x / B)

theorem pairs_small (h m : Nat) (h0 : 0 < h) : ∀ k x, Small (2 ^ h) m (2 * k) x → Small (2 ^ (2 * h)) (2 * m) k (pairs h k x)
  | 0, _, _ => rfl
  | k + 1, x, hx => by
    have hp : 0 < 2 ^ h := Nat.pow_pos (by omega)
    have h2 : 2 ≤ 2 ^ h := by
      have := Nat.pow_le_pow_right (n := 2) (by omega) h0
      omega
    have hb : 2 * 2 ^ h ≤ 2 ^ (2 * h) := by rw [pow_two_mul]; exact Nat.mul_le_mul_right _ h2
    have ha := Nat.mod_lt x hp
    have hc := Nat.mod_lt (x / 2 ^ h) hp
    rw [show 2 * (k + 1) = 2 * k + 1 + 1 by omega] at hx
    obtain ⟨s1, s2, s3⟩ := hx
    rw [Nat.div_div_eq_div_mul, ← pow_two_mul] at s3
    obtain ⟨g1, g2⟩ := low_high (pairs h k (x / 2 ^ (2 * h))) (show x % 2 ^ h + x / 2 ^ h % 2 ^ h < 2 ^ (2 * h) by omega)
    unfold Small pairs
    rw [g1, g2]
    exact ⟨by omega, pairs_small h m h0 k _ s3⟩

theorem small_bits : ∀ k x, x < 2 ^ k → Small 2 1 k x
  | 0, x, h => by simpa [Small] using h
  | k + 1, x, h => ⟨by omega, small_bits k (x / 2) (by rw [Nat.pow_succ] at h; omega)⟩

/-- the third step: no carries between nibbles of at most 4 -/
theorem add_pairs : ∀ k x, Small 16 4 (2 * k) x → (x + x / 16) &&& mask 4 k = pairs 4 k x
  | 0, x, _ => by simp [mask, pairs]
  | k + 1, x, hx => by
    rw [show 2 * (k + 1) = 2 * k + 1 + 1 by omega] at hx
    obtain ⟨s1, s2, s3⟩ := hx
    rw [Nat.div_div_eq_div_mul] at s3
    have s4 : x / 256 % 16 ≤ 4 := by
      cases k with
      | zero => have : x / 256 = 0 := s3; rw [this]; decide
      | succ k => exact s3.1
    rw [and_mask]
    unfold pairs
    rw [show (2 : Nat) ^ (2 * 4) = 256 from rfl, show (2 : Nat) ^ 4 = 16 from rfl, ← add_pairs k (x / 256) s3,
      show (x + x / 16) / 256 = x / 256 + x / 256 / 16 by
        have : x / 16 / 16 = x / 256 := by rw [Nat.div_div_eq_div_mul]
        omega]
    omega

/-- the number of set bits below `k` -/
def ones (k x : Nat) : Nat := ((List.range k).filter (x.testBit ·)).length

theorem ones_fsum : ∀ k x, ones k x = fsum 2 k x
  | 0, _ => rfl
  | k + 1, x => by
    have e : ((fun i => x.testBit i) ∘ Nat.succ) = fun i => (x / 2).testBit i := by
      funext i
      show x.testBit (i + 1) = _
      rw [Nat.testBit_succ]
    unfold fsum
    rw [← ones_fsum k (x / 2)]
    unfold ones
    rw [List.range_succ_eq_map, List.filter_cons, List.filter_map, e]
    have h0 := Nat.testBit_zero x
    rcases Nat.mod_two_eq_zero_or_one x with h | h
    · rw [if_neg (by rw [h0, h]; decide), List.length_map, h, Nat.zero_add]
    · rw [if_pos (by rw [h0, h]; decide), List.length_cons, List.length_map, h]
      omega

theorem small_lt (m : Nat) {B : Nat} : 0 < B → ∀ k N, B ^ k ≤ N → ∀ x, Small B m k x → x < N
  | h, k, N, hN, x, hx => by
    suffices hs : ∀ k x, Small B m k x → x < B ^ k from Nat.lt_of_lt_of_le (hs k x hx) hN
    intro k
    induction k with
    | zero => intro x h; have : x = 0 := h; subst this; exact Nat.one_pos
    | succ k ih =>
      intro x hx
      have := ih _ hx.2
      rw [Nat.pow_succ]
      exact (Nat.div_lt_iff_lt_mul h).1 this

theorem small_top (x : Nat) (h : Small 16 4 8 x) : x < 2 ^ 31 := by
  obtain ⟨h0, h1, h2, h3, h4, h5, h6, h7, h8⟩ := h
  have h8 : x / 16 / 16 / 16 / 16 / 16 / 16 / 16 / 16 = 0 := h8
  omega

theorem small_top64 (x : Nat) (h : Small 16 4 16 x) : x < 2 ^ 63 := by
  obtain ⟨h0, h1, h2, h3, h4, h5, h6, h7, h8⟩ := h
  have := small_top _ h8
  omega

theorem bytes4 (x : Nat) (h : Small 256 8 4 x) :
    x < 2 ^ 28 ∧ x + x / 256 < 2 ^ 29 ∧ x + x / 256 + (x + x / 256) / 65536 < 2 ^ 32 ∧
    (x + x / 256 + (x + x / 256) / 65536) % 64 = fsum 256 4 x := by
  obtain ⟨h0, h1, h2, h3, h4⟩ := h
  have h4 : x / 256 / 256 / 256 / 256 = 0 := h4
  show _ ∧ _ ∧ _ ∧ _ = x % 256 + (x / 256 % 256 + (x / 256 / 256 % 256 + (x / 256 / 256 / 256 % 256 + 0)))
  obtain ⟨b0, e0⟩ : ∃ b, b = x % 256 := ⟨_, rfl⟩
  obtain ⟨b1, e1⟩ : ∃ b, b = x / 256 % 256 := ⟨_, rfl⟩
  obtain ⟨b2, e2⟩ : ∃ b, b = x / 256 / 256 % 256 := ⟨_, rfl⟩
  obtain ⟨b3, e3⟩ : ∃ b, b = x / 256 / 256 / 256 % 256 := ⟨_, rfl⟩
  rw [← e0] at h0 ⊢
  rw [← e1] at h1 ⊢
  rw [← e2] at h2 ⊢
  rw [← e3] at h3 ⊢
  have d1 : x / 256 = b1 + 256 * b2 + 65536 * b3 := by omega
  have d0 : x = b0 + 256 * b1 + 65536 * b2 + 16777216 * b3 := by omega
  clear e0 e1 e2 e3 h4
  have d2 : (x + x / 256) / 65536 = b2 + b3 + 256 * b3 := by omega
  rw [d2, d1]
  omega

theorem bytes8 (x : Nat) (h : Small 256 8 8 x) :
    x < 2 ^ 60 ∧ x + x / 256 < 2 ^ 61 ∧ x + x / 256 + (x + x / 256) / 65536 < 2 ^ 62 ∧
    x + x / 256 + (x + x / 256) / 65536 + (x + x / 256 + (x + x / 256) / 65536) / 4294967296 < 2 ^ 64 ∧
    (x + x / 256 + (x + x / 256) / 65536 + (x + x / 256 + (x + x / 256) / 65536) / 4294967296) % 128 = fsum 256 8 x := by
  obtain ⟨h0, h1, h2, h3, h4⟩ := h
  obtain ⟨y, ey⟩ : ∃ y, y = x / 256 / 256 / 256 / 256 := ⟨_, rfl⟩
  have hf : fsum 256 8 x = x % 256 + (x / 256 % 256 + (x / 256 / 256 % 256 + (x / 256 / 256 / 256 % 256 + fsum 256 4 y))) := by rw [ey]; rfl
  rw [hf]
  rw [← ey] at h4
  obtain ⟨g0, g1, g2, g3, g4⟩ := h4
  have g4 : y / 256 / 256 / 256 / 256 = 0 := g4
  show _ ∧ _ ∧ _ ∧ _ ∧ _ = _ + (_ + (_ + (_ + (y % 256 + (y / 256 % 256 + (y / 256 / 256 % 256 + (y / 256 / 256 / 256 % 256 + 0)))))))
  obtain ⟨b0, e0⟩ : ∃ b, b = x % 256 := ⟨_, rfl⟩
  obtain ⟨b1, e1⟩ : ∃ b, b = x / 256 % 256 := ⟨_, rfl⟩
  obtain ⟨b2, e2⟩ : ∃ b, b = x / 256 / 256 % 256 := ⟨_, rfl⟩
  obtain ⟨b3, e3⟩ : ∃ b, b = x / 256 / 256 / 256 % 256 := ⟨_, rfl⟩
  obtain ⟨b4, e4⟩ : ∃ b, b = y % 256 := ⟨_, rfl⟩
  obtain ⟨b5, e5⟩ : ∃ b, b = y / 256 % 256 := ⟨_, rfl⟩
  obtain ⟨b6, e6⟩ : ∃ b, b = y / 256 / 256 % 256 := ⟨_, rfl⟩
  obtain ⟨b7, e7⟩ : ∃ b, b = y / 256 / 256 / 256 % 256 := ⟨_, rfl⟩
  rw [← e0] at h0 ⊢
  rw [← e1] at h1 ⊢
  rw [← e2] at h2 ⊢
  rw [← e3] at h3 ⊢
  rw [← e4] at g0 ⊢
  rw [← e5] at g1 ⊢
  rw [← e6] at g2 ⊢
  rw [← e7] at g3 ⊢
  have dy : y = b4 + 256 * b5 + 65536 * b6 + 16777216 * b7 := by omega
  clear e4 e5 e6 e7 g4
  have d1 : x / 256 = b1 + 256 * b2 + 65536 * b3 + 16777216 * y := by omega
  have d0 : x = b0 + 256 * b1 + 65536 * b2 + 16777216 * b3 + 4294967296 * y := by omega
  clear e0 e1 e2 e3 ey hf
  have d2 : (x + x / 256) / 65536 = b2 + b3 + 256 * (b3 + b4) + 65536 * (b4 + b5) + 16777216 * (b5 + b6) + 4294967296 * (b6 + b7) + 1099511627776 * b7 := by
    rw [d1]
    omega
  have d3 : (x + x / 256 + (x + x / 256) / 65536) / 4294967296 = b4 + b5 + b6 + b7 + 256 * (b5 + b6 + b7) + 65536 * (b6 + b7) + 16777216 * b7 := by
    rw [d2, d1]
    omega
  rw [d3, d2, d1]
  omega

/-- C237: the 32 bit count is the number of bits that are set -/
theorem C237_count32 (n : UInt32) : (count32 n).toNat = ((List.range 32).filter (n.toNat.testBit ·)).length := by
  have hn : n.toNat < 2 ^ 32 := n.toNat_lt
  obtain ⟨a1, a2⟩ := sub_pairs 16 n.toNat (by omega)
  have s1 := pairs_small 1 1 (by omega) 16 n.toNat (small_bits 32 _ hn)
  have f1 := fsum_pairs 1 (by omega) 16 n.toNat
  have e1 : (n - ((n >>> (1 : UInt32)) &&& (0x55555555 : UInt32))).toNat = pairs 1 16 n.toNat := by
    rw [UInt32.toNat_sub_of_le, UInt32.toNat_and, UInt32.toNat_shiftRight]
    · exact a2
    · exact a1
  unfold count32
  dsimp only
  generalize n - ((n >>> (1 : UInt32)) &&& (0x55555555 : UInt32)) = x1 at e1
  rw [← e1] at s1 f1
  have p2 := pairs_eq 2 8 x1.toNat
  have s2 := pairs_small 2 2 (by omega) 8 x1.toNat s1
  have f2 := fsum_pairs 2 (by omega) 8 x1.toNat
  have b2 : pairs 2 8 x1.toNat < 2 ^ 32 := small_lt 4 (by omega) 8 _ (by omega) _ s2
  have e2 : ((x1 &&& (0x33333333 : UInt32)) + ((x1 >>> (2 : UInt32)) &&& (0x33333333 : UInt32))).toNat = pairs 2 8 x1.toNat := by
    rw [UInt32.toNat_add, UInt32.toNat_and, UInt32.toNat_and, UInt32.toNat_shiftRight]
    have c1 : (0x33333333 : UInt32).toNat = mask 2 8 := by decide +kernel
    have c2 : x1.toNat >>> ((2 : UInt32).toNat % 32) = x1.toNat / 2 ^ 2 := Nat.shiftRight_eq_div_pow x1.toNat 2
    rw [c1, c2]
    exact (congrArg (· % 2 ^ 32) p2).trans (Nat.mod_eq_of_lt b2)
  generalize (x1 &&& (0x33333333 : UInt32)) + ((x1 >>> (2 : UInt32)) &&& (0x33333333 : UInt32)) = x2 at e2
  rw [← e2] at s2 f2
  have p3 := add_pairs 4 x2.toNat s2
  have s3 := pairs_small 4 4 (by omega) 4 x2.toNat s2
  have f3 := fsum_pairs 4 (by omega) 4 x2.toNat
  have e3 : ((x2 + (x2 >>> (4 : UInt32))) &&& (0x0F0F0F0F : UInt32)).toNat = pairs 4 4 x2.toNat := by
    rw [UInt32.toNat_and, UInt32.toNat_add, UInt32.toNat_shiftRight]
    have hx : x2.toNat < 2 ^ 31 := small_top x2.toNat s2
    have : (x2.toNat + x2.toNat >>> ((4 : UInt32).toNat % 32)) % 2 ^ 32 = x2.toNat + x2.toNat / 16 := by
      have : x2.toNat >>> ((4 : UInt32).toNat % 32) = x2.toNat / 16 := Nat.shiftRight_eq_div_pow x2.toNat 4
      omega
    rw [this]
    exact p3
  generalize (x2 + (x2 >>> (4 : UInt32))) &&& (0x0F0F0F0F : UInt32) = x3 at e3
  rw [← e3] at s3 f3
  obtain ⟨q1, q2, q3, q4⟩ := bytes4 x3.toNat s3
  have e4 : (x3 + (x3 >>> (8 : UInt32))).toNat = x3.toNat + x3.toNat / 256 := by
    rw [UInt32.toNat_add, UInt32.toNat_shiftRight]
    have : x3.toNat >>> ((8 : UInt32).toNat % 32) = x3.toNat / 256 := Nat.shiftRight_eq_div_pow x3.toNat 8
    omega
  generalize x3 + (x3 >>> (8 : UInt32)) = x4 at e4
  rw [← e4] at q2 q3 q4
  have e5 : (x4 + (x4 >>> (16 : UInt32))).toNat = x4.toNat + x4.toNat / 65536 := by
    rw [UInt32.toNat_add, UInt32.toNat_shiftRight]
    have : x4.toNat >>> ((16 : UInt32).toNat % 32) = x4.toNat / 65536 := Nat.shiftRight_eq_div_pow x4.toNat 16
    omega
  rw [UInt32.toNat_and, e5]
  refine (Nat.and_two_pow_sub_one_eq_mod (x4.toNat + x4.toNat / 65536) 6).trans (q4.trans ?_)
  exact f3.trans (f2.trans (f1.trans (ones_fsum 32 n.toNat).symm))

example : (count32 0xF0000001).toNat = 5 := by decide +kernel

/-- C237: the 64 bit count is the number of bits that are set -/
theorem C237_count64 (n : UInt64) : (count64 n).toNat = ((List.range 64).filter (n.toNat.testBit ·)).length := by
  have hn : n.toNat < 2 ^ 64 := n.toNat_lt
  obtain ⟨a1, a2⟩ := sub_pairs 32 n.toNat (by omega)
  have s1 := pairs_small 1 1 (by omega) 32 n.toNat (small_bits 64 _ hn)
  have f1 := fsum_pairs 1 (by omega) 32 n.toNat
  have e1 : (n - ((n >>> (1 : UInt64)) &&& (0x5555555555555555 : UInt64))).toNat = pairs 1 32 n.toNat := by
    rw [UInt64.toNat_sub_of_le, UInt64.toNat_and, UInt64.toNat_shiftRight]
    · exact a2
    · exact a1
  unfold count64
  dsimp only
  generalize n - ((n >>> (1 : UInt64)) &&& (0x5555555555555555 : UInt64)) = x1 at e1
  rw [← e1] at s1 f1
  have p2 := pairs_eq 2 16 x1.toNat
  have s2 := pairs_small 2 2 (by omega) 16 x1.toNat s1
  have f2 := fsum_pairs 2 (by omega) 16 x1.toNat
  have b2 : pairs 2 16 x1.toNat < 2 ^ 64 := small_lt 4 (by omega) 16 _ (by omega) _ s2
  have e2 : ((x1 &&& (0x3333333333333333 : UInt64)) + ((x1 >>> (2 : UInt64)) &&& (0x3333333333333333 : UInt64))).toNat = pairs 2 16 x1.toNat := by
    rw [UInt64.toNat_add, UInt64.toNat_and, UInt64.toNat_and, UInt64.toNat_shiftRight]
    have c1 : (0x3333333333333333 : UInt64).toNat = mask 2 16 := by decide +kernel
    have c2 : x1.toNat >>> ((2 : UInt64).toNat % 64) = x1.toNat / 2 ^ 2 := Nat.shiftRight_eq_div_pow x1.toNat 2
    rw [c1, c2]
    exact (congrArg (· % 2 ^ 64) p2).trans (Nat.mod_eq_of_lt b2)
  generalize (x1 &&& (0x3333333333333333 : UInt64)) + ((x1 >>> (2 : UInt64)) &&& (0x3333333333333333 : UInt64)) = x2 at e2
  rw [← e2] at s2 f2
  have p3 := add_pairs 8 x2.toNat s2
  have s3 := pairs_small 4 4 (by omega) 8 x2.toNat s2
  have f3 := fsum_pairs 4 (by omega) 8 x2.toNat
  have e3 : ((x2 + (x2 >>> (4 : UInt64))) &&& (0x0F0F0F0F0F0F0F0F : UInt64)).toNat = pairs 4 8 x2.toNat := by
    rw [UInt64.toNat_and, UInt64.toNat_add, UInt64.toNat_shiftRight]
    have hx : x2.toNat < 2 ^ 63 := small_top64 x2.toNat s2
    have : (x2.toNat + x2.toNat >>> ((4 : UInt64).toNat % 64)) % 2 ^ 64 = x2.toNat + x2.toNat / 16 := by
      have : x2.toNat >>> ((4 : UInt64).toNat % 64) = x2.toNat / 16 := Nat.shiftRight_eq_div_pow x2.toNat 4
      omega
    rw [this]
    exact p3
  generalize (x2 + (x2 >>> (4 : UInt64))) &&& (0x0F0F0F0F0F0F0F0F : UInt64) = x3 at e3
  rw [← e3] at s3 f3
  obtain ⟨q1, q2, q3, q4, q5⟩ := bytes8 x3.toNat s3
  have e4 : (x3 + (x3 >>> (8 : UInt64))).toNat = x3.toNat + x3.toNat / 256 := by
    rw [UInt64.toNat_add, UInt64.toNat_shiftRight]
    have : x3.toNat >>> ((8 : UInt64).toNat % 64) = x3.toNat / 256 := Nat.shiftRight_eq_div_pow x3.toNat 8
    omega
  generalize x3 + (x3 >>> (8 : UInt64)) = x4 at e4
  rw [← e4] at q2 q3 q4 q5
  have e5 : (x4 + (x4 >>> (16 : UInt64))).toNat = x4.toNat + x4.toNat / 65536 := by
    rw [UInt64.toNat_add, UInt64.toNat_shiftRight]
    have : x4.toNat >>> ((16 : UInt64).toNat % 64) = x4.toNat / 65536 := Nat.shiftRight_eq_div_pow x4.toNat 16
    omega
  generalize x4 + (x4 >>> (16 : UInt64)) = x5 at e5
  rw [← e5] at q3 q4 q5
  have e6 : (x5 + (x5 >>> (32 : UInt64))).toNat = x5.toNat + x5.toNat / 4294967296 := by
    rw [UInt64.toNat_add, UInt64.toNat_shiftRight]
    have : x5.toNat >>> ((32 : UInt64).toNat % 64) = x5.toNat / 4294967296 := Nat.shiftRight_eq_div_pow x5.toNat 32
    omega
  rw [UInt64.toNat_toUInt32, UInt64.toNat_and, e6]
  have e7 : (x5.toNat + x5.toNat / 4294967296) &&& (0x7F : UInt64).toNat = (x5.toNat + x5.toNat / 4294967296) % 128 :=
    Nat.and_two_pow_sub_one_eq_mod (x5.toNat + x5.toNat / 4294967296) 7
  rw [e7, Nat.mod_eq_of_lt (by omega), q5]
  exact f3.trans (f2.trans (f1.trans (ones_fsum 64 n.toNat).symm))

example : (count64 0xF000000000000001).toNat = 5 := by decide +kernel

end Sparta.BHist
