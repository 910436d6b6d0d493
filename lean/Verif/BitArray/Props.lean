import Verif.BitArray.Model
/-! Properties C32 and C70: BitArray.  The spec is `ofBytes`, the little-endian value of the bytes, and `Nat` operators. -/
namespace Sparta.BitArray

theorem ofBytes_lt (a : List Byte) : ofBytes a < 256 ^ a.length := by
  induction a with
  | nil => simp [ofBytes]
  | cons x r ih =>
    have := x.isLt
    simp only [ofBytes, List.length_cons, Nat.pow_succ]
    omega

theorem ofBytes_append (a b : List Byte) : ofBytes (a ++ b) = ofBytes a + 256 ^ a.length * ofBytes b := by
  induction a with
  | nil => simp [ofBytes]
  | cons x r ih =>
    simp only [List.cons_append, ofBytes, ih, List.length_cons, Nat.pow_succ]
    rw [Nat.mul_add, Nat.mul_comm (256 ^ r.length) 256, Nat.mul_assoc]
    omega

theorem ofBytes_zeros (k : Nat) : ofBytes (List.replicate k 0) = 0 := by
  induction k with
  | zero => rfl
  | succ k ih => rw [List.replicate_succ, ofBytes, ih]; rfl

theorem ofBytes_drop (a : List Byte) (k : Nat) : ofBytes (a.drop k) = ofBytes a / 256 ^ k := by
  induction k generalizing a with
  | zero => simp
  | succ k ih =>
    cases a with
    | nil => simp [ofBytes]
    | cons x r =>
      have := x.isLt
      simp only [List.drop_succ_cons, ih, ofBytes, Nat.pow_succ]
      rw [Nat.mul_comm (256 ^ k) 256, ← Nat.div_div_eq_div_mul]
      congr 1
      omega

theorem ofBytes_take (a : List Byte) (k : Nat) : ofBytes (a.take k) = ofBytes a % 256 ^ k := by
  induction k generalizing a with
  | zero => simp [ofBytes, Nat.mod_one]
  | succ k ih =>
    cases a with
    | nil => simp [ofBytes]
    | cons x r =>
      have := x.isLt
      simp only [List.take_succ_cons, ih, ofBytes]
      rw [Nat.pow_succ, Nat.mul_comm (256 ^ k) 256, Nat.mod_mul]
      have h1 : (x.toNat + 256 * ofBytes r) % 256 = x.toNat := by omega
      have h2 : (x.toNat + 256 * ofBytes r) / 256 = ofBytes r := by omega
      rw [h1, h2]

theorem ofBytes_inj (a b : List Byte) (hl : a.length = b.length) (h : ofBytes a = ofBytes b) : a = b := by
  induction a generalizing b with
  | nil => cases b with
    | nil => rfl
    | cons => simp at hl
  | cons x r ih =>
    cases b with
    | nil => simp at hl
    | cons y s =>
      have := x.isLt
      have := y.isLt
      simp only [ofBytes] at h
      have h1 : x.toNat = y.toNat := by omega
      rw [BitVec.eq_of_toNat_eq h1, ih s (by simpa using hl) (by omega)]

/-- `lo` has no bit above `k`, `hi` none below -/
theorem or_eq_add (hi lo k : Nat) (h : lo < 2 ^ k) : hi * 2 ^ k ||| lo = hi * 2 ^ k + lo := by
  rw [Nat.mul_comm, ← Nat.two_pow_add_eq_or_of_lt h]

theorem pow8 (b : Nat) (h : b ≤ 8) : 2 ^ (8 - b) * 2 ^ b = 256 := by
  rw [← Nat.pow_add, Nat.sub_add_cancel h]

theorem shl_byte (x p : Byte) (b : Nat) (hb : b < 8) :
    (x <<< b ||| p >>> (8 - b)).toNat = (x.toNat * 2 ^ b + p.toNat / 2 ^ (8 - b)) % 256 := by
  have hp := p.isLt
  have h8 := pow8 b (by omega)
  have hc : p.toNat / 2 ^ (8 - b) < 2 ^ b := by
    rw [Nat.div_lt_iff_lt_mul (Nat.two_pow_pos _), Nat.mul_comm, h8]; exact hp
  have e1 : (x <<< b ||| p >>> (8 - b)).toNat = ((x.toNat * 2 ^ b) ||| (p.toNat / 2 ^ (8 - b))) % 2 ^ 8 := by
    rw [BitVec.toNat_or, BitVec.toNat_shiftLeft, BitVec.toNat_ushiftRight, Nat.shiftLeft_eq, Nat.shiftRight_eq_div_pow,
      Nat.or_mod_two_pow]
    congr 1
    refine (Nat.mod_eq_of_lt (Nat.lt_of_lt_of_le hc ?_)).symm
    exact Nat.pow_le_pow_right (by omega) (by omega)
  rw [e1, or_eq_add _ _ _ hc]

theorem shr_byte (x y : Byte) (b : Nat) (hb : b < 8) :
    (x >>> b ||| y <<< (8 - b)).toNat = x.toNat / 2 ^ b + (y.toNat % 2 ^ b) * 2 ^ (8 - b) := by
  have hx := x.isLt
  have h8 := pow8 b (by omega)
  have hc : x.toNat / 2 ^ b < 2 ^ (8 - b) := by
    rw [Nat.div_lt_iff_lt_mul (Nat.two_pow_pos _), h8]; exact hx
  rw [BitVec.toNat_or, BitVec.toNat_shiftLeft, BitVec.toNat_ushiftRight, Nat.shiftLeft_eq, Nat.shiftRight_eq_div_pow]
  have e : y.toNat * 2 ^ (8 - b) % 2 ^ 8 = (y.toNat % 2 ^ b) * 2 ^ (8 - b) := by
    rw [show (2 : Nat) ^ 8 = 2 ^ b * 2 ^ (8 - b) by rw [Nat.mul_comm, h8], Nat.mul_mod_mul_right]
  rw [e, Nat.or_comm, or_eq_add _ _ _ hc, Nat.add_comm]

/-- carry from the byte before, upwards -/
def goLeft (b : Nat) : Byte → List Byte → List Byte
  | _, [] => []
  | p, x :: r => (x <<< b ||| p >>> (8 - b)) :: goLeft b x r

theorem slide_append (op : Byte → Byte → Byte) (init : Byte) (a : List Byte) (x : Byte) :
    slide op init (a ++ [x]) = slide op x a ++ [op x init] := by
  induction a with
  | nil => rfl
  | cons y r ih =>
    cases r with
    | nil => rfl
    | cons z s => simpa [slide] using ih

theorem shiftLeftBits_eq (b : Nat) (a : List Byte) : shiftLeftBits a b = goLeft b 0 a := by
  unfold shiftLeftBits
  generalize (0 : Byte) = p
  induction a generalizing p with
  | nil => rfl
  | cons x r ih =>
    rw [List.reverse_cons, slide_append, List.reverse_append, ih]
    rfl

theorem goLeft_length (b : Nat) (p : Byte) (a : List Byte) : (goLeft b p a).length = a.length := by
  induction a generalizing p with
  | nil => rfl
  | cons x r ih => simp [goLeft, ih]

theorem goLeft_value (b : Nat) (hb : b < 8) (p : Byte) (a : List Byte) :
    ofBytes (goLeft b p a) = (ofBytes a * 2 ^ b + p.toNat / 2 ^ (8 - b)) % 256 ^ a.length := by
  have h8 := pow8 b (by omega)
  induction a generalizing p with
  | nil => simp [goLeft, ofBytes, Nat.mod_one]
  | cons x r ih =>
    have hp := p.isLt
    have hc : p.toNat / 2 ^ (8 - b) < 2 ^ b := by
      rw [Nat.div_lt_iff_lt_mul (Nat.two_pow_pos _), Nat.mul_comm, h8]; exact hp
    simp only [goLeft, ofBytes, ih, shl_byte x p b hb, List.length_cons]
    rw [Nat.pow_succ, Nat.mul_comm (256 ^ r.length) 256, Nat.mod_mul]
    generalize p.toNat / 2 ^ (8 - b) = c at hc
    generalize ofBytes r = V
    have e0 : (x.toNat + 256 * V) * 2 ^ b + c = (x.toNat * 2 ^ b + c) + 256 * (V * 2 ^ b) := by
      rw [Nat.add_mul, Nat.mul_assoc]; omega
    have e1 : ((x.toNat + 256 * V) * 2 ^ b + c) % 256 = (x.toNat * 2 ^ b + c) % 256 := by rw [e0]; omega
    have e3 : (x.toNat * 2 ^ b + c) / 256 = x.toNat / 2 ^ (8 - b) := by
      rw [← h8, Nat.mul_comm (2 ^ (8 - b)) (2 ^ b), ← Nat.div_div_eq_div_mul]
      congr 1
      rw [Nat.mul_comm, Nat.mul_add_div (Nat.two_pow_pos _), Nat.div_eq_of_lt hc, Nat.add_zero]
    have e2 : ((x.toNat + 256 * V) * 2 ^ b + c) / 256 = V * 2 ^ b + x.toNat / 2 ^ (8 - b) := by
      rw [e0, Nat.add_mul_div_left _ _ (by omega), e3]; omega
    rw [e1, e2]

theorem shiftRightBits_value (b : Nat) (hb : b < 8) (a : List Byte) : ofBytes (shiftRightBits a b) = ofBytes a / 2 ^ b := by
  have h8 := pow8 b (by omega)
  unfold shiftRightBits
  induction a with
  | nil => simp [slide, ofBytes]
  | cons x r ih =>
    have hx := x.isLt
    have key : ∀ V : Nat, (x.toNat + 256 * V) / 2 ^ b = x.toNat / 2 ^ b + 2 ^ (8 - b) * V := by
      intro V
      rw [← h8, Nat.mul_comm (2 ^ (8 - b)) (2 ^ b), Nat.mul_assoc, Nat.add_mul_div_left _ _ (Nat.two_pow_pos _)]
    cases r with
    | nil =>
      simp only [slide, ofBytes, shr_byte x 0 b hb]
      simp
    | cons y s =>
      have hy := y.isLt
      simp only [slide]
      rw [ofBytes, ih, shr_byte x y b hb, show ofBytes (x :: y :: s) = x.toNat + 256 * ofBytes (y :: s) from rfl, key, Nat.add_assoc]
      congr 1
      have e : y.toNat % 2 ^ b = ofBytes (y :: s) % 2 ^ b := by
        rw [ofBytes]
        conv => rhs; rw [← h8, Nat.mul_comm (2 ^ (8 - b)) (2 ^ b), Nat.mul_assoc, Nat.add_mul_mod_self_left]
      rw [e]
      generalize ofBytes (y :: s) = V
      conv => rhs; rw [← Nat.mod_add_div V (2 ^ b)]
      rw [Nat.mul_add, ← Nat.mul_assoc, h8, Nat.mul_comm]

theorem slide_length (op : Byte → Byte → Byte) (init : Byte) (a : List Byte) : (slide op init a).length = a.length := by
  induction a with
  | nil => rfl
  | cons x r ih => cases r <;> simp_all [slide]

theorem pow256 (n : Nat) : 256 ^ n = 2 ^ (8 * n) := by rw [Nat.pow_mul]

/-- C32, `<<`: the shifted value modulo the size; defined exactly for amounts below the size in bits plus 8 -/
theorem C32_shiftLeft (a : List Byte) (k : Nat) :
    (k / 8 ≤ a.length → ∃ r, shiftLeft a k = some r ∧ r.length = a.length ∧ ofBytes r = ofBytes a <<< k % 2 ^ (8 * a.length)) ∧
    (a.length < k / 8 → shiftLeft a k = none) := by
  constructor
  · intro h
    unfold shiftLeft shiftLeftWords rotate
    rw [if_pos h]
    refine ⟨_, rfl, ?_⟩
    have e : List.drop (k / 8) (List.drop (a.length - k / 8) a ++ List.take (a.length - k / 8) a) = a.take (a.length - k / 8) := by
      rw [List.drop_append]
      rw [List.length_drop]
      have : k / 8 - (a.length - (a.length - k / 8)) = 0 := by omega
      rw [this, List.drop_zero, List.drop_eq_nil_of_le (by simp; omega), List.nil_append]
    rw [e]
    dsimp only
    have hlen : (List.replicate (k / 8) (0 : Byte) ++ a.take (a.length - k / 8)).length = a.length := by simp; omega
    rw [shiftLeftBits_eq, goLeft_length, goLeft_value _ (Nat.mod_lt _ (by omega)), hlen]
    refine ⟨rfl, ?_⟩
    rw [show (0 : Byte).toNat = 0 from rfl, Nat.zero_div, Nat.add_zero]
    rw [ofBytes_append, ofBytes_zeros, ofBytes_take, Nat.zero_add, List.length_replicate, Nat.shiftLeft_eq, ← pow256]
    have e1 : 256 ^ (k / 8) * (ofBytes a % 256 ^ (a.length - k / 8)) = (256 ^ (k / 8) * ofBytes a) % 256 ^ a.length := by
      conv => rhs; rw [show a.length = k / 8 + (a.length - k / 8) by omega, Nat.pow_add, Nat.mul_mod_mul_left]
    rw [e1, Nat.mod_mul_mod]
    congr 1
    rw [Nat.mul_comm (256 ^ _), Nat.mul_assoc, pow256, ← Nat.pow_add]
    congr 2
    omega
  · intro h
    unfold shiftLeft shiftLeftWords
    rw [if_neg (by omega)]; rfl

/-- C32, `>>` -/
theorem C32_shiftRight (a : List Byte) (k : Nat) :
    (k / 8 ≤ a.length → ∃ r, shiftRight a k = some r ∧ r.length = a.length ∧ ofBytes r = ofBytes a >>> k) ∧
    (a.length < k / 8 → shiftRight a k = none) := by
  constructor
  · intro h
    unfold shiftRight shiftRightWords rotate
    rw [if_pos h]
    refine ⟨_, rfl, ?_⟩
    have e : List.take (a.length - k / 8) (List.drop (k / 8) a ++ List.take (k / 8) a) = a.drop (k / 8) := by
      rw [List.take_append]
      simp
      rw [List.take_of_length_le (by simp)]
    rw [e, shiftRightBits_value _ (Nat.mod_lt _ (by omega)), ofBytes_append, ofBytes_zeros, ofBytes_drop]
    constructor
    · simp [shiftRightBits, slide_length]; omega
    · rw [Nat.mul_zero, Nat.add_zero, Nat.shiftRight_eq_div_pow, Nat.div_div_eq_div_mul, pow256, ← Nat.pow_add]
      congr 2
      omega
  · intro h
    unfold shiftRight shiftRightWords
    rw [if_neg (by omega)]; rfl

example : shiftLeft [0x81, 0x0F, 0x00] 12 = some [0x00, 0x10, 0xF8] ∧ ofBytes [0x81, 0x0F, 0x00] = 0x0F81 ∧
    shiftRight [0x81, 0x0F, 0xA0] 12 = some [0x00, 0x0A, 0x00] ∧ shiftLeft [1, 2] 24 = none := by decide +kernel

theorem combine_length (op : Byte → Byte → Byte) (a b : List Byte) : (combine op a b).length = a.length := by
  induction a generalizing b with
  | nil => cases b <;> rfl
  | cons x r ih => cases b <;> simp [combine, ih]

theorem combine_testBit (op : Byte → Byte → Byte) (f : Bool → Bool → Bool)
    (hop : ∀ (x y : Byte) i, i < 8 → (op x y).toNat.testBit i = f (x.toNat.testBit i) (y.toNat.testBit i)) (a b : List Byte) (i : Nat)
    (hi : i < 8 * a.length) : (ofBytes (combine op a b)).testBit i =
      if i < 8 * b.length then f ((ofBytes a).testBit i) ((ofBytes b).testBit i) else (ofBytes a).testBit i := by
  have tb : ∀ (x : Byte) (V j : Nat), (x.toNat + 256 * V).testBit j = if j < 8 then x.toNat.testBit j else V.testBit (j - 8) := by
    intro x V j
    rw [Nat.add_comm, show 256 = 2 ^ 8 from rfl, Nat.testBit_two_pow_mul_add _ x.isLt]
  induction a generalizing b i with
  | nil => simp at hi
  | cons x r ih =>
    cases b with
    | nil => simp [combine]
    | cons y s =>
      simp only [combine, ofBytes, tb, List.length_cons] at hi ⊢
      by_cases h8 : i < 8
      · simp [h8, hop x y i h8]; omega
      · have := ih s (i - 8) (by omega)
        simp only [h8, if_false]
        rw [this]
        by_cases h : i - 8 < 8 * s.length
        · rw [if_pos h, if_pos (by omega)]
        · rw [if_neg h, if_neg (by omega)]

/-- C32, `&` and `|`: bitwise on the bits both arrays have; the other bits of the left one are kept -/
theorem C32_and_or (a b : List Byte) : (and a b).length = a.length ∧ (or a b).length = a.length ∧
    ∀ i < 8 * a.length,
      (ofBytes (and a b)).testBit i = (if i < 8 * b.length then (ofBytes a).testBit i && (ofBytes b).testBit i else (ofBytes a).testBit i) ∧
      (ofBytes (or a b)).testBit i = (if i < 8 * b.length then (ofBytes a).testBit i || (ofBytes b).testBit i else (ofBytes a).testBit i) :=
  ⟨combine_length _ _ _, combine_length _ _ _, fun i hi =>
    ⟨combine_testBit _ _ (fun x y i _ => by simp) a b i hi, combine_testBit _ _ (fun x y i _ => by simp) a b i hi⟩⟩

theorem lt_pow8 (a : List Byte) : ofBytes a < 2 ^ (8 * a.length) := by rw [← pow256]; exact ofBytes_lt a

/-- C32: on arrays of the same size these are the integer operators -/
theorem C32_and_or_same_size (a b : List Byte) (h : a.length = b.length) :
    ofBytes (and a b) = ofBytes a &&& ofBytes b ∧ ofBytes (or a b) = ofBytes a ||| ofBytes b := by
  obtain ⟨h1, h2, h3⟩ := C32_and_or a b
  have big : ∀ (c : List Byte) i, c.length = a.length → 8 * a.length ≤ i → (ofBytes c).testBit i = false := by
    intro c i hc hi
    refine Nat.testBit_lt_two_pow (Nat.lt_of_lt_of_le (lt_pow8 c) (Nat.pow_le_pow_right (by omega) ?_))
    omega
  constructor
  · refine Nat.eq_of_testBit_eq fun i => ?_
    rw [Nat.testBit_and]
    by_cases hi : i < 8 * a.length
    · rw [(h3 i hi).1, if_pos (by omega)]
    · rw [big _ i h1 (by omega), big a i rfl (by omega)]; rfl
  · refine Nat.eq_of_testBit_eq fun i => ?_
    rw [Nat.testBit_or]
    by_cases hi : i < 8 * a.length
    · rw [(h3 i hi).2, if_pos (by omega)]
    · rw [big _ i h2 (by omega), big a i rfl (by omega), big b i h.symm (by omega)]; rfl

/-- C32, `~` -/
theorem C32_negate (a : List Byte) : (negate a).length = a.length ∧ ofBytes (negate a) = 2 ^ (8 * a.length) - 1 - ofBytes a := by
  refine ⟨by simp [negate], ?_⟩
  rw [← pow256]
  induction a with
  | nil => rfl
  | cons x r ih =>
    have hx := x.isLt
    have hr := ofBytes_lt r
    simp only [negate, List.map_cons, ofBytes, List.length_cons, Nat.pow_succ] at ih ⊢
    rw [ih, BitVec.toNat_not]
    omega

/-- C32, `==`: same size and same value -/
theorem C32_eq (a b : List Byte) : eq a b = true ↔ a.length = b.length ∧ ofBytes a = ofBytes b := by
  constructor
  · intro h
    simp only [eq, Bool.and_eq_true, beq_iff_eq, List.all_eq_true] at h
    refine ⟨h.1, ?_⟩
    have : a = b := by
      refine List.ext_getElem h.1 fun i h1 h2 => ?_
      have := h.2 (a[i], b[i]) (by rw [List.mem_iff_getElem]; exact ⟨i, by simp; omega, by simp⟩)
      exact this
    rw [this]
  · rintro ⟨h1, h2⟩
    rw [ofBytes_inj a b h1 h2]
    simp only [eq, beq_self_eq_true, Bool.true_and, List.all_eq_true]
    intro p hp
    obtain ⟨i, hi, rfl⟩ := List.mem_iff_getElem.1 hp
    simp

theorem bytesOf_value (k v : Nat) : (bytesOf k v).length = k ∧ ofBytes (bytesOf k v) = v % 256 ^ k := by
  induction k generalizing v with
  | zero => simp [bytesOf, ofBytes, Nat.mod_one]
  | succ k ih =>
    simp only [bytesOf, ofBytes, List.length_cons, ih, true_and]
    rw [Nat.pow_succ, Nat.mul_comm (256 ^ k), Nat.mod_mul]
    simp

/-- C32: construction from bytes, of their number (size 0) or of a given size -/
theorem C32_make (d : List Byte) (n : Nat) :
    make d 0 = d ∧ (n ≠ 0 → (make d n).length = n ∧ ofBytes (make d n) = ofBytes d % 2 ^ (8 * n)) := by
  constructor
  · simp [make]
  · intro hn
    unfold make
    rw [if_neg hn]
    refine ⟨by simp; omega, ?_⟩
    rw [ofBytes_append, ofBytes_zeros, Nat.mul_zero, Nat.add_zero, ← pow256]
    by_cases h : n ≤ d.length
    · rw [Nat.min_eq_right h, ofBytes_take]
    · rw [Nat.min_eq_left (by omega), List.take_length]
      exact (Nat.mod_eq_of_lt (Nat.lt_of_lt_of_le (ofBytes_lt d) (Nat.pow_le_pow_right (by omega) (by omega)))).symm

/-- C32: construction from an integer of `k` bytes and reading an integer of `m` bytes back -/
theorem C32_round_trip (k v n m : Nat) (hv : v < 2 ^ (8 * k)) (hn : 0 < n) :
    (ofInt k v n).length = n ∧ ofBytes (ofInt k v n) = v % 2 ^ (8 * n) ∧
    getValue m (ofInt k v n) = v % 2 ^ (8 * n) % 2 ^ (8 * m) := by
  have mk : ∀ (d : List Byte) (j : Nat), ofBytes (d.take (min d.length j) ++ List.replicate (j - min d.length j) 0) = ofBytes d % 256 ^ j := by
    intro d j
    rw [ofBytes_append, ofBytes_zeros, Nat.mul_zero, Nat.add_zero]
    by_cases h : j ≤ d.length
    · rw [Nat.min_eq_right h, ofBytes_take]
    · rw [Nat.min_eq_left (by omega), List.take_length]
      exact (Nat.mod_eq_of_lt (Nat.lt_of_lt_of_le (ofBytes_lt d) (Nat.pow_le_pow_right (by omega) (by omega)))).symm
  have e : ofBytes (ofInt k v n) = v % 2 ^ (8 * n) := by
    unfold ofInt make
    rw [if_neg (by omega)]
    rw [mk, (bytesOf_value k v).2, ← pow256]
    rw [Nat.mod_eq_of_lt (a := v) (by rw [pow256]; exact hv)]
  refine ⟨?_, e, ?_⟩
  · unfold ofInt make
    rw [if_neg (by omega)]
    simp
    omega
  · unfold getValue
    rw [Nat.min_comm, mk, e, pow256 m]

/-- C32, `fill`: byte `i` is byte `i mod k` of the value -/
theorem C32_fill (k v : Nat) (a : List Byte) : (fill k v a).length = a.length ∧
    ∀ i (h : i < (fill k v a).length), ((fill k v a)[i]).toNat = v / 256 ^ (i % k) % 256 := by
  refine ⟨by simp [fill], ?_⟩
  intro i h
  simp only [fill, List.getElem_map, List.getElem_range, BitVec.toNat_ofNat]
  rw [Nat.shiftRight_eq_div_pow, pow256, show (0xff : Nat) = 2 ^ 8 - 1 from rfl, Nat.and_two_pow_sub_one_eq_mod]
  simp

example : ofInt 4 0xAABBCCDD 2 = [0xDD, 0xCC] ∧ getValue 4 (ofInt 4 0xAABBCCDD 6) = 0xAABBCCDD ∧
    fill 2 0x1234 [0, 0, 0] = [0x34, 0x12, 0x34] ∧ and [0xF0, 0x0F, 0xAA] [0x3C, 0xFF] = [0x30, 0x0F, 0xAA] ∧
    negate [0x00, 0x81] = [0xFF, 0x7E] := by decide +kernel

/-! ### C70: objects are independent -/

/-- named values, the intended meaning of the calls -/
def specStep (v : Nat → Option (List Byte)) : Op → Nat → Option (List Byte)
  | .make i a => upd v i (some a)
  | .copy i j => match v j with
    | some a => upd v i (some a)
    | none => v
  | .assign i j => match v j with
    | some a => upd v i (some a)
    | none => v
  | .modify i f => match v i with
    | some a => upd v i (some (f a))
    | none => v

/-- run calls from nothing -/
def runWorld (os : List Op) : World := os.foldl World.step fun _ => none
/-- the intended values after the same calls -/
def runSpec (os : List Op) : Nat → Option (List Byte) := os.foldl specStep fun _ => none

/-- the call is not an assignment to an existing object -/
def Op.noAssign : Op → Prop
  | .assign _ _ => False
  | _ => True

/-- C70, without copy assignment: objects behave as independent values -/
theorem C70_independent_partial (os : List Op) (h : ∀ o ∈ os, o.noAssign) (i : Nat) :
    (runWorld os).value i = runSpec os i := by
  unfold runWorld runSpec
  suffices H : ∀ (w : World) (v : Nat → Option (List Byte)), (∀ i, w i = (v i).map fun a => ⟨a, i⟩) →
      ∀ i, (os.foldl World.step w) i = ((os.foldl specStep v) i).map fun a => ⟨a, i⟩ by
    have := H (fun _ => none) (fun _ => none) (fun _ => rfl)
    unfold World.value
    rw [this i]
    cases e : (os.foldl specStep fun _ => none) i with
    | none => rfl
    | some a => simp only [Option.map_some, Option.bind_some]; rw [this i, e]; rfl
  induction os with
  | nil => exact fun w v hw => hw
  | cons o os ih =>
    intro w v hw
    refine ih (fun o' ho' => h o' (List.mem_cons_of_mem _ ho')) _ _ ?_
    have hval : ∀ j, w.value j = v j := by
      intro j
      unfold World.value
      rw [hw j]
      cases e : v j with
      | none => rfl
      | some a => simp only [Option.map_some, Option.bind_some]; rw [hw j, e]; rfl
    have hupd : ∀ (j : Nat) (a : List Byte) (i : Nat),
        (upd w j (some ⟨a, j⟩)) i = ((upd v j (some a)) i).map fun a => ⟨a, i⟩ := by
      intro j a i
      by_cases hij : i = j
      · subst hij; simp [upd_same]
      · rw [upd_other _ _ hij, upd_other _ _ hij, hw i]
    have hno := h o (List.mem_cons_self ..)
    cases o with
    | make j a => exact hupd j a
    | copy j k =>
      simp only [World.step, specStep, hval]
      cases v k with
      | none => exact hw
      | some a => exact hupd j a
    | assign j k => exact hno.elim
    | modify j f =>
      simp only [World.step, specStep, hw j]
      cases e : v j with
      | none => exact hw
      | some a =>
        simp only [Option.map_some, hw j, e]
        exact hupd j (f a)

example : (runWorld [.make 0 [1, 2], .copy 1 0, .modify 1 (negate ·)]).value 0 = some [1, 2] := by decide +kernel

/-- C70, right after an assignment the two objects show the same value -/
theorem C70_assign_value (w : World) (i j : Nat) (a : List Byte) (h : w.value j = some a) (hne : ∀ o, w j = some o → o.data ≠ i) :
    (w.step (.assign i j)).value i = some a := by
  unfold World.value at h ⊢
  cases e : w j with
  | none => simp [e] at h
  | some o =>
    simp only [e, Option.bind_some] at h
    simp only [World.step, e, upd_same, Option.bind_some]
    rw [upd_other _ _ (hne o e)]
    exact h

/-- but after the assignment they share storage: shifting one also shifts the other -/
theorem C70_independent_violated :
    (runWorld [.make 0 [1, 2], .make 1 [3, 4], .assign 1 0, .modify 1 (negate ·)]).value 0 = some [0xFE, 0xFD] ∧
    runSpec [.make 0 [1, 2], .make 1 [3, 4], .assign 1 0, .modify 1 (negate ·)] 0 = some [1, 2] := by decide +kernel

end Sparta.BitArray
