import Verif.DView.Model
import Verif.ByteOrder.Props
/-! Bytes and numbers. -/
namespace Sparta.DView
open Sparta.ByteOrder

/-- the number of some bytes, least significant first -/
def leNum : List UInt8 → Nat
  | [] => 0
  | b :: l => b.toNat + 256 * leNum l

theorem leNum_lt : ∀ (l : List UInt8), leNum l < 256 ^ l.length
  | [] => by simp [leNum]
  | b :: l => by
    have := leNum_lt l
    have hb : b.toNat < 256 := b.toNat_lt
    unfold leNum
    rw [List.length_cons, Nat.pow_succ]
    omega

theorem leNum_byte : ∀ (l : List UInt8) (j : Nat), j < l.length → leNum l / 256 ^ j % 256 = (l.getD j 0).toNat
  | [], _, h => absurd h (Nat.not_lt_zero _)
  | b :: l, 0, _ => by
    have hb : b.toNat < 256 := b.toNat_lt
    simp only [leNum, Nat.pow_zero, Nat.div_one, List.getD_cons_zero]
    omega
  | b :: l, j + 1, h => by
    have hb : b.toNat < 256 := b.toNat_lt
    have ih := leNum_byte l j (by simpa using h)
    have e : (b.toNat + 256 * leNum l) / 256 = leNum l := by omega
    simp only [leNum, List.getD_cons_succ]
    rw [Nat.pow_succ, Nat.mul_comm (256 ^ j) 256, ← Nat.div_div_eq_div_mul, e, ih]

theorem leNum_take : ∀ (l : List UInt8) (n : Nat), leNum l % 256 ^ n = leNum (l.take n)
  | [], n => by simp [leNum]
  | b :: l, 0 => by simp [leNum, Nat.mod_one]
  | b :: l, n + 1 => by
    have hb : b.toNat < 256 := b.toNat_lt
    rw [List.take_succ_cons]
    unfold leNum
    rw [← leNum_take l n, Nat.pow_succ, Nat.mul_comm (256 ^ n) 256, Nat.mod_mul]
    have e1 : (b.toNat + 256 * leNum l) % 256 = b.toNat := by omega
    have e2 : (b.toNat + 256 * leNum l) / 256 = leNum l := by omega
    rw [e1, e2]

theorem bytesAt_length (d : Data) (a n : Nat) : (bytesAt d a n).length = n := by unfold bytesAt; simp

theorem bytesAt_cons (d : Data) (a n : Nat) : bytesAt d a (n + 1) = d a :: bytesAt d (a + 1) n := by
  unfold bytesAt
  rw [List.range_succ_eq_map, List.map_cons, List.map_map]
  congr 1
  apply List.map_congr_left
  intro j _
  show d (a + (j + 1)) = d (a + 1 + j)
  congr 1
  omega

theorem bytesAt_append (d : Data) : ∀ (m a n : Nat), bytesAt d a (m + n) = bytesAt d a m ++ bytesAt d (a + m) n
  | 0, a, n => by simp [bytesAt]
  | m + 1, a, n => by
    rw [Nat.add_right_comm, bytesAt_cons, bytesAt_cons, bytesAt_append d m (a + 1) n, List.cons_append,
      show a + 1 + m = a + (m + 1) by omega]

theorem bytesAt_take (d : Data) (a m n : Nat) (h : n ≤ m) : (bytesAt d a m).take n = bytesAt d a n := by
  obtain ⟨r, rfl⟩ := Nat.exists_eq_add_of_le h
  rw [bytesAt_append]
  exact List.take_left' (bytesAt_length _ _ _)

theorem word_num (d : Data) : ∀ (n loc : Nat), word d loc n = leNum (bytesAt d loc n)
  | 0, _ => rfl
  | n + 1, loc => by
    rw [bytesAt_cons]
    unfold word leNum
    rw [word_num d n (loc + 1)]

theorem bytesAt_congr {d e : Data} {a n : Nat} (h : ∀ x, a ≤ x → x < a + n → d x = e x) : bytesAt d a n = bytesAt e a n := by
  unfold bytesAt
  apply List.map_congr_left
  intro j hj
  exact h _ (by omega) (by have := List.mem_range.1 hj; omega)

theorem pow8 (n : Nat) : 2 ^ (8 * n) = 256 ^ n := by rw [Nat.pow_mul]

theorem byteAt_ofNat (n v j : Nat) (h : j < n) : byteAt (BitVec.ofNat (8 * n) v) j = v / 256 ^ j % 256 := by
  unfold byteAt
  rw [BitVec.toNat_ofNat, pow8]
  obtain ⟨r, rfl⟩ := Nat.exists_eq_add_of_lt h
  rw [show j + r + 1 = j + (r + 1) by omega, Nat.pow_add, Nat.mod_mul_right_div_self]
  exact Nat.mod_mod_of_dvd _ ⟨256 ^ r, by rw [Nat.pow_succ, Nat.mul_comm]⟩

/-- the number of bytes read in an order -/
def num (o : Order) (l : List UInt8) : Nat :=
  match o with
  | .LE => leNum l
  | .BE => leNum l.reverse

theorem num_lt (o : Order) (l : List UInt8) : num o l < 256 ^ l.length := by
  cases o with
  | LE => exact leNum_lt l
  | BE => have := leNum_lt l.reverse; rw [List.length_reverse] at this; exact this

theorem toNat_ofNat_num (n : Nat) (v : Nat) (h : v < 256 ^ n) : (BitVec.ofNat (8 * n) v).toNat = v := by
  rw [BitVec.toNat_ofNat, pow8, Nat.mod_eq_of_lt h]

theorem reorder_num (k : Kind) (o : Order) (hk : ¬(k = .i16 ∧ o = .BE)) (l : List UInt8) (h : l.length = k.bytes) :
    (reorder k o (BitVec.ofNat _ (leNum l))).toNat = num o l := by
  have hlt : num o l < 256 ^ k.bytes := by rw [← h]; exact num_lt o l
  have e : reorder k o (BitVec.ofNat _ (leNum l)) = BitVec.ofNat _ (num o l) := by
    cases o with
    | LE => rfl
    | BE =>
      refine ext_bytes k.bytes rfl _ _ fun j hj => ?_
      rw [(C38_memory_order k (fun e => hk ⟨e, rfl⟩) _ j hj).2, byteAt_ofNat _ _ _ (by omega), byteAt_ofNat _ _ _ hj]
      show _ = leNum l.reverse / 256 ^ j % 256
      rw [leNum_byte _ _ (by omega), leNum_byte _ _ (by rw [List.length_reverse]; omega)]
      congr 1
      rw [List.getD_eq_getElem?_getD, List.getD_eq_getElem?_getD, List.getElem?_reverse (by omega), h]
  rw [e]
  exact toNat_ofNat_num _ _ hlt

/-- byte `i` in memory of a number of `n` bytes written in an order -/
def wbyte (o : Order) (n v i : Nat) : Nat :=
  match o with
  | .LE => v / 256 ^ i % 256
  | .BE => v / 256 ^ (n - 1 - i) % 256

theorem reorder_byte (k : Kind) (o : Order) (hk : ¬(k = .i16 ∧ o = .BE)) (v i : Nat) (h : i < k.bytes) :
    (reorder k o (BitVec.ofNat _ v)).toNat / 256 ^ i % 256 = wbyte o k.bytes v i := by
  cases o with
  | LE => exact byteAt_ofNat _ _ _ h
  | BE =>
    exact (C38_memory_order k (fun e => hk ⟨e, rfl⟩) (BitVec.ofNat _ v) i h).2.trans (byteAt_ofNat _ _ _ (by omega))

theorem lineRead_eq (m : Mem) (line : Nat) (k : Kind) (o : Order) (hk : ¬(k = .i16 ∧ o = .BE)) (off idx : Nat) (h : off + idx * k.bytes + k.bytes ≤ m.L) :
    lineRead m line k o off idx = some (num o (bytesAt (m.lines line) (off + idx * k.bytes) k.bytes)) := by
  unfold lineRead
  dsimp only
  rw [if_pos h, word_num, reorder_num k o hk _ (bytesAt_length _ _ _)]

/-- a range of a line -/
def Within (line a n : Nat) (l x : Nat) : Prop := l = line ∧ a ≤ x ∧ x < a + n

instance (line a n l x : Nat) : Decidable (Within line a n l x) := inferInstanceAs (Decidable (_ ∧ _ ∧ _))

theorem lineWrite_eq (m : Mem) (line : Nat) (k : Kind) (o : Order) (hk : ¬(k = .i16 ∧ o = .BE)) (off val idx : Nat) (h : off + idx * k.bytes + k.bytes ≤ m.L) :
    ∃ q, lineWrite m line k o off val idx = some q ∧ q.L = m.L ∧ ∀ l x, q.lines l x =
      if Within line (off + idx * k.bytes) k.bytes l x then UInt8.ofNat (wbyte o k.bytes val (x - (off + idx * k.bytes))) else m.lines l x := by
  unfold lineWrite
  dsimp only
  rw [if_pos h]
  refine ⟨_, rfl, rfl, ?_⟩
  intro l x
  dsimp only
  by_cases e : l = line
  · subst e
    rw [upd_same]
    unfold poke
    by_cases hx : off + idx * k.bytes ≤ x ∧ x < off + idx * k.bytes + k.bytes
    · rw [if_pos hx, if_pos ⟨rfl, hx⟩, reorder_byte k o hk val _ (by omega)]
    · rw [if_neg hx, if_neg (fun h => hx h.2)]
  · rw [upd_other _ _ e, if_neg (fun h => e h.1)]

theorem num_wbytes_le : ∀ (n v : Nat), leNum ((List.range n).map fun i => UInt8.ofNat (v / 256 ^ i % 256)) = v % 256 ^ n
  | 0, v => by simp [leNum, Nat.mod_one]
  | n + 1, v => by
    rw [List.range_succ_eq_map, List.map_cons, List.map_map]
    unfold leNum
    have e : ((fun i => UInt8.ofNat (v / 256 ^ i % 256)) ∘ Nat.succ) = fun i => UInt8.ofNat (v / 256 / 256 ^ i % 256) := by
      funext i
      show UInt8.ofNat (v / 256 ^ (i + 1) % 256) = _
      rw [Nat.pow_succ, Nat.mul_comm, ← Nat.div_div_eq_div_mul]
    rw [e, num_wbytes_le n (v / 256), UInt8.toNat_ofNat', Nat.pow_succ (n := 256) (m := n), Nat.mul_comm (256 ^ n) 256, Nat.mod_mul]
    simp

/-- what was written is read back in the same order -/
theorem num_wbytes (o : Order) (n v : Nat) : num o ((List.range n).map fun i => UInt8.ofNat (wbyte o n v i)) = v % 256 ^ n := by
  cases o with
  | LE => exact num_wbytes_le n v
  | BE =>
    unfold num wbyte
    dsimp only
    rw [← num_wbytes_le n v]
    congr 1
    apply List.ext_getElem
    · simp
    · intro i h1 h2
      simp only [List.length_reverse, List.length_map, List.length_range] at h1
      simp only [List.getElem_reverse, List.getElem_map, List.getElem_range, List.length_map, List.length_range]
      rw [show n - 1 - (n - 1 - i) = i by omega]

/-! ### digits -/

/-- `n` hexadecimal digits -/
def fixed : Nat → Nat → List Char
  | 0, _ => []
  | n + 1, v => fixed n (v / 16) ++ [Nat.digitChar (v % 16)]

theorem digit_eq : ∀ d, d < 16 → digit d = Nat.digitChar d := by decide

theorem fixed_zero : ∀ n, fixed n 0 = List.replicate n '0'
  | 0 => rfl
  | n + 1 => by
    unfold fixed
    rw [fixed_zero n, List.replicate_succ']
    rfl

theorem pad_snoc (n : Nat) (l : List Char) (c : Char) : pad (n + 1) (l ++ [c]) = pad n l ++ [c] := by
  unfold pad
  rw [List.length_append, List.length_singleton, Nat.add_sub_add_right, List.append_assoc]

theorem pad_hexMin : ∀ (n fuel v : Nat), v < 16 ^ (n + 1) → v < 16 ^ (fuel + 1) → pad (n + 1) (hexMin (fuel + 1) v) = fixed (n + 1) v
  | 0, fuel, v, h, _ => by
    have hv : v < 16 := h
    unfold hexMin
    rw [if_pos hv, digit_eq v hv]
    unfold fixed fixed pad
    rw [Nat.mod_eq_of_lt hv]
    rfl
  | n + 1, fuel, v, h, hf => by
    unfold hexMin
    by_cases hv : v < 16
    · rw [if_pos hv, digit_eq v hv]
      unfold fixed
      rw [Nat.mod_eq_of_lt hv, show v / 16 = 0 by omega, fixed_zero]
      rfl
    · rw [if_neg hv, pad_snoc, digit_eq _ (Nat.mod_lt _ (by omega))]
      conv => rhs; unfold fixed
      cases fuel with
      | zero => exact absurd hf hv
      | succ fuel =>
        rw [pad_hexMin n fuel (v / 16) (by rw [Nat.pow_succ] at h; omega) (by rw [Nat.pow_succ] at hf; omega)]

theorem hex_fixed (n v : Nat) (h0 : 0 < n) (hn : n ≤ 16) (h : v < 16 ^ n) : hex n v = fixed n v := by
  cases n with
  | zero => cases h0
  | succ n =>
    exact pad_hexMin n 15 v h (Nat.lt_of_lt_of_le h (Nat.pow_le_pow_right (by omega) hn))

/-- the two digits of a byte -/
def hexByte (b : UInt8) : List Char := [Nat.digitChar (b.toNat / 16), Nat.digitChar (b.toNat % 16)]

theorem fixed_bytes : ∀ (l : List UInt8), fixed (2 * l.length) (leNum l) = l.reverse.flatMap hexByte
  | [] => rfl
  | b :: l => by
    have hb : b.toNat < 256 := b.toNat_lt
    rw [List.length_cons, show 2 * (l.length + 1) = 2 * l.length + 1 + 1 by omega]
    unfold fixed fixed leNum
    have e1 : (b.toNat + 256 * leNum l) / 16 / 16 = leNum l := by omega
    have e2 : (b.toNat + 256 * leNum l) / 16 % 16 = b.toNat / 16 := by omega
    have e3 : (b.toNat + 256 * leNum l) % 16 = b.toNat % 16 := by omega
    rw [e1, e2, e3, fixed_bytes l, List.reverse_cons, List.flatMap_append, List.append_assoc]
    rfl

/-- bytes from the most significant one on -/
def shown (o : Order) (l : List UInt8) : List UInt8 :=
  match o with
  | .LE => l.reverse
  | .BE => l

theorem hex_num (o : Order) (l : List UInt8) (n : Nat) (hn : l.length = n) (h0 : 0 < n) (h8 : n ≤ 8) :
    hex (2 * n) (num o l) = (shown o l).flatMap hexByte := by
  subst hn
  rw [hex_fixed _ _ (by omega) (by omega) (by have := num_lt o l; rw [Nat.pow_mul]; exact this)]
  cases o with
  | LE => exact fixed_bytes l
  | BE =>
    have := fixed_bytes l.reverse
    rw [List.length_reverse, List.reverse_reverse] at this
    exact this

end Sparta.DView
