import Verif.DView.Lemmas
/-!
Theorems about data views (C234, C235, C236).
-/
namespace Sparta.DView
open Sparta.ByteOrder

/-- what layout guarantees of a view: a power of 2 bytes inside its line -/
def View.ok (L : Nat) (v : View) : Prop := (∃ e, v.size = 2 ^ e) ∧ v.off + v.size ≤ L

/-- the value of bytes in an order: the first byte is the least significant one, or the most significant one -/
def value (o : Order) (l : List UInt8) : Nat :=
  match o with
  | .LE => l.foldr (fun b n => b.toNat + 256 * n) 0
  | .BE => l.foldl (fun n b => b.toNat + 256 * n) 0

theorem value_num (o : Order) (l : List UInt8) : value o l = num o l := by
  have h : ∀ l : List UInt8, l.foldr (fun b n => b.toNat + 256 * n) 0 = leNum l := by
    intro l
    induction l with
    | nil => rfl
    | cons b l ih => rw [List.foldr_cons, ih]; rfl
  cases o with
  | LE => exact h l
  | BE =>
    show l.foldl (fun n b => b.toNat + 256 * n) 0 = leNum l.reverse
    rw [← h, List.foldr_reverse]

theorem bytes_pos (k : Kind) : 0 < k.bytes := by cases k <;> decide

theorem idx_iff (k : Kind) (idx size : Nat) : idx < size / k.bytes ↔ (idx + 1) * k.bytes ≤ size := by
  rw [← Nat.succ_le_iff, Nat.le_div_iff_mul_le (bytes_pos k)]

/-- byte `i` of a view -/
def View.byte (m : Mem) (v : View) (i : Nat) : UInt8 := m.lines v.line (v.off + i)

/-- bytes `a`, ..., `a + n - 1` of a view -/
def View.bytes (m : Mem) (v : View) (a n : Nat) : List UInt8 := (List.range n).map fun j => v.byte m (a + j)

theorem bytes_eq (m : Mem) (v : View) (a n : Nat) : v.bytes m a n = bytesAt (m.lines v.line) (v.off + a) n := by
  unfold View.bytes View.byte bytesAt
  apply List.map_congr_left
  intro j _
  rw [Nat.add_assoc]

/-- C234: a read succeeds exactly for indexes inside the view, and gives the value of the bytes of the view at that index in the
order asked for. Missing: big-endian `int16_t`, for which it is false. -/
theorem C234_read_partial (m : Mem) (v : View) (hv : v.ok m.L) (k : Kind) (o : Order) (hk : ¬(k = .i16 ∧ o = .BE)) (idx : Nat) :
    step m (.read v k o idx) = (m, if (idx + 1) * k.bytes ≤ v.size then .num (value o (v.bytes m (idx * k.bytes) k.bytes)) else .threw) := by
  unfold step View.read
  dsimp only
  by_cases h : (idx + 1) * k.bytes ≤ v.size
  · have hs := hv.2
    rw [if_pos ((idx_iff k idx v.size).2 h), if_pos h, lineRead_eq m v.line k o hk v.off idx (by rw [Nat.add_mul] at h; omega), value_num, bytes_eq]
    rfl
  · rw [if_neg (fun g => h ((idx_iff k idx v.size).1 g)), if_neg h]
    rfl

example : View.ok 16 ⟨0, 4, 4⟩ ∧ (step ⟨16, fun _ a => UInt8.ofNat a⟩ (.read ⟨0, 4, 4⟩ .u16 .BE 1)).2 = .num 0x0607 ∧
    (step ⟨16, fun _ a => UInt8.ofNat a⟩ (.read ⟨0, 4, 4⟩ .u16 .LE 2)).2 = .threw := by
  refine ⟨⟨⟨2, rfl⟩, by decide⟩, by decide +kernel, by decide +kernel⟩

/-- the byte at place `i` of the `n` bytes of a value written in an order -/
def placed (o : Order) (n val i : Nat) : UInt8 :=
  match o with
  | .LE => UInt8.ofNat (val / 256 ^ i)
  | .BE => UInt8.ofNat (val / 256 ^ (n - 1 - i))

theorem placed_eq (o : Order) (n val i : Nat) : UInt8.ofNat (wbyte o n val i) = placed o n val i := by
  have h : ∀ x : Nat, UInt8.ofNat (x % 256) = UInt8.ofNat x := by
    intro x
    apply UInt8.toNat_inj.1
    rw [UInt8.toNat_ofNat', UInt8.toNat_ofNat']
    omega
  cases o <;> exact h _

/-- C234: a write succeeds exactly for indexes inside the view; it changes the bytes of the view at that index, which become those of
the value in the order asked for, and no other byte of any line. Missing: as before. -/
theorem C234_write_partial (m : Mem) (v : View) (hv : v.ok m.L) (k : Kind) (o : Order) (hk : ¬(k = .i16 ∧ o = .BE)) (val idx : Nat) :
    (step m (.write v k o val idx)).2 = (if (idx + 1) * k.bytes ≤ v.size then .done else .threw) ∧
    (step m (.write v k o val idx)).1.L = m.L ∧
    ∀ l x, (step m (.write v k o val idx)).1.lines l x =
      if (idx + 1) * k.bytes ≤ v.size ∧ l = v.line ∧ v.off + idx * k.bytes ≤ x ∧ x < v.off + (idx + 1) * k.bytes then
        placed o k.bytes val (x - (v.off + idx * k.bytes)) else m.lines l x := by
  unfold step View.write
  by_cases h : (idx + 1) * k.bytes ≤ v.size
  · have hs := hv.2
    have e : (idx + 1) * k.bytes = idx * k.bytes + k.bytes := by rw [Nat.add_mul, Nat.one_mul]
    obtain ⟨q, g1, g2, g3⟩ := lineWrite_eq m v.line k o hk v.off val idx (by omega)
    dsimp only
    rw [if_pos ((idx_iff k idx v.size).2 h), if_pos h, g1]
    refine ⟨rfl, g2, ?_⟩
    intro l x
    show q.lines l x = _
    rw [g3, placed_eq]
    by_cases w : Within v.line (v.off + idx * k.bytes) k.bytes l x
    · rw [if_pos w, if_pos ⟨h, w.1, w.2.1, by have := w.2.2; omega⟩]
    · rw [if_neg w, if_neg]
      intro g
      exact w ⟨g.2.1, g.2.2.1, by have := g.2.2.2; omega⟩
  · dsimp only
    rw [if_neg (fun g => h ((idx_iff k idx v.size).1 g)), if_neg h]
    refine ⟨rfl, rfl, ?_⟩
    intro l x
    rw [if_neg (fun g => h g.1)]
    rfl

/-- C234: assigning a view to another of the same size copies its bytes and changes nothing else, if they do not overlap -/
theorem C234_assign_partial (m : Mem) (v u : View) (hv : v.ok m.L)
    (hd : v.line ≠ u.line ∨ v.off + v.size ≤ u.off ∨ u.off + u.size ≤ v.off) :
    (step m (.assign v u)).2 = (if v.size = u.size then .done else .threw) ∧ (step m (.assign v u)).1.L = m.L ∧
    ∀ l x, (step m (.assign v u)).1.lines l x =
      if v.size = u.size ∧ l = v.line ∧ v.off ≤ x ∧ x < v.off + v.size then u.byte m (x - v.off) else m.lines l x := by
  unfold step View.assign
  dsimp only
  by_cases hs : v.size = u.size
  · rw [if_neg (fun h => h hs), if_pos hv.2, if_neg (by omega), if_pos hs]
    refine ⟨rfl, rfl, ?_⟩
    intro l x
    dsimp only
    by_cases e : l = v.line
    · subst e
      rw [upd_same]
      by_cases hx : v.off ≤ x ∧ x < v.off + v.size
      · rw [if_pos hx, if_pos ⟨hs, rfl, hx⟩]
        unfold bytesAt View.byte
        have : x - v.off < v.size := by omega
        simp [this]
      · rw [if_neg hx, if_neg (fun h => hx h.2.2)]
    · rw [upd_other _ _ e, if_neg (fun h => e h.2.1)]
  · rw [if_pos hs, if_neg hs]
    exact ⟨rfl, rfl, fun l x => (if_neg (fun h => hs h.1)).symm⟩

example : View.ok 16 ⟨0, 4, 4⟩ ∧
    (runOps step ⟨16, fun _ a => UInt8.ofNat a⟩ [.write ⟨0, 4, 4⟩ .k32 .BE 0x11223344 0, .assign ⟨1, 8, 4⟩ ⟨0, 4, 4⟩, .read ⟨1, 8, 4⟩ .u16 .LE 0]).2 =
      [.done, .done, .num 0x2211] := by
  refine ⟨⟨⟨2, rfl⟩, by decide⟩, by decide +kernel⟩

/-- C234, violated: assigning overlapping views is undefined, and `int16_t` is not read back in big-endian order -/
theorem C234_overlap_violated :
    (step ⟨16, fun _ _ => 0⟩ (.assign ⟨0, 0, 4⟩ ⟨0, 2, 4⟩)).2 = .undefined ∧
    (runOps step ⟨16, fun _ _ => 0⟩ [.write ⟨0, 0, 4⟩ .i16 .BE 0xff00 0, .read ⟨0, 0, 4⟩ .i16 .BE 0]).2 = [.done, .num 0xffff] := by decide +kernel

/-! ### what stays -/

/-- the view that a call writes through -/
def target : Op → Option View
  | .write v _ _ _ _ => some v
  | .writeTruncated v _ _ _ _ => some v
  | .assign v _ => some v
  | _ => none

/-- two views share no byte -/
def Apart (v u : View) : Prop := v.line ≠ u.line ∨ v.off + v.size ≤ u.off ∨ u.off + u.size ≤ v.off

/-- Calls the next theorem is about: on views inside their lines, assignments between views that do not overlap, truncating writes only at
index 0, no big-endian `int16_t`. -/
def Plain (L : Nat) : Op → Prop
  | .write v k o _ _ => v.ok L ∧ ¬(k = .i16 ∧ o = .BE)
  | .writeTruncated v _ _ _ idx => v.ok L ∧ idx = 0
  | .assign v u => v.ok L ∧ Apart v u
  | _ => True

theorem pow_cases (e : Nat) : 2 ^ e = 1 ∨ 2 ^ e = 2 ∨ 2 ^ e = 4 ∨ 8 ≤ 2 ^ e := by
  cases e with
  | zero => exact Or.inl rfl
  | succ e => cases e with
    | zero => exact Or.inr (Or.inl rfl)
    | succ e => cases e with
      | zero => exact Or.inr (Or.inr (Or.inl rfl))
      | succ e =>
        have : 0 < 2 ^ e := Nat.pow_pos (by omega)
        refine Or.inr (Or.inr (Or.inr ?_))
        rw [Nat.pow_succ, Nat.pow_succ, Nat.pow_succ]
        omega

theorem isPowerOf2_pow (e : Nat) : isPowerOf2 (2 ^ e) = true := by
  unfold isPowerOf2
  rw [Nat.and_two_pow_sub_one_eq_mod, Nat.mod_self]
  simp

/-- the type that accesses at index 0 are made with -/
def wide (n : Nat) : Kind := if n ≥ 8 then .k64 else if n = 4 then .k32 else if n = 2 then .u16 else .k8

theorem wide_ok (n : Nat) : wide n ≠ .i16 := by
  unfold wide
  split
  · intro h; cases h
  · split
    · intro h; cases h
    · split <;> intro h <;> cases h

theorem wide_bytes {e : Nat} : (wide (2 ^ e)).bytes = min (2 ^ e) 8 := by
  rcases pow_cases e with h | h | h | h
  · rw [h]; rfl
  · rw [h]; rfl
  · rw [h]; rfl
  · unfold wide; rw [if_pos h, Nat.min_eq_right h]; rfl

theorem readPadded_zero (m : Mem) (v : View) (hv : v.ok m.L) (k : Kind) (o : Order) :
    v.readPadded m k o 0 = some (num o (v.bytes m 0 (min v.size 8)) % 256 ^ k.bytes) := by
  obtain ⟨⟨e, he⟩, hs⟩ := hv
  have hl := lineRead_eq m v.line (wide v.size) o (fun h => wide_ok _ h.1) v.off 0 (by rw [he, wide_bytes]; omega)
  rw [Nat.zero_mul, Nat.add_zero, he, wide_bytes, ← he] at hl
  unfold View.readPadded
  rw [Nat.mul_zero, if_pos (Nat.zero_le _)]
  dsimp only
  rw [Nat.sub_zero, if_pos (by rw [he]; exact isPowerOf2_pow e), bytes_eq, Nat.add_zero]
  rcases pow_cases e with h | h | h | h <;> rw [← he] at h
  · unfold wide at hl; rw [h] at hl ⊢; exact congrArg _ hl
  · unfold wide at hl; rw [h] at hl ⊢; exact congrArg _ hl
  · unfold wide at hl; rw [h] at hl ⊢; exact congrArg _ hl
  · unfold wide at hl; rw [if_pos h] at hl ⊢; exact congrArg _ hl

theorem writeTruncated_zero (m : Mem) (v : View) (hv : v.ok m.L) (k : Kind) (o : Order) (val : Nat) :
    ∃ q, v.writeTruncated m k o val 0 = some q ∧ q.L = m.L ∧ ∀ l x, q.lines l x =
      if Within v.line v.off (min v.size 8) l x then placed o (min v.size 8) val (x - v.off) else m.lines l x := by
  obtain ⟨⟨e, he⟩, hs⟩ := hv
  obtain ⟨q, g1, g2, g3⟩ := lineWrite_eq m v.line (wide v.size) o (fun h => wide_ok _ h.1) v.off val 0 (by rw [he, wide_bytes]; omega)
  refine ⟨q, ?_, g2, ?_⟩
  · unfold View.writeTruncated
    rw [Nat.mul_zero, if_pos (Nat.zero_le _)]
    dsimp only
    rw [Nat.sub_zero, if_pos (by rw [he]; exact isPowerOf2_pow e)]
    rcases pow_cases e with h | h | h | h <;> rw [← he] at h
    · unfold wide at g1; rw [h] at g1 ⊢; exact g1
    · unfold wide at g1; rw [h] at g1 ⊢; exact g1
    · unfold wide at g1; rw [h] at g1 ⊢; exact g1
    · unfold wide at g1; rw [if_pos h] at g1 ⊢; exact g1
  · intro l x
    have := g3 l x
    rw [Nat.zero_mul, Nat.add_zero, placed_eq, he, wide_bytes, ← he] at this
    exact this

theorem step_frame (m : Mem) (o : Op) (hp : Plain m.L o) : (step m o).1.L = m.L ∧
    ∀ l x, (∀ u, target o = some u → ¬Within u.line u.off u.size l x) → (step m o).1.lines l x = m.lines l x := by
  cases o with
  | read v k o idx =>
    have : (step m (.read v k o idx)).1 = m := by unfold step; dsimp only; cases v.read m k o idx <;> rfl
    rw [this]; exact ⟨rfl, fun _ _ _ => rfl⟩
  | readPadded v k o idx =>
    have : (step m (.readPadded v k o idx)).1 = m := by unfold step; dsimp only; cases v.readPadded m k o idx <;> rfl
    rw [this]; exact ⟨rfl, fun _ _ _ => rfl⟩
  | byteString v =>
    have : (step m (.byteString v)).1 = m := by unfold step; dsimp only; cases DView.byteString m v v.size 0 <;> rfl
    rw [this]; exact ⟨rfl, fun _ _ _ => rfl⟩
  | valueString v o =>
    have : (step m (.valueString v o)).1 = m := by unfold step; dsimp only; cases v.valueString m o <;> rfl
    rw [this]; exact ⟨rfl, fun _ _ _ => rfl⟩
  | write v k o val idx =>
    obtain ⟨_, h2, h3⟩ := C234_write_partial m v hp.1 k o hp.2 val idx
    refine ⟨h2, ?_⟩
    intro l x hx
    rw [h3, if_neg]
    intro g
    exact hx v rfl ⟨g.2.1, by omega, by omega⟩
  | writeTruncated v k o val idx =>
    obtain ⟨hv, rfl⟩ := hp
    obtain ⟨q, g1, g2, g3⟩ := writeTruncated_zero m v hv k o val
    have e : step m (.writeTruncated v k o val 0) = (q, .done) := by unfold step; dsimp only; rw [g1]; rfl
    rw [e]
    refine ⟨g2, ?_⟩
    intro l x hx
    show q.lines l x = _
    rw [g3, if_neg]
    intro g
    exact hx v rfl ⟨g.1, g.2.1, by have := g.2.2; omega⟩
  | assign v u =>
    obtain ⟨_, h2, h3⟩ := C234_assign_partial m v u hp.1 hp.2
    refine ⟨h2, ?_⟩
    intro l x hx
    rw [h3, if_neg]
    intro g
    exact hx v rfl g.2

theorem run_frame : ∀ (os : List Op) (m : Mem), (∀ o ∈ os, Plain m.L o) → (runOps step m os).1.L = m.L ∧
    ∀ l x, (∀ o ∈ os, ∀ u, target o = some u → ¬Within u.line u.off u.size l x) → (runOps step m os).1.lines l x = m.lines l x
  | [], _, _ => ⟨rfl, fun _ _ _ => rfl⟩
  | o :: os, m, h => by
    obtain ⟨h1, h2⟩ := step_frame m o (h o (List.mem_cons_self ..))
    obtain ⟨g1, g2⟩ := run_frame os (step m o).1 (fun o ho => by rw [h1]; exact h o (List.mem_cons_of_mem _ ho))
    refine ⟨g1.trans h1, ?_⟩
    intro l x hx
    show (runOps step (step m o).1 os).1.lines l x = _
    rw [g2 l x (fun o ho => hx o (List.mem_cons_of_mem _ ho)), h2 l x (hx o (List.mem_cons_self ..))]

/-- C234: what was written to a view at an index is read back at that index in that order, after any calls that write through views that do not
share bytes with it. Missing: see `Plain`. -/
theorem C234_last_write_partial (m : Mem) (v : View) (hv : v.ok m.L) (k : Kind) (o : Order) (hk : ¬(k = .i16 ∧ o = .BE)) (val idx : Nat)
    (hi : (idx + 1) * k.bytes ≤ v.size) (os : List Op) (hp : ∀ p ∈ os, Plain m.L p) (hd : ∀ p ∈ os, ∀ u, target p = some u → Apart u v) :
    (step (runOps step (step m (.write v k o val idx)).1 os).1 (.read v k o idx)).2 = .num (val % 256 ^ k.bytes) := by
  obtain ⟨_, w2, w3⟩ := C234_write_partial m v hv k o hk val idx
  generalize (step m (.write v k o val idx)).1 = q at w2 w3
  obtain ⟨f1, f2⟩ := run_frame os q (fun p h => by rw [w2]; exact hp p h)
  generalize (runOps step q os).1 = r at f1 f2
  rw [C234_read_partial r v (by rw [f1, w2]; exact hv) k o hk idx, if_pos hi, value_num]
  show Res.num _ = Res.num _
  rw [← num_wbytes o k.bytes val, bytes_eq]
  congr 2
  unfold bytesAt
  apply List.map_congr_left
  intro j hj
  have hj := List.mem_range.1 hj
  have e : (idx + 1) * k.bytes = idx * k.bytes + k.bytes := by rw [Nat.add_mul, Nat.one_mul]
  rw [f2 v.line (v.off + idx * k.bytes + j), w3, if_pos ⟨hi, rfl, by omega, by omega⟩, placed_eq]
  · congr 1
    omega
  · intro p h u hu w
    obtain ⟨a, b, c⟩ := w
    rcases hd p h u hu with g | g | g
    · exact g a.symm
    · omega
    · omega

example : View.ok 16 ⟨0, 4, 4⟩ ∧ (1 + 1) * Kind.u16.bytes ≤ 4 ∧ Apart ⟨0, 0, 4⟩ ⟨0, 4, 4⟩ ∧ Plain 16 (.writeTruncated ⟨0, 0, 4⟩ .k64 .LE 5 0) ∧
    (runOps step ⟨16, fun _ _ => 0⟩ [.write ⟨0, 4, 4⟩ .u16 .BE 0x1234 1, .writeTruncated ⟨0, 0, 4⟩ .k64 .LE 0x1111111111 0,
      .assign ⟨0, 8, 4⟩ ⟨0, 4, 4⟩, .read ⟨0, 4, 4⟩ .u16 .BE 1, .read ⟨0, 8, 4⟩ .k32 .LE 0]).2 =
      [.done, .done, .done, .num 0x1234, .num 0x34120000] := by
  refine ⟨⟨⟨2, rfl⟩, by decide⟩, by decide, Or.inr (Or.inl (by decide)), ⟨⟨⟨2, rfl⟩, by decide⟩, rfl⟩, by decide +kernel⟩

/-! ### padded reads and truncated writes -/

/-- C235: at index 0 a padded read gives the value of as many bytes as the type and the view have, in little-endian order or if the type is at least as
wide as the view; where the view ends it gives 0. Missing: other indexes, and big-endian reads with narrower types, for which it is false. -/
theorem C235_padded_partial (m : Mem) (v : View) (hv : v.ok m.L) (k : Kind) (o : Order) (ho : o = .LE ∨ v.size ≤ k.bytes) :
    (step m (.readPadded v k o 0)).2 = .num (value o (v.bytes m 0 (min v.size k.bytes))) ∧
    ∀ idx, 0 < idx → idx * k.bytes = v.size → (step m (.readPadded v k o idx)).2 = .num 0 := by
  have hk8 : k.bytes ≤ 8 := by cases k <;> decide
  constructor
  · unfold step
    dsimp only
    rw [readPadded_zero m v hv k o]
    show Res.num _ = Res.num _
    rw [value_num]
    congr 1
    by_cases hs : v.size ≤ k.bytes
    · rw [Nat.min_eq_left hs, Nat.min_eq_left (by omega)]
      apply Nat.mod_eq_of_lt
      have := num_lt o (v.bytes m 0 v.size)
      rw [bytes_eq, bytesAt_length] at this
      rw [bytes_eq]
      exact Nat.lt_of_lt_of_le this (Nat.pow_le_pow_right (by omega) hs)
    · have e : o = .LE := by rcases ho with h | h; exact h; exact absurd h hs
      subst e
      rw [Nat.min_eq_right (Nat.le_of_lt (Nat.lt_of_not_le hs))]
      show leNum _ % _ = leNum _
      rw [leNum_take, bytes_eq, bytes_eq, bytesAt_take _ _ _ _ (by omega)]
  · intro idx h0 h
    unfold step View.readPadded
    dsimp only
    rw [Nat.mul_comm, h, if_pos (Nat.le_refl _), Nat.sub_self]
    rfl

/-- C235: at index 0 with a type at least as wide as the view a truncating write replaces all bytes of the view by the low bytes of the value, and
no other byte -/
theorem C235_truncated_partial (m : Mem) (v : View) (hv : v.ok m.L) (k : Kind) (o : Order) (val : Nat) (hs : v.size ≤ k.bytes) :
    (step m (.writeTruncated v k o val 0)).2 = .done ∧
    ∀ l x, (step m (.writeTruncated v k o val 0)).1.lines l x =
      if l = v.line ∧ v.off ≤ x ∧ x < v.off + v.size then placed o v.size val (x - v.off) else m.lines l x := by
  have hk8 : k.bytes ≤ 8 := by cases k <;> decide
  obtain ⟨q, g1, g2, g3⟩ := writeTruncated_zero m v hv k o val
  have e : step m (.writeTruncated v k o val 0) = (q, .done) := by unfold step; dsimp only; rw [g1]; rfl
  rw [e]
  refine ⟨rfl, ?_⟩
  intro l x
  show q.lines l x = _
  rw [g3, Nat.min_eq_left (by omega)]
  rfl

example : View.ok 16 ⟨0, 4, 4⟩ ∧ (4 : Nat) ≤ Kind.k64.bytes ∧
    (runOps step ⟨16, fun _ _ => 9⟩ [.writeTruncated ⟨0, 4, 4⟩ .k64 .BE 0x1122334455667788 0, .readPadded ⟨0, 4, 4⟩ .k64 .BE 0, .readPadded ⟨0, 4, 4⟩ .u16 .LE 0,
      .readPadded ⟨0, 4, 4⟩ .k32 .LE 1, .read ⟨0, 8, 4⟩ .k32 .LE 0]).2 =
      [.done, .num 0x55667788, .num 0x6655, .num 0, .num 0x09090909] := by
  refine ⟨⟨⟨2, rfl⟩, by decide⟩, by decide, by decide +kernel⟩

/-- C235, violated: at other indexes the place is computed with the size of the bytes that are left instead of that of the type: the last 4 bytes of
a view of 8, read as `uint16_t` at index 2, are those after the view; writing them changes the next view -/
theorem C235_index_violated :
    (runOps step ⟨32, fun _ a => UInt8.ofNat a⟩ [.readPadded ⟨0, 0, 8⟩ .u16 .LE 2, .writeTruncated ⟨0, 0, 8⟩ .u16 .LE 0x1234 2, .read ⟨0, 0, 8⟩ .u16 .LE 2,
      .read ⟨0, 8, 8⟩ .k32 .LE 0]).2 = [.num 0x0908, .done, .num 0x0504, .num 0x00001234] := by decide +kernel

/-- C235, violated: at an index that leaves a number of bytes that is not a power of 2 an assertion fails; a big-endian read with a narrower type gives
the wrong bytes; a write with a narrower type clears the bytes after the value -/
theorem C235_narrow_violated :
    (step ⟨32, fun _ a => UInt8.ofNat a⟩ (.readPadded ⟨0, 0, 16⟩ .k32 .LE 1)).2 = .threw ∧
    (runOps step ⟨32, fun _ a => UInt8.ofNat a⟩ [.readPadded ⟨0, 8, 8⟩ .k32 .BE 0, .read ⟨0, 8, 8⟩ .k32 .BE 0]).2 = [.num 0x0c0d0e0f, .num 0x08090a0b] ∧
    (runOps step ⟨32, fun _ a => UInt8.ofNat a⟩ [.writeTruncated ⟨0, 8, 8⟩ .k32 .LE 1 0, .read ⟨0, 8, 8⟩ .k32 .LE 1]).2 = [.done, .num 0] := by decide +kernel

/-! ### texts -/

theorem read_num (m : Mem) (v : View) (hv : v.ok m.L) (k : Kind) (o : Order) (hk : ¬(k = .i16 ∧ o = .BE)) (idx : Nat) (h : (idx + 1) * k.bytes ≤ v.size) :
    v.read m k o idx = some (num o (v.bytes m (idx * k.bytes) k.bytes)) := by
  unfold View.read
  have hs := hv.2
  rw [if_pos ((idx_iff k idx v.size).2 h), lineRead_eq m v.line k o hk v.off idx (by rw [Nat.add_mul] at h; omega), bytes_eq]

theorem byteString_spec (m : Mem) (v : View) (hv : v.ok m.L) : ∀ (n i : Nat), i + n ≤ v.size →
    byteString m v n i = some ((v.bytes m i n).flatMap fun b => hexByte b ++ [' '])
  | 0, _, _ => rfl
  | n + 1, i, h => by
    unfold byteString
    have e : v.bytes m (i * Kind.k8.bytes) Kind.k8.bytes = [v.byte m i] := by
      show [v.byte m (i * 1 + 0)] = _
      rw [Nat.mul_one, Nat.add_zero]
    rw [read_num m v hv .k8 .LE (by decide) i (by show (i + 1) * 1 ≤ _; omega), e, Option.bind_some,
      byteString_spec m v hv n (i + 1) (by omega), Option.map_some, hex_num .LE [v.byte m i] 1 rfl (by omega) (by omega)]
    rw [bytes_eq m v i, bytesAt_cons, List.flatMap_cons, bytes_eq m v (i + 1)]
    show some (([v.byte m i].reverse.flatMap hexByte) ++ [' '] ++ _) = _
    rw [List.reverse_singleton, List.flatMap_singleton]
    rfl

/-- C236: `getByteString` shows the bytes of the view in the order of their addresses, two digits each, with a space after each -/
theorem C236_bytes (m : Mem) (v : View) (hv : v.ok m.L) :
    step m (.byteString v) = (m, .text ((v.bytes m 0 v.size).flatMap fun b => hexByte b ++ [' '])) := by
  unfold step
  dsimp only
  rw [byteString_spec m v hv v.size 0 (by omega)]
  rfl

theorem wordsLE_spec (m : Mem) (v : View) (hv : v.ok m.L) : ∀ n, n * 8 ≤ v.size →
    wordsLE m v n = some ((v.bytes m 0 (n * 8)).reverse.flatMap hexByte)
  | 0, _ => rfl
  | n + 1, h => by
    unfold wordsLE
    rw [read_num m v hv .k64 .LE (by decide) n h, Option.bind_some, wordsLE_spec m v hv n (by omega), Option.map_some]
    rw [show (16 : Nat) = 2 * 8 from rfl, hex_num .LE _ 8 (by rw [bytes_eq, bytesAt_length]; rfl) (by omega) (by omega)]
    show some ((v.bytes m (n * 8) 8).reverse.flatMap hexByte ++ _) = _
    rw [bytes_eq m v 0 ((n + 1) * 8), show (n + 1) * 8 = n * 8 + 8 by omega, bytesAt_append, List.reverse_append, List.flatMap_append,
      bytes_eq, bytes_eq, Nat.add_zero]

theorem wordsBE_spec (m : Mem) (v : View) (hv : v.ok m.L) : ∀ n i, (i + n) * 8 ≤ v.size →
    wordsBE m v n i = some ((v.bytes m (i * 8) (n * 8)).flatMap hexByte)
  | 0, i, _ => by rw [Nat.zero_mul]; rfl
  | n + 1, i, h => by
    unfold wordsBE
    rw [read_num m v hv .k64 .BE (by decide) i (by show (i + 1) * 8 ≤ _; omega), Option.bind_some,
      wordsBE_spec m v hv n (i + 1) (by omega), Option.map_some]
    rw [show (16 : Nat) = 2 * 8 from rfl, hex_num .BE _ 8 (by rw [bytes_eq, bytesAt_length]; rfl) (by omega) (by omega)]
    show some ((v.bytes m (i * 8) 8).flatMap hexByte ++ _) = _
    rw [bytes_eq m v (i * 8) ((n + 1) * 8), show (n + 1) * 8 = 8 + n * 8 by omega, bytesAt_append, List.flatMap_append,
      bytes_eq, bytes_eq, show v.off + i * 8 + 8 = v.off + (i + 1) * 8 by omega]

/-- C236: `getValueAsString` shows all bytes of the view, two digits each, from the most significant one on: in little-endian order the last byte
comes first, in big-endian order the first one. -/
theorem C236_value (m : Mem) (v : View) (hv : v.ok m.L) (o : Order) :
    step m (.valueString v o) = (m, .text ('0' :: 'x' ::
      (match o with | .LE => (v.bytes m 0 v.size).reverse | .BE => v.bytes m 0 v.size).flatMap hexByte)) := by
  have key : v.valueString m o = some ('0' :: 'x' :: (shown o (v.bytes m 0 v.size)).flatMap hexByte) := by
    obtain ⟨e, he⟩ := hv.1
    have small : ∀ (k : Kind), ¬(k = .i16 ∧ o = .BE) → k.bytes = v.size → v.size ≤ 8 → (v.read m k o 0).map (hex (2 * v.size)) =
        some ((shown o (v.bytes m 0 v.size)).flatMap hexByte) := by
      intro k hk e h8
      have hp := bytes_pos k
      rw [read_num m v hv k o hk 0 (by omega), Option.map_some, Nat.zero_mul, e]
      rw [hex_num o _ v.size (by rw [bytes_eq, bytesAt_length]) (by omega) h8]
    unfold View.valueString
    rcases pow_cases e with h | h | h | h <;> rw [← he] at h
    · have := small .k8 (fun h => nomatch h.1) h.symm (by omega)
      rw [if_pos h]
      rw [show 2 * v.size = 2 by omega] at this
      rw [this]; rfl
    · have := small .u16 (fun h => nomatch h.1) h.symm (by omega)
      rw [if_neg (by omega), if_pos h]
      rw [show 2 * v.size = 4 by omega] at this
      rw [this]; rfl
    · have := small .k32 (fun h => nomatch h.1) h.symm (by omega)
      rw [if_neg (by omega), if_neg (by omega), if_pos h]
      rw [show 2 * v.size = 8 by omega] at this
      rw [this]; rfl
    · have h8 : v.size / 8 * 8 = v.size := by
        rw [he] at h ⊢
        have : 3 ≤ e := by
          rcases Nat.lt_or_ge e 3 with g | g
          · have : 2 ^ e ≤ 2 ^ 2 := Nat.pow_le_pow_right (by omega) (by omega)
            omega
          · exact g
        exact Nat.div_mul_cancel (Nat.pow_dvd_pow 2 this)
      rw [if_neg (by omega), if_neg (by omega), if_neg (by omega)]
      cases o with
      | LE =>
        dsimp only
        rw [wordsLE_spec m v hv _ (by omega), h8]
        rfl
      | BE =>
        dsimp only
        rw [wordsBE_spec m v hv _ 0 (by omega), h8, Nat.zero_mul]
        rfl
  unfold step
  dsimp only
  rw [key]
  cases o <;> rfl

example : View.ok 16 ⟨0, 4, 4⟩ ∧ View.ok 16 ⟨0, 0, 16⟩ ∧
    (step ⟨16, fun _ a => UInt8.ofNat (a * 11)⟩ (.valueString ⟨0, 4, 4⟩ .LE)).2 = .text "0x4d42372c".toList ∧
    (step ⟨16, fun _ a => UInt8.ofNat (a * 11)⟩ (.valueString ⟨0, 0, 16⟩ .LE)).2 = .text "0xa59a8f84796e63584d42372c21160b00".toList ∧
    (step ⟨16, fun _ a => UInt8.ofNat (a * 11)⟩ (.byteString ⟨0, 4, 4⟩)).2 = .text "2c 37 42 4d ".toList := by
  refine ⟨⟨⟨2, rfl⟩, by decide⟩, ⟨⟨4, rfl⟩, by decide⟩, by decide +kernel, by decide +kernel, by decide +kernel⟩

/-- C236: after the initial value was written the view shows it, and other bytes are as before -/
theorem C236_initial (m : Mem) (v : View) (hv : v.ok m.L) (init : List UInt8) (hi : init.length = v.size) :
    ∃ q, writeInitial m v init 0 = some q ∧ q.L = m.L ∧ v.bytes q 0 v.size = init ∧
      ∀ l x, ¬(l = v.line ∧ v.off ≤ x ∧ x < v.off + v.size) → q.lines l x = m.lines l x := by
  have gen : ∀ (bs : List UInt8) (i : Nat) (m : Mem), v.ok m.L → i + bs.length ≤ v.size →
      ∃ q, writeInitial m v bs i = some q ∧ q.L = m.L ∧ ∀ l x, q.lines l x =
        if l = v.line ∧ v.off + i ≤ x ∧ x < v.off + i + bs.length then bs.getD (x - (v.off + i)) 0 else m.lines l x := by
    intro bs
    induction bs with
    | nil =>
      intro i m _ _
      refine ⟨m, rfl, rfl, fun l x => ?_⟩
      rw [if_neg]
      intro h
      have := h.2.2
      simp only [List.length_nil] at this
      omega
    | cons b bs ih =>
      intro i m hm h
      rw [List.length_cons] at h
      obtain ⟨w1, w2, w3⟩ := C234_write_partial m v hm .k8 .LE (by decide) b.toNat i
      have hb1 : Kind.k8.bytes = 1 := rfl
      rw [hb1, Nat.mul_one, Nat.mul_one] at w3
      rw [hb1, Nat.mul_one, if_pos (by omega)] at w1
      unfold step at w1 w2 w3
      dsimp only at w1 w2 w3
      unfold writeInitial
      cases hw : v.write m .k8 .LE b.toNat i with
      | none => rw [hw] at w1; cases w1
      | some q =>
        rw [hw] at w2 w3
        rw [Option.bind_some]
        change q.L = m.L at w2
        change ∀ l x, q.lines l x = _ at w3
        obtain ⟨r, g1, g2, g3⟩ := ih (i + 1) q (by rw [w2]; exact hm) (by omega)
        refine ⟨r, g1, g2.trans w2, fun l x => ?_⟩
        rw [g3, w3, List.length_cons]
        by_cases c : l = v.line ∧ v.off + i ≤ x ∧ x < v.off + i + (bs.length + 1)
        · rw [if_pos c]
          by_cases c2 : x = v.off + i
          · rw [if_neg (by omega), if_pos ⟨by omega, c.1, by omega, by omega⟩, c2, Nat.sub_self, List.getD_cons_zero]
            show UInt8.ofNat (b.toNat / 256 ^ 0) = b
            rw [Nat.pow_zero, Nat.div_one, UInt8.ofNat_toNat]
          · rw [if_pos ⟨c.1, by omega, by omega⟩, show x - (v.off + i) = x - (v.off + (i + 1)) + 1 by omega, List.getD_cons_succ]
        · rw [if_neg c, if_neg (fun h => c ⟨h.1, by omega, by omega⟩), if_neg (fun h => c ⟨h.2.1, by omega, by omega⟩)]
  obtain ⟨q, g1, g2, g3⟩ := gen init 0 m hv (by omega)
  refine ⟨q, g1, g2, ?_, ?_⟩
  · rw [bytes_eq]
    apply List.ext_getElem
    · rw [bytesAt_length, hi]
    · intro j h1 h2
      have e : (bytesAt (q.lines v.line) (v.off + 0) v.size)[j] = q.lines v.line (v.off + 0 + j) := by simp [bytesAt]
      rw [bytesAt_length] at h1
      rw [e, g3, if_pos ⟨rfl, by omega, by omega⟩, show v.off + 0 + j - (v.off + 0) = j by omega]
      simp [h2]
  · intro l x h
    rw [g3, if_neg]
    intro g
    exact h ⟨g.1, by omega, by omega⟩

example : View.ok 16 ⟨0, 4, 4⟩ ∧ ([1, 2, 3, 4] : List UInt8).length = 4 ∧
    (writeInitial ⟨16, fun _ _ => 0⟩ ⟨0, 4, 4⟩ [1, 2, 3, 4] 0).map (fun q => (step q (.read ⟨0, 4, 4⟩ .k32 .LE 0)).2) = some (.num 0x04030201) := by
  refine ⟨⟨⟨2, rfl⟩, by decide⟩, by decide, by decide +kernel⟩

end Sparta.DView
