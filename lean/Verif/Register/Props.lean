import Verif.Register.Lemmas2
/-!
C93-C96: `RegisterBits`, masked accesses to registers, fields, and notifications.

`memBit bs i` is bit `i` of the bytes `bs`, `Sz n` says that `n` is 1, 2, 4, 8 or a multiple of 8, `d.writable i` that no read-only field of `d` covers bit `i`.
-/
namespace Sparta.Register

/-! ### C93 -/

/-- `&`: the right operand may be larger -/
theorem C93_and (x y : List (BitVec 8)) (hx : Sz x.length) (hy : Sz y.length) (h : x.length ≤ y.length) :
    ∃ z, z.length = x.length ∧ (Bits.ofBytes x).and (Bits.ofBytes y) = some (Bits.ofBytes z) ∧ ∀ i, i < 8 * x.length → memBit z i = (memBit x i && memBit y i) := by
  obtain ⟨r, e, r1, r2, r3⟩ := Bits.and_bit (b := Bits.ofBytes y) (ofBytes_wf hx) (fun h8 => by
    have h8 : 8 < x.length := h8
    rw [(ofBytes_wf hx).len, (ofBytes_wf hy).len]
    show wordsOf x.length ≤ wordsOf y.length
    rw [wordsOf_wide h8, wordsOf_wide (by omega)]; omega)
  have r2 : r.n = x.length := r2
  have r3 : ∀ i, r.bit i = (decide (i < 8 * x.length) && ((Bits.ofBytes x).bit i && (Bits.ofBytes y).bit i)) := r3
  refine ⟨r.toBytes r.n, by rw [toBytes_length, r2], ?_, fun i hi => ?_⟩
  · rw [e, ← canon r1 fun i hi => by rw [r3, decide_eq_false (by omega)]; rfl]
  · rw [toBytes_bit, r3, r2, decide_eq_true hi, ofBytes_bit hx, ofBytes_bit hy]; simp

theorem C93_or (x y : List (BitVec 8)) (hx : Sz x.length) (hy : Sz y.length) (h : x.length ≤ y.length) :
    ∃ z, z.length = x.length ∧ (Bits.ofBytes x).or (Bits.ofBytes y) = some (Bits.ofBytes z) ∧ ∀ i, i < 8 * x.length → memBit z i = (memBit x i || memBit y i) := by
  obtain ⟨r, e, r1, r2, r3⟩ := Bits.or_bit (b := Bits.ofBytes y) (ofBytes_wf hx) (fun h8 => by
    have h8 : 8 < x.length := h8
    rw [(ofBytes_wf hx).len, (ofBytes_wf hy).len]
    show wordsOf x.length ≤ wordsOf y.length
    rw [wordsOf_wide h8, wordsOf_wide (by omega)]; omega)
  have r2 : r.n = x.length := r2
  have r3 : ∀ i, r.bit i = (decide (i < 8 * x.length) && ((Bits.ofBytes x).bit i || (Bits.ofBytes y).bit i)) := r3
  refine ⟨r.toBytes r.n, by rw [toBytes_length, r2], ?_, fun i hi => ?_⟩
  · rw [e, ← canon r1 fun i hi => by rw [r3, decide_eq_false (by omega)]; rfl]
  · rw [toBytes_bit, r3, r2, decide_eq_true hi, ofBytes_bit hx, ofBytes_bit hy]; simp

/-- `|=` -/
theorem C93_or_assign (x y : List (BitVec 8)) (hx : Sz x.length) (h : y.length = x.length) :
    ∃ z, z.length = x.length ∧ (Bits.ofBytes x).orAssign (Bits.ofBytes y) = some (Bits.ofBytes z) ∧ ∀ i, i < 8 * x.length → memBit z i = (memBit x i || memBit y i) := by
  have hy : Sz y.length := by rw [h]; exact hx
  obtain ⟨r, e, r1, r2, r3⟩ := Bits.orAssign_bit (b := Bits.ofBytes y) (ofBytes_wf hx) (fun _ => by
    rw [(ofBytes_wf hx).len, (ofBytes_wf hy).len]
    show wordsOf x.length ≤ wordsOf y.length
    rw [h]; exact Nat.le_refl _)
  have r2 : r.n = x.length := r2
  have r3 : ∀ i, r.bit i = ((Bits.ofBytes x).bit i || (decide (i < 8 * x.length) && (Bits.ofBytes y).bit i)) := r3
  refine ⟨r.toBytes r.n, by rw [toBytes_length, r2], ?_, fun i hi => ?_⟩
  · rw [e, ← canon r1 fun i hi => by rw [r3, decide_eq_false (by omega), ofBytes_bit hx, memBit_ge (by omega)]; rfl]
  · rw [toBytes_bit, r3, r2, decide_eq_true hi, ofBytes_bit hx, ofBytes_bit hy]; simp

theorem C93_not (x : List (BitVec 8)) (hx : Sz x.length) :
    ∃ z, z.length = x.length ∧ (Bits.ofBytes x).not = some (Bits.ofBytes z) ∧ ∀ i, i < 8 * x.length → memBit z i = !memBit x i := by
  obtain ⟨r, e, r1, r2, r3⟩ := Bits.not_bit (ofBytes_wf hx)
  have r2 : r.n = x.length := r2
  have r3 : ∀ i, r.bit i = (decide (i < 8 * x.length) && !(Bits.ofBytes x).bit i) := r3
  refine ⟨r.toBytes r.n, by rw [toBytes_length, r2], ?_, fun i hi => ?_⟩
  · rw [e, ← canon r1 fun i hi => by rw [r3, decide_eq_false (by omega)]; rfl]
  · rw [toBytes_bit, r3, r2, decide_eq_true hi, ofBytes_bit hx]; simp

/-- `>>` by less than the size. Missing: larger shifts, and the shifts of more than 8 bytes by 1 to 32 modulo 64 without an assumption on what the undefined `-1 >> k` gives. -/
theorem C93_shift_right_partial (ub : UB) (x : List (BitVec 8)) (hx : Sz x.length) (s : Nat) (hs : s < 8 * x.length) (hu : Fine ub x.length s) :
    ∃ z, z.length = x.length ∧ (Bits.ofBytes x).shr ub s = some (Bits.ofBytes z) ∧ ∀ i, i < 8 * x.length → memBit z i = if i + s < 8 * x.length then memBit x (i + s) else false := by
  obtain ⟨r, e, r1, r2, r3⟩ := Bits.shr_bit (ub := ub) (ofBytes_wf hx) (s := s) hs hu
  have r2 : r.n = x.length := r2
  have r3 : ∀ i, r.bit i = (decide (i + s < 8 * x.length) && (Bits.ofBytes x).bit (i + s)) := r3
  refine ⟨r.toBytes r.n, by rw [toBytes_length, r2], ?_, fun i hi => ?_⟩
  · rw [e, ← canon r1 fun i hi => by rw [r3, decide_eq_false (by omega)]; rfl]
  · rw [toBytes_bit, r3, r2, decide_eq_true hi, ofBytes_bit hx]
    split
    · next h => rw [decide_eq_true h]; rfl
    · next h => rw [decide_eq_false h]; rfl

/-- `<<` by less than the size, or by anything for more than 8 bytes -/
theorem C93_shift_left (x : List (BitVec 8)) (hx : Sz x.length) (s : Nat) (hs : 8 < x.length ∨ s < 8 * x.length) :
    ∃ z, z.length = x.length ∧ (Bits.ofBytes x).shl s = some (Bits.ofBytes z) ∧ ∀ i, i < 8 * x.length → memBit z i = if s ≤ i then memBit x (i - s) else false := by
  obtain ⟨r, e, r1, r2, r3⟩ := Bits.shl_bit (ofBytes_wf hx) (s := s) hs
  have r2 : r.n = x.length := r2
  have r3 : ∀ i, r.bit i = (decide (i < 8 * x.length) && (decide (s ≤ i) && (Bits.ofBytes x).bit (i - s))) := r3
  refine ⟨r.toBytes r.n, by rw [toBytes_length, r2], ?_, fun i hi => ?_⟩
  · rw [e, ← canon r1 fun i hi => by rw [r3, decide_eq_false (by omega)]; rfl]
  · rw [toBytes_bit, r3, r2, decide_eq_true hi, ofBytes_bit hx]
    split
    · next h => rw [decide_eq_true h]; rfl
    · next h => rw [decide_eq_false h]; rfl

/-- `<<=`. Missing: the shifts of more than 8 bytes by at least 64 for which a word is moved onto another before that one has been moved, or is left behind. -/
theorem C93_shift_left_assign_partial (x : List (BitVec 8)) (hx : Sz x.length) (s : Nat) (hs : s < 8 * x.length)
    (hw : 8 < x.length → s / 64 = 0 ∨ (x.length / 8 ≤ 2 * (s / 64) ∧ ∀ i, 64 * (x.length / 8 - s / 64) ≤ i → i < 64 * (s / 64) → memBit x i = false)) :
    ∃ z, z.length = x.length ∧ (Bits.ofBytes x).shlAssign s = some (Bits.ofBytes z) ∧ ∀ i, i < 8 * x.length → memBit z i = if s ≤ i then memBit x (i - s) else false := by
  have hsl : 8 < x.length → Slides (Bits.ofBytes x) s := by
    intro h8
    have hm : x.length % 8 = 0 := by rcases hx with h | h | h | h | h <;> omega
    rcases hw h8 with h | ⟨h1, h2⟩
    · exact .inl h
    · refine .inr ⟨?_, h1, fun k hk1 hk2 => ?_⟩
      · show s / 64 < x.length / 8
        omega
      · apply BitVec.eq_of_getLsbD_eq
        intro j hj
        have hk1 : x.length / 8 - s / 64 ≤ k := hk1
        have := h2 (64 * k + j) (by omega) (by omega)
        rw [← ofBytes_bit hx] at this
        unfold Bits.bit bitL at this
        rw [show (64 * k + j) / 64 = k by omega, show (64 * k + j) % 64 = j by omega] at this
        exact this.trans BitVec.getLsbD_zero.symm
  obtain ⟨r, e, r1, r2, r3⟩ := Bits.shlAssign_bit (ofBytes_wf hx) (s := s) hs (fun i hi => by rw [ofBytes_bit hx]; exact memBit_ge hi) hsl
  have r2 : r.n = x.length := r2
  have r3 : ∀ i, r.bit i = (decide (i < 8 * x.length) && (decide (s ≤ i) && (Bits.ofBytes x).bit (i - s))) := r3
  refine ⟨r.toBytes r.n, by rw [toBytes_length, r2], ?_, fun i hi => ?_⟩
  · rw [e, ← canon r1 fun i hi => by rw [r3, decide_eq_false (by omega)]; rfl]
  · rw [toBytes_bit, r3, r2, decide_eq_true hi, ofBytes_bit hx]
    split
    · next h => rw [decide_eq_true h]; rfl
    · next h => rw [decide_eq_false h]; rfl

/-- `==` -/
theorem C93_eq (x y : List (BitVec 8)) (hx : Sz x.length) (hy : Sz y.length) : (Bits.ofBytes x).beq (Bits.ofBytes y) = true ↔ x = y := by
  have hb : ∀ (z : List (BitVec 8)), Sz z.length → ∀ k (h : k < z.length), (Bits.ofBytes z).byte k = z[k] := by
    intro z hz k h
    apply BitVec.eq_of_getLsbD_eq
    intro j hj
    rw [byte_bit _ _ _ hj, ofBytes_bit hz]
    unfold memBit
    rw [show (8 * k + j) / 8 = k by omega, show (8 * k + j) % 8 = j by omega, List.getD_eq_getElem?_getD, List.getElem?_eq_getElem h]; rfl
  unfold Bits.beq
  rw [Bool.and_eq_true, List.all_eq_true]
  constructor
  · rintro ⟨h1, h2⟩
    have h1 : x.length = y.length := of_decide_eq_true h1
    apply List.ext_getElem h1
    intro k k1 k2
    have := of_decide_eq_true (h2 k (List.mem_range.2 k1))
    rwa [hb x hx k k1, hb y hy k k2] at this
  · rintro rfl
    exact ⟨decide_eq_true rfl, fun k _ => decide_eq_true rfl⟩

/-- `dataAs<uint64_t>`: the low 64 bits, zero-extended -/
theorem C93_data_as (x : List (BitVec 8)) (hx : Sz x.length) (i : Nat) (hi : i < 64) : (Bits.ofBytes x).dataAs.getLsbD i = memBit x i := by
  rw [dataAs_bit, decide_eq_true hi, ofBytes_bit hx]
  show (true && (decide (i < 8 * x.length) && memBit x i)) = _
  by_cases h : i < 8 * x.length
  · rw [decide_eq_true h]; rfl
  · rw [decide_eq_false h, memBit_ge (by omega)]; rfl

/-- `none` and `any` are exact if some byte is 0. Missing: the other values, for which they are wrong when all bytes are equal. -/
theorem C93_none_partial (x : List (BitVec 8)) (hx : Sz x.length) (k : Nat) (hk : x[k]? = some 0) :
    ∃ r, (Bits.ofBytes x).none = some r ∧ (Bits.ofBytes x).any = some (!r) ∧ (r = true ↔ ∀ i, i < 8 * x.length → memBit x i = false) := by
  obtain ⟨hk1, hk2⟩ := List.getElem?_eq_some_iff.1 hk
  obtain ⟨r, e, hr⟩ := none_iff (a := Bits.ofBytes x) (show 0 < x.length by omega) (k := k) hk1 (fun t ht => by
    rw [ofBytes_bit hx]
    unfold memBit
    rw [show (8 * k + t) / 8 = k by omega, List.getD_eq_getElem?_getD, hk]
    exact BitVec.getLsbD_zero)
  refine ⟨r, e, by unfold Bits.any; rw [e]; rfl, hr.trans ⟨fun h i hi => ?_, fun h i hi => ?_⟩⟩
  · rw [← ofBytes_bit hx]; exact h i hi
  · rw [ofBytes_bit hx]; exact h i hi

/-- in the direction in which they are always right: "not none" means that a bit is set -/
theorem C93_any_partial (x : List (BitVec 8)) (hx : Sz x.length) (h : (Bits.ofBytes x).any = some true) : ∃ i, i < 8 * x.length ∧ memBit x i = true := by
  refine Classical.byContradiction fun hno => ?_
  have h0 : ∀ i, memBit x i = false := by
    intro i
    by_cases hi : i < 8 * x.length
    · cases hb : memBit x i with
      | false => rfl
      | true => exact absurd ⟨i, hi, hb⟩ hno
    · exact memBit_ge (by omega)
  have hpos : 0 < x.length := by rcases hx with h | h | h | h | h <;> omega
  obtain ⟨r, e, hr⟩ := none_iff (a := Bits.ofBytes x) hpos (k := 0) hpos (fun t ht => by rw [ofBytes_bit hx]; exact h0 _)
  have : r = true := hr.2 fun i _ => by rw [ofBytes_bit hx]; exact h0 i
  subst this
  unfold Bits.any at h
  rw [e] at h
  cases h

/-- 16 bytes, shifted by 65 -/
example : (Bits.ofBytes (List.replicate 16 0x81)).shl 65 = some (Bits.ofBytes (List.replicate 8 0 ++ 0x02 :: List.replicate 7 0x03)) := by decide +kernel
example : Sz (List.replicate 16 (0x81 : BitVec 8)).length ∧ Fine none 16 100 ∧ ¬ Fine none 16 65 := by
  refine ⟨.inr (.inr (.inr (.inr (by decide)))), .inr (.inr (.inl (by decide))), ?_⟩
  rintro (h | h | h | h)
  · exact absurd h (by decide)
  · exact absurd h (by decide)
  · exact absurd h (by decide)
  · cases h
/-- `none` of a value with a zero byte -/
example : (Bits.ofBytes [0, 3]).none = some false ∧ ([0, 3] : List (BitVec 8))[0]? = some 0 := by decide

/-- `none` calls a value with all bits set zero, and any single byte -/
theorem C93_none_violated : (Bits.ofBytes (List.replicate 8 0xff)).none = some true ∧ (Bits.ofBytes (List.replicate 8 0xff)).any = some false ∧ (Bits.ofBytes [0x5a]).none = some true := by
  decide +kernel

/-- `<<=` of 32 bytes by 64: the low word 1 ends in the top word, not in the second, and three words are lost; by 192: the words in the middle stay; by 256: nothing happens -/
theorem C93_shift_left_assign_violated :
    (⟨32, [1, 2, 3, 4]⟩ : Bits).shlAssign 64 = some ⟨32, [0, 0, 0, 1]⟩ ∧ (⟨32, [1, 2, 3, 4]⟩ : Bits).shl 64 = some ⟨32, [0, 1, 2, 3]⟩ ∧
    (⟨32, [1, 2, 3, 4]⟩ : Bits).shlAssign 192 = some ⟨32, [0, 2, 3, 1]⟩ ∧ (⟨32, [1, 2, 3, 4]⟩ : Bits).shl 192 = some ⟨32, [0, 0, 0, 1]⟩ ∧
    (⟨32, [1, 2, 3, 4]⟩ : Bits).shlAssign 256 = some ⟨32, [1, 2, 3, 4]⟩ ∧ (⟨32, [1, 2, 3, 4]⟩ : Bits).shl 256 = some ⟨32, [0, 0, 0, 0]⟩ := by
  decide +kernel

/-- undefined behaviour of `>>` of 16 bytes: by 1 (a shift of an `int` by 63), by 200 (beyond the array); and no operator for 3 bytes -/
theorem C93_undefined_violated :
    (⟨16, [2, 0]⟩ : Bits).shr none 1 = none ∧ (⟨16, [2, 0]⟩ : Bits).shr (some (BitVec.allOnes 64)) 200 = none ∧ (⟨3, [1]⟩ : Bits).and ⟨3, [1]⟩ = none := by
  decide +kernel

/-! ### C94 -/

theorem shlAssign_total {a : Bits} (ha : WF a) {s : Nat} (hs : s < 8 * a.n) : ∃ r, a.shlAssign s = some r ∧ WF r := by
  unfold Bits.shlAssign
  rcases ha.sz with h | h | h | h | ⟨h, h8⟩
  · obtain ⟨x, e, _⟩ := shlNarrow_bit (k := 8) (.inl rfl) a (show s < 8 by omega)
    rw [if_neg (by omega), if_neg (by omega), if_neg (by omega), if_neg (by omega), if_pos h, e]
    exact ⟨_, rfl, ⟨.inl rfl, rfl⟩⟩
  · obtain ⟨x, e, _⟩ := shlNarrow_bit (k := 16) (.inr (.inl rfl)) a (show s < 16 by omega)
    rw [if_neg (by omega), if_neg (by omega), if_neg (by omega), if_pos h, e]
    exact ⟨_, rfl, ⟨.inr (.inl rfl), rfl⟩⟩
  · obtain ⟨x, e, _⟩ := shlNarrow_bit (k := 32) (.inr (.inr (.inl rfl))) a (show s < 32 by omega)
    rw [if_neg (by omega), if_pos h, e]
    exact ⟨_, rfl, ⟨.inr (.inr (.inl rfl)), rfl⟩⟩
  · obtain ⟨x, e, _⟩ := shlNarrow_bit (k := 64) (.inr (.inr (.inr rfl))) a (show s < 64 by omega)
    rw [if_pos h, e]
    exact ⟨_, rfl, ⟨.inr (.inr (.inr (.inl rfl))), rfl⟩⟩
  · rw [if_neg (by omega), if_neg (by omega), if_pos h, if_neg (by omega)]
    dsimp only
    have hl : (if s / 64 > 0 then slideUp (s / 64) (a.n / 8) 0 a.ws else a.ws).length = wordsOf a.n := by
      split
      · rw [slideUp_len, ha.len]
      · exact ha.len
    split
    · exact ⟨_, rfl, ⟨.inr (.inr (.inr (.inr ⟨h, h8⟩))), hl⟩⟩
    · exact ⟨_, rfl, ⟨.inr (.inr (.inr (.inr ⟨h, h8⟩))), by rw [microL_len]; exact hl⟩⟩

/-- a register can be made of every power-of-two size with fields of at most 64 bits within it, and has its initial value -/
theorem C94_make (ub : UB) (d : Def) (mem : List (BitVec 8)) (k : Nat) (hd : d.bytes = 2 ^ k) (hg : Good ub d.bytes) (hl : mem.length = d.bytes)
    (hf : ∀ f ∈ d.fields, f.low ≤ f.high ∧ f.high < 8 * d.bytes ∧ f.high < f.low + 64) : ∃ g, Reg.make ub d mem = some g ∧ g.mem = mem := by
  have hok : ∀ f ∈ d.fields, f.ok d.bytes = true := fun f h => ok_iff.2 (by have := hf f h; omega)
  have hp : 2 ^ Nat.log2 d.bytes = d.bytes := by rw [hd, Nat.log2_two_pow]
  have hz := sz_pow2 hp
  obtain ⟨m, e, _⟩ := writeMask_bit hz hg hok
  obtain ⟨fs, hfs⟩ := mapM_some (F := fun f => (fieldMask d.bytes f).bind fun k => k.not.map fun nk => (f, k, nk)) (l := d.fields) (fun f h => by
    obtain ⟨r, e1, r1⟩ := shlAssign_total (set_wf hz (BitVec.allOnes 64 >>> (64 - (f.high - f.low + 1)))) (s := f.low) (ok_iff.1 (hok f h)).2.1
    obtain ⟨nr, e2, _⟩ := Bits.not_bit r1
    have e1 : fieldMask d.bytes f = some r := e1
    exact ⟨(f, r, nr), by rw [e1]; dsimp only [Option.bind_some]; rw [e2]; rfl⟩)
  refine ⟨⟨d.bytes, m, fs, mem⟩, ?_, rfl⟩
  unfold Reg.make
  have hpos : 0 < d.bytes := by rw [hd]; exact Nat.two_pow_pos k
  have hall : d.fields.all (·.ok d.bytes) = true := List.all_eq_true.2 hok
  rw [if_neg (by
    rintro (h | h | h | h)
    · omega
    · exact h hp
    · rw [hall] at h; cases h
    · exact h hl), e]
  dsimp only [Option.bind_some]
  rw [hfs]; rfl

section
variable (ub : UB) (d : Def) (mem0 : List (BitVec 8)) (g0 : Reg)

/-- after any history, `read` and `peek` give the addressed bytes of the value and change nothing -/
theorem C94_read (hg : Good ub d.bytes) (hmk : Reg.make ub d mem0 = some g0) (os : List Op) (size off : Nat) (h : off + size ≤ d.bytes) :
    let g := (runOps (Reg.step ub) g0 os).1
    ∃ bs, g.step ub (.read size off) = (g, .bytes bs) ∧ g.step ub (.peek size off) = (g, .bytes bs) ∧ bs.length = size ∧ ∀ i, i < 8 * size → memBit bs i = memBit g.mem (8 * off + i) := by
  intro g
  have hok : OK ub d g := OK.run hg hmk os
  have hn : off + size ≤ g.n := by rw [hok.n]; exact h
  refine ⟨slice g.mem size off, if_pos hn, if_pos hn, ?_, fun i hi => ?_⟩
  · unfold slice; rw [List.length_take, List.length_drop, hok.len]; omega
  · rw [memBit_slice, decide_eq_true hi, Nat.add_comm]; rfl

/-- accesses beyond the register throw and change nothing -/
theorem C94_bounds (hg : Good ub d.bytes) (hmk : Reg.make ub d mem0 = some g0) (os : List Op) (bs : List (BitVec 8)) (off : Nat) (h : d.bytes < off + bs.length) :
    let g := (runOps (Reg.step ub) g0 os).1
    g.step ub (.read bs.length off) = (g, .threw) ∧ g.step ub (.peek bs.length off) = (g, .threw) ∧ g.step ub (.write bs off) = (g, .threw) ∧ g.step ub (.poke bs off) = (g, .threw) ∧
    g.step ub (.writeUnmasked bs off) = (g, .threw) ∧ g.step ub (.pokeUnmasked bs off) = (g, .threw) := by
  intro g
  have hok : OK ub d g := OK.run hg hmk os
  have hn : ¬ off + bs.length ≤ g.n := by rw [hok.n]; omega
  exact ⟨if_neg hn, if_neg hn, if_neg hn, if_neg hn, if_neg hn, if_neg hn⟩

/-- after any history, a write or poke of 1, 2, 4, 8 or 8k bytes changes the writable bits in its range to the given ones, and no other bit -/
theorem C94_write_partial (hg : Good ub d.bytes) (hmk : Reg.make ub d mem0 = some g0) (os : List Op) (bs : List (BitVec 8)) (off : Nat) (hs : Sz bs.length)
    (h : off + bs.length ≤ d.bytes) :
    let g := (runOps (Reg.step ub) g0 os).1
    ∃ m, (g.step ub (.write bs off)).1 = { g with mem := m } ∧ (g.step ub (.write bs off)).2 = .wrote g.mem m ∧ g.step ub (.poke bs off) = ({ g with mem := m }, .done) ∧
      m.length = d.bytes ∧
      ∀ i, memBit m i = if 8 * off ≤ i ∧ i < 8 * (off + bs.length) ∧ d.writable i = true then memBit bs (i - 8 * off) else memBit g.mem i := by
  intro g
  have hok : OK ub d g := OK.run hg hmk os
  have hn : off + bs.length ≤ g.n := by rw [hok.n]; exact h
  obtain ⟨r, e, r1, r2⟩ := masked_bit hok.sz hok.good hok.mwf hok.mn hok.mbit hok.len hs hn
  have hle : off + r.length ≤ g.mem.length := by rw [r1, hok.len]; exact hn
  have e1 : g.step ub (.write bs off) = g.put r off := by simp only [Reg.step]; rw [if_pos hn, e]
  have e2 : g.step ub (.poke bs off) = g.quiet r off := by simp only [Reg.step]; rw [if_pos hn, e]
  refine ⟨splice g.mem off r, by rw [e1]; rfl, by rw [e1]; rfl, e2, by rw [splice_length hle, hok.len, hok.n], fun i => ?_⟩
  rw [memBit_splice hle, r1]
  by_cases hi : 8 * off ≤ i ∧ i < 8 * (off + bs.length)
  · rw [if_pos hi, r2 _ (by omega), show i - 8 * off + 8 * off = i by omega]
    split
    · next hw => rw [if_pos ⟨hi.1, hi.2, hw⟩]
    · next hw => rw [if_neg fun x => hw x.2.2]
  · rw [if_neg hi, if_neg fun x => hi ⟨x.1, x.2.1⟩]

/-- the unmasked variants ignore the write mask -/
theorem C94_unmasked (hg : Good ub d.bytes) (hmk : Reg.make ub d mem0 = some g0) (os : List Op) (bs : List (BitVec 8)) (off : Nat) (h : off + bs.length ≤ d.bytes) :
    let g := (runOps (Reg.step ub) g0 os).1
    ∃ m, (g.step ub (.writeUnmasked bs off)).1 = { g with mem := m } ∧ (g.step ub (.writeUnmasked bs off)).2 = .wrote g.mem m ∧
      g.step ub (.pokeUnmasked bs off) = ({ g with mem := m }, .done) ∧ m.length = d.bytes ∧
      ∀ i, memBit m i = if 8 * off ≤ i ∧ i < 8 * (off + bs.length) then memBit bs (i - 8 * off) else memBit g.mem i := by
  intro g
  have hok : OK ub d g := OK.run hg hmk os
  have hn : off + bs.length ≤ g.n := by rw [hok.n]; exact h
  have hle : off + bs.length ≤ g.mem.length := by rw [hok.len]; exact hn
  have e1 : g.step ub (.writeUnmasked bs off) = g.put bs off := by simp only [Reg.step]; rw [if_pos hn]
  have e2 : g.step ub (.pokeUnmasked bs off) = g.quiet bs off := by simp only [Reg.step]; rw [if_pos hn]
  exact ⟨splice g.mem off bs, by rw [e1]; rfl, by rw [e1]; rfl, e2, by rw [splice_length hle, hok.len, hok.n], memBit_splice hle⟩

/-- the accesses that respect the write mask -/
def Op.masked : Op → Bool
  | .writeUnmasked _ _ => false
  | .pokeUnmasked _ _ => false
  | .writeUnmaskedT _ _ => false
  | .fieldPokeUnmasked _ _ => false
  | _ => true

theorem masked_sz {ub : UB} {g : Reg} {bs r : List (BitVec 8)} {off : Nat} (h : g.masked ub bs off = some r) : Sz bs.length := by
  refine Classical.byContradiction fun hn => ?_
  have : ∀ b, (Bits.ofBytes bs).and b = none := by
    intro b
    unfold Bits.and Bits.merge
    have e : (Bits.ofBytes bs).n = bs.length := rfl
    rw [e]
    unfold Sz at hn
    rw [if_neg (by omega), if_neg (by omega)]
    split
    · rw [if_neg (by omega)]
    · rw [if_neg (by omega), if_neg (by omega)]
  unfold Reg.masked at h
  simp only [this] at h
  simp [Option.bind_eq_some_iff] at h

/-- whatever is done with masked accesses, of whatever size and to whatever field, the read-only bits keep their initial value -/
theorem C94_read_only (hg : Good ub d.bytes) (hmk : Reg.make ub d mem0 = some g0) (os : List Op) (hos : ∀ o ∈ os, o.masked = true) (i : Nat) (hi : d.writable i = false) :
    memBit (runOps (Reg.step ub) g0 os).1.mem i = memBit mem0 i := by
  have key : ∀ g : Reg, OK ub d g → ∀ (bs r : List (BitVec 8)) off, off + bs.length ≤ g.n → g.masked ub bs off = some r → memBit (splice g.mem off r) i = memBit g.mem i := by
    intro g hok bs r off ho hr
    obtain ⟨r', e, r1, r2⟩ := masked_bit hok.sz hok.good hok.mwf hok.mn hok.mbit hok.len (masked_sz hr) ho
    rw [hr] at e; injection e with e; subst e
    rw [memBit_splice (by rw [r1, hok.len]; exact ho), r1]
    split
    · next h => rw [r2 _ (by omega), show i - 8 * off + 8 * off = i by omega, hi]; rfl
    · rfl
  have stp : ∀ g : Reg, OK ub d g → ∀ o : Op, o.masked = true → memBit (g.step ub o).1.mem i = memBit g.mem i := by
    intro g hok o ho
    cases o with
    | read size off => simp only [Reg.step]; split <;> rfl
    | peek size off => simp only [Reg.step]; split <;> rfl
    | write bs off =>
      simp only [Reg.step]
      split
      · next hb =>
        cases hm : g.masked ub bs off with
        | none => rfl
        | some r => exact key g hok bs r off hb hm
      · rfl
    | poke bs off =>
      simp only [Reg.step]
      split
      · next hb =>
        cases hm : g.masked ub bs off with
        | none => rfl
        | some r => exact key g hok bs r off hb hm
      · rfl
    | writeUnmasked bs off => cases ho
    | pokeUnmasked bs off => cases ho
    | writeUnmaskedT bs off => cases ho
    | fieldRead k =>
      simp only [Reg.step]
      split
      · split <;> rfl
      · rfl
    | fieldWrite k v =>
      simp only [Reg.step]
      split
      · split
        · next hbs =>
          split
          · next hm => exact key g hok _ _ 0 (by rw [newValue_len hbs]; omega) hm
          · rfl
        · rfl
      · rfl
    | fieldPoke k v =>
      simp only [Reg.step]
      split
      · split
        · next hbs =>
          split
          · next hm => exact key g hok _ _ 0 (by rw [newValue_len hbs]; omega) hm
          · rfl
        · rfl
      · rfl
    | fieldPokeUnmasked k v => cases ho
  obtain ⟨hok0, hm0⟩ := make_ok hg hmk
  rw [← hm0]
  clear hmk hm0
  induction os generalizing g0 with
  | nil => rfl
  | cons o os ih =>
    have := ih _ (fun x hx => hos x (List.mem_cons_of_mem _ hx)) (hok0.step o)
    exact this.trans (stp g0 hok0 o (hos o List.mem_cons_self))

/-! ### C95 -/

theorem field_masks {ub : UB} {d : Def} {g : Reg} (hok : OK ub d g) {k : Nat} {f : FieldDef} (hk : d.fields[k]? = some f) (hlow : GoodLow d.bytes f.low) :
    ∃ m nm, g.fields[k]? = some (f, m, nm) ∧ WF m ∧ m.n = g.n ∧ (∀ i, m.bit i = (decide (f.low ≤ i) && decide (i ≤ f.high))) ∧ WF nm ∧ nm.n = g.n ∧
      ∀ i, nm.bit i = (decide (i < 8 * g.n) && !(decide (f.low ≤ i) && decide (i ≤ f.high))) := by
  obtain ⟨m, nm, e1, e2, e3⟩ := hok.flds k f hk
  obtain ⟨m', e4, m1, m2, m3⟩ := fieldMask_bit hok.sz (hok.ok f (List.mem_of_getElem? hk)) (by rw [hok.n]; exact hlow)
  rw [e2] at e4; injection e4 with e4; subst e4
  obtain ⟨x, e5, x1, x2, x3⟩ := Bits.not_bit m1
  rw [e3] at e5; injection e5 with e5; subst e5
  exact ⟨m, nm, e1, m1, m2, m3, x1, x2.trans m2, fun i => by rw [x3, m2, m3]⟩

/-- after any history, reading a field gives its bits. Missing: fields of registers of at least 32 bytes whose low bit is at 64 or above and below half of the register. -/
theorem C95_read_partial (hg : Good ub d.bytes) (hmk : Reg.make ub d mem0 = some g0) (os : List Op) (k : Nat) (f : FieldDef) (hk : d.fields[k]? = some f)
    (hlow : f.low < 64 ∨ d.bytes / 8 ≤ 2 * (f.low / 64)) :
    let g := (runOps (Reg.step ub) g0 os).1
    ∃ v, g.step ub (.fieldRead k) = (g, .val v) ∧ ∀ i, v.getLsbD i = if f.low + i ≤ f.high then memBit g.mem (f.low + i) else false := by
  intro g
  have hok : OK ub d g := OK.run hg hmk os
  obtain ⟨m, nm, e1, m1, m2, m3, _⟩ := field_masks hok hk (hlow.elim (fun h => .inl (by omega)) .inr)
  have hf := hok.ok f (List.mem_of_getElem? hk)
  obtain ⟨v, e2, hv⟩ := fieldRead_bit hok.sz hok.good hok.len hf m1 m2 m3
  refine ⟨v, by simp only [Reg.step]; rw [e1]; dsimp only; rw [e2], fun i => ?_⟩
  have := ok_iff.1 hf
  rw [hv]
  split
  · rw [decide_eq_true (by omega)]; rfl
  · rw [decide_eq_false (by omega)]; rfl

/-- after any history, writing to a field a value none of whose bits would land in the register outside of it (any value that fits in the field) changes exactly the writable bits of the
field; `poke` likewise; `pokeUnmasked` all bits of the field -/
theorem C95_write_partial (hg : Good ub d.bytes) (hmk : Reg.make ub d mem0 = some g0) (os : List Op) (k : Nat) (f : FieldDef) (hk : d.fields[k]? = some f)
    (hlow : f.low < 64 ∨ d.bytes / 8 ≤ 2 * (f.low / 64)) (v : BitVec 64) (hv : ∀ i, f.high < f.low + i → f.low + i < 8 * d.bytes → v.getLsbD i = false) :
    let g := (runOps (Reg.step ub) g0 os).1
    ∃ m mu, (g.step ub (.fieldWrite k v)).1 = { g with mem := m } ∧ (g.step ub (.fieldWrite k v)).2 = .wrote g.mem m ∧ g.step ub (.fieldPoke k v) = ({ g with mem := m }, .done) ∧
      g.step ub (.fieldPokeUnmasked k v) = ({ g with mem := mu }, .done) ∧ m.length = d.bytes ∧ mu.length = d.bytes ∧
      (∀ i, i < 8 * d.bytes → memBit m i = if f.low ≤ i ∧ i ≤ f.high ∧ d.writable i = true then v.getLsbD (i - f.low) else memBit g.mem i) ∧
      ∀ i, i < 8 * d.bytes → memBit mu i = if f.low ≤ i ∧ i ≤ f.high then v.getLsbD (i - f.low) else memBit g.mem i := by
  intro g
  have hok : OK ub d g := OK.run hg hmk os
  obtain ⟨m, nm, e1, m1, m2, m3, x1, x2, x3⟩ := field_masks hok hk (hlow.elim (fun h => .inl (by omega)) .inr)
  have hf := hok.ok f (List.mem_of_getElem? hk)
  have hns : ¬ Spills g.n f v := by
    rintro ⟨i, h1, h2, h3⟩
    rw [hv i h1 (by rw [← hok.n]; exact h2)] at h3; cases h3
  obtain ⟨bs, e2, b1, b2⟩ := (newValue_bit hok.sz hok.len hf (by rw [hok.n]; exact hlow.elim (fun h => .inl (by omega)) .inr) x1 x2 x3 v).1 hns
  have hzb : Sz bs.length := by rw [b1]; exact hok.sz
  obtain ⟨r, e3, r1, r2⟩ := masked_bit hok.sz hok.good hok.mwf hok.mn hok.mbit hok.len hzb (off := 0) (by rw [b1]; omega)
  have hle : 0 + r.length ≤ g.mem.length := by rw [r1, b1, hok.len]; omega
  have hle2 : 0 + bs.length ≤ g.mem.length := by rw [b1, hok.len]; omega
  have s1 : g.step ub (.fieldWrite k v) = g.put r 0 := by simp only [Reg.step]; rw [e1]; dsimp only; rw [e2]; dsimp only; rw [e3]
  have s2 : g.step ub (.fieldPoke k v) = g.quiet r 0 := by simp only [Reg.step]; rw [e1]; dsimp only; rw [e2]; dsimp only; rw [e3]
  have s3 : g.step ub (.fieldPokeUnmasked k v) = g.quiet bs 0 := by simp only [Reg.step]; rw [e1]; dsimp only; rw [e2]
  refine ⟨splice g.mem 0 r, splice g.mem 0 bs, by rw [s1]; rfl, by rw [s1]; rfl, s2, s3, by rw [splice_length hle, hok.len, hok.n], by rw [splice_length hle2, hok.len, hok.n], fun i hi => ?_,
    fun i hi => ?_⟩
  · rw [← hok.n] at hi
    rw [memBit_splice hle, r1, b1, if_pos (by omega), r2 _ (by rw [b1]; omega), show i - 8 * 0 + 8 * 0 = i by omega, show i - 8 * 0 = i by omega, b2 _ hi]
    by_cases hw : d.writable i = true
    · rw [if_pos hw]
      by_cases h : f.low ≤ i ∧ i ≤ f.high
      · rw [if_pos h, if_pos ⟨h.1, h.2, hw⟩]
      · rw [if_neg h, if_neg fun x => h ⟨x.1, x.2.1⟩]
    · rw [if_neg hw, if_neg fun x => hw x.2.2]
  · rw [← hok.n] at hi
    rw [memBit_splice hle2, b1, if_pos (by omega), show i - 8 * 0 = i by omega, b2 _ hi]

/-- a value that fits in a field not covered by read-only fields is read back after it is written, whatever came before -/
theorem C95_read_back_partial (hg : Good ub d.bytes) (hmk : Reg.make ub d mem0 = some g0) (os : List Op) (k : Nat) (f : FieldDef) (hk : d.fields[k]? = some f)
    (hlow : f.low < 64 ∨ d.bytes / 8 ≤ 2 * (f.low / 64)) (v : BitVec 64) (hv : v.toNat < 2 ^ (f.high - f.low + 1)) (hw : ∀ i, f.low ≤ i → i ≤ f.high → d.writable i = true) :
    let g := (runOps (Reg.step ub) g0 (os ++ [.fieldWrite k v])).1
    g.step ub (.fieldRead k) = (g, .val v) := by
  intro g
  have hok : OK ub d g := OK.run hg hmk _
  have hf := ok_iff.1 (hok.ok f (List.mem_of_getElem? hk))
  rw [hok.n] at hf
  have hvb : ∀ i, f.high - f.low + 1 ≤ i → v.getLsbD i = false := fun i hi => by
    rw [BitVec.getLsbD, Nat.testBit_lt_two_pow (Nat.lt_of_lt_of_le hv (Nat.pow_le_pow_right (by decide) hi))]
  obtain ⟨m, mu, s1, _, _, _, _, _, h1, _⟩ := C95_write_partial ub d mem0 g0 hg hmk os k f hk hlow v (fun i h1 _ => hvb i (by omega))
  obtain ⟨x, e, hx⟩ := C95_read_partial ub d mem0 g0 hg hmk (os ++ [.fieldWrite k v]) k f hk hlow
  have hmem : g.mem = m := by
    show (runOps (Reg.step ub) g0 (os ++ [.fieldWrite k v])).1.mem = m
    rw [runOps_append]
    show ((runOps (Reg.step ub) g0 os).1.step ub (.fieldWrite k v)).1.mem = m
    rw [s1]
  have : x = v := by
    apply BitVec.eq_of_getLsbD_eq
    intro i hi
    rw [hx]
    split
    · next h =>
      show memBit g.mem (f.low + i) = _
      rw [hmem, h1 _ (by omega), if_pos ⟨by omega, h, hw _ (by omega) h⟩, Nat.add_sub_cancel_left]
    · next h => exact (hvb i (by omega)).symm
  rw [← this]; exact e

/-- a value with a bit that would land in the register outside the field is rejected. Missing: fields in the low byte of 8-byte registers. -/
theorem C95_reject_partial (hg : Good ub d.bytes) (hmk : Reg.make ub d mem0 = some g0) (os : List Op) (k : Nat) (f : FieldDef) (hk : d.fields[k]? = some f)
    (hlow : f.low < 64 ∨ d.bytes / 8 ≤ 2 * (f.low / 64)) (h8 : d.bytes ≠ 8 ∨ 8 ≤ f.low) (v : BitVec 64) (i : Nat) (hi : f.high < f.low + i) (hi2 : f.low + i < 8 * d.bytes) (hv : v.getLsbD i = true) :
    let g := (runOps (Reg.step ub) g0 os).1
    g.step ub (.fieldWrite k v) = (g, .threw) ∧ g.step ub (.fieldPoke k v) = (g, .threw) ∧ g.step ub (.fieldPokeUnmasked k v) = (g, .threw) := by
  intro g
  have hok : OK ub d g := OK.run hg hmk os
  obtain ⟨m, nm, e1, m1, m2, m3, x1, x2, x3⟩ := field_masks hok hk (hlow.elim (fun h => .inl (by omega)) .inr)
  have hf := hok.ok f (List.mem_of_getElem? hk)
  have e2 := (newValue_bit hok.sz hok.len hf (by rw [hok.n]; exact hlow.elim (fun h => .inl (by omega)) .inr) x1 x2 x3 v).2 ⟨i, hi, by rw [hok.n]; exact hi2, hv⟩ (by rw [hok.n]; exact h8)
  refine ⟨?_, ?_, ?_⟩ <;> (simp only [Reg.step]; rw [e1]; dsimp only; rw [e2])

/-! ### C96 -/

/-- the accesses that are to notify observers -/
def Op.loud : Op → Bool
  | .write _ _ => true
  | .writeUnmasked _ _ => true
  | .fieldWrite _ _ => true
  | _ => false

/-- In every state, a notification carries the value before and the value after; only writes notify; and a write that changes the value notifies. (`Register::writeUnmasked<T>` is a silent access here, see
below.) -/
theorem C96_notify (g : Reg) (o : Op) :
    (∀ p q, (g.step ub o).2 = .wrote p q → o.loud = true ∧ p = g.mem ∧ q = (g.step ub o).1.mem) ∧
    (o.loud = true → (g.step ub o).1.mem ≠ g.mem → ∃ p q, (g.step ub o).2 = .wrote p q) := by
  cases o with
  | read size off => simp only [Reg.step]; split <;> exact ⟨(fun _ _ h => by cases h), fun h => by cases h⟩
  | peek size off => simp only [Reg.step]; split <;> exact ⟨(fun _ _ h => by cases h), fun h => by cases h⟩
  | write bs off =>
    simp only [Reg.step]
    split
    · cases hm : g.masked ub bs off with
      | none => exact ⟨(fun _ _ h => by cases h), fun _ h => absurd rfl h⟩
      | some r => exact ⟨(fun _ _ h => by cases h; exact ⟨rfl, rfl, rfl⟩), fun _ _ => ⟨_, _, rfl⟩⟩
    · exact ⟨(fun _ _ h => by cases h), fun _ h => absurd rfl h⟩
  | poke bs off =>
    simp only [Reg.step]
    split
    · cases hm : g.masked ub bs off with
      | none => exact ⟨(fun _ _ h => by cases h), fun h => by cases h⟩
      | some r => exact ⟨(fun _ _ h => by cases h), fun h => by cases h⟩
    · exact ⟨(fun _ _ h => by cases h), fun h => by cases h⟩
  | writeUnmasked bs off =>
    simp only [Reg.step]
    split
    · exact ⟨(fun _ _ h => by cases h; exact ⟨rfl, rfl, rfl⟩), fun _ _ => ⟨_, _, rfl⟩⟩
    · exact ⟨(fun _ _ h => by cases h), fun _ h => absurd rfl h⟩
  | pokeUnmasked bs off => simp only [Reg.step]; split <;> exact ⟨(fun _ _ h => by cases h), fun h => by cases h⟩
  | writeUnmaskedT bs off => simp only [Reg.step]; split <;> exact ⟨(fun _ _ h => by cases h), fun h => by cases h⟩
  | fieldRead k =>
    simp only [Reg.step]
    split
    · split <;> exact ⟨(fun _ _ h => by cases h), fun h => by cases h⟩
    · exact ⟨(fun _ _ h => by cases h), fun h => by cases h⟩
  | fieldWrite k v =>
    simp only [Reg.step]
    split
    · split
      · split
        · exact ⟨(fun _ _ h => by cases h; exact ⟨rfl, rfl, rfl⟩), fun _ _ => ⟨_, _, rfl⟩⟩
        · exact ⟨(fun _ _ h => by cases h), fun _ h => absurd rfl h⟩
      · next e he =>
        refine ⟨fun p q h => ?_, fun _ h => absurd rfl h⟩
        exfalso
        have h : e = .wrote p q := h
        subst h
        unfold Reg.newValue at he
        split at he
        · cases he
        · split at he
          · cases he
          · cases he
          · split at he <;> cases he
    · exact ⟨(fun _ _ h => by cases h), fun _ h => absurd rfl h⟩
  | fieldPoke k v =>
    simp only [Reg.step]
    split
    · split
      · split <;> exact ⟨(fun _ _ h => by cases h), fun h => by cases h⟩
      · next e he =>
        refine ⟨fun p q h => ?_, fun h => by cases h⟩
        exfalso
        have h : e = .wrote p q := h
        subst h
        unfold Reg.newValue at he
        split at he
        · cases he
        · split at he
          · cases he
          · cases he
          · split at he <;> cases he
    · exact ⟨(fun _ _ h => by cases h), fun h => by cases h⟩
  | fieldPokeUnmasked k v =>
    simp only [Reg.step]
    split
    · split
      · exact ⟨(fun _ _ h => by cases h), fun h => by cases h⟩
      · next e he =>
        refine ⟨fun p q h => ?_, fun h => by cases h⟩
        exfalso
        have h : e = .wrote p q := h
        subst h
        unfold Reg.newValue at he
        split at he
        · cases he
        · split at he
          · cases he
          · cases he
          · split at he <;> cases he
    · exact ⟨(fun _ _ h => by cases h), fun h => by cases h⟩

end

/-! ### A concrete register, and the violations -/

/-- 8 bytes: a read-only field [4:7], a field [0:3], a field [60:63] and a field [8:15] -/
def d8 : Def := ⟨8, [⟨4, 7, true⟩, ⟨0, 3, false⟩, ⟨60, 63, false⟩, ⟨8, 15, false⟩]⟩
/-- 32 bytes: a field [64:71] and a field [128:135] -/
def d32 : Def := ⟨32, [⟨64, 71, false⟩, ⟨128, 135, false⟩]⟩

/-- the hypotheses of the theorems above hold of `d8` -/
example : (Reg.make none d8 (List.replicate 8 0)).isSome = true ∧ Good none d8.bytes ∧ d8.writable 3 = true ∧ d8.writable 4 = false ∧ d8.fields[1]? = some ⟨0, 3, false⟩ :=
  ⟨by decide +kernel, .inl (by decide), by decide, by decide, rfl⟩
/-- and of `d32`, for its second field -/
example : (Reg.make (some (BitVec.allOnes 64)) d32 (List.replicate 32 0)).isSome = true ∧ Good (some (BitVec.allOnes 64)) d32.bytes ∧ d32.bytes / 8 ≤ 2 * (128 / 64) :=
  ⟨by decide +kernel, .inr rfl, by decide⟩
/-- a masked write, a field write, and a rejected one -/
example : (Reg.make none d8 (List.replicate 8 0)).map (fun g => (runOps (Reg.step none) g [.write [0xff, 1] 0, .fieldWrite 1 5, .fieldRead 1, .fieldRead 3, .fieldWrite 3 256, .peek 2 0]).2) =
    some [.wrote [0, 0, 0, 0, 0, 0, 0, 0] [15, 1, 0, 0, 0, 0, 0, 0], .wrote [15, 1, 0, 0, 0, 0, 0, 0] [5, 1, 0, 0, 0, 0, 0, 0], .val 5, .val 1, .threw, .bytes [5, 1]] := by
  decide +kernel

/-- a write of 3 bytes inside a register is not carried out: the operators of `RegisterBits` are not defined for 3 bytes -/
theorem C94_write_violated : (Reg.make none ⟨4, []⟩ [0, 0, 0, 0]).map (fun g => (g.step none (.write [1, 2, 3] 0)).2) = some .ub := by decide +kernel

/-- in a 32-byte register a field whose low bit is 64 reads and writes the bits from 192 on -/
theorem C95_wide_violated :
    (Reg.make (some (BitVec.allOnes 64)) d32 (List.replicate 8 0 ++ 0x5a :: List.replicate 23 0)).map (fun g => (g.step (some (BitVec.allOnes 64)) (.fieldRead 0)).2) = some (.val 0) ∧
    (Reg.make (some (BitVec.allOnes 64)) d32 (List.replicate 32 0)).map (fun g => (g.step (some (BitVec.allOnes 64)) (.fieldWrite 0 7)).1.mem) =
      some (List.replicate 24 0 ++ 7 :: List.replicate 7 0) := by
  decide +kernel

/-- a value too large for the field is accepted and overwrites the rest of an 8-byte register if all bytes that do not fit are equal; bits beyond the register are silently lost -/
theorem C95_reject_violated :
    (Reg.make none ⟨8, [⟨0, 0, false⟩]⟩ (List.replicate 8 0x10)).map (fun g => (g.step none (.fieldWrite 0 0x0202020202020202)).1.mem) = some (List.replicate 8 0x12) ∧
    (Reg.make none d8 (List.replicate 8 0)).map (fun g => (g.step none (.fieldWrite 2 0x13)).1.mem) = some [0, 0, 0, 0, 0, 0, 0, 0x30] := by
  decide +kernel

/-- `Register::writeUnmasked<uint16_t>(v, 1)` writes bytes 1 and 2 and tells no observer; the same call through the base class writes bytes 2 and 3 and does -/
theorem C96_write_unmasked_violated :
    (Reg.make none ⟨4, []⟩ [0, 0, 0, 0]).map (fun g => ((g.step none (.writeUnmaskedT [1, 2] 1)).1.mem, (g.step none (.writeUnmaskedT [1, 2] 1)).2)) = some ([0, 1, 2, 0], .done) ∧
    (Reg.make none ⟨4, []⟩ [0, 0, 0, 0]).map (fun g => (g.step none (.writeUnmasked [1, 2] (2 * 1))).2) = some (.wrote [0, 0, 0, 0] [0, 0, 1, 2]) := by
  decide +kernel

end Sparta.Register
