import Verif.CachedMem.Spec
import Verif.ArchData.Lemmas2
import Verif.MemIf.Lemmas2

/-!
# Lemmas on writes on top of a memory and on the memory of a cache
-/

namespace Sparta.CachedMem

open Sparta.ArchData (AD WF)
open Sparta.MemoryMap (wordSize)
open Sparta.MemIf (Bytes)

/-! ### Assignment of bytes -/

theorem put_in {f : Nat → UInt8} {a x : Nat} {bs : Bytes} (h1 : a ≤ x) (h2 : x < a + bs.length) :
    put f a bs x = bs.getD (x - a) 0 := if_pos ⟨h1, h2⟩

theorem put_out {f : Nat → UInt8} {a x : Nat} {bs : Bytes} (h : ¬ (a ≤ x ∧ x < a + bs.length)) :
    put f a bs x = f x := if_neg h

theorem put_cons (f : Nat → UInt8) (a : Nat) (b : UInt8) (bs : Bytes) :
    put f a (b :: bs) = put (put f a [b]) (a + 1) bs := by
  funext x
  unfold put
  by_cases h : x = a
  · subst h
    rw [if_pos (by simp), if_neg (by omega), if_pos (by simp)]
    simp
  · by_cases h1 : a ≤ x ∧ x < a + (bs.length + 1)
    · rw [if_pos (by simpa using h1), if_pos (by omega), show x - a = (x - (a + 1)) + 1 by omega]; simp
    · rw [if_neg (by simpa using h1), if_neg (by omega), if_neg (by simp; omega)]

theorem put_append (f : Nat → UInt8) (a : Nat) (xs ys : Bytes) :
    put f a (xs ++ ys) = put (put f a xs) (a + xs.length) ys := by
  induction xs generalizing f a with
  | nil =>
    have : put f a ([] : Bytes) = f := by funext x; exact put_out (by simp)
    rw [this]; rfl
  | cons b xs ih =>
    rw [List.cons_append, put_cons, ih, ← put_cons]
    congr 1
    simp; omega

theorem put_nil (f : Nat → UInt8) (a : Nat) : put f a [] = f := by
  funext x; exact put_out (by simp)

@[simp] theorem bytes_length (f : Nat → UInt8) (a k : Nat) : (bytes f a k).length = k := by simp [bytes]

theorem bytes_congr {f g : Nat → UInt8} {a k : Nat} (h : ∀ x, a ≤ x → x < a + k → f x = g x) : bytes f a k = bytes g a k := by
  unfold bytes
  apply List.map_congr_left
  intro j hj
  rw [List.mem_range] at hj
  exact h _ (by omega) (by omega)

theorem bytes_getD {f : Nat → UInt8} {a k j : Nat} (h : j < k) : (bytes f a k).getD j 0 = f (a + j) := by
  simp [bytes, List.getD_eq_getElem?_getD, h]

theorem bytes_append (f : Nat → UInt8) (a j k : Nat) : bytes f a (j + k) = bytes f a j ++ bytes f (a + j) k := by
  unfold bytes
  rw [List.range_add, List.map_append, List.map_map]
  congr 1
  apply List.map_congr_left
  intro x _
  simp [Nat.add_assoc]

/-- an assignment that restores what was there -/
theorem put_restore (f : Nat → UInt8) (a : Nat) (bs : Bytes) : put (put f a bs) a (bytes f a bs.length) = f := by
  funext x
  by_cases h : a ≤ x ∧ x < a + bs.length
  · rw [put_in h.1 (by simpa using h.2), bytes_getD (by omega), show a + (x - a) = x by omega]
  · rw [put_out (by simpa using h), put_out h]

/-! ### Writes on top of a memory -/

theorem view_snoc (mem : Nat → UInt8) (ws : List SW) (w : SW) :
    view mem (ws ++ [w]) = put (view mem ws) w.addr w.data := by
  induction ws generalizing mem with
  | nil => rfl
  | cons v ws ih => exact ih _

theorem report_snoc (mem : Nat → UInt8) (ws : List SW) (w : SW) :
    report mem (ws ++ [w]) = report mem ws ++ [⟨w.uid, w.addr, w.data, bytes (view mem ws) w.addr w.data.length⟩] := by
  induction ws generalizing mem with
  | nil => rfl
  | cons v ws ih =>
    show _ :: report _ (ws ++ [w]) = _
    rw [ih]; rfl

theorem report_length (mem : Nat → UInt8) (ws : List SW) : (report mem ws).length = ws.length := by
  induction ws generalizing mem with
  | nil => rfl
  | cons v ws ih => show (report _ ws).length + 1 = _; rw [ih]; rfl

theorem report_any_uid (mem : Nat → UInt8) (ws : List SW) (u : Nat) :
    (report mem ws).any (fun w => w.uid == u) = ws.any (fun w => w.uid == u) := by
  induction ws generalizing mem with
  | nil => rfl
  | cons v ws ih => show (_ || (report _ ws).any _) = _; rw [ih]; rfl

theorem covers_iff {w : SW} {a : Nat} : w.covers a = true ↔ w.addr ≤ a ∧ a < w.addr + w.data.length := by
  simp [SW.covers]

theorem covers_false {w : SW} {a : Nat} (h : w.covers a = false) : ¬ (w.addr ≤ a ∧ a < w.addr + w.data.length) := by
  intro hh; rw [covers_iff.2 hh] at h; cases h

/-- a byte set below a write that covers it does not show -/
theorem put_hidden {f : Nat → UInt8} {w : SW} {a : Nat} (b : UInt8) (h : w.covers a = true) :
    put (put f a [b]) w.addr w.data = put f w.addr w.data := by
  have h := covers_iff.1 h
  funext x
  by_cases hx : w.addr ≤ x ∧ x < w.addr + w.data.length
  · rw [put_in hx.1 hx.2, put_in hx.1 hx.2]
  · rw [put_out hx, put_out hx, put_out (by simp; omega)]

theorem put_comm {f : Nat → UInt8} {w : SW} {a : Nat} (b : UInt8) (h : w.covers a = false) :
    put (put f a [b]) w.addr w.data = put (put f w.addr w.data) a [b] := by
  have h := covers_false h
  funext x
  by_cases hx : x = a
  · subst hx
    rw [put_out h, put_in (Nat.le_refl _) (by simp), put_in (Nat.le_refl _) (by simp)]
  · by_cases hy : w.addr ≤ x ∧ x < w.addr + w.data.length
    · rw [put_in hy.1 hy.2, put_out (by simp; omega), put_in hy.1 hy.2]
    · rw [put_out hy, put_out (by simp; omega), put_out (by simp; omega), put_out hy]

theorem bytes_put_in {f : Nat → UInt8} {a x k : Nat} (b : UInt8) (h : a ≤ x) (_h2 : x < a + k) :
    bytes (put f x [b]) a k = (bytes f a k).set (x - a) b := by
  apply List.ext_getElem
  · simp
  · intro i h1 h2
    rw [List.getElem_set]
    have hi : i < k := by simpa using h1
    simp only [bytes, List.getElem_map, List.getElem_range]
    by_cases e : x - a = i
    · rw [if_pos e, put_in (by omega) (by simp; omega)]
      simp [show a + i - x = 0 by omega]
    · rw [if_neg e, put_out (by simp; omega)]

/-- a byte of the memory changes: it becomes the previous value of the oldest write that covers it -/
theorem collide_spec (a : Nat) (b : UInt8) (ws : List SW) (mem : Nat → UInt8) :
    (collide a b (report mem ws)).2 = ws.any (fun w => w.covers a) ∧
    report (put mem a [b]) ws = (if (ws.any fun w => w.covers a) then (collide a b (report mem ws)).1 else report mem ws) ∧
    view (put mem a [b]) ws = (if (ws.any fun w => w.covers a) then view mem ws else put (view mem ws) a [b]) := by
  induction ws generalizing mem with
  | nil => exact ⟨rfl, rfl, rfl⟩
  | cons w ws ih =>
    have er : report mem (w :: ws) =
      ⟨w.uid, w.addr, w.data, bytes mem w.addr w.data.length⟩ :: report (put mem w.addr w.data) ws := rfl
    rw [er]
    by_cases h : w.covers a = true
    · have hc : W.covers ⟨w.uid, w.addr, w.data, bytes mem w.addr w.data.length⟩ a = true := h
      have hh := covers_iff.1 h
      rw [collide, if_pos hc, List.any_cons, h, Bool.true_or, if_pos rfl, if_pos rfl]
      refine ⟨rfl, ?_, ?_⟩
      · show _ :: report (put (put mem a [b]) w.addr w.data) ws = _
        rw [put_hidden b h, bytes_put_in b hh.1 hh.2]
      · show view (put (put mem a [b]) w.addr w.data) ws = view (put mem w.addr w.data) ws
        rw [put_hidden b h]
    · rw [Bool.not_eq_true] at h
      have hc : ¬ W.covers ⟨w.uid, w.addr, w.data, bytes mem w.addr w.data.length⟩ a = true := by
        show ¬ w.covers a = true; rw [h]; simp
      obtain ⟨i1, i2, i3⟩ := ih (put mem w.addr w.data)
      rw [collide, if_neg hc, List.any_cons, h, Bool.false_or]
      refine ⟨i1, ?_, ?_⟩
      · show _ :: report (put (put mem a [b]) w.addr w.data) ws = _
        rw [put_comm b h, i2]
        have hb : bytes (put mem a [b]) w.addr w.data.length = bytes mem w.addr w.data.length := by
          have := covers_false h
          exact bytes_congr fun x h1 h2 => put_out (by simp; omega)
        rw [hb]
        by_cases hx : ws.any (fun w => w.covers a) = true
        · rw [if_pos hx, if_pos hx]
        · rw [if_neg hx, if_neg hx]
      · show view (put (put mem a [b]) w.addr w.data) ws = _
        rw [put_comm b h, i3]; rfl

/-- bytes that no write covers change -/
theorem put_uncovered (ws : List SW) (bs : Bytes) (mem : Nat → UInt8) (a : Nat)
    (h : ∀ j, j < bs.length → ∀ w ∈ ws, w.covers (a + j) = false) :
    report (put mem a bs) ws = report mem ws ∧ view (put mem a bs) ws = put (view mem ws) a bs := by
  induction bs generalizing mem a with
  | nil => rw [put_nil, put_nil]; exact ⟨rfl, rfl⟩
  | cons b bs ih =>
    obtain ⟨-, h2, h3⟩ := collide_spec a b ws mem
    have hn : ¬ (ws.any fun w => w.covers a) = true := by
      rw [List.any_eq_true]
      rintro ⟨w, hw, hc⟩
      have := h 0 (by simp) w hw
      rw [Nat.add_zero] at this
      rw [this] at hc; cases hc
    rw [if_neg hn] at h2 h3
    obtain ⟨i1, i2⟩ := ih (put mem a [b]) (a + 1) (fun j hj w hw => by
      rw [Nat.add_assoc, Nat.add_comm 1 j]; exact h (j + 1) (by simp; omega) w hw)
    rw [put_cons, i1, i2, h2, h3, ← put_cons]
    exact ⟨rfl, rfl⟩

/-! ### The memory of a cache -/

/-- The memory of a cache has the lines `held`, with the bytes `f`. -/
structure MRep (m : AD) (bs total : Nat) (held : Nat → Bool) (f : Nat → UInt8) : Prop where
  wf : WF m
  ls : m.lineSize = bs
  size : m.size = total
  lines : ∀ i, (m.find i).isSome = held i
  data : ∀ a, held (a / bs) = true → m.byteAt a = f a

theorem MRep.congr {m bs total held f g} (h : MRep m bs total held f) (e : ∀ a, held (a / bs) = true → f a = g a) :
    MRep m bs total held g :=
  ⟨h.wf, h.ls, h.size, h.lines, fun a ha => (h.data a ha).trans (e a ha)⟩

theorem missing_eq {m bs total held f} (h : MRep m bs total held f) {a : Nat} (ha : a < total) :
    missing m a = some (!held (a / bs)) := by
  unfold missing
  rw [if_pos (by rw [h.size]; exact ha), ArchData.lineIdx_eq, h.ls, ← h.lines]
  cases m.find (a / bs) <;> rfl

theorem peek_held {m bs total held f} (h : MRep m bs total held f) {a k : Nat} (ha : a < total)
    (hb : a % bs + k ≤ bs) (hh : held (a / bs) = true) : m.peek a k = some (bytes f a k) := by
  unfold AD.peek
  rw [if_pos (by rw [h.size]; exact ha), ArchData.lineIdx_eq, h.ls]
  have h0 : 0 < bs := by rw [← h.ls]; exact ArchData.lineSize_pos m
  have hs := h.lines (a / bs)
  rw [hh] at hs
  obtain ⟨l, hl⟩ := Option.isSome_iff_exists.1 hs
  rw [hl]
  have hsz : bs ≤ 2 ^ 31 := by rw [← h.ls]; exact ArchData.lineSize_le h.wf
  show ArchData.Line.read l bs (a % bs) k = _
  unfold ArchData.Line.read
  rw [ArchData.wrap_le (Nat.lt_of_le_of_lt (Nat.le_trans hb hsz) (Nat.pow_lt_pow_right (by omega) (by omega))), if_pos hb]
  congr 1
  unfold CachedMem.bytes
  apply List.map_congr_left
  intro j hj
  rw [List.mem_range] at hj
  obtain ⟨h1, h2⟩ := ArchData.in_line h0 hb hj
  rw [← h.data (a + j) (by rw [h1]; exact hh)]
  unfold AD.byteAt
  rw [h.ls, h1, hl, h2]

theorem write_find (m : AD) (hf : ArchData.FillOk m.fill m.fsz) (a : Nat) (bs : Bytes) (i : Nat)
    (hh : (m.find (a / m.lineSize)).isSome = true) : ((m.write a bs).1.find i).isSome = (m.find i).isSome := by
  unfold AD.write
  by_cases ha : a < m.size
  · obtain ⟨q, l, h1, cfg, h3, _, h5, h6, _⟩ := ArchData.getLine_spec m hf a ha
    obtain ⟨l', hl'⟩ := Option.isSome_iff_exists.1 hh
    have hq : (q.find i).isSome = (m.find i).isSome := by
      by_cases e : i = a / m.lineSize
      · rw [e, h3, hl']; rfl
      · rw [h5 i e]
    rw [h1]
    dsimp only
    split
    · rw [ArchData.find_modify]
      split
      · rw [← hq]; cases q.find i <;> rfl
      · exact hq
    · exact hq
  · have : m.getLine a = none := by unfold AD.getLine; rw [if_neg ha]
    rw [this]

theorem write_held {m bs total held f} (h : MRep m bs total held f) {a : Nat} {d : Bytes} (ha : a < total)
    (hb : a % bs + d.length ≤ bs) (hh : held (a / bs) = true) :
    ∃ m', m.write a d = (m', true) ∧ MRep m' bs total held (put f a d) := by
  have hsz : bs ≤ 2 ^ 31 := by rw [← h.ls]; exact ArchData.lineSize_le h.wf
  have hd : d.length < 2 ^ 63 := Nat.lt_of_le_of_lt (Nat.le_trans (Nat.le_trans (Nat.le_add_left ..) hb) hsz)
    (Nat.pow_lt_pow_right (by omega) (by omega))
  obtain ⟨w, cfg, hok, hmem, -⟩ := ArchData.write_spec h.wf a d hd
  have hok' : (m.write a d).2 = true := hok.2 ⟨by rw [h.size]; exact ha, by rw [h.ls]; exact hb⟩
  refine ⟨(m.write a d).1, Prod.ext rfl hok', w, cfg.lineSize.trans h.ls, cfg.2.2.2.2.1.trans h.size, ?_, ?_⟩
  · intro i
    rw [write_find m h.wf.fill a d i (by rw [h.ls, h.lines]; exact hh), h.lines]
  · intro x hx
    rw [hmem x]
    unfold put
    by_cases hc : a ≤ x ∧ x < a + d.length
    · rw [if_pos ⟨hok', hc⟩, if_pos hc]
    · rw [if_neg (fun hh => hc hh.2), if_neg hc]; exact h.data x hx

/-- loading of a whole block that is not held -/
theorem loadLine_spec {m bs total held f} (h : MRep m bs total held f) {a : Nat} (ha : a < total)
    (hal : a % bs = 0) :
    ∃ m', loadLine m a (bytes f a bs) = some m' ∧ MRep m' bs total (upd held (a / bs) true) f := by
  have h0 : 0 < bs := by rw [← h.ls]; exact ArchData.lineSize_pos m
  have ha' : a < m.size := by rw [h.size]; exact ha
  obtain ⟨q, l, h1, cfg, h3, h4, h5, h6, _⟩ := ArchData.getLine_spec m h.wf.fill a ha'
  have hq := ArchData.getLine_wf h.wf ha' h1
  unfold loadLine
  rw [h1]
  have hls : q.lineSize = bs := cfg.lineSize.trans h.ls
  refine ⟨_, rfl, ArchData.modify_wf hq _ _, hls, cfg.2.2.2.2.1.trans h.size, ?_, ?_⟩
  · intro i
    rw [ArchData.find_modify, ArchData.lineIdx_eq, hls]
    by_cases e : i = a / bs
    · rw [if_pos e, e, upd_same, ← h.ls, h3]; rfl
    · rw [if_neg e, h5 i (by rw [h.ls]; exact e), upd_other _ _ e, h.lines]
  · intro x hx
    unfold AD.byteAt
    have hls' : AD.lineSize (q.modify (q.lineIdx a) fun l => ⟨ArchData.overwrite l.data 0 (CachedMem.bytes f a bs), l.dirty⟩) = bs := hls
    rw [hls', ArchData.find_modify, ArchData.lineIdx_eq, hls]
    by_cases e : x / bs = a / bs
    · rw [if_pos e, e, ← h.ls, h3]
      show ArchData.overwrite l.data 0 _ _ = _
      rw [h.ls]
      unfold ArchData.overwrite
      have hm := Nat.mod_lt x h0
      rw [if_pos (by simpa using hm), Nat.sub_zero, bytes_getD hm]
      have := ArchData.same_line h0 e
      rw [hal] at this
      rw [← this, Nat.add_zero]
    · rw [if_neg e]
      rw [upd_other _ _ e] at hx
      rw [h5 _ (by rw [h.ls]; exact e)]
      have := h.data x hx
      unfold AD.byteAt at this
      rw [h.ls] at this
      have hs := h.lines (x / bs)
      rw [hx] at hs
      obtain ⟨l', hl'⟩ := Option.isSome_iff_exists.1 hs
      rw [hl'] at this ⊢
      exact this

end Sparta.CachedMem
