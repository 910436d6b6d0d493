import Verif.CircularBuffer.Spec
import Verif.ListLemmas
/-! Representation invariant of the circular buffer and its preservation. -/
namespace Sparta.CircularBuffer
variable {α : Type}

structure RepB (b : Buf α) (cap : Nat) (l : List α) (used : Nat) : Prop where
  max : b.maxSize = cap
  num : b.numValid = b.data.length
  dat : b.data.map Node.data = l
  win : ∀ (i : Nat) (n : Node α), b.data[i]? = some n → n.win = b.startIdx + i
  endI : b.endIdx = b.startIdx + b.data.length
  nodup : (b.data.map Node.id).Nodup
  fresh : ∀ n ∈ b.data, n.id < b.fresh
  le : b.data.length ≤ cap
  used : b.endIdx = used

def RepI (b : Buf α) : SIter → Iter → Prop
  | .null, it => it = Iter.null
  | .elem i, it => ∃ n, b.data[i]? = some n ∧ it = ⟨true, some n.id, b.startIdx + i⟩
  | .past, it => it = ⟨true, none, b.endIdx⟩
  | .dead, it => it.attached = true ∧ it.win < b.startIdx
  | .stale, it => it.attached = true

structure Rep (w : World α) (s : Spec α) : Prop where
  buf : RepB w.buf s.cap s.seq s.used
  regs : ∀ r, RepI w.buf (s.regs r) (w.regs r)

theorem rep_init (n : Nat) : Rep (World.init α n) (Spec.init α n) where
  buf := ⟨rfl, rfl, rfl, by simp [World.init, Buf.init], rfl, by simp [World.init, Buf.init],
    by simp [World.init, Buf.init], Nat.zero_le _, rfl⟩
  regs := fun _ => rfl

namespace RepB
variable {b : Buf α} {cap used : Nat} {l : List α}

theorem length (h : RepB b cap l used) : l.length = b.data.length := by rw [← h.dat, List.length_map]

theorem getElem? (h : RepB b cap l used) (i : Nat) : l[i]? = b.data[i]?.map Node.data := by
  rw [← h.dat, List.getElem?_map]

theorem nil_iff (h : RepB b cap l used) : l = [] ↔ b.data = [] := by rw [← h.dat]; simp

theorem pos_eq (h : RepB b cap l used) {i : Nat} {n : Node α} (hn : b.data[i]? = some n) : b.pos n.id = some i := by
  obtain ⟨hi, e⟩ := List.getElem?_eq_some_iff.1 hn
  unfold Buf.pos
  rw [List.findIdx?_eq_some_iff_getElem]
  refine ⟨hi, by rw [e]; simp, fun j hj => ?_⟩
  have : b.data[j].id ≠ n.id := by
    intro hc
    have := nodup_getElem_inj h.nodup (i := j) (j := i) (by rw [List.length_map]; omega)
      (by rw [List.length_map]; omega) (by simp [hc, e])
    omega
  simpa using this

theorem find_eq (h : RepB b cap l used) {i : Nat} {n : Node α} (hn : b.data[i]? = some n) :
    b.data.find? (fun m => m.id == n.id) = some n := by
  have := h.pos_eq hn
  unfold Buf.pos at this
  obtain ⟨hi, e⟩ := List.getElem?_eq_some_iff.1 hn
  obtain ⟨_, _, h3⟩ := List.findIdx?_eq_some_iff_getElem.1 this
  rw [List.find?_eq_some_iff_getElem]
  exact ⟨by simp, i, hi, e, fun j hj => by have := h3 j hj; simpa using this⟩

theorem valid_iff (h : RepB b cap l used) (hu : used < 2 ^ 32) {w : Nat} (hw : w ≤ b.endIdx) :
    b.isValidIterator w = decide (b.startIdx ≤ w ∧ w < b.endIdx) := by
  have := h.used
  unfold Buf.isValidIterator
  rw [Nat.mod_eq_of_lt (by omega)]
  simp

theorem valid_pred (h : RepB b cap l used) (hu : used < 2 ^ 32) {w : Nat} (hw : w ≤ b.endIdx) :
    b.isValidIterator (u64pred w) = decide (b.startIdx < w) := by
  have := h.used
  unfold u64pred
  split
  · rename_i e
    unfold Buf.isValidIterator
    have : ¬ (18446744073709551615 % 2 ^ 32 < b.endIdx) := by omega
    simp [this, e]
  · rw [h.valid_iff hu (by omega)]
    simp only [decide_eq_decide]
    omega

end RepB

/-! iterator validity -/
def SIter.isElem : SIter → Bool
  | .elem _ => true
  | _ => false

section iter
variable {b : Buf α} {cap used : Nat} {l : List α} {x : SIter} {it : Iter}

theorem some_at (h : RepB b cap l used) {i : Nat} {n : Node α} (hn : b.data[i]? = some n) : i < l.length := by
  obtain ⟨hi, _⟩ := List.getElem?_eq_some_iff.1 hn
  rw [h.length]; exact hi

theorem iterValid_eq (h : RepB b cap l used) (hu : used < 2 ^ 32) (hx : RepI b x it) (hs : x ≠ .stale) :
    b.iterValid it = x.isElem := by
  have he := h.endI
  cases x with
  | null => simp only [RepI] at hx; subst hx; simp [Buf.iterValid, Iter.null, SIter.isElem]
  | elem i =>
    obtain ⟨n, hn, rfl⟩ := hx
    have hi := (List.getElem?_eq_some_iff.1 hn).1
    unfold Buf.iterValid
    dsimp only
    rw [h.valid_iff hu (by omega)]
    simp [SIter.isElem]; omega
  | past =>
    simp only [RepI] at hx; subst hx
    unfold Buf.iterValid
    dsimp only
    rw [h.valid_iff hu (by omega)]; simp [SIter.isElem]
  | dead =>
    obtain ⟨h1, h2⟩ := hx
    unfold Buf.iterValid
    rw [h.valid_iff hu (by omega)]
    simp [SIter.isElem]; omega
  | stale => exact absurd rfl hs

/-- agreement of an iterator result with its specification -/
def AgreeI (b : Buf α) : Option SIter → Out Iter → Prop
  | some x, .ok it => RepI b x it
  | none, .threw => True
  | _, _ => False

theorem inc_rep (s : Spec α) (h : RepB b cap s.seq used) (hu : used < 2 ^ 32) (hx : RepI b x it) (hs : x ≠ .stale) :
    AgreeI b (s.next x) (b.inc it) := by
  have hv := iterValid_eq h hu hx hs
  cases x with
  | elem i =>
    obtain ⟨n, hn, rfl⟩ := hx
    have hlt := (List.getElem?_eq_some_iff.1 hn).1
    have e : b.listNext (some n.id) = .ok (b.data[i + 1]?.map Node.id) := by
      simp only [Buf.listNext, h.pos_eq hn]
    dsimp only [SIter.isElem] at hv
    simp only [Buf.inc, hv, e, if_true, Spec.next, AgreeI, h.length]
    have he := h.endI
    by_cases hc : i + 1 < b.data.length
    · rw [if_pos hc]
      exact ⟨b.data[i + 1], List.getElem?_eq_getElem hc, by rw [List.getElem?_eq_getElem hc]; rfl⟩
    · rw [if_neg hc]
      show _ = _
      rw [List.getElem?_eq_none (by omega)]
      simp; omega
  | stale => exact absurd rfl hs
  | null => simp only [RepI] at hx; subst hx; simp [Buf.inc, Iter.null, Spec.next, AgreeI]
  | past => simp only [RepI] at hx; subst hx; simp [SIter.isElem] at hv; simp [Buf.inc, hv, Spec.next, AgreeI]
  | dead => simp [SIter.isElem] at hv; simp [Buf.inc, hv, Spec.next, AgreeI]

theorem dec_rep (s : Spec α) (h : RepB b cap s.seq used) (hu : used < 2 ^ 32) (hx : RepI b x it) (hs : x ≠ .stale) :
    AgreeI b (s.prev x) (b.dec it) := by
  have he := h.endI
  cases x with
  | elem i =>
    obtain ⟨n, hn, rfl⟩ := hx
    have hlt := (List.getElem?_eq_some_iff.1 hn).1
    have hv : b.isValidIterator (u64pred (b.startIdx + i)) = decide (b.startIdx < b.startIdx + i) :=
      h.valid_pred hu (by omega)
    cases i with
    | zero =>
      have hv' : b.isValidIterator (u64pred (b.startIdx + 0)) = false := by rw [hv]; simp
      simp only [Buf.dec, hv', Spec.prev, AgreeI, if_true]
      simp
    | succ i =>
      have e : b.listPrev (some n.id) = .ok (b.data[i]?.map Node.id) := by
        simp only [Buf.listPrev, h.pos_eq hn]
      have hv' : b.isValidIterator (u64pred (b.startIdx + (i + 1))) = true := by rw [hv]; simp
      have hi : i < b.data.length := by omega
      simp only [Buf.dec, hv', e, if_true, Spec.prev, AgreeI]
      refine ⟨b.data[i], List.getElem?_eq_getElem hi, ?_⟩
      rw [List.getElem?_eq_getElem hi]
      have : u64pred (b.startIdx + (i + 1)) = b.startIdx + i := by unfold u64pred; split <;> omega
      rw [this]; rfl
  | stale => exact absurd rfl hs
  | null => simp only [RepI] at hx; subst hx; simp [Buf.dec, Iter.null, Spec.prev, AgreeI]
  | past =>
    simp only [RepI] at hx; subst hx
    have hv : b.isValidIterator (u64pred b.endIdx) = decide (b.startIdx < b.endIdx) := h.valid_pred hu (Nat.le_refl _)
    simp only [Spec.prev]
    by_cases hc : s.seq = []
    · have : b.data = [] := h.nil_iff.1 hc
      have hv' : b.isValidIterator (u64pred b.endIdx) = false := by rw [hv]; simp [he, this]
      simp [Buf.dec, hv', hc, AgreeI]
    · have hd : b.data ≠ [] := fun e => hc (h.nil_iff.2 e)
      have hpos := List.length_pos_iff.2 hd
      have hv' : b.isValidIterator (u64pred b.endIdx) = true := by rw [hv]; simp; omega
      have e : b.listPrev none = .ok (b.data.getLast?.map Node.id) := by
        unfold Buf.listPrev; simp [hd]
      simp only [Buf.dec, hv', e, if_true, if_neg hc, AgreeI]
      rw [h.length]
      have hi : b.data.length - 1 < b.data.length := by omega
      refine ⟨b.data[b.data.length - 1], List.getElem?_eq_getElem hi, ?_⟩
      rw [List.getLast?_eq_getElem?, List.getElem?_eq_getElem hi]
      have : u64pred b.endIdx = b.startIdx + (b.data.length - 1) := by unfold u64pred; split <;> omega
      rw [this]; rfl
  | dead =>
    obtain ⟨h1, h2⟩ := hx
    have hv : b.isValidIterator (u64pred it.win) = false := by
      rw [h.valid_pred hu (by omega)]; simp; omega
    simp [Buf.dec, hv, Spec.prev, AgreeI]

def outVal : Option α → Out α
  | some v => .ok v
  | none => .threw

theorem listAt_eq (h : RepB b cap l used) {i : Nat} {n : Node α} (hn : b.data[i]? = some n) :
    b.listAt (some n.id) = .ok n.data := by
  simp only [Buf.listAt, h.find_eq hn]

theorem deref_rep (s : Spec α) (h : RepB b cap s.seq used) (hu : used < 2 ^ 32) (hx : RepI b x it) (hs : x ≠ .stale) :
    b.deref it = outVal (s.at_ x) := by
  have hv := iterValid_eq h hu hx hs
  cases x with
  | elem i =>
    obtain ⟨n, hn, rfl⟩ := hx
    dsimp only [SIter.isElem] at hv
    simp only [Buf.deref, hv, if_true, listAt_eq h hn, Spec.at_, h.getElem? i, hn]
    rfl
  | stale => exact absurd rfl hs
  | null => simp only [RepI] at hx; subst hx; simp [Buf.deref, Iter.null, Spec.at_, outVal]
  | past => dsimp only [SIter.isElem] at hv; simp [Buf.deref, hv, Spec.at_, outVal]
  | dead => dsimp only [SIter.isElem] at hv; simp [Buf.deref, hv, Spec.at_, outVal]

theorem at_isSome (s : Spec α) (h : RepB b cap s.seq used) (hu : used < 2 ^ 32) (hx : RepI b x it) (hs : x ≠ .stale) :
    b.iterValid it = (s.at_ x).isSome := by
  rw [iterValid_eq h hu hx hs]
  cases x with
  | elem i =>
    obtain ⟨n, hn, rfl⟩ := hx
    simp [Spec.at_, h.getElem? i, hn, SIter.isElem]
  | _ => rfl

theorem begin_rep (s : Spec α) (h : RepB b cap s.seq used) : RepI b s.first b.begin := by
  unfold Spec.first Buf.begin
  rw [h.num]
  cases hd : b.data with
  | nil => rw [if_pos (h.nil_iff.2 hd)]; simp [RepI]
  | cons n t =>
    rw [if_neg (fun e => by have := h.nil_iff.1 e; simp [hd] at this)]
    have hn : b.data[0]? = some n := by rw [hd]; rfl
    simp only [List.length_cons, ne_eq, Nat.add_eq_zero_iff, Nat.one_ne_zero, and_false, not_false_eq_true, if_true]
    exact ⟨n, hn, by have := h.win 0 n hn; simp [this]⟩

theorem advance_rep (s : Spec α) (h : RepB b cap s.seq used) (hu : used < 2 ^ 32) (k i : Nat)
    (hx : RepI b (.elem i) it) (hk : i + k < s.seq.length) :
    ∃ it', b.advance k it = .ok it' ∧ RepI b (.elem (i + k)) it' := by
  induction k generalizing i it with
  | zero => exact ⟨it, rfl, hx⟩
  | succ k ih =>
    have := inc_rep s h hu hx (by simp)
    simp only [Spec.next, if_pos (show i + 1 < s.seq.length by omega)] at this
    unfold Buf.advance
    cases e : b.inc it with
    | ok j =>
      rw [e] at this
      obtain ⟨it', e1, e2⟩ := ih (i + 1) this (by omega)
      exact ⟨it', e1, by rw [show i + (k + 1) = i + 1 + k by omega]; exact e2⟩
    | threw => rw [e] at this; exact this.elim
    | ub => rw [e] at this; exact this.elim

theorem get_rep (s : Spec α) (h : RepB b cap s.seq used) (hu : used < 2 ^ 32) (i : Nat) :
    b.get i = outVal s.seq[i]? := by
  unfold Buf.get
  rw [h.num, ← h.length]
  by_cases hi : i < s.seq.length
  · rw [if_pos hi]
    have hb := begin_rep s h
    unfold Spec.first at hb
    rw [if_neg (by intro e; simp [e] at hi)] at hb
    obtain ⟨it', e1, e2⟩ := advance_rep s h hu i 0 hb (by omega)
    rw [e1]
    show b.deref it' = _
    rw [deref_rep s h hu e2 (by simp)]
    simp [Spec.at_]
  · rw [if_neg hi, List.getElem?_eq_none (by omega)]; rfl

end iter

/-! renumbering -/
theorem renumber_length (w : Nat) (l : List (Node α)) : (renumber w l).length = l.length := by
  induction l generalizing w with
  | nil => rfl
  | cons n l ih => simp [renumber, ih]

theorem renumber_get (w : Nat) (l : List (Node α)) (i : Nat) :
    (renumber w l)[i]? = l[i]?.map (fun n => { n with win := w + i }) := by
  induction l generalizing w i with
  | nil => rfl
  | cons n l ih =>
    cases i with
    | zero => rfl
    | succ i => simp only [renumber, List.getElem?_cons_succ, ih]; congr 2; funext n; congr 1; omega

theorem renumber_data (w : Nat) (l : List (Node α)) : (renumber w l).map Node.data = l.map Node.data := by
  induction l generalizing w with
  | nil => rfl
  | cons n l ih => simp [renumber, ih]

theorem renumber_id (w : Nat) (l : List (Node α)) : (renumber w l).map Node.id = l.map Node.id := by
  induction l generalizing w with
  | nil => rfl
  | cons n l ih => simp [renumber, ih]

theorem renumber_fresh {w k : Nat} {l : List (Node α)} (h : ∀ n ∈ l, n.id < k) : ∀ n ∈ renumber w l, n.id < k := by
  intro n hn
  have : n.id ∈ (renumber w l).map Node.id := List.mem_map_of_mem hn
  rw [renumber_id] at this
  obtain ⟨m, hm, e⟩ := List.mem_map.1 this
  rw [← e]; exact h m hm

theorem invalidate_rep {b : Buf α} {cap : Nat} {l : List α} (hmax : b.maxSize = cap) (hnum : b.numValid = b.data.length)
    (hdat : b.data.map Node.data = l) (hnd : (b.data.map Node.id).Nodup) (hf : ∀ n ∈ b.data, n.id < b.fresh)
    (hle : b.data.length ≤ cap) : RepB b.invalidateIndexes cap l (b.endIdx + 1 + b.data.length) where
  max := hmax
  num := by simp [Buf.invalidateIndexes, renumber_length, hnum]
  dat := by simp [Buf.invalidateIndexes, renumber_data, hdat]
  win := by
    intro i n hn
    simp only [Buf.invalidateIndexes] at hn ⊢
    rw [renumber_get] at hn
    obtain ⟨m, _, rfl⟩ := Option.map_eq_some_iff.1 hn
    rfl
  endI := by simp [Buf.invalidateIndexes, renumber_length]
  nodup := by simp only [Buf.invalidateIndexes, renumber_id]; exact hnd
  fresh := renumber_fresh hf
  le := by simp only [Buf.invalidateIndexes, renumber_length]; exact hle
  used := rfl

/-- iterators when the window moves past everything handed out so far -/
theorem kill_rep {b b' : Buf α} {cap used : Nat} {l : List α} (h : RepB b cap l used) {x : SIter} {it : Iter}
    (hx : RepI b x it) (hs : b.endIdx ≤ b'.startIdx) : RepI b' x.kill it := by
  have := h.endI
  cases x with
  | null => exact hx
  | elem i =>
    obtain ⟨n, hn, rfl⟩ := hx
    have := (List.getElem?_eq_some_iff.1 hn).1
    exact ⟨rfl, by show b.startIdx + i < _; omega⟩
  | past => simp only [RepI] at hx; subst hx; rfl
  | dead => exact ⟨hx.1, by have := hx.2; omega⟩
  | stale => exact hx

theorem nodup_append_fresh {l : List (Node α)} {n : Node α} (hnd : (l.map Node.id).Nodup) (hf : ∀ m ∈ l, m.id < n.id) :
    ((l ++ [n]).map Node.id).Nodup := by
  rw [List.map_append, List.nodup_append]
  refine ⟨hnd, by simp, ?_⟩
  intro a ha c hc
  obtain ⟨m, hm, rfl⟩ := List.mem_map.1 ha
  simp at hc; subst hc
  exact Nat.ne_of_lt (hf m hm)

/-- push -/
theorem push_rep {w : World α} {s : Spec α} (h : Rep w s) (v : α) :
    ∃ b', w.buf.pushBack v = .ok b' ∧ Rep ⟨b', w.regs⟩ (s.push v) := by
  have hb := h.buf
  have he := hb.endI
  have hlen := hb.length
  have hnd := nodup_append_fresh (n := ⟨w.buf.fresh, v, w.buf.endIdx⟩) hb.nodup hb.fresh
  have hwin : ∀ (i : Nat) (n : Node α), (w.buf.data ++ [⟨w.buf.fresh, v, w.buf.endIdx⟩])[i]? = some n →
      n.win = w.buf.startIdx + i := by
    intro i n hn
    rw [List.getElem?_append] at hn
    split at hn
    · exact hb.win i n hn
    · rename_i hi
      obtain ⟨h1, h2⟩ := List.getElem?_eq_some_iff.1 hn
      simp at h1
      have : i = w.buf.data.length := by omega
      subst this
      simp at h2
      rw [← h2]; exact he
  have hfr : ∀ n ∈ w.buf.data ++ [⟨w.buf.fresh, v, w.buf.endIdx⟩], n.id < w.buf.fresh + 1 := by
    intro n hn
    rcases List.mem_append.1 hn with h1 | h1
    · have := hb.fresh n h1; omega
    · simp at h1; subst h1; simp
  unfold Spec.push Buf.pushBack
  dsimp only
  by_cases hc : w.buf.numValid = w.buf.maxSize
  · rw [if_pos hc, if_pos (show s.seq.length = s.cap by rw [hlen, ← hb.num, hc, hb.max])]
    have hl : (w.buf.data ++ [(⟨w.buf.fresh, v, w.buf.endIdx⟩ : Node α)]).tail.length = w.buf.data.length := by simp
    simp only
    rw [if_pos (by rw [hl, hb.num]; exact Nat.le_refl _)]
    refine ⟨_, rfl, ⟨hb.max, by rw [hl]; exact hb.num, ?_, ?_, ?_, ?_, ?_, by rw [hl]; exact hb.le, ?_⟩, ?_⟩
    · rw [List.map_tail, List.map_append, hb.dat]; rfl
    · intro i n hn
      dsimp only at hn ⊢
      rw [List.getElem?_tail] at hn
      have := hwin _ n hn
      omega
    · dsimp only; rw [hl]; omega
    · dsimp only; rw [List.map_tail]
      exact hnd.sublist (List.tail_sublist _)
    · intro n hn; exact hfr n (List.mem_of_mem_tail hn)
    · dsimp only; rw [hb.used]
    · intro r
      have hr := h.regs r
      dsimp only
      cases hx : s.regs r with
      | null => rw [hx] at hr; exact hr
      | stale => rw [hx] at hr; exact hr
      | dead => rw [hx] at hr; exact ⟨hr.1, by have := hr.2; dsimp only; omega⟩
      | past => rw [hx] at hr; simp only [RepI] at hr; rw [hr]; rfl
      | elem i =>
        rw [hx] at hr
        obtain ⟨n, hn, e⟩ := hr
        have hi := (List.getElem?_eq_some_iff.1 hn).1
        rw [e]
        cases i with
        | zero => exact ⟨rfl, by dsimp only; omega⟩
        | succ i =>
          refine ⟨n, ?_, ?_⟩
          · dsimp only; rw [List.getElem?_tail, List.getElem?_append_left hi]; exact hn
          · dsimp only; congr 1; omega
  · rw [if_neg hc, if_neg (show ¬ s.seq.length = s.cap by rw [hlen, ← hb.num, ← hb.max]; exact hc)]
    have hl : (w.buf.data ++ [(⟨w.buf.fresh, v, w.buf.endIdx⟩ : Node α)]).length = w.buf.data.length + 1 := by simp
    simp only
    rw [if_pos (by rw [hl, hb.num]; exact Nat.le_refl _)]
    have hle := hb.le
    have hmx := hb.max
    have hnm := hb.num
    refine ⟨_, rfl, ⟨hb.max, by rw [hl, ← hb.num], ?_, hwin, ?_, hnd, hfr, by rw [hl]; show _ ≤ s.cap; omega, ?_⟩, ?_⟩
    · rw [List.map_append, hb.dat]; rfl
    · dsimp only; rw [hl]; omega
    · dsimp only; rw [hb.used]
    · intro r
      have hr := h.regs r
      dsimp only
      cases hx : s.regs r with
      | null => rw [hx] at hr; exact hr
      | stale => rw [hx] at hr; exact hr
      | dead => rw [hx] at hr; exact hr
      | past => rw [hx] at hr; simp only [RepI] at hr; rw [hr]; rfl
      | elem i =>
        rw [hx] at hr
        obtain ⟨n, hn, e⟩ := hr
        have hi := (List.getElem?_eq_some_iff.1 hn).1
        exact ⟨n, by dsimp only; rw [List.getElem?_append_left hi]; exact hn, e⟩

/-- erase of a present element -/
theorem eraseNode_rep {w : World α} {s : Spec α} (h : Rep w s) {i : Nat} {n : Node α}
    (hn : w.buf.data[i]? = some n) :
    ∃ b', w.buf.eraseNode (some n.id) = .ok b' ∧ Rep ⟨b', w.regs⟩ (s.eraseAt i) := by
  have hb := h.buf
  have hi := (List.getElem?_eq_some_iff.1 hn).1
  simp only [Buf.eraseNode, hb.pos_eq hn]
  refine ⟨_, rfl, ?_, fun r => kill_rep hb (h.regs r) (by simp [Buf.invalidateIndexes])⟩
  have hle := hb.le
  have hl : (w.buf.data.eraseIdx i).length = w.buf.data.length - 1 := by rw [List.length_eraseIdx_of_lt hi]
  have := invalidate_rep (b := { w.buf with data := w.buf.data.eraseIdx i, numValid := w.buf.numValid - 1 })
    (cap := s.cap) (l := s.seq.eraseIdx i) hb.max (by simp [hl, hb.num])
    (by rw [← hb.dat]; exact (map_eraseIdx _ _ _))
    (by dsimp only; exact hb.nodup.sublist (List.Sublist.map _ (List.eraseIdx_sublist ..)))
    (fun n hn => hb.fresh n (List.mem_of_mem_eraseIdx hn)) (by dsimp only; omega)
  dsimp only at this
  rw [hl, show w.buf.endIdx + 1 + (w.buf.data.length - 1) = s.used + s.seq.length by rw [hb.length, hb.used]; omega] at this
  exact this

theorem insertIdx_mem {β : Type _} {l : List β} {i : Nat} {a b : β} (h : a ∈ l.insertIdx i b) : a = b ∨ a ∈ l := by
  by_cases hi : i ≤ l.length
  · exact (List.mem_insertIdx hi).1 h
  · rw [List.insertIdx_of_length_lt (by omega)] at h; exact Or.inr h


/-- insert before a present element -/
theorem insert_rep {w : World α} {s : Spec α} (h : Rep w s) (hu : s.used < 2 ^ 32) {i : Nat} {it : Iter} (v : α)
    (hx : RepI w.buf (.elem i) it) (hc : s.seq.length < s.cap) :
    ∃ b' it', w.buf.insert it v = .ok (b', it') ∧ RepB b' s.cap (s.seq.insertIdx i v) (s.used + s.seq.length + 2) ∧
      RepI b' (.elem i) it' ∧ w.buf.endIdx ≤ b'.startIdx := by
  have hb := h.buf
  have hv := iterValid_eq hb hu hx (by simp)
  obtain ⟨n, hn, rfl⟩ := hx
  have hi := (List.getElem?_eq_some_iff.1 hn).1
  have hne : w.buf.data.isEmpty = false := by
    cases hd : w.buf.data with
    | nil => simp [hd] at hi
    | cons _ _ => rfl
  dsimp only [SIter.isElem] at hv
  have hl : ∀ n : Node α, (w.buf.data.insertIdx i n).length = w.buf.data.length + 1 := by
    intro n; rw [List.length_insertIdx]; simp [Nat.le_of_lt hi]
  have hrep := invalidate_rep (b := { w.buf with data := w.buf.data.insertIdx i ⟨w.buf.fresh, v, w.buf.endIdx⟩, numValid := w.buf.numValid + 1, fresh := w.buf.fresh + 1 })
    (cap := s.cap) (l := s.seq.insertIdx i v) hb.max (by dsimp only; rw [hl, hb.num])
    (by rw [← hb.dat]; exact (map_insertIdx _ _ _ _))
    (by
      dsimp only
      have hp := (insertIdx_perm w.buf.data (⟨w.buf.fresh, v, w.buf.endIdx⟩ : Node α) (Nat.le_of_lt hi)).map Node.id
      rw [hp.nodup_iff, List.map_cons, List.nodup_cons]
      refine ⟨fun hm => ?_, hb.nodup⟩
      obtain ⟨m, hm, e⟩ := List.mem_map.1 hm
      have := hb.fresh m hm
      dsimp only at e; omega)
    (by
      intro m hm
      dsimp only at hm ⊢
      rcases insertIdx_mem hm with e | hm
      · subst e; simp
      · have := hb.fresh m hm; omega)
    (by dsimp only; rw [hl]; rw [hb.length] at hc; omega)
  dsimp only at hrep
  rw [hl, show w.buf.endIdx + 1 + (w.buf.data.length + 1) = s.used + s.seq.length + 2 by rw [hb.length, hb.used]; omega] at hrep
  generalize hB : Buf.invalidateIndexes { w.buf with data := w.buf.data.insertIdx i ⟨w.buf.fresh, v, w.buf.endIdx⟩, numValid := w.buf.numValid + 1, fresh := w.buf.fresh + 1 } = B at *
  have hat : B.data[i]? = some ⟨w.buf.fresh, v, w.buf.endIdx + 1 + i⟩ := by
    rw [← hB]
    simp only [Buf.invalidateIndexes]
    rw [renumber_get, List.getElem?_insertIdx_self]
    simp [Nat.not_lt.2 (Nat.le_of_lt hi)]
  have hst : B.startIdx = w.buf.endIdx + 1 := by rw [← hB]; rfl
  have hf := hrep.find_eq hat
  dsimp only at hf
  refine ⟨B, ⟨true, some w.buf.fresh, w.buf.endIdx + 1 + i⟩, ?_, hrep, ⟨_, hat, by rw [hst]⟩, by omega⟩
  unfold Buf.insert
  simp only [hne, hv, if_true, Bool.false_eq_true, if_false, Buf.listInsert, hb.pos_eq hn, hB, hf]

theorem write_rep {w : World α} {s : Spec α} (h : Rep w s) (hu : s.used < 2 ^ 32) {i : Nat} {it : Iter} (v : α)
    (hx : RepI w.buf (.elem i) it) :
    ∃ b', w.buf.write it v = .ok b' ∧ Rep ⟨b', w.regs⟩ { s with seq := s.seq.set i v } := by
  have hb := h.buf
  have hd := deref_rep s hb hu hx (by simp)
  obtain ⟨n, hn, rfl⟩ := hx
  have hi := (List.getElem?_eq_some_iff.1 hn).1
  have hd' : w.buf.deref ⟨true, some n.id, w.buf.startIdx + i⟩ = .ok n.data := by
    rw [hd]; simp [Spec.at_, hb.getElem? i, hn, outVal]
  have key : ∀ (j : Nat) (m : Node α), w.buf.data[j]? = some m →
      ((some m.id = some n.id) ↔ j = i) := by
    intro j m hm
    constructor
    · intro e
      have h1 := hb.pos_eq hm
      have h2 := hb.pos_eq hn
      simp only [Option.some.injEq] at e
      rw [e, h2] at h1
      simp at h1; exact h1.symm
    · rintro rfl
      rw [hm] at hn; simp at hn; rw [hn]
  unfold Buf.write
  rw [hd']
  have hid : (w.buf.data.map (fun m => if some m.id = some n.id then { m with data := v } else m)).map Node.id
      = w.buf.data.map Node.id := by
    rw [List.map_map]
    apply List.map_congr_left
    intro m _
    simp only [Function.comp]
    split <;> rfl
  refine ⟨_, rfl, ⟨hb.max, by dsimp only; rw [List.length_map]; exact hb.num, ?_, ?_, ?_, ?_, ?_, ?_, hb.used⟩, fun r => ?_⟩
  · dsimp only
    apply List.ext_getElem?
    intro j
    rw [List.getElem?_map, List.getElem?_map, List.getElem?_set, hb.getElem? j]
    rw [hb.length]
    cases hj : w.buf.data[j]? with
    | none =>
      have : w.buf.data.length ≤ j := List.getElem?_eq_none_iff.1 hj
      have : ¬ i = j := by omega
      simp [this]
    | some m =>
      have := key j m hj
      by_cases hij : i = j
      · subst hij
        simp only [Option.map_some, if_pos (this.2 rfl), if_pos hi, if_true]
      · have h2 : ¬ some m.id = some n.id := fun e => hij (this.1 e).symm
        simp only [Option.map_some, if_neg hij, if_neg h2]
  · intro j m hm
    dsimp only at hm ⊢
    rw [List.getElem?_map] at hm
    obtain ⟨m', hm', rfl⟩ := Option.map_eq_some_iff.1 hm
    have := hb.win j m' hm'
    split <;> exact this
  · dsimp only; rw [List.length_map]; exact hb.endI
  · dsimp only; rw [hid]; exact hb.nodup
  · intro m hm
    obtain ⟨m', hm', rfl⟩ := List.mem_map.1 hm
    have := hb.fresh m' hm'
    split <;> exact this
  · dsimp only; rw [List.length_map]; exact hb.le
  · have hr := h.regs r
    dsimp only
    cases hx : s.regs r with
    | elem j =>
      rw [hx] at hr
      obtain ⟨m, hm, e⟩ := hr
      refine ⟨if some m.id = some n.id then { m with data := v } else m, ?_, ?_⟩
      · dsimp only; rw [List.getElem?_map, hm]; rfl
      · rw [e]; split <;> rfl
    | _ => rw [hx] at hr; exact hr

theorem clear_rep {w : World α} {s : Spec α} (h : Rep w s) :
    Rep ⟨w.buf.clear, w.regs⟩ { s with seq := [], regs := fun r => (s.regs r).kill } where
  buf := ⟨h.buf.max, rfl, rfl, by simp [Buf.clear], by simp [Buf.clear], by simp [Buf.clear], by simp [Buf.clear],
    Nat.zero_le _, h.buf.used⟩
  regs := fun r => kill_rep h.buf (h.regs r) (Nat.le_refl _)

theorem set_reg {w : World α} {s : Spec α} (h : Rep w s) {r : Nat} {x : SIter} {it : Iter} (hx : RepI w.buf x it) :
    Rep { w with regs := upd w.regs r it } { s with regs := upd s.regs r x } where
  buf := h.buf
  regs := by
    intro q
    dsimp only
    by_cases e : q = r
    · subst e; rw [upd_same, upd_same]; exact hx
    · rw [upd_other _ _ e, upd_other _ _ e]; exact h.regs q

/-- positions of comparable iterators -/
theorem place_rep {b : Buf α} {cap used : Nat} (s : Spec α) (h : RepB b cap s.seq used) {x : SIter} {it : Iter}
    (hx : RepI b x it) (hc : x.comparable) :
    (s.place x = none ∧ it = Iter.null) ∨ ∃ i, s.place x = some i ∧ it.attached = true ∧ it.win = b.startIdx + i := by
  cases x with
  | null => exact Or.inl ⟨rfl, hx⟩
  | elem i => obtain ⟨n, hn, rfl⟩ := hx; exact Or.inr ⟨i, rfl, rfl, rfl⟩
  | past =>
    simp only [RepI] at hx
    subst hx
    exact Or.inr ⟨_, rfl, rfl, by rw [h.length]; exact h.endI⟩
  | dead => exact absurd rfl hc.2
  | stale => exact absurd rfl hc.1

theorem value_out (w : World α) (o : Option α) : w.value (outVal o) = (w, resOf o) := by
  cases o <;> rfl

theorem prev_elem {s : Spec α} {y x : SIter} : s.prev y = some x → ∃ i, x = .elem i := by
  cases y with
  | elem i => cases i with
    | zero => simp [Spec.prev]
    | succ i => simp only [Spec.prev]; intro e; cases e; exact ⟨_, rfl⟩
  | past =>
    simp only [Spec.prev]
    split
    · simp
    · intro e; cases e; exact ⟨_, rfl⟩
  | _ => simp [Spec.prev]

theorem rep_step (w : World α) (s : Spec α) (o : Op α) (h : Rep w s) (hl : s.legal o) :
    Rep (step w o).1 (s.step o).1 ∧ (step w o).2 = (s.step o).2 := by
  have hb := h.buf
  obtain ⟨hu, hl⟩ := hl
  cases o with
  | push v =>
    obtain ⟨b', e, hr⟩ := push_rep h v
    simp only [step, Spec.step, e, World.setBuf]
    exact ⟨hr, trivial⟩
  | begin r => exact ⟨set_reg h (begin_rep s hb), rfl⟩
  | end_ r => exact ⟨set_reg h rfl, rfl⟩
  | copy r q => exact ⟨set_reg h (h.regs r), rfl⟩
  | inc r =>
    have := inc_rep s hb hu (h.regs r) hl
    simp only [step, Spec.step]
    generalize s.next (s.regs r) = a at *
    generalize w.buf.inc (w.regs r) = c at *
    match a, c, this with
    | some x, .ok it, this => exact ⟨set_reg h this, rfl⟩
    | none, .threw, _ => exact ⟨h, rfl⟩
  | dec r =>
    have := dec_rep s hb hu (h.regs r) hl
    simp only [step, Spec.step]
    generalize s.prev (s.regs r) = a at *
    generalize w.buf.dec (w.regs r) = c at *
    match a, c, this with
    | some x, .ok it, this => exact ⟨set_reg h this, rfl⟩
    | none, .threw, _ => exact ⟨h, rfl⟩
  | deref r =>
    simp only [step, Spec.step, deref_rep s hb hu (h.regs r) hl, value_out]
    exact ⟨h, trivial⟩
  | write r v =>
    have hr := h.regs r
    have hd := deref_rep s hb hu hr hl
    simp only [step, Spec.step]
    cases hx : s.regs r with
    | elem i =>
      rw [hx] at hr
      obtain ⟨b', e, hr'⟩ := write_rep h hu v hr
      rw [e]; exact ⟨hr', rfl⟩
    | _ =>
      rw [hx] at hd
      have : w.buf.write (w.regs r) v = .threw := by unfold Buf.write; rw [hd]; rfl
      rw [this]; exact ⟨h, rfl⟩
  | isValid r =>
    simp only [step, Spec.step, at_isSome s hb hu (h.regs r) hl]
    exact ⟨h, rfl⟩
  | insert r v q =>
    simp only [step, Spec.step]
    by_cases hn : s.seq = []
    · rw [if_pos hn]
      have hd := hb.nil_iff.1 hn
      obtain ⟨b', e, hr⟩ := push_rep h v
      have : w.buf.insert (w.regs r) v = .ok (b', b'.begin) := by
        unfold Buf.insert; rw [e]; simp [hd]
      rw [this]
      exact ⟨set_reg hr (begin_rep (s.push v) hr.buf), rfl⟩
    · rw [if_neg hn]
      have hl := hl.resolve_left hn
      have hr := h.regs r
      have hv := iterValid_eq hb hu hr hl.1
      have hne : w.buf.data.isEmpty = false := by
        cases hd : w.buf.data with
        | nil => exact absurd (hb.nil_iff.2 hd) hn
        | cons _ _ => rfl
      cases hx : s.regs r with
      | elem i =>
        rw [hx] at hr
        obtain ⟨b', it', e, h1, h2, h3⟩ := insert_rep h hu v hr hl.2
        rw [e]
        refine ⟨⟨h1, fun p => ?_⟩, rfl⟩
        dsimp only
        by_cases hp : p = q
        · subst hp; rw [upd_same, upd_same]; exact h2
        · rw [upd_other _ _ hp, upd_other _ _ hp]; exact kill_rep hb (h.regs p) h3
      | _ =>
        rw [hx] at hv
        dsimp only [SIter.isElem] at hv
        have : w.buf.insert (w.regs r) v = .threw := by unfold Buf.insert; simp [hne, hv]
        rw [this]; exact ⟨h, rfl⟩
  | erase r =>
    have hr := h.regs r
    have hv := iterValid_eq hb hu hr hl
    simp only [step, Spec.step]
    cases hx : s.regs r with
    | elem i =>
      rw [hx] at hr hv
      obtain ⟨n, hn, e⟩ := hr
      obtain ⟨b', e1, hr'⟩ := eraseNode_rep h hn
      dsimp only [SIter.isElem] at hv
      have : w.buf.erase (w.regs r) = .ok b' := by
        unfold Buf.erase; rw [hv, e]; simp [e1]
      rw [this]; exact ⟨hr', rfl⟩
    | _ =>
      rw [hx] at hv
      dsimp only [SIter.isElem] at hv
      have : w.buf.erase (w.regs r) = .threw := by unfold Buf.erase; simp [hv]
      rw [this]; exact ⟨h, rfl⟩
  | revErase r =>
    have hr := h.regs r
    have hd := dec_rep s hb hu hr hl
    simp only [step, Spec.step]
    have hatt : ∀ j, w.buf.dec (w.regs r) = .ok j → (w.regs r).attached = true := by
      intro j; unfold Buf.dec
      cases (w.regs r).attached <;> simp
    cases ha : s.prev (s.regs r) with
    | none =>
      rw [ha] at hd
      cases hc : w.buf.dec (w.regs r) with
      | ok _ => rw [hc] at hd; exact hd.elim
      | ub => rw [hc] at hd; exact hd.elim
      | threw =>
        have : w.buf.revErase (w.regs r) = .threw := by
          unfold Buf.revErase Buf.revValid; rw [hc]; simp
        rw [this]; exact ⟨h, rfl⟩
    | some x =>
      obtain ⟨i, rfl⟩ := prev_elem ha
      rw [ha] at hd
      cases hc : w.buf.dec (w.regs r) with
      | threw => rw [hc] at hd; exact hd.elim
      | ub => rw [hc] at hd; exact hd.elim
      | ok j =>
        rw [hc] at hd
        have hv := iterValid_eq (x := .elem i) hb hu hd (by simp)
        dsimp only [SIter.isElem] at hv
        obtain ⟨n, hn, e⟩ := hd
        obtain ⟨b', e1, hr'⟩ := eraseNode_rep h hn
        have : w.buf.revErase (w.regs r) = .ok b' := by
          unfold Buf.revErase Buf.revValid
          rw [hc, hatt j hc]; dsimp only; rw [hv]; dsimp only; rw [e, if_pos rfl]; exact e1
        rw [this]; exact ⟨hr', rfl⟩
  | revDeref r =>
    have hd := dec_rep s hb hu (h.regs r) hl
    simp only [step, Spec.step]
    have : w.buf.revDeref (w.regs r) = outVal ((s.prev (s.regs r)).bind s.at_) := by
      unfold Buf.revDeref
      cases ha : s.prev (s.regs r) with
      | none =>
        rw [ha] at hd
        cases hc : w.buf.dec (w.regs r) with
        | threw => rfl
        | ok _ => rw [hc] at hd; exact hd.elim
        | ub => rw [hc] at hd; exact hd.elim
      | some x =>
        obtain ⟨i, rfl⟩ := prev_elem ha
        rw [ha] at hd
        cases hc : w.buf.dec (w.regs r) with
        | threw => rw [hc] at hd; exact hd.elim
        | ub => rw [hc] at hd; exact hd.elim
        | ok j => rw [hc] at hd; exact deref_rep (x := .elem i) s hb hu hd (by simp)
    rw [this, value_out]; exact ⟨h, rfl⟩
  | revIsValid r =>
    have hd := dec_rep s hb hu (h.regs r) hl
    simp only [step, Spec.step]
    have : w.buf.revValid (w.regs r) = .ok (s.prev (s.regs r)).isSome := by
      unfold Buf.revValid
      cases ha : s.prev (s.regs r) with
      | none =>
        rw [ha] at hd
        cases hc : w.buf.dec (w.regs r) with
        | threw => rfl
        | ok _ => rw [hc] at hd; exact hd.elim
        | ub => rw [hc] at hd; exact hd.elim
      | some x =>
        obtain ⟨i, rfl⟩ := prev_elem ha
        rw [ha] at hd
        cases hc : w.buf.dec (w.regs r) with
        | threw => rw [hc] at hd; exact hd.elim
        | ub => rw [hc] at hd; exact hd.elim
        | ok j =>
          rw [hc] at hd
          have hv := iterValid_eq (x := .elem i) hb hu hd (by simp)
          dsimp only [SIter.isElem] at hv ⊢
          rw [hv]; rfl
    rw [this]; exact ⟨h, rfl⟩
  | eq r q =>
    simp only [step, Spec.step]
    rcases place_rep s hb (h.regs r) hl.1 with ⟨e1, e2⟩ | ⟨i, e1, e2, e3⟩ <;>
      rcases place_rep s hb (h.regs q) hl.2 with ⟨f1, f2⟩ | ⟨j, f1, f2, f3⟩ <;> rw [e1, f1] <;> refine ⟨?_, ?_⟩
    all_goals first | exact h | (simp_all [Iter.eq, cmp, World.truth, Iter.null]; try rw [Bool.eq_iff_iff]; simp)
  | lt r q =>
    simp only [step, Spec.step]
    rcases place_rep s hb (h.regs r) hl.1 with ⟨e1, e2⟩ | ⟨i, e1, e2, e3⟩ <;>
      rcases place_rep s hb (h.regs q) hl.2 with ⟨f1, f2⟩ | ⟨j, f1, f2, f3⟩ <;> rw [e1, f1] <;> refine ⟨?_, ?_⟩
    all_goals first | exact h | simp_all [Iter.lt, cmp, World.truth, Iter.null] <;> omega
  | gt r q =>
    simp only [step, Spec.step]
    rcases place_rep s hb (h.regs r) hl.1 with ⟨e1, e2⟩ | ⟨i, e1, e2, e3⟩ <;>
      rcases place_rep s hb (h.regs q) hl.2 with ⟨f1, f2⟩ | ⟨j, f1, f2, f3⟩ <;> rw [e1, f1] <;> refine ⟨?_, ?_⟩
    all_goals first | exact h | simp_all [Iter.gt, cmp, World.truth, Iter.null] <;> omega
  | clear => exact ⟨clear_rep h, rfl⟩
  | get i =>
    simp only [step, Spec.step, get_rep s hb hu, value_out]
    exact ⟨h, trivial⟩
  | isValidIdx i =>
    simp only [step, Spec.step, World.truth, hb.num, hb.length]
    exact ⟨h, trivial⟩
  | size =>
    simp only [step, Spec.step, hb.num, hb.length]
    exact ⟨h, trivial⟩
  | numFree =>
    simp only [step, Spec.step, hb.num, hb.length, hb.max]
    exact ⟨h, trivial⟩

end Sparta.CircularBuffer
