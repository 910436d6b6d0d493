import Verif.ArchData.Lemmas2
/-!
Theorems about architectural memories (C52, C82).
-/
namespace Sparta.ArchData

/-- Histories allowed: buffers have fewer than 2^63 bytes; the non-allocating read stays inside the memory, or
the size of the memory is a multiple of the line size (always the case for a `MemoryObject`). -/
def Legal (s : Spec) (os : List Op) : Prop := legalOps Spec.step Spec.legal s os

instance (s : Spec) (o : Op) : Decidable (s.legal o) := by
  cases o <;> unfold Spec.legal <;> infer_instance

instance (s : Spec) (os : List Op) : Decidable (Legal s os) := inferInstanceAs (Decidable (legalOps _ _ _ _))

/-- C52: for every line size, fill value, size and initial values, and every legal history of reads, writes,
cleans and resets, the memory answers like a plain function from addresses to bytes: reads return the bytes,
accesses outside the memory or across a line throw and change nothing. -/
theorem C52_refines {lsb fill fsz size : Nat} {canFree : Bool} {inits : List (Nat × List UInt8)} {m : AD}
    (hs : size ≤ 2 ^ 63) (hi : ∀ p ∈ inits, p.2.length < 2 ^ 63) (hm : AD.init lsb fill fsz canFree size inits = some m)
    (os : List Op) (hl : Legal (Spec.init lsb fill fsz size inits) os) :
    (runOps AD.step m os).2 = (runOps Spec.step (Spec.init lsb fill fsz size inits) os).2 :=
  (runOps_simulation_legal AD.step Spec.step Spec.legal Rep rep_step _ _ (rep_init hs hi hm) os hl).2

/-- 16-byte lines, 2-byte fill pattern 0xabcd, 40 bytes, one initial value -/
def demo : AD := (AD.init 4 0xabcd 2 true 40 [(8, [1, 2])]).getD ⟨0, 0, 0, false, 0, [], []⟩

def demoOps : List Op :=
  [.peek 7 4, .write 14 [5, 6], .write 15 [5, 6], .peek 12 4, .read 33 2, .write 40 [1], .clean, .peek 8 3, .reset,
    .read 9 1]

example : AD.init 4 0xabcd 2 true 40 [(8, [1, 2])] = some demo ∧ (∀ p ∈ [(8, [(1 : UInt8), 2])], p.2.length < 2 ^ 63) ∧
    Legal (Spec.init 4 0xabcd 2 40 [(8, [1, 2])]) demoOps ∧
    (runOps AD.step demo demoOps).2 = [.data [0xab, 1, 2, 0xcd], .ok, .threw, .data [0xcd, 0xab, 5, 6],
      .data [0xab, 0xcd], .threw, .ok, .data [0xcd, 0xab, 0xcd], .ok, .data [2]] := by
  refine ⟨rfl, by decide, by decide, by decide⟩

/-- the byte most recently written to address `x` by an accepted write; the history is given newest first -/
def lastByte (ok : Nat → Nat → Bool) : List Op → Nat → Option UInt8
  | [], _ => none
  | .write a bs :: os, x =>
    if ok a bs.length = true ∧ a ≤ x ∧ x < a + bs.length then some (bs.getD (x - a) 0) else lastByte ok os x
  | _ :: os, x => lastByte ok os x

/-- the address range is inside the memory and within one line -/
def accepted (lsb size a n : Nat) : Bool := a < size && a % 2 ^ lsb + n ≤ 2 ^ lsb

def isAccess : Op → Bool
  | .clean => false
  | .reset => false
  | _ => true

theorem spec_last (lsb fill fsz size : Nat) (os : List Op) (h : ∀ o ∈ os, isAccess o = true) :
    let s := (runOps Spec.step (Spec.init lsb fill fsz size []) os).1
    s.lsb = lsb ∧ s.size = size ∧
      ∀ x, s.mem x = (lastByte (accepted lsb size) os.reverse x).getD (byteOf fill ((x % 2 ^ lsb) % fsz)) := by
  rw [← List.reverse_reverse os] at h ⊢
  generalize os.reverse = l at h ⊢
  rw [List.reverse_reverse]
  induction l with
  | nil => exact ⟨rfl, rfl, fun x => rfl⟩
  | cons o l ih =>
    obtain ⟨h1, h2, h3⟩ := ih (fun o ho => h o (by rw [List.reverse_cons]; exact List.mem_append_left _ ho))
    have ho := h o (by simp)
    rw [List.reverse_cons]
    dsimp only
    rw [runOps_append]
    generalize (runOps Spec.step (Spec.init lsb fill fsz size []) l.reverse).1 = s at h1 h2 h3 ⊢
    show (s.step o).1.lsb = lsb ∧ (s.step o).1.size = size ∧ ∀ x, (s.step o).1.mem x = _
    cases o with
    | read a n => exact ⟨h1, h2, h3⟩
    | peek a n => exact ⟨h1, h2, h3⟩
    | clean => cases ho
    | reset => cases ho
    | write a bs =>
      have hacc : s.inLine a bs.length = accepted lsb size a bs.length := by
        unfold Spec.inLine accepted; rw [h1, h2]
      unfold Spec.step
      dsimp only
      unfold lastByte
      rw [hacc]
      by_cases hi : accepted lsb size a bs.length = true
      · rw [if_pos hi]
        refine ⟨h1, h2, ?_⟩
        intro x
        show (s.store a bs).mem x = _
        unfold Spec.store
        dsimp only
        by_cases hx : a ≤ x ∧ x < a + bs.length
        · rw [if_pos hx, if_pos ⟨hi, hx⟩]; rfl
        · rw [if_neg hx, if_neg (fun hh => hx hh.2)]; exact h3 x
      · rw [if_neg hi]
        refine ⟨h1, h2, ?_⟩
        intro x
        rw [if_neg (fun hh => hi hh.1)]
        exact h3 x

/-- C52: after any history of reads and writes, a read inside one line returns at each address the byte most
recently written there, or the fill pattern; any other read throws. -/
theorem C52_last_write {lsb fill fsz size : Nat} {canFree : Bool} {m : AD} (hs : size ≤ 2 ^ 63)
    (hm : AD.init lsb fill fsz canFree size [] = some m) (os : List Op)
    (ha : ∀ o ∈ os, isAccess o = true) (hl : Legal (Spec.init lsb fill fsz size []) os) (a n : Nat) (hn : n < 2 ^ 63) :
    ((runOps AD.step m os).1.step (.read a n)).2 =
      if a < size ∧ a % 2 ^ lsb + n ≤ 2 ^ lsb then
        .data ((List.range n).map fun j =>
          (lastByte (accepted lsb size) os.reverse (a + j)).getD (byteOf fill (((a + j) % 2 ^ lsb) % fsz)))
      else .threw := by
  have r := (runOps_simulation_legal AD.step Spec.step Spec.legal Rep rep_step _ _
    (rep_init hs (by intro p hp; cases hp) hm) os hl).1
  rw [(rep_read r a n hn).2]
  obtain ⟨h1, h2, h3⟩ := spec_last lsb fill fsz size os ha
  generalize (runOps Spec.step (Spec.init lsb fill fsz size []) os).1 = s at h1 h2 h3 ⊢
  unfold Spec.step
  dsimp only
  have hi : s.inLine a n = true ↔ a < size ∧ a % 2 ^ lsb + n ≤ 2 ^ lsb := by
    unfold Spec.inLine; rw [h1, h2]; simp
  by_cases hc : a < size ∧ a % 2 ^ lsb + n ≤ 2 ^ lsb
  · rw [if_pos hc, if_pos (hi.2 hc)]
    unfold Spec.load
    congr 1
    apply List.map_congr_left
    intro j _
    exact h3 _
  · rw [if_neg hc, if_neg (fun h => hc (hi.1 h))]

example : ∃ m, AD.init 4 0xabcd 2 false 40 [] = some m ∧
    Legal (Spec.init 4 0xabcd 2 40 []) [.write 3 [9, 8, 7], .peek 0 4, .write 4 [1]] ∧
    (runOps AD.step m [.write 3 [9, 8, 7], .peek 0 4, .write 4 [1], .read 2 5]).2 =
      [.ok, .data [0xcd, 0xab, 0xcd, 9], .ok, .data [0xcd, 9, 1, 7, 0xcd]] :=
  ⟨_, rfl, by decide, by decide⟩

/-- C52 for a `MemoryObject`: every access with a buffer below 2^63 bytes is legal. -/
theorem C52_memory_object {lsb fill fsz size : Nat} {m : AD} (hs : size ≤ 2 ^ 63)
    (hm : AD.initMemory lsb fill fsz size = some m) (os : List Op)
    (hb : ∀ o ∈ os, match o with | .read _ n => n < 2 ^ 63 | .peek _ n => n < 2 ^ 63 | .write _ bs => bs.length < 2 ^ 63 | _ => True) :
    (runOps AD.step m os).2 = (runOps Spec.step (Spec.init lsb fill fsz size []) os).2 := by
  unfold AD.initMemory at hm
  split at hm
  · rename_i hc
    refine C52_refines hs (by intro p hp; cases hp) hm os ?_
    have key : ∀ (os : List Op) (s : Spec), s.lsb = lsb → s.size = size →
        (∀ o ∈ os, match o with | .read _ n => n < 2 ^ 63 | .peek _ n => n < 2 ^ 63 | .write _ bs => bs.length < 2 ^ 63 | _ => True) →
        legalOps Spec.step Spec.legal s os := by
      intro os
      induction os with
      | nil => intro s _ _ _; trivial
      | cons o os ih =>
        intro s h1 h2 hb
        have ho := hb o (List.mem_cons_self ..)
        have hk : (s.step o).1.lsb = lsb ∧ (s.step o).1.size = size := by
          have hst : ∀ (l : List (Nat × List UInt8)) (t : Spec), (t.stores l).lsb = t.lsb ∧ (t.stores l).size = t.size := by
            intro l
            induction l with
            | nil => intro t; exact ⟨rfl, rfl⟩
            | cons p l ih =>
              intro t
              obtain ⟨a, bs⟩ := p
              obtain ⟨g1, g2⟩ := ih (if t.inLine a bs.length then t.store a bs else t)
              unfold Spec.stores
              rw [g1, g2]
              split <;> exact ⟨rfl, rfl⟩
          cases o with
          | write a bs => unfold Spec.step; dsimp only; split <;> exact ⟨h1, h2⟩
          | reset =>
            obtain ⟨g1, g2⟩ := hst s.inits { s with mem := s.blank }
            exact ⟨g1.trans h1, g2.trans h2⟩
          | _ => exact ⟨h1, h2⟩
        refine ⟨?_, ih _ hk.1 hk.2 (fun o ho => hb o (List.mem_cons_of_mem _ ho))⟩
        cases o with
        | read a n => exact ho
        | write a bs => exact ho
        | peek a n => exact ⟨ho, Or.inr (Or.inr (by rw [h1, h2]; exact hc.2))⟩
        | clean => trivial
        | reset => trivial
    exact key os _ rfl rfl hb
  · cases hm

example : ∃ m, AD.initMemory 2 0xc3 1 8 = some m ∧
    (runOps AD.step m [.peek 2 2, .write 6 [1, 2], .peek 5 3, .peek 3 2]).2 =
      [.data [0xc3, 0xc3], .ok, .data [0xc3, 1, 2], .threw] := ⟨_, rfl, by decide⟩

/-- C52: an access that begins inside the memory and ends after its last byte does not throw when the last line
is long enough. -/
theorem C52_past_end_violated : ∃ m, AD.init 4 0 1 true 20 [] = some m ∧
    (runOps AD.step m [.write 18 [1, 2, 3, 4], .read 18 4]).2 = [.ok, .data [1, 2, 3, 4]] := ⟨_, rfl, by decide⟩

/-! ### copying one memory over another -/

theorem updateFrom_find (ls : List (Nat × Line)) : ∀ (m : AD) (i : Nat),
    (m.updateFrom ls).sameCfg m ∧
    (i ∉ ls.map (·.1) → (m.updateFrom ls).find i = m.find i) ∧
    ((ls.map (·.1)).Nodup → ∀ l, ls.lookup i = some l → ∃ l', (m.updateFrom ls).find i = some l' ∧ l'.data = l.data) := by
  induction ls with
  | nil => intro m i; exact ⟨AD.sameCfg.refl m, fun _ => rfl, fun _ l h => (by cases h)⟩
  | cons p ls ih =>
    intro m i
    obtain ⟨k, x⟩ := p
    unfold AD.updateFrom
    generalize hqe : m.ensure k = q
    unfold AD.ensure at hqe
    have hq : q.sameCfg m ∧
        (∃ y, q.find k = some y) ∧ ∀ j, j ≠ k → q.find j = m.find j := by
      rcases Option.eq_none_or_eq_some (m.find k) with h | ⟨y, h⟩
      · rw [h] at hqe
        subst hqe
        have hf : ∀ j, (m.allocate k).find j = if j = k then some ⟨m.fillData, true⟩ else m.find j :=
          fun j => lookup_append_new _ _ _ _ h
        exact ⟨AD.sameCfg.refl m, ⟨_, by rw [hf, if_pos rfl]⟩, fun j hj => by rw [hf, if_neg hj]⟩
      · rw [h] at hqe; subst hqe; exact ⟨AD.sameCfg.refl m, ⟨y, h⟩, fun j _ => rfl⟩
    obtain ⟨hcfg, ⟨y, hy⟩, hother⟩ := hq
    obtain ⟨h1, h2, h3⟩ := ih (q.modify k fun _ => ⟨x.data, true⟩) i
    refine ⟨h1.trans (AD.sameCfg.trans ⟨rfl, rfl, rfl, rfl, rfl, rfl⟩ hcfg), ?_, ?_⟩
    · intro hi
      rw [List.map_cons, List.mem_cons] at hi
      rw [h2 (fun h => hi (Or.inr h)), find_modify, if_neg (fun h => hi (Or.inl h)), hother i (fun h => hi (Or.inl h))]
    · intro hn l hl
      rw [List.map_cons, List.nodup_cons] at hn
      rw [List.lookup_cons] at hl
      by_cases hik : i = k
      · subst hik
        simp at hl
        subst hl
        refine ⟨⟨x.data, true⟩, ?_, rfl⟩
        rw [h2 hn.1, find_modify, if_pos rfl, hy]
        rfl
      · have : (i == k) = false := by simpa using hik
        rw [this] at hl
        exact h3 hn.2 l hl

/-- C82 (partial: only addresses whose line was ever touched in the source). After `a.updateFrom(b)` the memory
`a` shows the bytes of `b` at every address in a line that exists in `b`, and keeps its own bytes elsewhere. -/
theorem C82_update_from_partial {m o : AD} (ho : WF o) (hl : m.lsb = o.lsb) (x : Nat) :
    (o.find (x / o.lineSize) ≠ none → (m.updateFrom o.lines).byteAt x = o.byteAt x) ∧
    (o.find (x / o.lineSize) = none → (m.updateFrom o.lines).byteAt x = m.byteAt x) := by
  obtain ⟨h1, h2, h3⟩ := updateFrom_find o.lines m (x / o.lineSize)
  have hls : m.lineSize = o.lineSize := by unfold AD.lineSize; rw [hl]
  have hls2 : (m.updateFrom o.lines).lineSize = o.lineSize := h1.lineSize.symm.trans hls
  constructor
  · intro h
    rcases Option.eq_none_or_eq_some (o.find (x / o.lineSize)) with hn | ⟨l, hs⟩
    · exact absurd hn h
    · obtain ⟨l', g1, g2⟩ := h3 ho.nodup l hs
      unfold AD.byteAt
      rw [hls2, g1, hs]
      show l'.data _ = l.data _
      rw [g2]
  · intro h
    have := h2 ((lookup_none_iff _ _).1 h)
    unfold AD.byteAt
    rw [hls2, this, hls, ← h1.2.1, ← h1.2.2.1]

/-- non-vacuous: two memories with different lines -/
example : ∃ m o, AD.init 2 0 1 true 16 [(0, [1])] = some m ∧ AD.init 2 0 1 true 16 [(4, [7])] = some o ∧
    m.lsb = o.lsb ∧ (o.find 1).isSome = true ∧ (o.find 0).isNone = true ∧
    ((m.updateFrom o.lines).byteAt 4, (m.updateFrom o.lines).byteAt 0) = (7, 1) := ⟨_, _, rfl, rfl, rfl, rfl, rfl, by decide⟩

/-- C82: lines never touched in the source are not copied, so afterwards the two memories can differ. -/
theorem C82_untouched_line_violated : ∃ m o, AD.init 2 0 1 true 16 [(0, [1])] = some m ∧
    AD.init 2 0 1 true 16 [(4, [7])] = some o ∧ (m.updateFrom o.lines).byteAt 0 ≠ o.byteAt 0 :=
  ⟨_, _, rfl, rfl, by decide⟩

end Sparta.ArchData
