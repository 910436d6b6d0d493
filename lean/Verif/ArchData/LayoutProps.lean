import Verif.ArchData.LayoutLemmas
/-! C53: registers and memory segments never overlap by accident. -/
namespace Sparta.ArchData.Layout

/-- bytes `[a, a+n)` and `[b, b+m)` share no byte -/
def Disjoint (a n b m : Nat) : Prop := ∀ x, ¬ ((a ≤ x ∧ x < a + n) ∧ (b ≤ x ∧ x < b + m))

/-- what a caller expects of a layout `at_` -/
structure Good (line : Nat) (segs : List Seg) (at_ : Nat → Option Nat) (total : Nat) : Prop where
  /-- every segment has a place, within the memory and within one line -/
  placed : ∀ i s, segs[i]? = some s → ∃ off, at_ i = some off ∧ off + s.size ≤ total ∧ off / line = (off + s.size - 1) / line
  /-- independent segments are word aligned -/
  aligned : ∀ i s off, segs[i]? = some s → s.subsetOf = none → at_ i = some off → off % 4 = 0
  /-- independent segments share no byte -/
  disjoint : ∀ i j s t oi oj, i ≠ j → segs[i]? = some s → segs[j]? = some t → s.subsetOf = none → t.subsetOf = none →
    at_ i = some oi → at_ j = some oj → Disjoint oi s.size oj t.size
  /-- a subset lies inside the segment it names, at the requested offset -/
  subset : ∀ i s p oi, segs[i]? = some s → s.subsetOf = some p → at_ i = some oi →
    ∃ j t oj, segs[j]? = some t ∧ t.id = some p ∧ at_ j = some oj ∧ oi = oj + s.subsetOff ∧ s.subsetOff + s.size ≤ t.size

/-- C53: whenever registration and layout succeed, the layout is good. Subset offsets are below 2^62 and the
memory does not come near 2^62 bytes (see the counterexample below). -/
theorem C53_layout_partial {lsb : Nat} {segs ss : List Seg} (hr : registerAll (2 ^ lsb) [] ss = some segs)
    (hoff : ∀ s ∈ ss, s.subsetOff < 2 ^ 62) (hb : segs.length * max (2 ^ lsb) 4 ≤ 2 ^ 62) {st : St}
    (h : layout (2 ^ lsb) segs = .ok st) : segs = ss ∧ Good (2 ^ lsb) segs st.placed st.size := by
  obtain ⟨h1, h2⟩ := registerAll_spec _ _ _ _ hr
  rw [List.nil_append] at h1
  subst h1
  obtain ⟨i1, i2, _⟩ := placeAll_spec (lineOk lsb) ⟨h2, hoff⟩ hb _ St.init (inv_init _ _ _) st h
  refine ⟨rfl, ?_, ?_, ?_, ?_⟩
  · intro i s hs
    obtain ⟨off, ho⟩ := Option.isSome_iff_exists.1 (i2 i (List.mem_range.2 (List.getElem?_eq_some_iff.1 hs).1))
    obtain ⟨t, t1, t2, t3, _⟩ := i1.placed i off ho
    rw [hs] at t1
    cases t1
    exact ⟨off, ho, t2, t3⟩
  · intro i s off hs hn ho
    obtain ⟨t, t1, _, _, t4⟩ := i1.placed i off ho
    rw [hs] at t1
    cases t1
    rw [hn] at t4
    exact t4
  · intro i j s t oi oj hij hs ht hsn htn ho1 ho2 x ⟨hx1, hx2⟩
    have := i1.disj i j oi oj s t hij ho1 ho2 hs ht hsn htn
    omega
  · intro i s p oi hs hp ho
    obtain ⟨t, t1, _, _, t4⟩ := i1.placed i oi ho
    rw [hs] at t1
    cases t1
    rw [hp] at t4
    exact t4

/-- C53: a layout is always found when every subset names a registered segment, fits inside it, and the chain
of parents ends. -/
theorem C53_layout_exists {lsb : Nat} {segs ss : List Seg} (hr : registerAll (2 ^ lsb) [] ss = some segs)
    (hoff : ∀ s ∈ ss, s.subsetOff < 2 ^ 62) (hb : segs.length * max (2 ^ lsb) 4 ≤ 2 ^ 62) (rank : Nat → Nat)
    (hrank : ∀ i, rank i ≤ segs.length)
    (hn : ∀ i s p, segs[i]? = some s → s.subsetOf = some p →
      (∃ t ∈ segs, t.id = some p) ∧
      ∀ j t, segs[j]? = some t → t.id = some p → s.subsetOff + s.size ≤ t.size ∧ rank j < rank i) :
    ∃ st, layout (2 ^ lsb) segs = .ok st := by
  obtain ⟨h1, h2⟩ := registerAll_spec _ _ _ _ hr
  rw [List.nil_append] at h1
  subst h1
  exact placeAll_ok (lineOk lsb) ⟨h2, hoff⟩ hb ⟨hrank, hn⟩ _ _ (inv_init _ _ _) (fun i hi => List.mem_range.1 hi)

/-- C83: a laid out size below 2^32 is exactly the bytes of the independent segments plus the reported padding
and line waste. -/
theorem C83_waste_partial {lsb : Nat} {segs ss : List Seg} (hr : registerAll (2 ^ lsb) [] ss = some segs)
    (hoff : ∀ s ∈ ss, s.subsetOff < 2 ^ 62) (hb : segs.length * max (2 ^ lsb) 4 ≤ 2 ^ 62) {st : St}
    (h : layout (2 ^ lsb) segs = .ok st) (hsm : st.size < 2 ^ 32) :
    st.size = (ss.filterMap fun s => if s.subsetOf = none then some s.size else none).sum + st.paddingWaste + st.linesWaste := by
  obtain ⟨h1, h2⟩ := registerAll_spec _ _ _ _ hr
  rw [List.nil_append] at h1
  subst h1
  have ha : Acct segs St.init := by unfold Acct; show 0 = used segs (fun _ => none) _ + 0 + 0; rw [used_none]
  have h3 := placeAll_acct (lineOk lsb) ⟨h2, hoff⟩ hb _ St.init (inv_init _ _ _) ha st h
  obtain ⟨_, i2, _⟩ := placeAll_spec (lineOk lsb) ⟨h2, hoff⟩ hb _ St.init (inv_init _ _ _) st h
  unfold Acct at h3
  rw [used_all segs st.placed _ (Nat.le_refl _) (fun i hi => i2 i (List.mem_range.2 hi)), List.take_length] at h3
  unfold St.paddingWaste St.linesWaste
  rw [Nat.mod_eq_of_lt (by omega : st.padWaste < 2 ^ 32), Nat.mod_eq_of_lt (by omega : st.lineWaste < 2 ^ 32)]
  exact h3

/-- an 8-byte register, its upper half registered first, a 2-byte and a 16-byte register; 16-byte lines -/
def demo : List Seg := [⟨4, some 1, some 0, 4⟩, ⟨8, some 0, none, 0⟩, ⟨2, some 2, none, 0⟩, ⟨16, none, none, 0⟩]

example : (match layout (2 ^ 4) demo with | .ok st => (st.size, st.paddingWaste, st.linesWaste) | _ => (0, 0, 0)) = (32, 2, 4) := by
  decide

def outOf (n : Nat) : Out → Option (List (Option Nat) × Nat)
  | .ok st => some ((List.range n).map st.placed, st.size)
  | _ => none

example : registerAll (2 ^ 4) [] demo = some demo ∧ (∀ s ∈ demo, s.subsetOff < 2 ^ 62) ∧
    demo.length * max (2 ^ 4) 4 ≤ 2 ^ 62 ∧
    outOf 4 (layout (2 ^ 4) demo) = some ([some 4, some 0, some 8, some 16], 32) := by
  refine ⟨by decide, by decide, by decide, by decide⟩

/-- C53 fails for huge subset offsets: the size check wraps, and the "subset" is placed on top of the preceding,
unrelated segment. -/
theorem C53_subset_offset_violated :
    ∃ ss : List Seg, registerAll 16 [] ss = some ss ∧ outOf 3 (layout 16 ss) = some ([some 0, some 4, some 3], 8) ∧
      ss[0]? = some ⟨4, some 0, none, 0⟩ ∧ ss[1]? = some ⟨4, some 1, none, 0⟩ ∧ ss[2]? = some ⟨1, some 2, some 1, 2 ^ 64 - 1⟩ :=
  ⟨[⟨4, some 0, none, 0⟩, ⟨4, some 1, none, 0⟩, ⟨1, some 2, some 1, 2 ^ 64 - 1⟩], by decide, by decide, rfl, rfl, rfl⟩

/-- C83 fails for larger layouts: the line waste counter overflows. -/
theorem C83_overflow_violated : ∃ ss : List Seg, registerAll (2 ^ 31) [] ss = some ss ∧
    (match layout (2 ^ 31) ss with
      | .ok st => (st.size, st.paddingWaste, st.linesWaste) | _ => (0, 0, 0)) = (3 * 2 ^ 32, 0, 3 * (2 ^ 31 - 4) - 2 ^ 32) :=
  ⟨[⟨4, none, none, 0⟩, ⟨2 ^ 31, none, none, 0⟩, ⟨4, none, none, 0⟩, ⟨2 ^ 31, none, none, 0⟩, ⟨4, none, none, 0⟩,
    ⟨2 ^ 31, none, none, 0⟩], by decide, by decide⟩

/-- non-vacuity of the conditions of `C53_layout_exists` -/
example : WellNested demo (fun i => if i = 0 then 1 else 0) := by
  refine ⟨fun i => by dsimp only; split <;> decide, ?_⟩
  intro i s p hs hp
  match i with
  | 0 =>
    cases hs; cases hp
    refine ⟨⟨⟨8, some 0, none, 0⟩, by simp [demo], rfl⟩, ?_⟩
    intro j t ht hid
    match j with
    | 0 => cases ht; cases hid
    | 1 => cases ht; decide
    | 2 => cases ht; cases hid
    | 3 => cases ht; cases hid
    | j + 4 => cases ht
  | 1 => cases hs; cases hp
  | 2 => cases hs; cases hp
  | 3 => cases hs; cases hp
  | i + 4 => cases hs

/-- C53: two segments that are subsets of each other are accepted at registration and the placement recurses
without end, however deep the stack. -/
theorem C53_cyclic_violated : ∃ ss : List Seg, registerAll 16 [] ss = some ss ∧
    ∀ fuel, place 16 ss fuel St.init 0 = .loops ∧ place 16 ss fuel St.init 1 = .loops := by
  refine ⟨[⟨4, some 0, some 1, 0⟩, ⟨4, some 1, some 0, 0⟩], by decide, ?_⟩
  intro fuel
  induction fuel with
  | zero => exact ⟨rfl, rfl⟩
  | succ fuel ih =>
    constructor
    · unfold place
      simp [St.init, lookupId, List.findIdx?, List.findIdx?.go]
      have := ih.2
      simp [St.init] at this
      rw [this]
    · unfold place
      simp [St.init, lookupId, List.findIdx?, List.findIdx?.go]
      have := ih.1
      simp [St.init] at this
      rw [this]

end Sparta.ArchData.Layout
