import Verif.ArchData.Lemmas
/-!
Helper lemmas: simulation of single steps.
-/
namespace Sparta.ArchData

theorem end_inside {a n L S : Nat} (hpos : 0 < L) (ha : a < S) (hfit : a % L + n ≤ L)
    (hl : a + n ≤ S ∨ S ≤ a ∨ S % L = 0) : a + n ≤ S := by
  rcases hl with hl | hl | hl
  · exact hl
  · omega
  · have hd := Nat.div_add_mod a L
    have hd2 := Nat.div_add_mod S L
    have h3 : a / L < S / L := by
      rw [Nat.div_lt_iff_lt_mul hpos, Nat.mul_comm]; omega
    have h4 : L * (a / L + 1) ≤ L * (S / L) := Nat.mul_le_mul (Nat.le_refl _) h3
    rw [Nat.mul_add] at h4
    omega

theorem peek_blank {m : AD} {s : Spec} (r : Rep m s) {a n : Nat} (h : m.find (a / m.lineSize) = none)
    (hfit : a % m.lineSize + n ≤ m.lineSize) :
    fillValue n m.fill m.fsz ((a % m.lineSize) % m.fsz) = some (s.load a n) := by
  have hpos := lineSize_pos m
  have hm : (a % m.lineSize) % m.fsz < m.fsz := Nat.mod_lt _ (by have := r.wf.fill.1; omega)
  rw [fillValue_spec r.wf.fill n _ hm]
  congr 1
  unfold Spec.load
  apply List.map_congr_left
  intro j hj
  rw [List.mem_range] at hj
  obtain ⟨h1, h2⟩ := in_line hpos hfit hj
  rw [← r.mem]
  unfold AD.byteAt
  rw [h1, h, h2]
  dsimp only
  congr 1
  rw [Nat.add_mod, Nat.mod_mod, ← Nat.add_mod]

theorem peek_spec {m : AD} {s : Spec} (r : Rep m s) (a n : Nat) (hn : n < 2 ^ 63)
    (hl : a + n ≤ m.size ∨ m.size ≤ a ∨ m.size % m.lineSize = 0) :
    m.peek a n = if s.inLine a n = true then some (s.load a n) else none := by
  unfold AD.peek
  by_cases ha : a < m.size
  · simp only [ha, if_true, lineIdx_eq]
    have hpos := lineSize_pos m
    have hmod := Nat.mod_lt a hpos
    by_cases hfit : a % m.lineSize + n ≤ m.lineSize
    · have hin : s.inLine a n = true := (inLine_iff r a n).2 ⟨ha, hfit⟩
      rw [hin]
      rcases Option.eq_none_or_eq_some (m.find (a / m.lineSize)) with h | ⟨l, h⟩
      · have hc : m.canAccess a n = true :=
          (canAccess_iff r.wf a n ha hn).2 ⟨hfit, end_inside hpos ha hfit hl⟩
        simp only [h, hc, if_true]
        exact peek_blank r h hfit
      · have hls := lineSize_le r.wf
        have hwr : wrap (a % m.lineSize + n) = a % m.lineSize + n := wrap_le (by omega)
        simp only [h, Line.read, hwr, hfit, if_true]
        rw [line_load r h hfit]
    · have hin : s.inLine a n = false := by
        cases hc : s.inLine a n with
        | false => rfl
        | true => exact absurd ((inLine_iff r a n).1 hc).2 hfit
      rw [hin]
      rcases Option.eq_none_or_eq_some (m.find (a / m.lineSize)) with h | ⟨l, h⟩
      · have hc : m.canAccess a n = false := by
          cases hc : m.canAccess a n with
          | false => rfl
          | true => exact absurd ((canAccess_iff r.wf a n ha hn).1 hc).1 hfit
        simp [h, hc]
      · have hls := lineSize_le r.wf
        have hwr : wrap (a % m.lineSize + n) = a % m.lineSize + n := wrap_le (by omega)
        simp [h, Line.read, hwr, hfit]
  · have hin : s.inLine a n = false := by
      cases hc : s.inLine a n with
      | false => rfl
      | true => exact absurd ((inLine_iff r a n).1 hc).1 ha
    rw [if_neg ha, hin]; simp

theorem rep_peek {m : AD} {s : Spec} (r : Rep m s) (a n : Nat) (hl : s.legal (.peek a n)) :
    Rep (m.step (.peek a n)).1 s ∧ (m.step (.peek a n)).2 = (s.step (.peek a n)).2 := by
  refine ⟨r, ?_⟩
  obtain ⟨hn, hl⟩ := hl
  rw [r.size, r.ls] at hl
  unfold AD.step Spec.step
  dsimp only
  rw [peek_spec r a n hn hl]
  cases s.inLine a n <;> simp

theorem stores_inits (s : Spec) (l : List (Nat × List UInt8)) : (s.stores l).inits = s.inits := by
  induction l generalizing s with
  | nil => rfl
  | cons p l ih =>
    obtain ⟨a, bs⟩ := p
    unfold Spec.stores
    rw [ih]
    split <;> rfl

theorem rep_step (m : AD) (s : Spec) (o : Op) (r : Rep m s) (hl : s.legal o) :
    Rep (m.step o).1 (s.step o).1 ∧ (m.step o).2 = (s.step o).2 := by
  cases o with
  | read a n => exact rep_read r a n hl
  | peek a n => exact rep_peek r a n hl
  | write a bs =>
    obtain ⟨h1, h2⟩ := rep_store r a bs hl
    unfold AD.step Spec.step
    dsimp only
    rw [h2]
    by_cases h : s.inLine a bs.length = true
    · rw [if_pos h] at h1; rw [if_pos h, if_pos h]; exact ⟨h1, rfl⟩
    · rw [if_neg h] at h1; rw [if_neg h, if_neg h]; exact ⟨h1, rfl⟩
  | clean => exact ⟨rep_clean r, rfl⟩
  | reset =>
    refine ⟨?_, rfl⟩
    have hc := rep_clean r
    have := rep_stores (l := m.inits) hc r.short
    rw [← r.inits] at this
    unfold AD.step AD.reset Spec.step
    dsimp only
    rw [← r.inits]
    exact this

theorem rep_init {lsb fill fsz size : Nat} {canFree : Bool} {inits : List (Nat × List UInt8)} {m : AD}
    (hs : size ≤ 2 ^ 63) (hi : ∀ p ∈ inits, p.2.length < 2 ^ 63) (hm : AD.init lsb fill fsz canFree size inits = some m) :
    Rep m (Spec.init lsb fill fsz size inits) := by
  unfold AD.init at hm
  split at hm
  · rename_i h
    cases hm
    refine rep_stores ?_ hi
    exact ⟨⟨⟨h.1, h.2.1⟩, h.2.2, hs, by simp, fun i hi => absurd rfl hi⟩, rfl, rfl, rfl, rfl, rfl, hi, fun a => rfl⟩
  · cases hm

end Sparta.ArchData
