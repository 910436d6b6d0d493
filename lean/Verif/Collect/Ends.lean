import Verif.Collect.Steps
/-!
The system and what its users see: the end of collection, and of a tick.
-/
namespace Sparta.Collect

variable {r : Fr}

/-- the flag that says that there is a collector -/
theorem Rel.attach {s : Sys} {v : View} (R : Rel r s v) (i : Nat) : Rel r (s.set i { s.objs i with attached := true }) v := by
  refine ⟨R.hH, R.h1, R.now, R.path, R.active, R.closes, R.pend, R.reg, R.hbs, R.last, R.en, R.dis, R.onact, ?_, R.le, R.dvd,
    R.act, ?_, R.vals⟩
  · intro j
    have h := R.obj j
    by_cases e : j = i
    · subst e
      rw [set_same]
      exact ⟨h.pair, h.auto, h.var, h.col, fun _ => rfl, h.opened, h.shut⟩
    · rw [set_other _ _ e]; exact h
  · intro p j t
    have : pending (s.set i { s.objs i with attached := true }) p j t = pending s p j t := by
      by_cases e : j = i
      · subst e; simp only [pending, set_same]; rfl
      · simp only [pending, set_other _ _ e]; rfl
    rw [this]
    exact R.shows p j t

/-- what is collected automatically changes -/
theorem Rel.setEn {s : Sys} {v : View} (R : Rel r s v) (l : List Nat) : Rel { r with en := l } { s with enabled := l } v :=
  ⟨R.hH, R.h1, R.now, R.path, R.active, R.closes, R.pend, R.reg, R.hbs, R.last, rfl, R.dis, R.onact, R.obj, R.le, R.dvd,
    R.act, R.shows, R.vals⟩

theorem Rel.setReg {s : Sys} {v : View} (R : Rel r s v) (l : List Nat) : Rel { r with reg := l } { s with reg := l } v :=
  ⟨R.hH, R.h1, R.now, R.path, R.active, R.closes, R.pend, rfl, R.hbs, R.last, R.en, R.dis, R.onact, R.obj, R.le, R.dvd,
    R.act, R.shows, R.vals⟩

/-- a closed collectable is turned off -/
theorem Rel.off {s : Sys} {v : View} (R : Rel r s v) (i : Nat) (hc : (s.objs i).closed = true) :
    Rel r (s.set i { s.objs i with collected := false })
      { v with on := v.on.filter (fun j => j ∉ [i]), stale := v.stale.filter (fun j => j ∉ [i]) } := by
  refine ⟨R.hH, R.h1, R.now, R.path, R.active, R.closes, R.pend, R.reg, R.hbs, R.last, R.en, ?_, ?_, ?_, R.le, R.dvd,
    R.act, ?_, R.vals⟩
  · intro j hj
    simp only [List.mem_filter] at hj ⊢
    rintro ⟨a, b⟩
    exact R.dis j hj.1 a
  · intro j hj
    simp only [List.mem_filter] at hj
    exact R.onact j hj.1
  · intro j
    have h := R.obj j
    by_cases e : j = i
    · subst e
      rw [set_same]
      exact ⟨h.pair, h.auto, h.var, by simp, (fun h2 => by simp at h2), (fun h2 => by simp [hc] at h2), h.shut⟩
    · rw [set_other _ _ e]
      refine ⟨h.pair, h.auto, h.var, by simpa [e] using h.col, h.att, ?_, h.shut⟩
      intro h2
      obtain ⟨a, b⟩ := h.opened h2
      exact ⟨by simp [a, e], b⟩
  · intro p j t
    have : pending (s.set i { s.objs i with collected := false }) p j t = pending s p j t := by
      by_cases e : j = i
      · subst e; simp only [pending, set_same]; rfl
      · simp only [pending, set_other _ _ e]; rfl
    rw [this]
    exact R.shows p j t

theorem Rel.stopOne {s : Sys} {v : View} (R : Rel r s v) (i : Nat) (hp : v.pair i = true → v.cur i = []) :
    ∃ s', s.stopOne i = (s', none) ∧
      Rel { r with en := if v.auto i then r.en.erase i else r.en } s'
        { v.update (single i []) with on := v.on.filter (fun j => j ∉ [i]), stale := v.stale.filter (fun j => j ∉ [i]) } := by
  have hau := (R.obj i).auto
  have R1 : Rel { r with en := if v.auto i then r.en.erase i else r.en }
      (if (s.objs i).auto then { s.set i { s.objs i with attached := true } with
        enabled := (s.set i { s.objs i with attached := true }).enabled.erase i } else s.set i { s.objs i with attached := true }) v := by
    rw [hau]
    cases h : v.auto i
    · simpa using R.attach i
    · have := (R.attach i).setEn (r.en.erase i)
      have e : (s.set i { s.objs i with attached := true }).enabled = r.en := R.en
      simp only [if_true]
      rw [e]; exact this
  simp only [Sys.stopOne]
  revert R1
  generalize (if (s.objs i).auto then { s.set i { s.objs i with attached := true } with
    enabled := (s.set i { s.objs i with attached := true }).enabled.erase i } else s.set i { s.objs i with attached := true }) = s1
  intro R1
  have hp1 := (R1.obj i).pair
  by_cases hc : (s1.objs i).pair = false ∧ (s1.objs i).closed = false
  · obtain ⟨s2, h2, R2, hc2⟩ := R1.close i
    rw [if_pos hc, h2]
    exact ⟨_, rfl, R2.off i hc2⟩
  · rw [if_neg hc]
    have hcl : (s1.objs i).closed = true := by
      cases h : (s1.objs i).closed
      · exfalso
        apply hc
        refine ⟨?_, h⟩
        cases hp2 : (s1.objs i).pair
        · rfl
        · have := (R1.obj i).opened h
          rw [hp (by rw [← hp1]; exact hp2)] at this
          exact absurd this.2.1.symm this.2.2.1
      · rfl
    have hcur := (R1.obj i).shut hcl
    refine ⟨_, rfl, ?_⟩
    rw [single_nil hcur]
    exact R1.off i hcl

/-- the view after the collectables `l` were stopped -/
def View.stopped (v : View) (l : List Nat) : View :=
  { v.update (empties l) with on := v.on.filter (fun j => j ∉ l), stale := v.stale.filter (fun j => j ∉ l) }

theorem stopped_cons (v : View) (i : Nat) (l : List Nat) :
    ({ v.update (single i []) with on := v.on.filter (fun j => j ∉ [i]), stale := v.stale.filter (fun j => j ∉ [i]) } : View).stopped l
      = v.stopped (i :: l) := by
  have := single_cons v i l (fun _ => [])
  simp only [View.update, View.mk.injEq, true_and, and_true] at this
  simp only [View.stopped, View.update, View.mk.injEq, true_and, and_true, List.filter_filter, empties]
  refine ⟨?_, ?_, this.1, this.2⟩
  · apply List.filter_congr; intro j _; by_cases a : j = i <;> by_cases b : j ∈ l <;> simp [a, b]
  · apply List.filter_congr; intro j _; by_cases a : j = i <;> by_cases b : j ∈ l <;> simp [a, b]

theorem stopped_nil (v : View) : v.stopped [] = v := by
  have := update_self v (empties []) (by intro i w h; simp [empties] at h)
  have h1 : v.on.filter (fun j => j ∉ []) = v.on := by simp
  have h2 : v.stale.filter (fun j => j ∉ []) = v.stale := by simp
  simp only [View.stopped]
  rw [h1, h2, this]

theorem stopErase_all (l : List Nat) : ∀ {r : Fr} {s : Sys} {v : View}, Rel r s v → (∀ i ∈ l, v.pair i = true → v.cur i = []) →
    ∃ s' r', each Sys.stopErase s l = (s', none) ∧ Rel r' s' (v.stopped l) ∧ r'.hbs = r.hbs ∧ r'.last = r.last ∧
      r'.strict = r.strict ∧ (r.reg.Nodup → r'.reg.Nodup ∧ ∀ i, i ∈ r'.reg ↔ i ∈ r.reg ∧ i ∉ l) ∧
      (r.en.Nodup → r'.en.Nodup ∧ ∀ i, i ∈ r'.en ↔ i ∈ r.en ∧ (v.auto i = true → i ∉ l)) := by
  induction l with
  | nil =>
    intro r s v R _
    exact ⟨s, r, rfl, by rw [stopped_nil]; exact R, rfl, rfl, rfl, fun h => ⟨h, by simp⟩, fun h => ⟨h, by simp⟩⟩
  | cons i l ih =>
    intro r s v R hp
    obtain ⟨s1, h1, R1⟩ := R.stopOne i (hp i (by simp))
    have R2 := R1.setReg (r.reg.erase i)
    have e : s1.reg = r.reg := R1.reg
    rw [← e] at R2
    obtain ⟨s', r', h3, R3, a, b, c, d1, d2⟩ := ih R2 (by
      intro j hj h
      by_cases e : j = i
      · subst e; exact update_cur_single _ _ _
      · show (v.update (single i [])).cur j = []
        rw [update_cur_other _ _ e]; exact hp j (by simp [hj]) h)
    rw [stopped_cons] at R3
    refine ⟨s', r', by simp only [each, Sys.stopErase, h1]; exact h3, R3, a, b, c, ?_, ?_⟩
    · intro hnd
      rw [e] at d1
      obtain ⟨x, y⟩ := d1 (hnd.erase i)
      refine ⟨x, fun j => ?_⟩
      rw [y j]
      show j ∈ r.reg.erase i ∧ j ∉ l ↔ _
      rw [hnd.mem_erase_iff]
      simp only [List.mem_cons, not_or]
      constructor
      · rintro ⟨⟨a, b⟩, c⟩; exact ⟨b, a, c⟩
      · rintro ⟨b, a, c⟩; exact ⟨⟨a, b⟩, c⟩
    · intro hnd
      have hnd2 : (if v.auto i then r.en.erase i else r.en).Nodup := by
        split
        · exact hnd.erase i
        · exact hnd
      obtain ⟨x, y⟩ := d2 hnd2
      refine ⟨x, fun j => ?_⟩
      rw [y j]
      show j ∈ (if v.auto i then r.en.erase i else r.en) ∧ (v.auto j = true → j ∉ l) ↔ _
      by_cases e : j = i
      · subst e
        cases h : v.auto j
        · simp
        · simp [hnd.mem_erase_iff]
      · cases h : v.auto i
        · simp [e]
        · simp [hnd.mem_erase_iff, e]

/-- nothing is on any more: collection may be off -/
theorem Rel.setActive {s : Sys} {v : View} (R : Rel r s v) (h : v.on = []) :
    Rel r { s with active := false } { v with active := false } :=
  ⟨R.hH, R.h1, R.now, R.path, rfl, R.closes, R.pend, R.reg, R.hbs, R.last, R.en, R.dis, (fun i hi => by simp [h] at hi),
    (fun j => let h := R.obj j; ⟨h.pair, h.auto, h.var, h.col, h.att, h.opened, h.shut⟩), R.le, R.dvd,
    (fun h => by simp at h), R.shows, R.vals⟩

theorem Inv.stop {s : Sys} {v : View} (I : Inv s v) (is : List Nat) (hl : ∀ i ∈ is, v.pair i = true → v.cur i = []) :
    ∃ s', s.stop is = (s', none) ∧ Inv s' (v.step (.stop is)) := by
  obtain ⟨r, R, G⟩ := I
  obtain ⟨s', r', h1, R1, a, b, c, d1, d2⟩ := stopErase_all is R hl
  obtain ⟨n1, m1⟩ := d1 G.nd
  obtain ⟨n2, m2⟩ := d2 G.nde
  refine ⟨{ s' with active := !s'.reg.isEmpty }, by simp [Sys.stop, h1], r', ?_⟩
  have hst : v.step (.stop is) = { v.stopped is with active := v.on.any (fun i => i ∉ is) } := rfl
  have hreg : ∀ i, i ∈ r'.reg ↔ i ∈ (v.stopped is).on := by
    intro i; rw [m1, G.reg]; simp [View.stopped]
  have hen : ∀ i, i ∈ r'.en ↔ v.auto i = true ∧ (i ∈ (v.stopped is).on ∨ i ∈ (v.stopped is).stale) := by
    intro i
    rw [m2, G.en]
    simp only [View.stopped, List.mem_filter, decide_eq_true_eq]
    constructor
    · rintro ⟨⟨a, b⟩, c⟩; exact ⟨a, b.imp (⟨·, c a⟩) (⟨·, c a⟩)⟩
    · rintro ⟨a, b | b⟩
      · exact ⟨⟨a, .inl b.1⟩, fun _ => b.2⟩
      · exact ⟨⟨a, .inr b.1⟩, fun _ => b.2⟩
  have hact : (!s'.reg.isEmpty) = v.on.any (fun i => i ∉ is) := by
    rw [R1.reg]
    cases hr : r'.reg with
    | nil =>
      symm
      simp only [List.isEmpty_nil, Bool.not_true, List.any_eq_false]
      intro i hi h2
      have := (hreg i).2 (by simp [View.stopped]; exact ⟨hi, by simpa using h2⟩)
      simp [hr] at this
    | cons i l =>
      symm
      have := (hreg i).1 (by simp [hr])
      simp only [View.stopped, List.mem_filter] at this
      simp only [List.isEmpty_cons, Bool.not_false, List.any_eq_true]
      exact ⟨i, this.1, this.2⟩
  rw [hst, ← hact]
  cases hz : (!s'.reg.isEmpty) with
  | false =>
    have hon : (v.stopped is).on = [] := by
      cases h : (v.stopped is).on with
      | nil => rfl
      | cons i l =>
        have := (hreg i).2 (by simp [h])
        rw [← R1.reg] at this
        simp at hz
        simp [hz] at this
    exact ⟨R1.setActive hon, n1, hreg, n2, hen, (fun h => by simp at h), (fun h => by simp at h), by rw [c]; exact G.strict,
      by rw [a]; exact G.mul⟩
  | true =>
    have hva : v.active = true := by
      rw [hact] at hz
      obtain ⟨i, hi, _⟩ := List.any_eq_true.1 hz
      exact R.onact i hi
    have hsa : s'.active = true := by rw [R1.active]; exact hva
    have e1 : { s' with active := true } = s' := by cases s'; simp_all
    have e2 : { v.stopped is with active := true } = v.stopped is := by
      show { v.stopped is with active := true } = { v.stopped is with active := v.active }
      rw [hva]
    rw [e1, e2]
    exact ⟨R1, n1, hreg, n2, hen, (fun _ => by rw [a, b]; exact G.beat hva), G.fut, by rw [c]; exact G.strict,
      by rw [a]; exact G.mul⟩

theorem stopOne_all (l : List Nat) : ∀ {r : Fr} {s : Sys} {v : View}, Rel r s v → (∀ i ∈ l, v.pair i = true → v.cur i = []) →
    ∃ s' r', each Sys.stopOne s l = (s', none) ∧ Rel r' s' (v.stopped l) ∧ r'.hbs = r.hbs ∧ r'.last = r.last ∧
      r'.strict = r.strict ∧
      (r.en.Nodup → r'.en.Nodup ∧ ∀ i, i ∈ r'.en ↔ i ∈ r.en ∧ (v.auto i = true → i ∉ l)) := by
  induction l with
  | nil =>
    intro r s v R _
    exact ⟨s, r, rfl, by rw [stopped_nil]; exact R, rfl, rfl, rfl, fun h => ⟨h, by simp⟩⟩
  | cons i l ih =>
    intro r s v R hp
    obtain ⟨s1, h1, R1⟩ := R.stopOne i (hp i (by simp))
    obtain ⟨s', r', h3, R3, a, b, c, d2⟩ := ih R1 (by
      intro j hj h
      by_cases e : j = i
      · subst e; exact update_cur_single _ _ _
      · show (v.update (single i [])).cur j = []
        rw [update_cur_other _ _ e]; exact hp j (by simp [hj]) h)
    rw [stopped_cons] at R3
    refine ⟨s', r', by simp only [each, h1]; exact h3, R3, a, b, c, ?_⟩
    intro hnd
    have hnd2 : (if v.auto i then r.en.erase i else r.en).Nodup := by
      split
      · exact hnd.erase i
      · exact hnd
    obtain ⟨x, y⟩ := d2 hnd2
    refine ⟨x, fun j => ?_⟩
    rw [y j]
    show j ∈ (if v.auto i then r.en.erase i else r.en) ∧ (v.auto j = true → j ∉ l) ↔ _
    by_cases e : j = i
    · subst e
      cases h : v.auto j
      · simp
      · simp [hnd.mem_erase_iff]
    · cases h : v.auto i
      · simp [e]
      · simp [hnd.mem_erase_iff, e]

theorem Inv.stopAll {s : Sys} {v : View} (I : Inv s v) (hl : ∀ i ∈ v.on, v.pair i = true → v.cur i = []) :
    ∃ s', s.stopAll = (s', none) ∧ Inv s' (v.step .stopAll) := by
  obtain ⟨r, R, G⟩ := I
  obtain ⟨s', r', h1, R1, a, b, c, d2⟩ := stopOne_all s.reg R (by
    intro i hi; rw [R.reg, G.reg] at hi; exact hl i hi)
  obtain ⟨n2, m2⟩ := d2 G.nde
  have hmem : ∀ i, i ∈ s.reg ↔ i ∈ v.on := by intro i; rw [R.reg, G.reg]
  refine ⟨{ s' with reg := [] }, by simp [Sys.stopAll, h1], { r' with reg := [] }, ?_, ?_⟩
  · have R2 := (R1.setReg []).congr [] v.stale v.pend (by simp [View.stopped]; intro i hi; exact (hmem i).2 hi) (by
      intro i; simp only [View.stopped, List.mem_filter, decide_eq_true_eq]
      exact ⟨fun h => ⟨h, fun h2 => R.dis i ((hmem i).1 h2) h⟩, fun h => h.1⟩) (by simp [View.stopped, View.update])
    have e : empties s.reg = empties v.on := by funext i; simp [empties, hmem]
    simp only [View.stopped, e] at R2
    exact R2
  · refine ⟨by simp, by simp [View.step], n2, ?_, ?_, G.fut, by rw [← G.strict]; exact c, by
      show ∀ h, h ∈ r'.hbs → _
      rw [a]; exact G.mul⟩
    · intro i
      show i ∈ r'.en ↔ _
      rw [m2, G.en, hmem]
      simp only [View.step, List.not_mem_nil, false_or]
      constructor
      · rintro ⟨⟨a, b⟩, c⟩; exact ⟨a, b.resolve_left (c a)⟩
      · rintro ⟨a, b⟩; exact ⟨⟨a, .inr b⟩, fun _ h => R.dis i h b⟩
    · intro h
      show r'.last + v.H ∈ r'.hbs
      rw [a, b]; exact G.beat h

end Sparta.Collect
