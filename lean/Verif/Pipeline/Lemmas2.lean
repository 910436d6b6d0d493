import Verif.Pipeline.Lemmas
/-! Helper lemmas for the Pipeline: the relation to the specification. -/
namespace Sparta.Pipeline
open Sparta.Pipe (P Full)
variable {α : Type}

/-- the stall part of the relation -/
def StallOk (m : PL α) (s : Spec α) : Prop :=
  match s.stall with
  | none => m.cycles = 0 ∧ m.stall = none ∧ ∀ j, j < s.n → m.adv j = true
  | some t => m.cycles = t.cycles ∧ 0 < t.cycles ∧ m.stall = some t.stage ∧ t.stage < s.n ∧
      (∀ j, j < s.n → m.adv j = !t.held j) ∧ t.held t.stage = true ∧ (s.stage t.stage).isSome = true ∧
      (∀ j, t.stage < j → t.held j = false)

/-- model and specification -/
structure Rep (m : PL α) (s : Spec α) : Prop where
  d : D m.pipe s.n s.app s.stage
  regd : m.regd = s.regd
  ev : ∀ j, j < s.n → m.evOk j = s.active j
  evr : ∀ j, j < s.n → s.active j = true → s.regd j = true
  stall : StallOk m s
  pend : m.own = true → m.pending = false → s.app = none ∧ ∀ j, j < s.n → s.stage j = none

theorem rep_init {n : Nat} {regd : Nat → Bool} {m : PL α} (hn : n < 2 ^ 31) (h : PL.init α n regd = some m) :
    Rep m (Spec.init α n regd) := by
  unfold PL.init at h
  cases e : P.init α n with
  | none => rw [e] at h; cases h
  | some p =>
    rw [e] at h
    have hm := Option.some.inj h
    have ho : p.ownUpdates = false := by
      unfold P.init at e
      split at e
      · rw [← Option.some.inj e]
      · cases e
    subst hm
    exact ⟨⟨Pipe.Full.init hn e, ho⟩, rfl, fun _ _ => rfl, fun _ _ h => h, ⟨rfl, rfl, fun _ _ => rfl⟩, fun h => by cases h⟩

theorem Rep.stalled {m : PL α} {s : Spec α} (r : Rep m s) : m.isStalled = s.stall.isSome := by
  have h := r.stall
  unfold StallOk at h
  unfold PL.isStalled
  cases e : s.stall with
  | none => rw [e] at h; simp [h.1, h.2.1]
  | some t => rw [e] at h; simp [h.2.2.1]

theorem sched_own (m : PL α) : m.sched.own = m.own := by unfold PL.sched; split <;> rfl
theorem sched_pending (m : PL α) (h : m.sched.own = true) : m.sched.pending = true := by
  rw [sched_own] at h; unfold PL.sched; rw [if_pos h]
theorem sched_pipe (m : PL α) : m.sched.pipe = m.pipe := by unfold PL.sched; split <;> rfl
theorem sched_regd (m : PL α) : m.sched.regd = m.regd := by unfold PL.sched; split <;> rfl
theorem sched_evOk (m : PL α) : m.sched.evOk = m.evOk := by unfold PL.sched; split <;> rfl
theorem sched_adv (m : PL α) : m.sched.adv = m.adv := by unfold PL.sched; split <;> rfl
theorem sched_cycles (m : PL α) : m.sched.cycles = m.cycles := by unfold PL.sched; split <;> rfl
theorem sched_stall (m : PL α) : m.sched.stall = m.stall := by unfold PL.sched; split <;> rfl

theorem StallOk.sched {m : PL α} {s : Spec α} (h : StallOk m s) : StallOk m.sched s := by
  unfold StallOk at h ⊢
  rw [sched_cycles, sched_stall, sched_adv]; exact h

/-- scheduling the update re-establishes the last part -/
theorem Rep.sched {m : PL α} {s : Spec α} (d : D m.pipe s.n s.app s.stage) (h1 : m.regd = s.regd)
    (h2 : ∀ j, j < s.n → m.evOk j = s.active j) (h3 : ∀ j, j < s.n → s.active j = true → s.regd j = true)
    (h4 : StallOk m s) : Rep m.sched s := by
  refine ⟨by rw [sched_pipe]; exact d, by rw [sched_regd]; exact h1, by rw [sched_evOk]; exact h2, h3, h4.sched, ?_⟩
  intro ho hp
  rw [sched_pending m ho] at hp; cases hp

theorem Rep.resched {m : PL α} {s : Spec α} (d : D m.pipe s.n s.app s.stage) (h1 : m.regd = s.regd)
    (h2 : ∀ j, j < s.n → m.evOk j = s.active j) (h3 : ∀ j, j < s.n → s.active j = true → s.regd j = true)
    (h4 : StallOk m s) : Rep m.resched s := by
  unfold PL.resched
  split
  · exact Rep.sched d h1 h2 h3 h4
  · rename_i hv
    refine ⟨d, h1, h2, h3, h4, fun _ _ => ?_⟩
    rw [d.isAnyValid] at hv
    refine ⟨?_, fun j hj => ?_⟩
    · cases e : s.app with
      | none => rfl
      | some x => exact absurd (Or.inl (by rw [e]; rfl)) hv
    · cases e : s.stage j with
      | none => rfl
      | some x => exact absurd (Or.inr ⟨j, hj, by rw [e]; rfl⟩) hv

/-- changing the stages: the stall part only needs the stall stage occupied -/
theorem StallOk.data {m m' : PL α} {s s' : Spec α} (h : StallOk m s) (e1 : m'.cycles = m.cycles)
    (e2 : m'.stall = m.stall) (e3 : m'.adv = m.adv) (e4 : s'.stall = s.stall) (e5 : s'.n = s.n)
    (e6 : ∀ t, s.stall = some t → (s.stage t.stage).isSome = true → (s'.stage t.stage).isSome = true) :
    StallOk m' s' := by
  unfold StallOk at h ⊢
  rw [e1, e2, e3, e4, e5]
  cases e : s.stall with
  | none => rw [e] at h; exact h
  | some t =>
    rw [e] at h
    obtain ⟨a, b, c, dd, f, g, i, j⟩ := h
    exact ⟨a, b, c, dd, f, g, e6 t e i, j⟩

/-! the loop of `deactivate_` -/
theorem heldBy_le (s : Spec α) {k j : Nat} {crush : Bool} (h : k < j) : s.heldBy k crush j = false := by
  unfold Spec.heldBy
  have : decide (j ≤ k) = false := by simp; omega
  rw [this]; rfl

theorem heldBy_self (s : Spec α) {k : Nat} {crush : Bool} (h : s.occupied k = true) : s.heldBy k crush k = true := by
  unfold Spec.heldBy
  have h1 : decide (k ≤ k) = true := by simp
  rw [h1]
  cases crush with
  | false => rfl
  | true =>
    simp only [Bool.not_true, Bool.false_or, Bool.true_and, List.all_eq_true, List.mem_range, Bool.or_eq_true,
      decide_eq_true_eq]
    intro i hi
    by_cases e : i < k
    · exact Or.inl e
    · have : i = k := by omega
      subst this; exact Or.inr h

theorem heldBy_nocrush (s : Spec α) (k j : Nat) : s.heldBy k false j = decide (j ≤ k) := by
  simp [Spec.heldBy]

theorem heldBy_crush (s : Spec α) (k j : Nat) :
    s.heldBy k true j = true ↔ j ≤ k ∧ ∀ i, j ≤ i → i ≤ k → s.occupied i = true := by
  unfold Spec.heldBy
  simp only [Bool.not_true, Bool.false_or, Bool.and_eq_true, decide_eq_true_eq, List.all_eq_true, List.mem_range,
    Bool.or_eq_true]
  constructor
  · rintro ⟨h1, h2⟩
    refine ⟨h1, fun i hi hi2 => ?_⟩
    rcases h2 i (by omega) with h | h
    · omega
    · exact h
  · rintro ⟨h1, h2⟩
    refine ⟨h1, fun i hi => ?_⟩
    by_cases e : i < j
    · exact Or.inl e
    · exact Or.inr (h2 i (by omega) (by omega))

theorem deactLoop_same (crush suppress : Bool) (m : PL α) (k : Nat) :
    (deactLoop crush suppress m k).pipe = m.pipe ∧ (deactLoop crush suppress m k).regd = m.regd ∧
    (deactLoop crush suppress m k).cycles = m.cycles ∧ (deactLoop crush suppress m k).stall = m.stall ∧
    (deactLoop crush suppress m k).own = m.own ∧ (deactLoop crush suppress m k).pending = m.pending := by
  induction k generalizing m with
  | zero => exact ⟨rfl, rfl, rfl, rfl, rfl, rfl⟩
  | succ k ih =>
    unfold deactLoop
    split
    · exact ⟨rfl, rfl, rfl, rfl, rfl, rfl⟩
    · exact ih _

/-- what the loop does to the flags, when every stage in [k, top] is held -/
theorem deactLoop_spec {s : Spec α} {top : Nat} (crush suppress : Bool) (k : Nat) (hk : k ≤ top + 1) (ht : top < s.n)
    {m : PL α} (d : D m.pipe s.n s.app s.stage) (hr : m.regd = s.regd)
    (hheld : ∀ j, k ≤ j → j ≤ top → s.heldBy top crush j = true) (j : Nat) (hj : j < s.n) :
    (deactLoop crush suppress m k).adv j = (m.adv j && !(decide (j < k) && s.heldBy top crush j)) ∧
    (deactLoop crush suppress m k).evOk j =
      (m.evOk j && !(suppress && s.regd j && decide (j < k) && s.heldBy top crush j)) := by
  induction k generalizing m with
  | zero => unfold deactLoop; simp
  | succ k ih =>
    unfold deactLoop
    rw [d.isValid_lt (k := k) (by omega)]
    by_cases hc : (crush && !(some (s.stage k).isSome == some true)) = true
    · rw [if_pos hc]
      have hfalse : ∀ i, i < k + 1 → s.heldBy top crush i = false := by
        intro i hi
        cases e : s.heldBy top crush i with
        | false => rfl
        | true =>
          exfalso
          have hcr : crush = true := by cases crush <;> simp_all
          subst hcr
          have := ((heldBy_crush s top i).1 e).2 k (by omega) (by omega)
          unfold Spec.occupied at this
          rw [this] at hc
          simp at hc
      by_cases hjk : j < k + 1
      · rw [hfalse j hjk]; simp
      · simp [hjk]
    · rw [if_neg hc]
      have hk1 : s.heldBy top crush k = true := by
        cases hcr : crush with
        | false => rw [heldBy_nocrush]; simp; omega
        | true =>
          subst hcr
          rw [heldBy_crush]
          refine ⟨by omega, fun i hi hi2 => ?_⟩
          by_cases e : i = k
          · subst e
            unfold Spec.occupied
            cases e2 : (s.stage i).isSome with
            | true => rfl
            | false => rw [e2] at hc; simp at hc
          · exact ((heldBy_crush s top i).1 (hheld i (by omega) hi2)).2 i (by omega) hi2
      have := ih (by omega) (m := { m with evOk := if suppress && m.regd k then upd m.evOk k false else m.evOk, adv := upd m.adv k false })
        d hr (fun i hi hi2 => by
          by_cases e : i = k
          · subst e; exact hk1
          · exact hheld i (by omega) hi2)
      refine ⟨this.1.trans ?_, this.2.trans ?_⟩
      · by_cases e : j = k
        · subst e; simp [upd, hk1]
        · dsimp only
          rw [upd_other _ _ e]
          have : decide (j < k) = decide (j < k + 1) := by
            apply decide_eq_decide.2; omega
          rw [this]
      · rw [hr]
        by_cases e : j = k
        · subst e
          cases suppress <;> cases e2 : s.regd j <;> simp [upd, hk1, e2]
        · have h2 : decide (j < k) = decide (j < k + 1) := by
            apply decide_eq_decide.2; omega
          rw [h2]
          dsimp only
          split
          · rw [upd_other _ _ e]
          · rfl

/-! the handlers scheduled -/
theorem schedLoop_spec {m : PL α} {s : Spec α} (d : D m.pipe s.n s.app s.stage) (h1 : m.regd = s.regd)
    (h2 : ∀ j, j < s.n → m.evOk j = s.active j) (h3 : ∀ j, j < s.n → s.active j = true → s.regd j = true)
    (l : List Nat) (hl : ∀ j ∈ l, j < s.n) :
    schedLoop m l = some (l.filterMap fun j => if s.active j then (s.stage j).map fun x => (j, x) else none) := by
  induction l with
  | nil => rfl
  | cons k l ih =>
    have hk := hl k (List.mem_cons_self ..)
    have ih' := ih (fun j hj => hl j (List.mem_cons_of_mem _ hj))
    unfold schedLoop
    rw [d.isValid_lt hk, h2 k hk, h1, d.read, if_pos hk, ih', List.filterMap_cons]
    cases e1 : s.active k with
    | false => simp
    | true =>
      have hr := h3 k hk e1
      cases e2 : s.stage k with
      | none => simp
      | some x => simp [hr]

theorem scheduleEvents_spec {m : PL α} {s : Spec α} (d : D m.pipe s.n s.app s.stage) (h1 : m.regd = s.regd)
    (h2 : ∀ j, j < s.n → m.evOk j = s.active j) (h3 : ∀ j, j < s.n → s.active j = true → s.regd j = true) :
    m.scheduleEvents = some s.fires := by
  unfold PL.scheduleEvents
  rw [d.n_eq, schedLoop_spec d h1 h2 h3 _ (fun j hj => List.mem_range.1 hj)]
  rfl

theorem shift_same (s : Spec α) : s.shift.n = s.n ∧ s.shift.regd = s.regd ∧ s.shift.active = s.active ∧ s.shift.stall = s.stall := by
  unfold Spec.shift
  split
  · refine ⟨rfl, rfl, rfl, ?_⟩; simp_all
  · split <;> (refine ⟨rfl, rfl, rfl, ?_⟩; simp_all)

/-- the item of the stall stage stays -/
theorem stall_stays (s : Spec α) {t : Stall} (hs : s.stall = some t) (hh : t.held t.stage = true) (ht : t.stage < s.n)
    (ho : (s.stage t.stage).isSome = true) : s.shift.stage t.stage = s.stage t.stage := by
  have hl : s.leaves t t.stage = false := by
    by_cases e : t.stage + 1 < s.n
    · rw [leaves_succ s t e]; simp [hh]
    · have : t.stage = s.n - 1 := by omega
      rw [this, leaves_last]; simp; omega
  have hm : s.moved t t.stage = s.stage t.stage := by
    unfold Spec.moved
    rw [if_neg, hl]
    · simp
    · rintro ⟨h0, h1, h2⟩
      have := no_overwrite s t (j := t.stage - 1) (by omega) h1 (by rw [Nat.sub_add_cancel h0]; exact ho)
      rw [Nat.sub_add_cancel h0, hl] at this
      cases this
  unfold Spec.shift
  rw [hs]
  dsimp only
  by_cases hz : s.moved t 0 = none
  · rw [if_pos hz]
    dsimp only
    split
    · rename_i e
      rw [← hm, e, hz] at ho; cases ho
    · exact hm
  · rw [if_neg hz]; exact hm

/-- end of a stall -/
theorem Rep.unstall {m : PL α} {s : Spec α} {t : Stall} (hs : s.stall = some t) (r : Rep m s) :
    Rep { m.restart t.stage with cycles := 0, stall := none } s.unstall := by
  have hst := r.stall
  unfold StallOk at hst
  rw [hs] at hst
  obtain ⟨a, b, c, dd, f, g, i, j⟩ := hst
  unfold Spec.unstall PL.restart
  rw [hs]
  refine ⟨r.d, r.regd, ?_, ?_, ?_, r.pend⟩
  · intro k hk
    dsimp only
    rw [r.ev k hk, r.regd]
    by_cases e : k ≤ t.stage <;> cases e2 : s.regd k <;> simp [e]
  · intro k hk h
    dsimp only at h ⊢
    simp only [Bool.or_eq_true, Bool.and_eq_true] at h
    rcases h with h | h
    · exact h.2
    · exact r.evr k hk h
  · refine ⟨rfl, rfl, fun k hk => ?_⟩
    dsimp only
    split
    · rfl
    · have hk' : k < s.n := hk
      rw [f k hk', j k (by omega)]; rfl

theorem unstall_n (s : Spec α) : s.unstall.n = s.n := by unfold Spec.unstall; split <;> rfl
theorem unstall_stage (s : Spec α) : s.unstall.stage = s.stage := by unfold Spec.unstall; split <;> rfl
theorem unstall_app (s : Spec α) : s.unstall.app = s.app := by unfold Spec.unstall; split <;> rfl
theorem unstall_regd (s : Spec α) : s.unstall.regd = s.regd := by unfold Spec.unstall; split <;> rfl
theorem unstall_stall (s : Spec α) : s.unstall.stall = none := by
  unfold Spec.unstall; split <;> simp_all

/-- update -/
theorem rep_update {m : PL α} {s : Spec α} (d : D m.pipe s.n s.app s.stage) (h1 : m.regd = s.regd)
    (h2 : ∀ j, j < s.n → m.evOk j = s.active j) (h3 : ∀ j, j < s.n → s.active j = true → s.regd j = true)
    (h4 : StallOk m s) :
    ∃ q, m.internalUpdate = some (q, s.shift.fires) ∧ Rep q s.shift.tick := by
  obtain ⟨e1, e2, e3, e4⟩ := shift_same s
  cases hs : s.stall with
  | none =>
    have hst := h4
    unfold StallOk at hst
    rw [hs] at hst
    obtain ⟨p, hp, dp⟩ := d.update
    have hn : m.isStalled = false := by unfold PL.isStalled; simp [hst.1, hst.2.1]
    have hsh : s.shift = { s with app := none, stage := fun j => if j = 0 then s.app else s.stage (j - 1) } := by
      unfold Spec.shift; rw [hs]
    have dp' : D p s.shift.n s.shift.app s.shift.stage := by rw [hsh]; exact dp
    have hse : ({ m with pipe := p } : PL α).scheduleEvents = some s.shift.fires :=
      scheduleEvents_spec (m := { m with pipe := p }) dp' (by rw [e2]; exact h1) (by rw [e1, e3]; exact h2)
        (by rw [e1, e2, e3]; exact h3)
    refine ⟨({ m with pipe := p } : PL α).resched, ?_, ?_⟩
    · unfold PL.internalUpdate
      rw [hn]
      simp only [Bool.false_eq_true, if_false, hp, Option.bind_some, hse, Option.map_some]
    · have ht : s.shift.tick = s.shift := by unfold Spec.tick; rw [e4, hs]
      rw [ht]
      refine Rep.resched (m := { m with pipe := p }) dp' (by rw [e2]; exact h1) (by rw [e1, e3]; exact h2)
        (by rw [e1, e2, e3]; exact h3) ?_
      unfold StallOk
      rw [e4, hs, e1]; exact hst
  | some t =>
    have hst := h4
    unfold StallOk at hst
    rw [hs] at hst
    obtain ⟨a, b, c, dd, f, g, i, j⟩ := hst
    have hn : m.isStalled = true := by unfold PL.isStalled; simp [c]
    obtain ⟨p, hp, dp⟩ := drain_spec hs dd f d
    rw [← e1] at dp
    have hse : ({ m with pipe := p } : PL α).scheduleEvents = some s.shift.fires :=
      scheduleEvents_spec (m := { m with pipe := p }) dp (by rw [e2]; exact h1) (by rw [e1, e3]; exact h2)
        (by rw [e1, e2, e3]; exact h3)
    have hstay := stall_stays s hs g dd i
    refine ⟨(({ m with pipe := p } : PL α).countDown t.stage).resched, ?_, ?_⟩
    · unfold PL.internalUpdate
      rw [c] at hse
      rw [hn, c]
      simp only [if_true, hp, Option.bind_some, hse, Option.map_some]
    · have hst1 : StallOk ({ m with pipe := p } : PL α) s.shift :=
        h4.data rfl rfl rfl e4 e1 (fun t' h' ho => by
          rw [hs] at h'; cases h'; rw [hstay]; exact ho)
      unfold PL.countDown Spec.tick
      rw [e4, hs]
      dsimp only
      by_cases hc : t.cycles ≤ 1
      · rw [if_pos (show m.cycles - 1 = 0 by omega), if_pos hc]
        -- a temporary relation with the update pending
        have r0 : Rep { m with pipe := p, own := false } s.shift :=
          ⟨dp, by rw [e2]; exact h1, by rw [e1, e3]; exact h2, by rw [e1, e2, e3]; exact h3,
            hst1.data rfl rfl rfl rfl rfl (fun _ _ h => h), fun h => by cases h⟩
        have r1 := r0.unstall (t := t) (by rw [e4, hs])
        exact Rep.resched r1.d r1.regd r1.ev r1.evr r1.stall
      · rw [if_neg (show ¬ m.cycles - 1 = 0 by omega), if_neg hc]
        refine Rep.resched (m := { m with pipe := p, cycles := m.cycles - 1 }) dp (by rw [e2]; exact h1)
          (by rw [e1, e3]; exact h2) (by rw [e1, e2, e3]; exact h3) ?_
        unfold StallOk
        dsimp only
        refine ⟨by rw [a], by omega, c, by rw [e1]; exact dd, by rw [e1]; exact f, g, ?_, j⟩
        rw [hstay]; exact i

end Sparta.Pipeline
