import Verif.Pipeline.Lemmas2
/-! Helper lemmas for the Pipeline: every call keeps the relation. -/
namespace Sparta.Pipeline
open Sparta.Pipe (P Full)
variable {α : Type}

theorem cancelAt_spec {m : PL α} {s : Spec α} (r : Rep m s) {k : Nat} (hk : k < s.n) :
    m.cancelAt k = some (if s.occupied k && s.active k then [k] else []) := by
  unfold PL.cancelAt
  rw [r.d.n_eq, if_pos hk, r.d.isValid_lt hk, r.ev k hk, r.regd]
  unfold Spec.occupied
  cases e1 : s.active k with
  | false => simp
  | true =>
    rw [r.evr k hk e1]
    cases e2 : (s.stage k).isSome <;> simp

theorem flush_rep {m : PL α} {s : Spec α} (r : Rep m s) {k : Nat} (hk : k < s.n) :
    ∃ q, m.flushStage k = some (q, if s.occupied k && s.active k then [k] else []) ∧ Rep q (s.flush k) := by
  unfold PL.flushStage
  rw [cancelAt_spec r hk, Option.bind_some]
  generalize (if s.occupied k && s.active k then [k] else []) = l
  dsimp only
  have key : ∀ (m1 : PL α) (s1 : Spec α), Rep m1 s1 → s1.n = s.n →
      (∀ t, s1.stall = some t → t.stage ≠ k) →
      ∃ q, (m1.pipe.flushPS k).map (fun q => (({ m1 with pipe := q } : PL α), l)) = some (q, l) ∧
        Rep q { s1 with stage := fun j => if j = k then none else s1.stage j } := by
    intro m1 s1 r1 hn hst
    obtain ⟨p, hp, dp⟩ := r1.d.flushPS (k := k) (by omega)
    refine ⟨{ m1 with pipe := p }, by rw [hp]; rfl, dp, r1.regd, r1.ev, r1.evr, ?_, ?_⟩
    · refine r1.stall.data rfl rfl rfl rfl rfl (fun t ht ho => ?_)
      have := hst t ht
      simp [this, ho]
    · intro ho hp2
      obtain ⟨h1, h2⟩ := r1.pend ho hp2
      refine ⟨h1, fun j hj => ?_⟩
      dsimp only
      split
      · rfl
      · exact h2 j hj
  have hst := r.stall
  unfold StallOk at hst
  unfold Spec.flush
  cases hs : s.stall with
  | none =>
    rw [hs] at hst
    rw [if_neg (show ¬ m.stall = some k by rw [hst.2.1]; simp), if_neg (show ¬ Option.map (·.stage) (none : Option Stall) = some k by simp)]
    exact key m s r rfl (fun t ht => by rw [hs] at ht; cases ht)
  | some t =>
    rw [hs] at hst
    rw [hst.2.2.1]
    by_cases e : t.stage = k
    · have he : some t.stage = some k := by rw [e]
      rw [if_pos he, if_pos (show Option.map (·.stage) (some t) = some k by simpa using e)]
      have r1 := r.unstall hs
      rw [e] at r1
      exact key _ s.unstall r1 (unstall_n s) (fun t' ht' => by rw [unstall_stall] at ht'; cases ht')
    · rw [if_neg (show ¬ some t.stage = some k by simpa using e), if_neg (show ¬ Option.map (·.stage) (some t) = some k by simpa using e)]
      exact key m s r rfl (fun t' ht' => by rw [hs] at ht'; cases ht'; exact e)

theorem flush_n (s : Spec α) (k : Nat) : (s.flush k).n = s.n := by
  unfold Spec.flush; dsimp only; split
  · exact unstall_n s
  · rfl

/-- stages after the stall keep their flag when a stall ends -/
theorem unstall_active (s : Spec α) {t : Stall} (hs : s.stall = some t) {j : Nat} (h : t.stage < j) :
    s.unstall.active j = s.active j := by
  unfold Spec.unstall
  rw [hs]
  have : decide (j ≤ t.stage) = false := by simp; omega
  simp [this]

theorem flushLoop_rep {m : PL α} {s : Spec α} (r : Rep m s) (i : Nat) (c : Nat) (hc : i + c = s.n)
    (hst : ∀ t, s.stall = some t → i ≤ t.stage) (hz : ∀ j, j < i → s.stage j = none) :
    ∃ q, flushLoop m (List.range' i c) =
      some (q, (List.range' i c).filter (fun k => s.occupied k && s.active k)) ∧
      Rep q { s.unstall with stage := fun _ => none } := by
  induction c generalizing m s i with
  | zero =>
    refine ⟨m, rfl, ?_⟩
    have hns : s.stall = none := by
      cases e : s.stall with
      | none => rfl
      | some t =>
        have h1 := hst t e
        have h2 := r.stall
        unfold StallOk at h2
        rw [e] at h2
        have := h2.2.2.2.1
        omega
    have : s.unstall = s := by unfold Spec.unstall; rw [hns]
    rw [this]
    refine ⟨r.d.congr (fun j hj => hz j (by omega)), r.regd, r.ev, r.evr, ?_, fun ho hp => ⟨(r.pend ho hp).1, fun _ _ => rfl⟩⟩
    exact r.stall.data rfl rfl rfl rfl rfl (fun t ht => by rw [hns] at ht; cases ht)
  | succ c ih =>
    rw [List.range'_succ]
    unfold flushLoop
    obtain ⟨q, hq, rq⟩ := flush_rep r (k := i) (by omega)
    rw [hq, Option.bind_some]
    have hstage : (s.flush i).stage = fun j => if j = i then none else s.stage j := by
      unfold Spec.flush; dsimp only; split
      · rw [unstall_stage]
      · rfl
    have hstall : ∀ t, (s.flush i).stall = some t → s.stall = some t ∧ t.stage ≠ i := by
      intro t ht
      unfold Spec.flush at ht
      dsimp only at ht
      split at ht
      · rw [unstall_stall] at ht; cases ht
      · rename_i hne
        refine ⟨ht, fun e => hne ?_⟩
        rw [ht, Option.map_some, e]
    obtain ⟨q2, h1, h2⟩ := ih rq (i + 1) (by rw [flush_n]; omega)
      (fun t ht => by have h3 := hstall t ht; have := hst t h3.1; have := h3.2; omega)
      (fun j hj => by
        rw [hstage]
        dsimp only
        split
        · rfl
        · exact hz j (by omega))
    refine ⟨q2, ?_, ?_⟩
    · rw [h1, Option.map_some, List.filter_cons]
      congr 2
      have hf : (List.range' (i + 1) c).filter (fun k => (s.flush i).occupied k && (s.flush i).active k)
          = (List.range' (i + 1) c).filter (fun k => s.occupied k && s.active k) := by
        apply List.filter_congr
        intro k hk
        have hk' := (List.mem_range'_1.1 hk).1
        have ha : (s.flush i).active k = s.active k := by
          unfold Spec.flush
          dsimp only
          split
          · rename_i e
            cases e2 : s.stall with
            | none => rw [e2] at e; cases e
            | some t =>
              rw [e2] at e
              exact unstall_active s e2 (by simp at e; omega)
          · rfl
        rw [ha]
        unfold Spec.occupied
        rw [hstage]
        dsimp only
        rw [if_neg (by omega)]
      rw [hf]
      split <;> simp_all
    · have he : ({ (s.flush i).unstall with stage := fun _ => none } : Spec α) = { s.unstall with stage := fun _ => none } := by
        unfold Spec.flush
        dsimp only
        split
        · have : ({ s.unstall with stage := fun j => if j = i then none else s.unstall.stage j } : Spec α).unstall =
            { s.unstall with stage := fun j => if j = i then none else s.unstall.stage j } := by
            unfold Spec.unstall
            cases e : s.stall <;> simp [e]
          rw [this]
        · unfold Spec.unstall
          cases e : s.stall <;> simp [e]
      rw [he] at h2; exact h2

theorem numValid_eq {m : PL α} {s : Spec α} (r : Rep m s) : m.pipe.numValid = s.count := r.d.full.nv

theorem any_eq {m : PL α} {s : Spec α} (r : Rep m s) :
    m.pipe.isAnyValid = (s.app.isSome || (List.range s.n).any s.occupied) := by
  rw [Bool.eq_iff_iff, r.d.isAnyValid]
  simp [Spec.occupied, Bool.or_eq_true, List.any_eq_true]

theorem rep_step (m : PL α) (s : Spec α) (o : Op α) (r : Rep m s) (hl : s.legal o) :
    Rep (m.step o).1 (s.step o).1 ∧ (m.step o).2 = (s.step o).2 := by
  cases o with
  | append x =>
    simp only [PL.step, Spec.step, PL.append]
    rcases r.d.append x with ⟨h1, h2⟩ | ⟨h1, q, h2, dq⟩
    · rw [h2, if_pos h1]; exact ⟨r, rfl⟩
    · rw [h2, h1]
      exact ⟨Rep.sched (m := { m with pipe := q }) dq r.regd r.ev r.evr (r.stall.data rfl rfl rfl rfl rfl (fun _ _ h => h)), rfl⟩
  | writeStage k x =>
    simp only [PL.step, Spec.step, PL.writeStage]
    by_cases hk : k < s.n
    · obtain ⟨q, hq, dq⟩ := r.d.writePS hk x
      rw [hq, if_pos hk]
      refine ⟨Rep.sched (m := { m with pipe := q }) dq r.regd r.ev r.evr (r.stall.data rfl rfl rfl rfl rfl (fun t _ h => ?_)), rfl⟩
      dsimp only
      split
      · rfl
      · exact h
    · rw [r.d.writePS_none hk, if_neg hk]; exact ⟨r, rfl⟩
  | invalidateStage k =>
    simp only [PL.step, Spec.step, PL.invalidateStage]
    by_cases hk : k < s.n ∧ s.occupied k = true
    · obtain ⟨q, hq, dq⟩ := r.d.invalidatePS hk.1 hk.2
      rw [hq, if_pos hk]
      refine ⟨Rep.sched (m := { m with pipe := q }) dq r.regd r.ev r.evr (r.stall.data rfl rfl rfl rfl rfl (fun t ht h => ?_)), rfl⟩
      dsimp only
      rw [if_neg]
      · exact h
      · intro e
        apply hl
        rw [ht, ← e]; rfl
    · rw [r.d.invalidatePS_none hk, if_neg hk]; exact ⟨r, rfl⟩
  | activate k =>
    simp only [PL.step, Spec.step, PL.activate, r.d.n_eq, r.regd]
    by_cases hk : k < s.n ∧ s.regd k = true
    · rw [if_pos hk, if_pos hk]
      refine ⟨⟨r.d, rfl, ?_, ?_, r.stall.data rfl rfl rfl rfl rfl (fun _ _ h => h), r.pend⟩, rfl⟩
      · intro j hj
        dsimp only [void]
        unfold upd
        split
        · rfl
        · exact r.ev j hj
      · intro j hj h
        dsimp only at h ⊢
        split at h
        · rename_i e; rw [e]; exact hk.2
        · exact r.evr j hj h
    · rw [if_neg hk, if_neg hk]; exact ⟨r, rfl⟩
  | deactivate k =>
    simp only [PL.step, Spec.step, PL.deactivate, r.d.n_eq, r.regd]
    by_cases hk : k < s.n ∧ s.regd k = true
    · rw [if_pos hk, if_pos hk]
      refine ⟨⟨r.d, rfl, ?_, ?_, r.stall.data rfl rfl rfl rfl rfl (fun _ _ h => h), r.pend⟩, rfl⟩
      · intro j hj
        dsimp only [void]
        unfold upd
        split
        · rfl
        · exact r.ev j hj
      · intro j hj h
        dsimp only at h ⊢
        split at h
        · cases h
        · exact r.evr j hj h
    · rw [if_neg hk, if_neg hk]; exact ⟨r, rfl⟩
  | stall k c crush suppress =>
    simp only [PL.step, Spec.step, PL.doStall, r.d.isValid, r.stalled]
    by_cases hk : k < s.n
    · rw [if_pos hk]
      cases ho : s.occupied k with
      | false =>
        have ho' : (s.stage k).isSome = false := ho
        rw [ho', if_neg (show ¬ (k < s.n ∧ false = true ∧ s.stall.isNone = true) by simp)]; exact ⟨r, rfl⟩
      | true =>
        have ho' : (s.stage k).isSome = true := ho
        rw [ho']
        dsimp only
        cases hs : s.stall with
        | some t => simp [void]; exact r
        | none =>
          have hst := r.stall
          unfold StallOk at hst
          rw [hs] at hst
          rw [if_neg (show ¬ (none : Option Stall).isSome = true by simp), if_pos (show k < s.n ∧ true = true ∧ (none : Option Stall).isNone = true from ⟨hk, rfl, rfl⟩)]
          by_cases hc : c = 0
          · rw [if_pos hc, if_pos hc]; exact ⟨r, rfl⟩
          · rw [if_neg hc, if_neg hc]
            unfold PL.deactivateUpTo
            rw [if_pos (show k < m.pipe.n by rw [r.d.n_eq]; exact hk)]
            obtain ⟨a1, a2, a3, a4, a5, a6⟩ := deactLoop_same crush suppress { m with cycles := c, stall := some k } (k + 1)
            have hloop := fun j hj => deactLoop_spec (s := s) (top := k) crush suppress (k + 1) (Nat.le_refl _) hk
              (m := { m with cycles := c, stall := some k }) r.d r.regd (fun j h1 h2 => by omega) j hj
            refine ⟨⟨?_, ?_, ?_, ?_, ?_, ?_⟩, rfl⟩
            · show D (deactLoop crush suppress { m with cycles := c, stall := some k } (k + 1)).pipe s.n s.app s.stage
              rw [a1]; exact r.d
            · exact a2.trans r.regd
            · intro j hj
              refine (hloop j hj).2.trans ?_
              dsimp only
              rw [r.ev j hj]
              cases e1 : s.active j with
              | false => rfl
              | true =>
                rw [r.evr j hj e1]
                by_cases e2 : j < k + 1
                · simp [e2]
                · rw [heldBy_le s (by omega)]; simp
            · intro j hj h
              simp only [Bool.and_eq_true] at h
              exact r.evr j hj h.1
            · unfold StallOk
              dsimp only [void]
              refine ⟨a3, by omega, a4, hk, ?_, heldBy_self s ho, ho', fun j hj => heldBy_le s hj⟩
              intro j hj
              refine (hloop j hj).1.trans ?_
              dsimp only
              rw [hst.2.2 j hj]
              by_cases e2 : j < k + 1
              · simp [e2]
              · rw [heldBy_le s (by omega)]; simp
            · intro h1 h2
              exact r.pend (a5.symm.trans h1) (a6.symm.trans h2)
    · rw [if_neg hk, if_neg (show ¬ (k < s.n ∧ s.occupied k = true ∧ s.stall.isNone = true) from fun h => hk h.1)]; exact ⟨r, rfl⟩
  | clearStall =>
    simp only [PL.step, Spec.step, PL.clearStall, r.stalled]
    cases hs : s.stall with
    | none => exact ⟨r, rfl⟩
    | some t =>
      have hst := r.stall
      unfold StallOk at hst
      rw [hs] at hst
      rw [hst.2.2.1]
      exact ⟨r.unstall hs, rfl⟩
  | flushStage k =>
    simp only [PL.step, Spec.step]
    by_cases hk : k < s.n
    · obtain ⟨q, hq, rq⟩ := flush_rep r hk
      rw [hq, if_pos hk]
      exact ⟨rq, rfl⟩
    · rw [if_neg hk]
      have : m.flushStage k = none := by
        unfold PL.flushStage PL.cancelAt
        rw [if_neg (by rw [r.d.n_eq]; exact hk)]; rfl
      rw [this]; exact ⟨r, rfl⟩
  | flushAllStages =>
    simp only [PL.step, Spec.step, PL.flushAllStages, r.d.n_eq]
    obtain ⟨q, hq, rq⟩ := flushLoop_rep r 0 s.n (by omega) (fun _ _ => Nat.zero_le _) (fun j hj => by omega)
    rw [List.range_eq_range', hq]
    exact ⟨rq, rfl⟩
  | flushAppend =>
    exact ⟨⟨r.d.flushAppend, r.regd, r.ev, r.evr, r.stall.data rfl rfl rfl rfl rfl (fun _ _ h => h),
      fun ho hp => ⟨rfl, (r.pend ho hp).2⟩⟩, rfl⟩
  | performOwnUpdates =>
    refine ⟨?_, rfl⟩
    show Rep m.performOwnUpdates s
    unfold PL.performOwnUpdates
    split
    · exact r
    · exact Rep.resched (m := { m with own := true }) r.d r.regd r.ev r.evr (r.stall.data rfl rfl rfl rfl rfl (fun _ _ h => h))
  | update =>
    simp only [PL.step, Spec.step]
    cases ho : m.own with
    | false =>
      rw [if_neg (by simp)]
      unfold PL.update
      rw [ho, if_neg (by simp)]
      obtain ⟨q, hq, rq⟩ := rep_update r.d r.regd r.ev r.evr r.stall
      rw [hq]; exact ⟨rq, rfl⟩
    | true =>
      rw [if_pos rfl]
      unfold PL.cycle
      cases hp : m.pending with
      | true =>
        rw [if_pos rfl]
        obtain ⟨q, hq, rq⟩ := rep_update (m := { m with pending := false }) r.d r.regd r.ev r.evr
          (r.stall.data rfl rfl rfl rfl rfl (fun _ _ h => h))
        rw [hq]; exact ⟨rq, rfl⟩
      | false =>
        rw [if_neg (by simp)]
        obtain ⟨h1, h2⟩ := r.pend ho hp
        have hns : s.stall = none := by
          cases e : s.stall with
          | none => rfl
          | some t =>
            have hst := r.stall
            unfold StallOk at hst
            rw [e] at hst
            have := hst.2.2.2.2.2.2.1
            rw [h2 _ hst.2.2.2.1] at this; cases this
        have hsh : ∀ j, j < s.n → s.shift.stage j = none := by
          intro j hj
          unfold Spec.shift; rw [hns]; dsimp only
          split
          · exact h1
          · exact h2 _ (by omega)
        obtain ⟨e1, e2, e3, e4⟩ := shift_same s
        have ht : s.shift.tick = s.shift := by unfold Spec.tick; rw [e4, hns]
        have ha : s.shift.app = none := by unfold Spec.shift; rw [hns]
        have hf : s.shift.fires = [] := by
          unfold Spec.fires
          rw [List.filterMap_eq_nil_iff]
          intro j hj
          rw [e1] at hj
          rw [hsh j (List.mem_range.1 hj)]
          split <;> rfl
        rw [ht, hf]
        refine ⟨⟨?_, ?_, ?_, ?_, ?_, ?_⟩, rfl⟩
        · rw [e1, ha, ← h1]
          exact r.d.congr (fun j hj => by rw [h2 j hj, hsh j hj])
        · rw [e2]; exact r.regd
        · rw [e1, e3]; exact r.ev
        · rw [e1, e2, e3]; exact r.evr
        · exact r.stall.data rfl rfl rfl e4 e1 (fun t ht => by rw [hns] at ht; cases ht)
        · intro _ _
          exact ⟨ha, by rw [e1]; exact hsh⟩
  | isValid k =>
    refine ⟨r, ?_⟩
    simp only [PL.step, Spec.step, r.d.isValid]
    by_cases hk : k < s.n <;> simp [hk, Spec.occupied]
  | read k =>
    refine ⟨r, ?_⟩
    simp only [PL.step, Spec.step, r.d.read]
    by_cases hk : k < s.n
    · simp only [hk, if_true]; cases s.stage k <;> rfl
    · simp [hk]
  | readAppended =>
    refine ⟨r, ?_⟩
    simp only [PL.step, Spec.step, PL.readAppended, r.d.full.rep.memApp]
    cases s.app <;> rfl
  | isAppended => exact ⟨r, congrArg Res.bool r.d.isAppended⟩
  | numValid => exact ⟨r, congrArg Res.nat (numValid_eq r)⟩
  | isAnyValid => exact ⟨r, congrArg Res.bool (any_eq r)⟩
  | isStalled => exact ⟨r, congrArg Res.bool r.stalled⟩
  | isStalledAt k =>
    refine ⟨r, congrArg Res.bool ?_⟩
    unfold PL.isStalledAt
    rw [r.stalled]
    have hst := r.stall
    unfold StallOk at hst
    cases hs : s.stall with
    | none => rfl
    | some t => rw [hs] at hst; rw [hst.2.2.1]; simp

end Sparta.Pipeline
