import Verif.PayloadEvent.Lemmas
/-!
The remaining calls, and whole histories.
-/
namespace Sparta.PayloadEvent
variable {α : Type}

theorem schedule_rep {s : PE α} {t : Spec α} {k d : Nat} (r : Rep s t) (hl : (t.item k).live = true) :
    Rep (s.schedule (s.hs k) d).1 (t.step (.schedule k d)).1 ∧ (s.schedule (s.hs k) d).2 = (t.step (.schedule k d)).2 := by
  have hg := r.good k hl
  have e : s.schedule (s.hs k) d = if t.waits k = true ∨ (t.item k).cancelled = true then (s, .threw)
      else if d = 0 ∧ t.past = true then (s, .threw)
      else ({ s.setPx (s.hs k) ⟨(t.item k).x, true, true, (t.item k).cancelled, (t.item k).refs⟩ with
        todo := upd s.todo (s.now + d) (s.todo (s.now + d) ++ [some (s.hs k)]) }, .done) := by
    unfold PE.schedule
    rw [hg, r.past]
    dsimp only
    by_cases h : t.waits k = true ∨ (t.item k).cancelled = true
    · rw [if_pos h.symm, if_pos h]
    · rw [if_neg (fun h' => h h'.symm), if_neg h]
  rw [e]
  show Rep _ (if _ then _ else _ : Spec α × Res α).1 ∧ _ = (if _ then _ else _ : Spec α × Res α).2
  split
  · exact ⟨r, rfl⟩
  · split
    · exact ⟨r, rfl⟩
    · rename_i hnw _
      have hnw' : t.waits k = false := by
        cases h : t.waits k with
        | false => rfl
        | true => exact absurd (.inl h) hnw
      refine ⟨?_, rfl⟩
      have hw : ∀ j, ({ t with pending := t.pending ++ [(t.now + d, k)] } : Spec α).waits j = (t.waits j || k == j) := by
        intro j
        unfold Spec.waits
        rw [List.any_append]; simp
      refine ⟨r.cap, r.nh, r.now, r.past, ?_, r.val, r.inj, r.infl, ?_, r.nd, r.lt, r.cnt, ?_, r.vis, r.run, r.liveLt, ?_, r.dead, ?_, ?_, r.runFired, r.runLt⟩
      · intro j h
        rw [hw]
        show upd s.px _ _ (s.hs j) = _
        by_cases ej : j = k
        · subst ej
          rw [upd_same]; simp
        · have hne : s.hs j ≠ s.hs k := fun e => ej (r.inj j k h hl e)
          rw [upd_other _ _ hne]
          have : (k == j) = false := by simpa using fun e : k = j => ej e.symm
          rw [this, Bool.or_false]
          exact r.good j h
      · intro p hp
        have hne : p ≠ s.hs k := fun e => hp ((r.mem_inflight p).2 ⟨k, hl, e.symm⟩)
        show upd s.px _ _ p = _
        rw [upd_other _ _ hne]
        exact r.idle p hp
      · intro u hu
        have hu' : t.now ≤ u := hu
        show (upd s.todo (s.now + d) _ u).filterMap id = ((t.pending ++ [(t.now + d, k)]).filter _).map _
        rw [List.filter_append, List.map_append]
        by_cases eu : u = s.now + d
        · subst eu
          rw [upd_same, List.filterMap_append, r.todo _ hu']
          rw [r.now]
          simp [PE.setPx]
        · rw [upd_other _ _ eu, r.todo _ hu']
          rw [r.now] at eu
          have : ([(t.now + d, k)].filter (fun e => e.1 == u)) = [] := by
            simp; exact fun e => eu e.symm
          rw [this]; simp [PE.setPx]
      · intro j _ h h0
        rw [hw]
        rcases r.keep j (by simp) h h0 with h1 | h1
        · rw [h1]; exact .inl rfl
        · exact .inr h1
      · intro e he
        rcases List.mem_append.1 he with h | h
        · exact r.pend e h
        · have : e = (t.now + d, k) := by simpa using h
          subst this
          exact ⟨hl, Nat.le_add_right _ _⟩
      · show ((t.pending ++ [(t.now + d, k)]).map (·.2)).Nodup
        rw [List.map_append, List.nodup_append]
        refine ⟨r.pnd, by simp, ?_⟩
        intro a ha b hb
        have hb' : b = k := by simpa using hb
        subst hb'
        intro e; subst e
        obtain ⟨e, he, h2⟩ := List.mem_map.1 ha
        have := (waits_iff t a).2 ⟨e, he, h2⟩
        rw [hnw'] at this; cases this

theorem ids_prepare (t : Spec α) (i : Item α) (hi : i.live = true) :
    ({ t with n := t.n + 1, item := upd t.item t.n i } : Spec α).ids = t.ids ++ [t.n] := by
  unfold Spec.ids
  dsimp only
  rw [List.range_succ, List.filter_append]
  congr 1
  · apply List.filter_congr
    intro j hj
    rw [upd_other _ _ (by have := List.mem_range.1 hj; omega)]
  · simp [hi]

/-- a proxy `p` that is not in use takes the new payload -/
theorem take_rep {s : PE α} {t : Spec α} (r : Rep s t) (x : α) (p : Nat) (fr : List Nat) (ai : Nat) (hp : p ∉ s.inflight)
    (hnd : (fr ++ (s.inflight ++ [p])).Nodup) (hlt : ∀ q ∈ fr ++ (s.inflight ++ [p]), q < ai)
    (hcnt : fr.length + (s.inflight ++ [p]).length = min ai (s.cap - 1)) :
    Rep { s with free := fr, allocIdx := ai, inflight := s.inflight ++ [p],
                 px := upd s.px p { s.px p with payload := some x, inflight := true, refs := (s.px p).refs + 1 }, nh := s.nh + 1,
                 hs := upd s.hs s.nh p }
      { t with n := t.n + 1, item := upd t.item t.n ⟨some x, 1, false, true⟩ } := by
  have hn : (t.item t.n).live = false := by
    cases h : (t.item t.n).live with
    | false => rfl
    | true => have := r.liveLt _ h; omega
  have hitem : ∀ j, j ≠ t.n → ({ t with n := t.n + 1, item := upd t.item t.n ⟨some x, 1, false, true⟩ } : Spec α).item j = t.item j :=
    fun j hj => upd_other _ _ hj
  have hitemn : ({ t with n := t.n + 1, item := upd t.item t.n ⟨some x, 1, false, true⟩ } : Spec α).item t.n = ⟨some x, 1, false, true⟩ :=
    upd_same _ _ _
  have hw : ∀ j, ({ t with n := t.n + 1, item := upd t.item t.n ⟨some x, 1, false, true⟩ } : Spec α).waits j = t.waits j := fun _ => rfl
  have hwn : t.waits t.n = false := by
    cases h : t.waits t.n with
    | false => rfl
    | true =>
      obtain ⟨e, h1, h2⟩ := (waits_iff t t.n).1 h
      have := (r.pend e h1).1
      rw [h2, hn] at this; cases this
  have hhs : ∀ j, j < t.n → upd s.hs s.nh p j = s.hs j := fun j hj => upd_other _ _ (by rw [r.nh]; omega)
  have hhsn : upd s.hs s.nh p t.n = p := by rw [r.nh]; exact upd_same _ _ _
  have hne : ∀ j, (t.item j).live = true → s.hs j ≠ p := fun j hj e => hp ((r.mem_inflight p).2 ⟨j, hj, e⟩)
  have hcase : ∀ j, (({ t with n := t.n + 1, item := upd t.item t.n ⟨some x, 1, false, true⟩ } : Spec α).item j).live = true →
      j = t.n ∨ (j ≠ t.n ∧ (t.item j).live = true) := by
    intro j h
    by_cases e : j = t.n
    · exact .inl e
    · rw [hitem j e] at h; exact .inr ⟨e, h⟩
  refine ⟨r.cap, ?_, r.now, r.past, ?_, ?_, ?_, ?_, ?_, hnd, hlt, hcnt, ?_, r.vis, ?_, ?_, ?_, ?_, ?_, r.pnd, r.runFired, ?_⟩
  · show s.nh + 1 = t.n + 1; rw [r.nh]
  · intro j h
    rw [hw]
    show upd s.px p _ (upd s.hs s.nh p j) = _
    rcases hcase j h with e | ⟨e, hj⟩
    · subst e
      rw [hhsn, upd_same, hitemn, r.idle p hp, hwn]
      rfl
    · rw [hhs j (r.liveLt j hj), upd_other _ _ (hne j hj), hitem j e]
      exact r.good j hj
  · intro j h
    rcases hcase j h with e | ⟨e, hj⟩
    · subst e; rw [hitemn]; rfl
    · rw [hitem j e]; exact r.val j hj
  · intro i j hi hj
    show upd s.hs s.nh p i = upd s.hs s.nh p j → i = j
    rcases hcase i hi with e | ⟨e, hi'⟩ <;> rcases hcase j hj with e' | ⟨e', hj'⟩
    · intro _; rw [e, e']
    · rw [e, hhsn, hhs j (r.liveLt j hj')]
      intro h; exact absurd h.symm (hne j hj')
    · rw [e', hhsn, hhs i (r.liveLt i hi')]
      intro h; exact absurd h (hne i hi')
    · rw [hhs i (r.liveLt i hi'), hhs j (r.liveLt j hj')]
      exact r.inj i j hi' hj'
  · show s.inflight ++ [p] = _
    rw [ids_prepare _ _ rfl, List.map_append, r.infl]
    congr 1
    · apply List.map_congr_left
      intro j hj
      exact (hhs j ((mem_ids t j).1 hj).1).symm
    · show [p] = [upd s.hs s.nh p t.n]
      rw [hhsn]
  · intro q hq
    have hq' : q ∉ s.inflight ++ [p] := hq
    rw [List.mem_append, not_or] at hq'
    have : q ≠ p := by simpa using hq'.2
    show upd s.px p _ q = _
    rw [upd_other _ _ this]
    exact r.idle q hq'.1
  · intro u hu
    show (s.todo u).filterMap id = (t.pending.filter _).map fun e => upd s.hs s.nh p e.2
    rw [r.todo u hu]
    apply List.map_congr_left
    intro e he
    exact (hhs e.2 (r.liveLt _ (r.pend e (List.mem_filter.1 he).1).1)).symm
  · show s.firing = t.running.map (upd s.hs s.nh p)
    rw [r.run]
    cases h : t.running with
    | none => rfl
    | some k => simp only [Option.map_some]; rw [hhs k (r.runLt k h)]
  · intro j h
    show j < t.n + 1
    rcases hcase j h with e | ⟨e, hj⟩
    · omega
    · have := r.liveLt j hj; omega
  · intro j _ h h0
    rcases hcase j h with e | ⟨e, hj⟩
    · subst e; rw [hitemn] at h0; cases h0
    · rw [hitem j e] at h0; exact r.keep j (by simp) hj h0
  · intro j h
    by_cases e : j = t.n
    · subst e; rw [hitemn] at h; cases h
    · rw [hitem j e] at h ⊢; exact r.dead j h
  · intro e he
    have he' : e ∈ t.pending := he
    have h1 := r.pend e he'
    rw [hitem e.2 (by have := r.liveLt _ h1.1; omega)]
    exact h1
  · intro k h
    have := r.runLt k h
    show k < t.n + 1
    omega

theorem prepare_rep {s : PE α} {t : Spec α} (r : Rep s t) (x : α) :
    Rep (s.prepare x).1 (t.step (.prepare x)).1 ∧ (s.prepare x).2 = (t.step (.prepare x)).2 := by
  have hlen : s.inflight.length = t.ids.length := by rw [r.infl, List.length_map]
  have hc := r.cnt
  have hcap := r.cap
  unfold PE.prepare
  show _ ∧ _ = (if _ then _ else _ : Spec α × Res α).2
  cases hf : s.free with
  | cons p rest =>
    have hnd := r.nd
    have hlt := r.lt
    rw [hf] at hnd hlt hc
    have hp : p ∉ s.inflight := by
      have := List.nodup_append.1 hnd
      intro h; exact this.2.2 p List.mem_cons_self p h rfl
    have hok : t.ids.length + 1 < t.cap := by
      rw [List.length_cons] at hc; omega
    dsimp only
    rw [if_pos hok]
    have hsp : (t.step (.prepare x)).1 = { t with n := t.n + 1, item := upd t.item t.n ⟨some x, 1, false, true⟩ } := by
      show (if _ then _ else _ : Spec α × Res α).1 = _
      rw [if_pos hok]
    rw [hsp]
    refine ⟨?_, by rw [r.nh]⟩
    apply take_rep r x p rest s.allocIdx hp
    · have h1 := List.nodup_append.1 hnd
      have h2 := List.nodup_cons.1 h1.1
      rw [← List.append_assoc, List.nodup_append]
      refine ⟨List.nodup_append.2 ⟨h2.2, h1.2.1, fun a ha b hb => h1.2.2 a (List.mem_cons_of_mem _ ha) b hb⟩, by simp, ?_⟩
      intro a ha b hb
      have : b = p := by simpa using hb
      subst this
      rcases List.mem_append.1 ha with h | h
      · intro e; subst e; exact h2.1 h
      · intro e; subst e; exact hp h
    · intro q hq
      apply hlt
      rw [List.mem_append, List.mem_append] at hq
      rw [List.mem_append, List.mem_cons]
      rcases hq with h | h | h
      · exact .inl (.inr h)
      · exact .inr h
      · exact .inl (.inl (by simpa using h))
    · rw [List.length_append, List.length_singleton]
      rw [List.length_cons] at hc; omega
  | nil =>
    have hlt := r.lt
    have hnd := r.nd
    rw [hf] at hc hlt hnd
    rw [List.length_nil] at hc
    dsimp only
    by_cases hok : s.allocIdx + 1 < s.cap
    · have hok' : t.ids.length + 1 < t.cap := by omega
      rw [if_pos hok, if_pos hok']
      have hsp : (t.step (.prepare x)).1 = { t with n := t.n + 1, item := upd t.item t.n ⟨some x, 1, false, true⟩ } := by
        show (if _ then _ else _ : Spec α × Res α).1 = _
        rw [if_pos hok']
      rw [hsp]
      refine ⟨?_, by rw [r.nh]⟩
      have hp : s.allocIdx ∉ s.inflight := by
        intro h
        have := hlt _ (List.mem_append.2 (.inr h))
        omega
      have h := take_rep r x s.allocIdx [] (s.allocIdx + 1) hp ?_ ?_ ?_
      · exact h
      · rw [List.nil_append, List.nodup_append]
        refine ⟨r.nd_infl, by simp, ?_⟩
        intro a ha b hb
        have : b = s.allocIdx := by simpa using hb
        subst this
        intro e; subst e; exact hp ha
      · intro q hq
        rw [List.nil_append, List.mem_append] at hq
        rcases hq with h | h
        · have := hlt q (List.mem_append.2 (.inr h)); omega
        · have : q = s.allocIdx := by simpa using h
          omega
      · rw [List.length_append, List.length_singleton, List.length_nil]; omega
    · have hok' : ¬ t.ids.length + 1 < t.cap := by omega
      rw [if_neg hok, if_neg hok']
      have hsp : (t.step (.prepare x)).1 = t := by
        show (if _ then _ else _ : Spec α × Res α).1 = _
        rw [if_neg hok']
      rw [hsp]
      refine ⟨?_, rfl⟩
      refine ⟨r.cap, r.nh, r.now, r.past, r.good, r.val, r.inj, r.infl, r.idle, hnd, ?_, ?_, r.todo, r.vis, r.run, r.liveLt, r.keep, r.dead, r.pend, r.pnd, r.runFired, r.runLt⟩
      · intro q hq
        have := hlt q hq
        show q < s.allocIdx + 1; omega
      · show ([] : List Nat).length + s.inflight.length = min (s.allocIdx + 1) (s.cap - 1)
        rw [List.length_nil]; omega

/-- changing the number of handles of `k` -/
theorem refs_rep {s : PE α} {t : Spec α} {k : Nat} (r : Rep s t) (hl : (t.item k).live = true) (n : Nat) :
    RepX (some k) (s.setPx (s.hs k) { s.px (s.hs k) with refs := n }) (t.set k { t.item k with refs := n }) := by
  have hg := r.good k hl
  have hk : (t.set k { t.item k with refs := n }).item k = { t.item k with refs := n } := upd_same _ _ _
  have hitem : ∀ j, j ≠ k → (t.set k { t.item k with refs := n }).item j = t.item j := fun j hj => upd_other _ _ hj
  have hlive : ∀ j, ((t.set k { t.item k with refs := n }).item j).live = (t.item j).live := by
    intro j
    by_cases e : j = k
    · subst e; rw [hk]
    · rw [hitem j e]
  have hids : (t.set k { t.item k with refs := n }).ids = t.ids := by
    unfold Spec.ids
    apply List.filter_congr
    intro j _; exact hlive j
  refine ⟨r.cap, r.nh, r.now, r.past, ?_, ?_, ?_, ?_, ?_, r.nd, r.lt, r.cnt, r.todo, r.vis, r.run, ?_, ?_, ?_, ?_, r.pnd, r.runFired, r.runLt⟩
  · intro j h
    rw [hlive] at h
    have hw : (t.set k { t.item k with refs := n }).waits j = t.waits j := rfl
    rw [hw]
    show upd s.px _ _ (s.hs j) = _
    by_cases e : j = k
    · subst e; rw [upd_same, hk, hg]
    · rw [upd_other _ _ (fun e' => e (r.inj j k h hl e')), hitem j e]; exact r.good j h
  · intro j h
    rw [hlive] at h
    by_cases e : j = k
    · subst e; rw [hk]; exact r.val j h
    · rw [hitem j e]; exact r.val j h
  · intro i j hi hj
    rw [hlive] at hi hj
    exact r.inj i j hi hj
  · rw [hids]; exact r.infl
  · intro p hp
    have hne : p ≠ s.hs k := fun e => hp ((r.mem_inflight p).2 ⟨k, hl, e.symm⟩)
    show upd s.px _ _ p = _
    rw [upd_other _ _ hne]; exact r.idle p hp
  · intro j h
    rw [hlive] at h; exact r.liveLt j h
  · intro j he h h0
    have hj : j ≠ k := fun e => he (by rw [e])
    rw [hitem j hj] at h h0
    exact r.keep j (by simp) h h0
  · intro j h
    have hj : j ≠ k := by intro e; subst e; rw [hlive, hl] at h; cases h
    rw [hitem j hj] at h ⊢; exact r.dead j h
  · intro e he
    rw [hlive]; exact r.pend e he

theorem RepX.close {s : PE α} {t : Spec α} {k : Nat} (r : RepX (some k) s t)
    (h : (t.item k).live = true → (t.item k).refs = 0 → t.waits k = true ∨ t.running = some k) : Rep s t := by
  refine ⟨r.cap, r.nh, r.now, r.past, r.good, r.val, r.inj, r.infl, r.idle, r.nd, r.lt, r.cnt, r.todo, r.vis, r.run, r.liveLt, ?_, r.dead, r.pend, r.pnd, r.runFired, r.runLt⟩
  intro j _ hj h0
  by_cases e : j = k
  · subst e; exact h hj h0
  · exact r.keep j (fun e' => e (Option.some.inj e')) hj h0

theorem drop_rep {s : PE α} {t : Spec α} {k : Nat} (r : Rep s t) (hl : (t.item k).live = true) (h0 : 0 < (t.item k).refs) :
    Rep (s.disconnect (s.hs k)) ((t.set k { t.item k with refs := (t.item k).refs - 1 }).settle k) := by
  have hg := r.good k hl
  have hd : u32dec (s.px (s.hs k)).refs = (t.item k).refs - 1 := by
    rw [hg]; unfold u32dec; dsimp only; rw [if_neg (by omega)]
  have r1 := refs_rep r hl ((t.item k).refs - 1)
  have hk : (t.set k { t.item k with refs := (t.item k).refs - 1 }).item k = { t.item k with refs := (t.item k).refs - 1 } := upd_same _ _ _
  unfold PE.disconnect
  dsimp only
  rw [hd]
  have hpx : ((s.setPx (s.hs k) { s.px (s.hs k) with refs := (t.item k).refs - 1 }).px (s.hs k)).refs = (t.item k).refs - 1 := by
    simp [PE.setPx]
  rw [hpx]
  by_cases h1 : (t.item k).refs - 1 = 0
  · rw [if_pos h1]
    exact settle_rep r1 (by rw [hk]; exact hl)
  · rw [if_neg h1]
    have : (t.set k { t.item k with refs := (t.item k).refs - 1 }).settle k = t.set k { t.item k with refs := (t.item k).refs - 1 } := by
      unfold Spec.settle
      rw [hk, if_neg (fun h => h1 h.1)]
    rw [this]
    apply r1.close
    intro _ h
    rw [hk] at h
    exact absurd h h1

theorem ret_rep {s : PE α} {t : Spec α} (r : Rep s t) :
    Rep s.ret.1 (t.step .ret).1 ∧ s.ret.2 = (t.step .ret).2 := by
  have hr := r.run
  unfold PE.ret Spec.step
  dsimp only
  cases ht : t.running with
  | none =>
    rw [ht] at hr
    rw [hr]
    exact ⟨r, rfl⟩
  | some k =>
    rw [ht] at hr
    rw [hr]
    dsimp only [Option.map_some]
    refine ⟨?_, rfl⟩
    have r1 : RepX (some k) { s with firing := none } { t with running := none } := by
      refine ⟨r.cap, r.nh, r.now, r.past, r.good, r.val, r.inj, r.infl, r.idle, r.nd, r.lt, r.cnt, r.todo, r.vis, rfl, r.liveLt, ?_, r.dead, r.pend, r.pnd, ?_, ?_⟩
      · intro j he hj h0
        rcases r.keep j (by simp) hj h0 with h | h
        · exact .inl h
        · rw [ht] at h
          exact absurd h.symm he
      · intro h; cases h
      · intro j h; cases h
    by_cases hl : (t.item k).live = true
    · exact settle_rep (s := { s with firing := none }) (t := { t with running := none }) r1 hl
    · have hl' : (t.item k).live = false := by simpa using hl
      have hd := r.dead k hl'
      have hwk : t.waits k = false := by
        cases h : t.waits k with
        | false => rfl
        | true =>
          obtain ⟨e, h1, h2⟩ := (waits_iff t k).1 h
          have := (r.pend e h1).1
          rw [h2] at this; exact absurd this hl
      have e1 : ({ t with running := none } : Spec α).settle k = { t with running := none } := by
        unfold Spec.settle Spec.set
        have hw' : ({ t with running := none } : Spec α).waits k = false := hwk
        rw [if_pos ⟨hd.1, hw'⟩]
        dsimp only
        congr 1
        funext j
        unfold upd
        split
        · rename_i e
          subst e
          have : t.item j = ⟨(t.item j).x, (t.item j).refs, (t.item j).cancelled, (t.item j).live⟩ := rfl
          rw [this, hd.2, hl']
        · rfl
      have e2 : ({ s with firing := none } : PE α).reclaim (s.hs k) = { s with firing := none } := by
        by_cases hm : s.hs k ∈ s.inflight
        · obtain ⟨j, hj, ej⟩ := (r.mem_inflight _).1 hm
          have hjk : j ≠ k := by intro e; subst e; exact hl hj
          have hgj := r.good j hj
          rw [ej] at hgj
          unfold PE.reclaim
          dsimp only
          rw [hgj, if_neg]
          rintro ⟨h1, h2⟩
          rcases r.keep j (by simp) hj h2 with h | h
          · dsimp only at h1; rw [h] at h1; cases h1
          · rw [ht] at h; exact hjk (Option.some.inj h).symm
        · have hf := r.idle _ hm
          have hup : upd s.px (s.hs k) (Proxy.fresh : Proxy α) = s.px := by
            funext q; unfold upd; split
            · rename_i e; rw [e, hf]
            · rfl
          simp only [PE.reclaim, PE.reclaimProxy, hf, Proxy.fresh, PE.setPx]
          simp
          rw [hf]; exact hup
      rw [e1, e2]
      apply r1.close
      intro h _
      exact absurd h hl

theorem nextEntry_none : ∀ {l : List (Option Nat)}, nextEntry l = none ↔ l.filterMap id = []
  | [] => by simp [nextEntry]
  | none :: l => by
    have := nextEntry_none (l := l)
    simp only [nextEntry, this]; rfl
  | some p :: l => by simp [nextEntry]

theorem nextEntry_some (l : List (Option Nat)) : ∀ {p : Nat} {r : List (Option Nat)}, nextEntry l = some (p, r) →
    l.filterMap id = p :: r.filterMap id := by
  induction l with
  | nil => intro _ _ h; cases h
  | cons a l ih =>
    intro p r h
    cases a with
    | none => exact ih h
    | some q =>
      injection h with h
      injection h with h1 h2
      subst h1; subst h2
      rfl

theorem fire_rep {s : PE α} {t : Spec α} (r : Rep s t) :
    Rep s.fire.1 (t.step .fire).1 ∧ s.fire.2 = (t.step .fire).2 := by
  have hrun : s.firing.isSome = t.running.isSome := by rw [r.run, Option.isSome_map]
  unfold PE.fire Spec.step
  dsimp only
  rw [hrun]
  by_cases hr : t.running.isSome = true
  · rw [if_pos hr, if_pos hr]; exact ⟨r, rfl⟩
  rw [if_neg hr, if_neg hr]
  have htd := r.todo t.now (Nat.le_refl _)
  have hnow := r.now
  rw [hnow]
  have hhead : t.pending.find? (fun e => e.1 == t.now) = (t.pending.filter (fun e => e.1 == t.now)).head? :=
    List.head?_filter.symm
  cases hn : nextEntry (s.todo t.now) with
  | none =>
    have h1 := nextEntry_none.1 hn
    rw [h1] at htd
    have h2 : t.pending.filter (fun e => e.1 == t.now) = [] := by
      cases h : t.pending.filter (fun e => e.1 == t.now) with
      | nil => rfl
      | cons a l => rw [h] at htd; cases htd
    rw [hhead, h2]
    exact ⟨r, rfl⟩
  | some pl =>
    obtain ⟨p, l⟩ := pl
    have h1 := nextEntry_some _ hn
    rw [h1] at htd
    cases hfl : t.pending.filter (fun e => e.1 == t.now) with
    | nil => rw [hfl] at htd; cases htd
    | cons e rest =>
      rw [hfl, List.map_cons] at htd
      injection htd with hp hrest
      have he : e ∈ t.pending ∧ (e.1 == t.now) = true := by
        have : e ∈ t.pending.filter (fun e => e.1 == t.now) := by rw [hfl]; exact List.mem_cons_self
        exact List.mem_filter.1 this
      have hl := (r.pend e he.1).1
      have hg := r.good e.2 hl
      have hwt : t.waits e.2 = true := (waits_iff t e.2).2 ⟨e, he.1, rfl⟩
      rw [hhead, hfl]
      subst hp
      dsimp only [List.head?_cons]
      rw [hg]
      dsimp only
      rw [hwt, if_neg (by simp)]
      have hv := r.val e.2 hl
      obtain ⟨x, hx⟩ := Option.isSome_iff_exists.1 hv
      rw [hx]
      dsimp only
      refine ⟨?_, rfl⟩
      have hkeepfilter : ∀ u, (t.pending.filter (·.2 != e.2)).filter (·.1 == u) = if u = t.now then rest else t.pending.filter (·.1 == u) := by
        intro u
        rw [List.filter_filter]
        by_cases hu : u = t.now
        · subst hu
          rw [if_pos rfl]
          have : t.pending.filter (fun a => a.1 == t.now && a.2 != e.2) = (t.pending.filter (fun a => a.1 == t.now)).filter (fun a => a.2 != e.2) := by
            rw [List.filter_filter]
            apply List.filter_congr
            intro a _; exact Bool.and_comm _ _
          rw [this, hfl, List.filter_cons_of_neg (by simp), List.filter_eq_self]
          intro a ha
          have hsub : (e :: rest).map (·.2) |>.Nodup := by
            rw [← hfl]
            exact List.Pairwise.sublist (List.Sublist.map _ List.filter_sublist) r.pnd
          rw [List.map_cons, List.nodup_cons] at hsub
          rw [bne_iff_ne]
          intro h
          exact hsub.1 (List.mem_map.2 ⟨a, ha, h⟩)
        · rw [if_neg hu]
          apply List.filter_congr
          intro a ha
          cases h : (a.1 == u) with
          | false => rfl
          | true =>
            rw [Bool.true_and, bne_iff_ne]
            intro h2
            have h3 : a.1 = u := by simpa using h
            have h4 : e.1 = t.now := by simpa using he.2
            have h5 : (a.1, e.2) ∈ t.pending := by rw [← h2]; exact ha
            have := pnd_unique r.pnd h5 he.1
            omega
      have hw : ∀ j, ({ t with pending := t.pending.filter (·.2 != e.2), running := some e.2, fired := true } : Spec α).waits j =
          (t.waits j && j != e.2) := by
        intro j
        rw [Bool.eq_iff_iff, waits_iff, Bool.and_eq_true, waits_iff]
        constructor
        · rintro ⟨a, h1, h2⟩
          have := List.mem_filter.1 h1
          refine ⟨⟨a, this.1, h2⟩, ?_⟩
          rw [← h2]; exact this.2
        · rintro ⟨⟨a, h1, h2⟩, h3⟩
          exact ⟨a, List.mem_filter.2 ⟨h1, by rw [h2]; exact h3⟩, h2⟩
      refine ⟨r.cap, r.nh, rfl, r.past, ?_, r.val, r.inj, r.infl, ?_, r.nd, r.lt, r.cnt, ?_, ?_, rfl, r.liveLt, ?_, r.dead, ?_, ?_, ?_, ?_⟩
      · intro j hj
        rw [hw]
        show upd s.px _ _ (s.hs j) = _
        by_cases ej : j = e.2
        · subst ej
          rw [upd_same]; simp [hx]
        · rw [upd_other _ _ (fun h => ej (r.inj _ _ hj hl h))]
          have : (j != e.2) = true := by simpa using ej
          rw [this, Bool.and_true]
          exact r.good j hj
      · intro q hq
        have hne : q ≠ s.hs e.2 := fun h => hq ((r.mem_inflight q).2 ⟨e.2, hl, h.symm⟩)
        show upd s.px _ _ q = _
        rw [upd_other _ _ hne]; exact r.idle q hq
      · intro u hu
        show (upd s.todo t.now l u).filterMap id = ((t.pending.filter (·.2 != e.2)).filter (·.1 == u)).map _
        rw [hkeepfilter u]
        by_cases hu' : u = t.now
        · subst hu'
          rw [upd_same, if_pos rfl, hrest]
          rfl
        · rw [upd_other _ _ hu', if_neg hu']
          exact r.todo u hu
      · intro h; cases h
      · intro j _ hj h0
        rw [hw]
        by_cases ej : j = e.2
        · exact .inr (by rw [ej])
        · rcases r.keep j (by simp) hj h0 with h | h
          · left; rw [h]; simpa using ej
          · rw [h] at hr; exact absurd rfl hr
      · intro a ha
        exact r.pend a (List.mem_filter.1 ha).1
      · exact List.Pairwise.sublist (List.Sublist.map _ List.filter_sublist) r.pnd
      · intro _; rfl
      · intro j h
        have : e.2 = j := Option.some.inj h
        rw [← this]; exact r.liveLt _ hl

theorem over_eq {s : PE α} {t : Spec α} (r : Rep s t) : s.over = t.over := by
  unfold PE.over Spec.over
  have h1 : s.firing.isNone = t.running.isNone := by rw [r.run]; cases t.running <;> rfl
  rw [h1]
  congr 1
  have htd := r.todo t.now (Nat.le_refl _)
  rw [r.now, Bool.eq_iff_iff, List.all_eq_true]
  rw [Bool.not_eq_true', List.any_eq_false]
  constructor
  · intro h e he hc
    have : s.hs e.2 ∈ (s.todo t.now).filterMap id := by
      rw [htd]; exact List.mem_map.2 ⟨e, List.mem_filter.2 ⟨he, hc⟩, rfl⟩
    obtain ⟨a, h2, h3⟩ := List.mem_filterMap.1 this
    have h4 := h a h2
    have h5 : a = some (s.hs e.2) := h3
    rw [h5] at h4; cases h4
  · intro h a ha
    cases a with
    | none => rfl
    | some p =>
      exfalso
      have : p ∈ (s.todo t.now).filterMap id := List.mem_filterMap.2 ⟨_, ha, rfl⟩
      rw [htd] at this
      obtain ⟨e, he, _⟩ := List.mem_map.1 this
      have := List.mem_filter.1 he
      exact h e this.1 this.2

theorem over_pending {t : Spec α} (h : t.over = true) : t.running = none ∧ ∀ e ∈ t.pending, e.1 ≠ t.now := by
  unfold Spec.over at h
  rw [Bool.and_eq_true, Bool.not_eq_true', List.any_eq_false] at h
  refine ⟨Option.isNone_iff_eq_none.1 h.1, ?_⟩
  intro e he hc
  exact h.2 e he (by simpa using hc)

theorem rep_step (s : PE α) (t : Spec α) (o : Op α) (r : Rep s t) (hl : t.legal o) :
    Rep (s.step o).1 (t.step o).1 ∧ (s.step o).2 = (t.step o).2 := by
  have hlive : ∀ k, 0 < (t.item k).refs → (t.item k).live = true := by
    intro k h
    cases hx : (t.item k).live with
    | true => rfl
    | false => have := (r.dead k hx).1; omega
  have hlen : s.inflight.length = t.ids.length := by rw [r.infl, List.length_map]
  have hidl : ∀ k ∈ t.ids, (t.item k).live = true := fun k hk => ((mem_ids t k).1 hk).2
  have hcont : ∀ k, (t.item k).live = true → t.ids.contains k = true := fun k hk =>
    List.contains_iff_mem.2 ((mem_ids t k).2 ⟨r.liveLt k hk, hk⟩)
  cases o with
  | prepare x => exact prepare_rep r x
  | copy k =>
    refine ⟨?_, rfl⟩
    have hk := hlive k hl.2
    have hg := r.good k hk
    have r1 := refs_rep r hk ((t.item k).refs + 1)
    show Rep (s.connect (s.hs k)) (t.set k _)
    unfold PE.connect
    have : (s.px (s.hs k)).refs = (t.item k).refs := by rw [hg]
    rw [this]
    apply r1.close
    intro _ h
    simp [Spec.set] at h
  | drop k => exact ⟨drop_rep r (hlive k hl.2) hl.2, rfl⟩
  | move k => exact hl.elim
  | selfAssign k => exact hl.elim
  | schedule k d => exact schedule_rep r (hlive k hl.2)
  | cancelH k => exact ⟨cancel_rep r (hlive k hl.2), rfl⟩
  | cancelHAt k rel => exact ⟨cancelAt_rep r (hlive k hl.2.1) hl.2.2, rfl⟩
  | cancelAll =>
    refine ⟨?_, by show Res.num _ = Res.num _; rw [hlen]⟩
    show Rep (s.cancelAll s.inflight) (t.cancel fun _ => true)
    have h := cancelAll_rep t.ids r (ids_nodup t) hidl
    rw [← r.infl] at h
    rw [cancel_congr r (fun _ => true) (fun k => t.ids.contains k) (fun k hk => (hcont k hk).symm)]
    exact h
  | cancelAt rel =>
    refine ⟨?_, by show Res.num _ = Res.num _; rw [hlen]⟩
    show Rep (s.cancelAllAt rel s.inflight) (t.cancel fun i => t.pending.contains (t.now + rel, i))
    have h := cancelAllAt_rep rel t.ids r (ids_nodup t) hidl hl
    rw [← r.infl] at h
    rw [cancel_congr r (fun i => t.pending.contains (t.now + rel, i)) (fun i => t.ids.contains i && t.pending.contains (t.now + rel, i))
      (fun k hk => by rw [hcont k hk, Bool.true_and])]
    exact h
  | cancelIf f =>
    have h := cancelIf_rep f t.ids r (ids_nodup t) hidl
    rw [← r.infl] at h
    have e : (s.step (.cancelIf f)) = ((s.cancelIf f s.inflight).1, .num (s.cancelIf f s.inflight).2) := rfl
    rw [e]
    refine ⟨?_, by show Res.num _ = Res.num _; rw [h.2]⟩
    show Rep _ (t.cancel (t.holds f))
    rw [cancel_congr r (t.holds f) (fun k => t.ids.contains k && t.holds f k) (fun k hk => by rw [hcont k hk, Bool.true_and])]
    exact h.1
  | confirmIf f =>
    refine ⟨r, ?_⟩
    show Res.yes _ = Res.yes _
    rw [r.infl, List.any_map]
    congr 1
    rw [Bool.eq_iff_iff, List.any_eq_true, List.any_eq_true]
    constructor
    · rintro ⟨k, h1, h2⟩
      exact ⟨k, h1, by rw [← sat_eq r f (hidl k h1)]; exact h2⟩
    · rintro ⟨k, h1, h2⟩
      exact ⟨k, h1, by show s.sat f (s.hs k) = true; rw [sat_eq r f (hidl k h1)]; exact h2⟩
  | count => exact ⟨r, by show Res.num _ = Res.num _; rw [hlen]⟩
  | isScheduled => exact ⟨r, by show Res.yes _ = Res.yes _; rw [hlen]⟩
  | isScheduledAt rel =>
    refine ⟨r, ?_⟩
    show Res.yes _ = Res.yes _
    rw [r.infl, List.any_map]
    congr 1
    rw [Bool.eq_iff_iff, List.any_eq_true, List.any_eq_true]
    constructor
    · rintro ⟨k, h1, h2⟩
      have h2' : (s.entries (s.now + rel)).contains (some (s.hs k)) = true := h2
      rw [entries_contains r (hidl k h1) hl] at h2'
      exact ⟨_, List.contains_iff_mem.1 h2', by simp⟩
    · rintro ⟨e, h1, h2⟩
      have hle := (r.pend e h1).1
      refine ⟨e.2, (mem_ids t _).2 ⟨r.liveLt _ hle, hle⟩, ?_⟩
      show (s.entries (s.now + rel)).contains (some (s.hs e.2)) = true
      rw [entries_contains r hle hl, List.contains_iff_mem]
      have : e.1 = t.now + rel := by simpa using h2
      rw [← this]; exact h1
  | arg =>
    have hr := r.run
    show Rep (match s.firing with | none => (s, Res.threw) | some p => (s, match (s.px p).payload with | some x => .payload x | none => .ub)).1
        (match t.running with | none => (t, Res.threw) | some k => (t, resOf (t.item k).x)).1 ∧
      (match s.firing with | none => (s, Res.threw) | some p => (s, match (s.px p).payload with | some x => .payload x | none => .ub)).2 =
        (match t.running with | none => (t, Res.threw) | some k => (t, resOf (t.item k).x)).2
    cases ht : t.running with
    | none => rw [ht] at hr; rw [hr]; exact ⟨r, rfl⟩
    | some k =>
      rw [ht] at hr
      rw [hr]
      refine ⟨r, ?_⟩
      dsimp only [Option.map_some]
      rw [r.good k (hl k ht)]
      dsimp only
      cases (t.item k).x <;> rfl
  | fire => exact fire_rep r
  | ret => exact ret_rep r
  | pass =>
    have ho := over_eq r
    show Rep (if s.over then _ else _ : PE α × Res α).1 (if t.over then _ else _ : Spec α × Res α).1 ∧
      (if s.over then _ else _ : PE α × Res α).2 = (if t.over then _ else _ : Spec α × Res α).2
    rw [ho]
    split
    · exact ⟨⟨r.cap, r.nh, r.now, rfl, r.good, r.val, r.inj, r.infl, r.idle, r.nd, r.lt, r.cnt, r.todo, r.vis, r.run, r.liveLt, r.keep, r.dead, r.pend, r.pnd, r.runFired, r.runLt⟩, rfl⟩
    · exact ⟨r, rfl⟩
  | next =>
    have ho := over_eq r
    show Rep (if s.over then _ else _ : PE α × Res α).1 (if t.over then _ else _ : Spec α × Res α).1 ∧
      (if s.over then _ else _ : PE α × Res α).2 = (if t.over then _ else _ : Spec α × Res α).2
    rw [ho]
    split
    · rename_i h
      obtain ⟨h1, h2⟩ := over_pending h
      refine ⟨?_, rfl⟩
      refine ⟨r.cap, r.nh, ?_, rfl, r.good, r.val, r.inj, r.infl, r.idle, r.nd, r.lt, r.cnt, ?_, ?_, r.run, r.liveLt, r.keep, r.dead, ?_, r.pnd, ?_, r.runLt⟩
      · show s.now + 1 = t.now + 1; rw [r.now]
      · intro u hu
        have hu' : t.now + 1 ≤ u := hu
        exact r.todo u (by omega)
      · intro _ e he; cases he
      · intro e he
        have h3 := r.pend e he
        have h4 := h2 e he
        refine ⟨h3.1, ?_⟩
        show t.now + 1 ≤ e.1
        omega
      · intro h
        have h' : t.running.isSome = true := h
        rw [h1] at h'; cases h'
    · exact ⟨r, rfl⟩

end Sparta.PayloadEvent
