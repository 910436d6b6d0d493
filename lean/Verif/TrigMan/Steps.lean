import Verif.TrigMan.Acts2
/-! Callbacks, ticks, startup, whole runs. -/
namespace Sparta.TrigMan

theorem runActs_flags {r : Ref} {pl : Ref.Place} {as : List Act} (h1 : (r.runActs pl as).proper = true)
    (h2 : (r.runActs pl as).safe = true) : r.proper = true ∧ r.safe = true := by
  induction as generalizing r with
  | nil => exact ⟨h1, h2⟩
  | cons a as ih =>
    obtain ⟨a1, a2⟩ := ih h1 h2
    obtain ⟨b1, b2, -, -⟩ := call_flags a1 a2
    exact ⟨b1, b2⟩

theorem enter_alive {r : Ref} {x t : Nat} (h : r.alive x = true) : (r.enter t).alive x = true := by
  unfold Ref.enter; split <;> exact h

theorem doAct_alive {r : Ref} {a : Act} {x : Nat} (h : r.alive x = true) (hd : a ≠ .destroy x) :
    (r.doAct a).alive x = true := by
  cases a with
  | make clk ctr point cb => exact enter_alive (alive_put h)
  | set t => exact h
  | deactivate t => exact h
  | reset t p =>
    simp only [Ref.doAct]
    split
    · exact h
    · exact alive_put (r := r.quiet t) h
  | destroy t =>
    have : x ≠ t := by rintro rfl; exact hd rfl
    show (upd r.info t none x).isSome = true
    rw [upd_other _ _ this]; exact h
  | copy t =>
    simp only [Ref.doAct]
    split
    · exact h
    · split <;> exact alive_put (r := { r with next := r.next + 1 }) h
  | assign t u =>
    simp only [Ref.doAct]
    split
    · exact h
    · split <;> exact alive_put (r := r.quiet t) h
  | count c v => exact h

theorem runActs_ok {s r c L td cur as} (h : Inv s r (some (c, L, td))) (hL : L ≠ []) (hc : r.alive cur = true)
    (h1 : (r.runActs (.inside c cur td) as).proper = true) (h2 : (r.runActs (.inside c cur td) as).safe = true) :
    ∃ s1, runActs s as = .ok s1 ∧ Inv s1 (r.runActs (.inside c cur td) as) (some (c, L, td)) ∧
      (r.runActs (.inside c cur td) as).alive cur = true := by
  induction as generalizing s r with
  | nil => exact ⟨s, rfl, h, hc⟩
  | cons a as ih =>
    obtain ⟨a1, a2⟩ := runActs_flags (r := r.callAct (.inside c cur td) a) h1 h2
    obtain ⟨-, -, b1, b2⟩ := call_flags a1 a2
    unfold Ref.properAct at b1
    rw [Bool.and_eq_true] at b1
    obtain ⟨s1, e1, h3⟩ := call_ok h (pl := .inside c cur td) ⟨rfl, rfl, hL⟩ a1 a2 (by
      rintro t rfl hh
      have := b1.2
      simp only [Bool.not_eq_true'] at this
      rw [List.contains_iff_mem.2 hh] at this
      exact absurd this (by simp))
    have hal : (r.callAct (.inside c cur td) a).alive cur = true := by
      apply doAct_alive
      · exact hc
      · rintro rfl
        have := b1.2
        simp at this
    obtain ⟨s2, e2, h4, h5⟩ := ih h3 hal h1 h2
    refine ⟨s2, ?_, h4, h5⟩
    unfold runActs
    rw [e1]
    exact e2

theorem weaken {s r c L t td} (h : Inv s r (some (c, L, t :: td))) : Inv s r (some (c, L, td)) := by
  refine ⟨h.fin, h.startup, h.next, h.ctr, h.log, h.alive, h.trigNone, h.trigSome, h.bound, h.actND, h.actAlive,
    h.freshAct, h.waitND, h.waitAlive, h.started, ?_⟩
  intro d
  have hd := h.hnd d
  unfold HRel at hd ⊢
  cases e : s.hnd d with
  | none =>
    rw [e] at hd
    obtain ⟨d1, d2, d3, d4⟩ := hd
    refine ⟨d1, d2, d3, ?_⟩
    intro L' td' he
    obtain ⟨e1, -, -⟩ : c = d ∧ L = L' ∧ td = td' := by simpa using he
    subst e1
    exact d4 L (t :: td) rfl
  | some x =>
    rw [e] at hd
    obtain ⟨d1, d2, d3⟩ := hd
    refine ⟨d1, ?_, ?_⟩
    · intro L' td' he
      obtain ⟨e1, e2, e3⟩ : c = d ∧ L = L' ∧ td = td' := by simpa using he
      subst e1; subst e2; subst e3
      obtain ⟨b1, b2, b3, b4, b5, b6, b7, b8⟩ := d2 L (t :: td) rfl
      exact ⟨b1, b2, b3, b4, b5, fun x hx => b6 x (List.mem_cons_of_mem _ hx), (List.nodup_cons.1 b7).2, b8⟩
    · intro hk
      apply d3
      intro L' td' he
      obtain ⟨e1, -, -⟩ : c = d ∧ L = L' ∧ t :: td = td' := by simpa using he
      subst e1
      exact hk L td rfl

/-- the trigger to be looked at next is active, belongs to the ticking clock and is not fresh -/
theorem head_facts {s r c L t td} (h : Inv s r (some (c, L, t :: td))) :
    t ∈ r.active ∧ r.clkOf t = some c ∧ t ∉ r.fresh ∧ t ∉ td ∧ L ≠ [] := by
  have hd := h.hnd c
  unfold HRel at hd
  cases e : s.hnd c with
  | none =>
    rw [e] at hd
    exact absurd rfl (hd.2.2.2 L (t :: td))
  | some x =>
    rw [e] at hd
    have hb := hd.2.1 L (t :: td) rfl
    obtain ⟨a, b, d⟩ := hb.left t (List.mem_cons_self ..)
    have hon : t ∈ r.on c := by
      rw [hb.on]
      apply List.mem_append_left
      rw [List.mem_filter]
      exact ⟨a, by simpa using b⟩
    obtain ⟨m1, m2⟩ := mem_on.1 hon
    exact ⟨m1, m2, fun hf => d ((hb.fresh t).2 ⟨hf, m2⟩), (List.nodup_cons.1 hb.leftND).1, List.ne_nil_of_mem a⟩

theorem mark_ok {s r k} (h : Inv s r k) {t : Nat} (ha : r.alive t = true) :
    ∃ g, s.trig t = some g ∧ Inv (s.putT t { g with fired := true }) (r.markFired t) k := by
  obtain ⟨i, g, hi, hg, hr⟩ := h.has ha
  refine ⟨g, hg, ?_⟩
  unfold Ref.markFired
  rw [hi]
  exact put_ok h (lt_next h hi) (fun _ => by rw [clkOf_of h hi]) ⟨hr.clk, hr.ctr, hr.point, hr.cb, rfl, hr.active, hr.target⟩

theorem mark_flags (r : Ref) (t : Nat) : (r.markFired t).proper = r.proper ∧ (r.markFired t).safe = r.safe := by
  unfold Ref.markFired
  split <;> exact ⟨rfl, rfl⟩

theorem fire_flags {prog : Prog} {r : Ref} {c t : Nat} {i : Info} {td : List Nat} (h1 : (r.fire prog c t i td).proper = true)
    (h2 : (r.fire prog c t i td).safe = true) : r.proper = true ∧ r.safe = true := by
  unfold Ref.fire at h1 h2
  rw [(mark_flags _ _).1] at h1
  rw [(mark_flags _ _).2] at h2
  have := runActs_flags h1 h2
  exact ⟨this.1, this.2⟩

theorem look_flags {prog : Prog} {r : Ref} {c t : Nat} {td : List Nat} (h1 : (r.look prog c t td).proper = true)
    (h2 : (r.look prog c t td).safe = true) : r.proper = true ∧ r.safe = true := by
  unfold Ref.look at h1 h2
  cases e : r.info t with
  | none => rw [e] at h1 h2; exact ⟨h1, h2⟩
  | some i =>
    rw [e] at h1 h2
    simp only at h1 h2
    split at h1
    · rename_i hc
      rw [if_pos hc] at h2
      exact fire_flags h1 h2
    · rename_i hc
      rw [if_neg hc] at h2
      exact ⟨h1, h2⟩

theorem looks_flags {prog : Prog} {r : Ref} {c : Nat} {td : List Nat} (h1 : (r.looks prog c td).proper = true)
    (h2 : (r.looks prog c td).safe = true) : r.proper = true ∧ r.safe = true := by
  induction td generalizing r with
  | nil => exact ⟨h1, h2⟩
  | cons t td ih =>
    obtain ⟨a, b⟩ := ih h1 h2
    exact look_flags a b

theorem look_ok {prog : Prog} {s r c L t td} (h : Inv s r (some (c, L, t :: td))) (h1 : (r.look prog c t td).proper = true)
    (h2 : (r.look prog c t td).safe = true) :
    ∃ s1, check prog s t = .ok s1 ∧ Inv s1 (r.look prog c t td) (some (c, L, td)) := by
  obtain ⟨f1, f2, f3, f4, f5⟩ := head_facts h
  obtain ⟨i, g, hi, hg, hr⟩ := h.has (h.actAlive t f1)
  have hw := weaken h
  have hact : g.active = true := by rw [hr.active]; exact List.contains_iff_mem.2 f1
  unfold check
  unfold Ref.look at h1 h2 ⊢
  rw [hi] at h1 h2 ⊢
  rw [hg]
  simp only [hact, if_true, List.contains_iff_mem.2 f1, contains_false f3, Bool.not_false, Bool.true_and,
    decide_eq_true_eq] at h1 h2 ⊢
  by_cases hv : i.point ≤ r.ctr i.ctr
  · rw [if_pos hv] at h1 h2 ⊢
    rw [if_pos (by rw [h.ctr, hr.ctr, hr.point]; exact hv)]
    have hoff := off_ok hw (pl := .inside c t td) ⟨rfl, rfl, f5⟩ hi hg (by
      unfold Ref.safeOff
      rw [f2]
      simp [Ref.safeRemove, f3, f4])
    rw [rem_put]
    generalize ((removeTrigger s t g.clk).putT t { g with active := false }) = S at hoff ⊢
    have hlog := log_ok hoff (r.log ++ [Ev.fired t (r.ctr i.ctr)]) r.proper r.safe rfl
    unfold Ref.fire at h1 h2 ⊢
    rw [(mark_flags _ _).1] at h1
    rw [(mark_flags _ _).2] at h2
    obtain ⟨s1, e1, h3, h4⟩ := runActs_ok hlog f5 (cur := t) (by
      show r.alive t = true
      exact h.actAlive t f1) h1 h2
    obtain ⟨g', hg', h5⟩ := mark_ok h3 h4
    refine ⟨_, ?_, h5⟩
    unfold invoke
    rw [show S.log = r.log from hoff.log, h.ctr, hr.ctr, hr.cb]
    rw [show runActs _ _ = _ from e1]
    simp only
    rw [hg']
  · rw [if_neg hv, if_neg (by rw [h.ctr, hr.ctr, hr.point]; exact hv)]
    exact ⟨s, rfl, hw⟩

theorem looks_ok {prog : Prog} {s r c L td} (h : Inv s r (some (c, L, td))) (h1 : (r.looks prog c td).proper = true)
    (h2 : (r.looks prog c td).safe = true) :
    ∃ s1, checks prog s td = .ok s1 ∧ Inv s1 (r.looks prog c td) (some (c, L, [])) := by
  induction td generalizing s r with
  | nil => exact ⟨s, rfl, h⟩
  | cons t td ih =>
    obtain ⟨a, b⟩ := looks_flags (r := r.look prog c t td) h1 h2
    obtain ⟨s1, e1, h3⟩ := look_ok h a b
    obtain ⟨s2, e2, h4⟩ := ih h3 h1 h2
    refine ⟨s2, ?_, h4⟩
    unfold checks
    rw [e1]
    exact e2

theorem foldl_erase (R L : List Nat) (h : L.Nodup) : R.foldl List.erase L = L.filter (fun t => !R.contains t) := by
  induction R generalizing L with
  | nil => exact (List.filter_eq_self.2 (fun _ _ => rfl)).symm
  | cons a R ih =>
    rw [List.foldl_cons, ih _ (h.erase a), h.erase_eq_filter, List.filter_filter]
    apply List.filter_congr
    intro x _
    rw [Bool.eq_iff_iff]
    simp [and_comm]

theorem addAll_ok (h : Handler) (A : List Nat) (hn : (h.trigs ++ A).Nodup) :
    addAll h A = .ok { h with trigs := h.trigs ++ A } := by
  induction A generalizing h with
  | nil => simp [addAll]
  | cons a A ih =>
    have ha : a ∉ h.trigs := by
      intro hh
      rw [List.nodup_append] at hn
      exact hn.2.2 a hh a (List.mem_cons_self ..) rfl
    unfold addAll Handler.addNow
    rw [contains_false ha]
    simp only [Bool.false_eq_true, if_false]
    rw [ih { h with trigs := h.trigs ++ [a] } (by simpa using hn)]
    simp

theorem endTick_ok {s r c L} (h : Inv s r (some (c, L, []))) : ∃ s1, endTick s c = .ok s1 ∧ Inv s1 r none := by
  have hd := h.hnd c
  unfold HRel at hd
  unfold endTick
  cases e : s.hnd c with
  | none =>
    rw [e] at hd
    exact absurd rfl (hd.2.2.2 L [])
  | some x =>
    rw [e] at hd
    obtain ⟨d1, d2, d3⟩ := hd
    have hb := d2 L [] rfl
    have hu : unlock x = .ok { x with inTick := false, trigs := r.on c, toRem := [], toAdd := [] } := by
      unfold unlock
      rw [foldl_erase _ _ (hb.trigs ▸ hb.nodup), hb.trigs]
      rw [addAll_ok _ _ (by
        show (L.filter _ ++ x.toAdd).Nodup
        rw [← hb.on]
        exact on_nodup h.actND c)]
      simp only
      rw [hb.on]
    simp only
    rw [hu]
    refine ⟨_, rfl, ?_⟩
    refine ⟨h.fin, h.startup, h.next, h.ctr, h.log, h.alive, h.trigNone, h.trigSome, h.bound, h.actND, h.actAlive,
      h.freshAct, h.waitND, h.waitAlive, h.started, ?_⟩
    intro d
    by_cases hdc : d = c
    · subst hdc
      unfold HRel
      simp only [upd_same]
      refine ⟨d1, fun L td hk => by simp at hk, fun _ => ⟨rfl, rfl, rfl, rfl, ?_⟩⟩
      show upd s.pend d _ d = _
      rw [upd_same, hb.pend]; rfl
    · have hd := h.hnd d
      unfold HRel at hd ⊢
      have e1 : (upd s.hnd c (some { x with inTick := false, trigs := r.on c, toRem := [], toAdd := [] })) d = s.hnd d :=
        upd_other _ _ hdc
      simp only [e1]
      have hk' : ∀ L' td', (some (c, L, ([] : List Nat)) : Tick) ≠ some (d, L', td') := by
        intro L' td' he
        obtain ⟨q, -, -⟩ : c = d ∧ L = L' ∧ [] = td' := by simpa using he
        exact hdc q.symm
      cases e2 : s.hnd d with
      | none =>
        rw [e2] at hd
        obtain ⟨a1, a2, a3, a4⟩ := hd
        refine ⟨a1, a2, ?_, fun L td hk => by simp at hk⟩
        show upd s.pend c _ d = _
        rw [upd_other _ _ hdc]; exact a3
      | some y =>
        rw [e2] at hd
        obtain ⟨a1, a2, a3⟩ := hd
        obtain ⟨c1, c2, c3, c4, c5⟩ := a3 hk'
        refine ⟨a1, fun L td hk => by simp at hk, fun _ => ⟨c1, c2, c3, c4, ?_⟩⟩
        show upd s.pend c _ d = _
        rw [upd_other _ _ hdc]; exact c5

theorem edge_ok {prog : Prog} {s r c} (h : Inv s r none) (h1 : (r.edge prog c).proper = true)
    (h2 : (r.edge prog c).safe = true) : ∃ s1, edge prog s c = .ok s1 ∧ Inv s1 (r.edge prog c) none := by
  have hd := h.hnd c
  unfold HRel at hd
  unfold edge
  have h0 : Inv s { r with fresh := [] } none := by
    refine ⟨h.fin, h.startup, h.next, h.ctr, h.log, h.alive, h.trigNone, ?_, h.bound, h.actND, h.actAlive,
      (by intro t ht; simp at ht), h.waitND, h.waitAlive, h.started, ?_⟩
    · intro t i hi
      obtain ⟨g, a, b⟩ := h.trigSome t i hi
      exact ⟨g, a, b.clk, b.ctr, b.point, b.cb, b.fired, b.active, b.target⟩
    · intro d
      have hd := h.hnd d
      unfold HRel at hd ⊢
      cases e : s.hnd d with
      | none => rw [e] at hd; exact hd
      | some x =>
        rw [e] at hd
        obtain ⟨a1, a2, a3⟩ := hd
        refine ⟨a1, fun L td hk => by simp at hk, fun hk => ?_⟩
        obtain ⟨c1, c2, c3, c4, c5⟩ := a3 hk
        exact ⟨c1, c2, c3, c4, c5⟩
  cases e : s.hnd c with
  | none =>
    rw [e] at hd
    rw [hd.2.2.1]
    refine ⟨s, rfl, ?_⟩
    unfold Ref.edge
    rw [hd.2.1]
    exact h0
  | some x =>
    rw [e] at hd
    obtain ⟨d1, d2, d3⟩ := hd
    have hi := d3 (fun L td => by simp)
    rw [hi.pend]
    show ∃ s1, fireTick prog { s with pend := upd s.pend c [] } c x.hid = .ok s1 ∧ _
    unfold fireTick
    show ∃ s1, (match s.hnd c with | none => _ | some h => _) = Except.ok s1 ∧ _
    rw [e]
    simp only [if_true]
    have hT : Inv { s with pend := upd s.pend c [], hnd := upd s.hnd c (some { x with inTick := true }) }
        { r with fresh := [] } (some (c, x.trigs, x.trigs)) := by
      refine ⟨h0.fin, h0.startup, h0.next, h0.ctr, h0.log, h0.alive, h0.trigNone, h0.trigSome, h0.bound, h0.actND,
        h0.actAlive, h0.freshAct, h0.waitND, h0.waitAlive, h0.started, ?_⟩
      intro d
      by_cases hdc : d = c
      · subst hdc
        unfold HRel
        simp only [upd_same]
        refine ⟨d1, ?_, fun hk => absurd rfl (hk x.trigs x.trigs)⟩
        intro L td hk
        obtain ⟨-, e1, e2⟩ : True ∧ x.trigs = L ∧ x.trigs = td := by simpa using hk
        subst e2
        subst e1
        have hnd : x.trigs.Nodup := by rw [hi.trigs]; exact on_nodup h.actND d
        refine ⟨rfl, upd_same _ _ _, rfl, hnd, ?_, ?_, hnd, ?_⟩
        · show r.on d = _
          simp only [hi.toRem, hi.toAdd]
          rw [hi.trigs, List.append_nil]
          exact (List.filter_eq_self.2 (fun _ _ => rfl)).symm
        · intro t ht
          simp only [hi.toRem, hi.toAdd]
          exact ⟨ht, by simp, by simp⟩
        · intro t
          simp only [hi.toAdd]
          simp
      · have hk' : ∀ L' td', (some (c, x.trigs, x.trigs) : Tick) ≠ some (d, L', td') := by
          intro L' td' he
          obtain ⟨q, -, -⟩ : c = d ∧ x.trigs = L' ∧ x.trigs = td' := by simpa using he
          exact hdc q.symm
        have hd' := h0.hnd d
        unfold HRel at hd' ⊢
        simp only [upd_other _ _ hdc]
        cases e2 : s.hnd d with
        | none =>
          rw [e2] at hd'
          obtain ⟨a1, a2, a3, a4⟩ := hd'
          exact ⟨a1, a2, a3, hk'⟩
        | some y =>
          rw [e2] at hd'
          obtain ⟨a1, a2, a3⟩ := hd'
          obtain ⟨c1, c2, c3, c4, c5⟩ := a3 (fun L td => by simp)
          refine ⟨a1, fun L td hk => absurd hk (hk' L td), fun _ => ⟨c1, c2, c3, c4, ?_⟩⟩
          show upd s.pend c _ d = _
          rw [upd_other _ _ hdc]; exact c5
    have hon : r.on c = x.trigs := hi.trigs.symm
    unfold Ref.edge at h1 h2 ⊢
    rw [hon] at h1 h2 ⊢
    obtain ⟨s1, e1, h3⟩ := looks_ok hT h1 h2
    obtain ⟨s2, e2, h4⟩ := endTick_ok h3
    refine ⟨s2, ?_, h4⟩
    unfold clockTick
    rw [e1]
    exact e2

theorem registerAll_ok {s r} (ws : List Nat) (h : Inv s r none) (hf : r.fin = true) (hw : r.waiting = []) (hnd : ws.Nodup)
    (hal : ∀ t ∈ ws, r.alive t = true ∧ t ∉ r.active) :
    ∃ s1, registerAll s ws = .ok s1 ∧ Inv s1 (r.enterAll ws) none ∧ (r.enterAll ws).fin = true ∧
      (r.enterAll ws).waiting = [] ∧ (r.enterAll ws).proper = r.proper ∧ (r.enterAll ws).safe = r.safe := by
  induction ws generalizing s r with
  | nil => exact ⟨s, rfl, h, hf, hw, rfl, rfl⟩
  | cons t ws ih =>
    obtain ⟨a, b⟩ := hal t (List.mem_cons_self ..)
    obtain ⟨s1, e1, h1⟩ := reg_ok h hf a b (by rw [hw]; simp)
    obtain ⟨n1, n2⟩ := List.nodup_cons.1 hnd
    obtain ⟨s2, e2, h2, h3, h4, h5, h6⟩ := ih h1 hf hw n2 (by
      intro x hx
      obtain ⟨c, d⟩ := hal x (List.mem_cons_of_mem _ hx)
      refine ⟨c, ?_⟩
      intro hh
      rcases List.mem_append.1 hh with hh | hh
      · exact d hh
      · have := List.mem_singleton.1 hh
        subst this
        exact n1 hx)
    refine ⟨s2, ?_, h2, h3, h4, h5, h6⟩
    unfold registerAll
    rw [e1]
    exact e2

theorem startup_ok {s r} (h : Inv s r none) (hf : r.fin = true) :
    ∃ s1, runStartup s = .ok s1 ∧ Inv s1 { r.startup with proper := r.proper && r.fin } none := by
  have h0 : Inv { s with startup := [] } { r with waiting := [] } none := by
    refine ⟨h.fin, rfl, h.next, h.ctr, h.log, h.alive, h.trigNone, ?_, h.bound, h.actND, h.actAlive,
      h.freshAct, List.nodup_nil, by simp, fun hs => ⟨(h.started hs).1, rfl⟩,
      fun d => hrel_info h (by rfl) (by rfl) (by rfl) (by rfl) (by rfl) (fun _ _ => by rfl) d⟩
    intro t i hi
    obtain ⟨g, a, b⟩ := h.trigSome t i hi
    exact ⟨g, a, b.clk, b.ctr, b.point, b.cb, b.fired, b.active, b.target⟩
  obtain ⟨s1, e1, h1, h2, h3, h4, h5⟩ := registerAll_ok r.waiting h0 hf rfl h.waitND h.waitAlive
  refine ⟨s1, ?_, ?_⟩
  · unfold runStartup
    rw [if_pos (h.fin.trans hf), h.startup]
    exact e1
  · unfold Ref.startup
    refine ⟨h1.fin, h1.startup, h1.next, h1.ctr, h1.log, h1.alive, h1.trigNone, ?_, h1.bound, h1.actND, h1.actAlive,
      h1.freshAct, h1.waitND, h1.waitAlive, fun _ => ⟨h2, h3⟩,
      fun d => hrel_info h1 (by rfl) (by rfl) (by rfl) (by rfl) (by rfl) (fun _ _ => by rfl) d⟩
    intro t i hi
    obtain ⟨g, a, b⟩ := h1.trigSome t i hi
    exact ⟨g, a, b.clk, b.ctr, b.point, b.cb, b.fired, b.active, fun hh => by simp at hh⟩

theorem ask_ok {s r} (h : Inv s r none) (t : Nat) (f : Trig → Ans) (f' : Info → Ans)
    (hff : ∀ g i, s.trig t = some g → r.info t = some i → TrigRel r t g i → f g = f' i)
    (hp : (r.ask t f').1.proper = true) :
    (ask s t f).2 = (r.ask t f').2 ∧ Inv (ask s t f).1 (r.ask t f').1 none ∧ (r.ask t f').1 = r := by
  unfold Ref.ask at hp ⊢
  cases hi : r.info t with
  | none => rw [hi] at hp; simp at hp
  | some i =>
    obtain ⟨g, a, b⟩ := h.trigSome t i hi
    unfold ask
    rw [a]
    exact ⟨hff g i a hi b, h, rfl⟩

theorem startup_flags (r : Ref) : r.startup.safe = r.safe := by
  unfold Ref.startup
  have : ∀ (ws : List Nat) (q : Ref), (q.enterAll ws).safe = q.safe := by
    intro ws
    induction ws with
    | nil => intro q; rfl
    | cons t ws ih => intro q; exact ih _
  exact this _ _

theorem outer_cases (r : Ref) (a : Act) : r.outer a = (r, .fail .throw) ∨ r.outer a = (r.callAct .outside a, .ok) := by
  cases a with
  | set t =>
    show (if r.active.contains t = true then _ else _) = _ ∨ (if r.active.contains t = true then _ else _) = _
    split
    · exact .inl rfl
    · exact .inr rfl
  | _ => exact .inr rfl

theorem outer_flags {r : Ref} {a : Act} (h1 : (r.outer a).1.proper = true) (h2 : (r.outer a).1.safe = true) :
    r.proper = true ∧ r.safe = true := by
  rcases outer_cases r a with h | h <;> rw [h] at h1 h2
  · exact ⟨h1, h2⟩
  · exact ⟨(call_flags h1 h2).1, (call_flags h1 h2).2.1⟩

theorem ask_flags {r : Ref} {t : Nat} {f : Info → Ans} (h1 : (r.ask t f).1.proper = true) (h2 : (r.ask t f).1.safe = true) :
    r.proper = true ∧ r.safe = true := by
  unfold Ref.ask at h1 h2
  split at h1
  · simp at h1
  · split at h2
    · rename_i a _ b; rw [a] at b; exact absurd b (by simp)
    · exact ⟨h1, h2⟩

theorem step_flags {prog : Prog} {r : Ref} {o : Op} (h1 : (r.step prog o).1.proper = true)
    (h2 : (r.step prog o).1.safe = true) : r.proper = true ∧ r.safe = true := by
  cases o with
  | act a => exact outer_flags h1 h2
  | finalize => exact ⟨h1, h2⟩
  | startup =>
    have h1' : (r.proper && r.fin) = true := h1
    have h2' : r.startup.safe = true := h2
    rw [startup_flags] at h2'
    rw [Bool.and_eq_true] at h1'
    exact ⟨h1'.1, h2'⟩
  | edge c =>
    have := looks_flags (r := { r with fresh := [] }) h1 h2
    exact ⟨this.1, this.2⟩
  | isActive t => exact ask_flags h1 h2
  | hasFired t => exact ask_flags h1 h2
  | point t => exact ask_flags h1 h2
  | has t => exact ask_flags h1 h2

theorem run_flags {prog : Prog} {r : Ref} {ops : List Op} (h1 : (runOps (Ref.step prog) r ops).1.proper = true)
    (h2 : (runOps (Ref.step prog) r ops).1.safe = true) : r.proper = true ∧ r.safe = true := by
  induction ops generalizing r with
  | nil => exact ⟨h1, h2⟩
  | cons o ops ih =>
    obtain ⟨a, b⟩ := ih h1 h2
    exact step_flags a b

theorem step_ok {prog : Prog} {s r} (h : Inv s r none) (o : Op) (h1 : (r.step prog o).1.proper = true)
    (h2 : (r.step prog o).1.safe = true) :
    (step prog s o).2 = (r.step prog o).2 ∧ Inv (step prog s o).1 (r.step prog o).1 none := by
  unfold step
  rw [h.alive]
  simp only [Bool.false_eq_true, if_false]
  cases o with
  | act a =>
    show (finishAct s (callAct s a)).2 = (r.outer a).2 ∧ Inv (finishAct s (callAct s a)).1 (r.outer a).1 none
    have hgen : (∀ t, a = .set t → t ∉ r.active) → r.outer a = (r.callAct .outside a, .ok) →
        (finishAct s (callAct s a)).2 = (r.outer a).2 ∧ Inv (finishAct s (callAct s a)).1 (r.outer a).1 none := by
      intro hset ho
      have h1' : (r.outer a).1.proper = true := h1
      have h2' : (r.outer a).1.safe = true := h2
      rw [ho] at h1' h2' ⊢
      obtain ⟨s1, e1, h3⟩ := call_ok h (pl := .outside) trivial h1' h2' hset
      rw [e1]
      exact ⟨rfl, h3⟩
    cases a with
    | set t =>
      by_cases ht : t ∈ r.active
      · obtain ⟨i, g, hi, hg, hr⟩ := h.has (h.actAlive t ht)
        have hga : g.active = true := by rw [hr.active]; exact List.contains_iff_mem.2 ht
        have e1 : callAct s (.set t) = .error .throw := by
          show setT { s with log := _ } t = _
          unfold setT
          show (match s.trig t with | none => _ | some g => _) = _
          rw [hg]
          simp [hga]
        have e2 : r.outer (.set t) = (r, .fail .throw) := by
          unfold Ref.outer
          simp [ht]
        rw [e1, e2]
        exact ⟨rfl, h⟩
      · apply hgen
        · intro x hx
          have : t = x := by simpa using hx
          exact this ▸ ht
        · unfold Ref.outer
          simp [ht]
    | _ => exact hgen (by simp) rfl
  | finalize =>
    refine ⟨rfl, ?_⟩
    show Inv { s with fin := true } { r with fin := true } none
    refine ⟨rfl, h.startup, h.next, h.ctr, h.log, h.alive, h.trigNone, ?_, h.bound, h.actND, h.actAlive,
      h.freshAct, h.waitND, h.waitAlive, fun hs => ⟨rfl, (h.started hs).2⟩,
      fun d => hrel_info h (by rfl) (by rfl) (by rfl) (by rfl) (by rfl) (fun _ _ => by rfl) d⟩
    intro t i hi
    obtain ⟨g, a, b⟩ := h.trigSome t i hi
    exact ⟨g, a, b.clk, b.ctr, b.point, b.cb, b.fired, b.active, b.target⟩
  | startup =>
    have h1' : (r.proper && r.fin) = true := h1
    rw [Bool.and_eq_true] at h1'
    obtain ⟨s1, e1, h3⟩ := startup_ok h h1'.2
    show (finish s (runStartup s)).2 = _ ∧ Inv (finish s (runStartup s)).1 _ none
    rw [e1]
    exact ⟨rfl, h3⟩
  | edge c =>
    obtain ⟨s1, e1, h3⟩ := edge_ok h h1 h2
    show (finish s (edge prog s c)).2 = _ ∧ Inv (finish s (edge prog s c)).1 _ none
    rw [e1]
    exact ⟨rfl, h3⟩
  | isActive t =>
    have := ask_ok h t (fun g => .bool g.active) (fun _ => .bool (r.active.contains t))
      (fun g i _ _ hr => by simp only [hr.active]) h1
    exact ⟨this.1, this.2.1⟩
  | hasFired t =>
    have := ask_ok h t (fun g => .bool g.fired) (fun i => .bool i.fired)
      (fun g i _ _ hr => by simp only [hr.fired]) h1
    exact ⟨this.1, this.2.1⟩
  | point t =>
    have := ask_ok h t (fun g => .num g.point) (fun i => .num i.point)
      (fun g i _ _ hr => by simp only [hr.point]) h1
    exact ⟨this.1, this.2.1⟩
  | has t =>
    have := ask_ok h t (fun g => .bool (hasTrigger s t g.clk)) (fun _ => .bool (r.active.contains t))
      (fun g i _ hi hr => by
        congr 1
        rw [hasTrigger_rel h, Bool.eq_iff_iff, List.contains_iff_mem, List.contains_iff_mem, mem_on, hr.clk, clkOf_of h hi]
        simp) h1
    exact ⟨this.1, this.2.1⟩

theorem run_ok {prog : Prog} {s r} (h : Inv s r none) (ops : List Op)
    (h1 : (runOps (Ref.step prog) r ops).1.proper = true) (h2 : (runOps (Ref.step prog) r ops).1.safe = true) :
    (runOps (step prog) s ops).2 = (runOps (Ref.step prog) r ops).2 ∧
    Inv (runOps (step prog) s ops).1 (runOps (Ref.step prog) r ops).1 none := by
  induction ops generalizing s r with
  | nil => exact ⟨rfl, h⟩
  | cons o ops ih =>
    obtain ⟨a, b⟩ := run_flags (r := (r.step prog o).1) h1 h2
    obtain ⟨h3, h4⟩ := step_ok h o a b
    obtain ⟨h5, h6⟩ := ih h4 h1 h2
    refine ⟨?_, h6⟩
    show (step prog s o).2 :: (runOps (step prog) (step prog s o).1 ops).2 =
      (r.step prog o).2 :: (runOps (Ref.step prog) (r.step prog o).1 ops).2
    rw [h3, h5]

end Sparta.TrigMan
