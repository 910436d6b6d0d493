import Verif.TrigMan.Steps
/-! No callback without a reason, in any run. -/
namespace Sparta.TrigMan

theorem replay_snoc (h : List Ev) (e : Ev) : replay (h ++ [e]) = replayEv (replay h) e := by
  unfold replay
  rw [List.foldl_append]
  rfl

theorem doAct_fin (r : Ref) (a : Act) : (r.doAct a).fin = r.fin := by
  cases a <;> simp only [Ref.doAct] <;> (try unfold Ref.enter) <;> (repeat' split) <;> first | rfl | assumption | trivial

theorem replay_fin (h : List Ev) : (replay h).fin = true := by
  unfold replay
  have : ∀ (l : List Ev) (r : Ref), r.fin = true → (l.foldl replayEv r).fin = true := by
    intro l
    induction l with
    | nil => intro r hr; exact hr
    | cons e l ih =>
      intro r hr
      apply ih
      cases e with
      | act a => exact (doAct_fin r a).trans hr
      | fired t v => exact hr
  exact this h _ rfl

/-- the code's triggers as the history has them -/
structure Rec (s : St) (r : Ref) : Prop where
  next : s.nextT = r.next
  ctr : s.ctr = r.ctr
  trig : ∀ t g, s.trig t = some g → ∃ i, r.info t = some i ∧ g.ctr = i.ctr ∧ g.point = i.point ∧ (g.active = true → t ∈ r.active)

def Good (l : List Ev) : Prop := ∀ pre t v post, l = pre ++ Ev.fired t v :: post → Justified pre t v

theorem good_act {l : List Ev} (h : Good l) (a : Act) : Good (l ++ [.act a]) := by
  intro pre t v post he
  rcases List.eq_nil_or_concat post with rfl | ⟨p', x, rfl⟩
  · have := (List.append_inj' he rfl).2
    simp at this
  · rw [List.concat_eq_append, ← List.cons_append, ← List.append_assoc] at he
    exact h pre t v p' (List.append_inj' he rfl).1

theorem good_fired {l : List Ev} (h : Good l) {t v : Nat} (hj : Justified l t v) : Good (l ++ [.fired t v]) := by
  intro pre t' v' post he
  rcases List.eq_nil_or_concat post with rfl | ⟨p', x, rfl⟩
  · obtain ⟨h1, h2⟩ := List.append_inj' he rfl
    have h3 : t = t' ∧ v = v' := by simpa using h2
    rw [← h1, ← h3.1, ← h3.2]
    exact hj
  · rw [List.concat_eq_append, ← List.cons_append, ← List.append_assoc] at he
    exact h pre t' v' p' (List.append_inj' he rfl).1

/-- after startup -/
structure Late (s : St) : Prop where
  fin : s.fin = true
  startup : s.startup = []
  rc : Rec s (replay s.log)
  good : Good s.log

theorem rem_only (s : St) (t c : Nat) : Only s (removeTrigger s t c) := by
  unfold removeTrigger
  cases s.hnd c with
  | none => exact ⟨rfl, rfl, rfl, rfl, rfl, rfl, rfl⟩
  | some x => exact ⟨rfl, rfl, rfl, rfl, rfl, rfl, rfl⟩

theorem add_only {s s1 : St} {t c : Nat} (h : addTrigger s t c = .ok s1) : Only s s1 := by
  unfold addTrigger at h
  have hto : ∀ q, addTo q t c = .ok s1 → Only q s1 := by
    intro q hq
    unfold addTo at hq
    cases e : q.hnd c with
    | none => rw [e] at hq; simp at hq
    | some x =>
      rw [e] at hq
      simp only at hq
      cases e2 : x.add t with
      | error er => rw [e2] at hq; simp at hq
      | ok x' =>
        rw [e2] at hq
        have : _ = s1 := Except.ok.inj hq
        subst this
        exact ⟨rfl, rfl, rfl, rfl, rfl, rfl, rfl⟩
  split at h
  · exact absurd h (by simp)
  · split at h
    · obtain ⟨a1, a2, a3, a4, a5, a6, a7⟩ := hto _ h
      exact ⟨a1, a2, a3, a4, a5, a6, a7⟩
    · exact hto _ h

theorem reg_only {s s1 : St} {t : Nat} (hf : s.fin = true) (h : registerSelf s t = .ok s1) :
    ∃ g, s.trig t = some g ∧ s1.fin = s.fin ∧ s1.startup = s.startup ∧ s1.nextT = s.nextT ∧ s1.ctr = s.ctr ∧
      s1.log = s.log ∧ s1.trig = upd s.trig t (some { g with active := true }) := by
  unfold registerSelf at h
  cases e : s.trig t with
  | none => rw [e] at h; simp at h
  | some g =>
    rw [e] at h
    simp only [hf, if_true] at h
    cases e2 : addTrigger s t g.clk with
    | error er => rw [e2] at h; simp at h
    | ok s' =>
      rw [e2] at h
      have : _ = s1 := Except.ok.inj h
      subst this
      obtain ⟨a1, a2, a3, a4, a5, a6, a7⟩ := add_only e2
      refine ⟨g, rfl, a1, a2, a3, a4, a5, ?_⟩
      show upd s'.trig t _ = _
      rw [a7]

theorem rec_putT {s : St} {r : Ref} (h : Rec s r) {t : Nat} {g : Trig} {i : Info} (hi : r.info t = some i)
    (h1 : g.ctr = i.ctr) (h2 : g.point = i.point) (h3 : g.active = true → t ∈ r.active) : Rec (s.putT t g) r := by
  refine ⟨h.next, h.ctr, ?_⟩
  intro x g' hg'
  by_cases hx : x = t
  · subst hx
    have : g = g' := by
      have : upd s.trig x (some g) x = some g' := hg'
      rw [upd_same] at this
      exact Option.some.inj this
    subst this
    exact ⟨i, hi, h1, h2, h3⟩
  · have : upd s.trig t (some g) x = some g' := hg'
    rw [upd_other _ _ hx] at this
    exact h.trig x g' this

theorem rec_cong {s s1 : St} {r : Ref} (h : Rec s r) (h1 : s1.nextT = s.nextT) (h2 : s1.ctr = s.ctr) (h3 : s1.trig = s.trig) :
    Rec s1 r := ⟨h1.trans h.next, h2.trans h.ctr, fun t g hg => h.trig t g (by rw [← h3]; exact hg)⟩

/-- one call of the code and what the history makes of it -/
theorem rec_act {s s1 : St} {r : Ref} {a : Act} (hf : s.fin = true) (hrf : r.fin = true) (h : Rec s r)
    (he : doAct s a = .ok s1) : Rec s1 (r.doAct a) ∧ s1.fin = true ∧ s1.startup = s.startup ∧ s1.log = s.log := by
  have hreg : ∀ {s s1 : St} {r : Ref} {t : Nat}, s.fin = true → Rec s r → registerSelf s t = .ok s1 →
      Rec s1 (r.activate t) ∧ s1.fin = true ∧ s1.startup = s.startup ∧ s1.log = s.log := by
    intro s s1 r t hf h he
    obtain ⟨g, hg, a1, a2, a3, a4, a5, a6⟩ := reg_only hf he
    obtain ⟨i, hi, b1, b2, b3⟩ := h.trig t g hg
    refine ⟨⟨a3.trans h.next, a4.trans h.ctr, ?_⟩, a1.trans hf, a2, a5⟩
    intro x g' hg'
    rw [a6] at hg'
    by_cases hx : x = t
    · subst hx
      rw [upd_same] at hg'
      have := Option.some.inj hg'
      subst this
      exact ⟨i, hi, b1, b2, fun _ => List.mem_append_right _ (List.mem_singleton.2 rfl)⟩
    · rw [upd_other _ _ hx] at hg'
      obtain ⟨j, c1, c2, c3, c4⟩ := h.trig x g' hg'
      exact ⟨j, c1, c2, c3, fun q => List.mem_append_left _ (c4 q)⟩
  have hoff : ∀ {s : St} {r : Ref} {t : Nat} {g : Trig} (c : Nat), Rec s r → s.trig t = some g →
      Rec ((removeTrigger s t c).putT t { g with active := false }) (r.quiet t) := by
    intro s r t g c h hg
    obtain ⟨i, hi, b1, b2, b3⟩ := h.trig t g hg
    obtain ⟨a1, a2, a3, a4, a5, a6, a7⟩ := rem_only s t c
    refine ⟨a3.trans h.next, a4.trans h.ctr, ?_⟩
    intro x g' hg'
    have hg' : upd (removeTrigger s t c).trig t _ x = some g' := hg'
    rw [a7] at hg'
    by_cases hx : x = t
    · subst hx
      rw [upd_same] at hg'
      have := Option.some.inj hg'
      subst this
      exact ⟨i, hi, b1, b2, fun q => by simp at q⟩
    · rw [upd_other _ _ hx] at hg'
      obtain ⟨j, c1, c2, c3, c4⟩ := h.trig x g' hg'
      exact ⟨j, c1, c2, c3, fun q => List.mem_filter.2 ⟨c4 q, by simpa using hx⟩⟩
  have hnew : ∀ (g : Trig) (i : Info), g.ctr = i.ctr → g.point = i.point → g.active = false →
      Rec ({ s with nextT := s.nextT + 1 }.putT s.nextT g) ({ r with next := r.next + 1 }.putI r.next i) := by
    intro g i h1 h2 h3
    refine ⟨by show s.nextT + 1 = r.next + 1; rw [h.next], h.ctr, ?_⟩
    intro x g' hg'
    have hg' : upd s.trig s.nextT (some g) x = some g' := hg'
    show ∃ j, upd r.info r.next (some i) x = some j ∧ _
    rw [h.next] at hg'
    by_cases hx : x = r.next
    · rw [hx, upd_same] at hg' ⊢
      have := Option.some.inj hg'
      subst this
      exact ⟨i, rfl, h1, h2, fun q => by rw [h3] at q; exact absurd q (by simp)⟩
    · rw [upd_other _ _ hx] at hg' ⊢
      exact h.trig x g' hg'
  cases a with
  | make clk ctr point cb =>
    have he : makeT s clk ctr point cb = .ok s1 := he
    unfold makeT at he
    have := hreg (r := { r with next := r.next + 1 }.putI r.next
      { clk := clk, ctr := ctr, point := point, cb := cb, fired := false }) (by exact hf) (hnew _ _ rfl rfl rfl) he
    rw [h.next] at this
    show Rec s1 (Ref.enter _ _) ∧ _
    unfold Ref.enter
    rw [if_pos (by exact hrf)]
    exact this
  | set t =>
    have he : setT s t = .ok s1 := he
    unfold setT at he
    cases e : s.trig t with
    | none => rw [e] at he; simp at he
    | some g =>
      rw [e] at he
      simp only at he
      split at he
      · exact absurd he (by simp)
      · exact hreg hf h he
  | deactivate t =>
    have he : deactivateT s t = .ok s1 := he
    unfold deactivateT at he
    cases e : s.trig t with
    | none => rw [e] at he; simp at he
    | some g =>
      rw [e] at he
      have : _ = s1 := Except.ok.inj he
      subst this
      obtain ⟨a1, a2, a3, a4, a5, a6, a7⟩ := rem_only s t g.clk
      exact ⟨hoff _ h e, a1.trans hf, a2, a5⟩
  | reset t p =>
    have he : resetT s t p = .ok s1 := he
    unfold resetT at he
    cases e : s.trig t with
    | none => rw [e] at he; simp at he
    | some g =>
      rw [e] at he
      simp only at he
      obtain ⟨i, hi, b1, b2, b3⟩ := h.trig t g e
      obtain ⟨a1, a2, a3, a4, a5, a6, a7⟩ := rem_only s t g.clk
      have h1 : Rec ((removeTrigger s t g.clk).putT t { g with active := false, point := p })
          ((r.quiet t).putI t { i with point := p }) := by
        have h0 := hoff g.clk h e
        refine ⟨h0.next, h0.ctr, ?_⟩
        intro x g' hg'
        have hg' : upd (removeTrigger s t g.clk).trig t _ x = some g' := hg'
        show ∃ j, upd r.info t _ x = some j ∧ _
        rw [a7] at hg'
        by_cases hx : x = t
        · rw [hx, upd_same] at hg' ⊢
          have := Option.some.inj hg'
          subst this
          exact ⟨_, rfl, b1, rfl, fun q => by simp at q⟩
        · rw [upd_other _ _ hx] at hg' ⊢
          obtain ⟨j, c1, c2, c3, c4⟩ := h.trig x g' hg'
          exact ⟨j, c1, c2, c3, fun q => List.mem_filter.2 ⟨c4 q, by simpa using hx⟩⟩
      have h2 := hreg (by exact a1.trans hf) h1 he
      simp only [Ref.doAct]
      rw [hi]
      exact ⟨h2.1, h2.2.1, h2.2.2.1.trans a2, h2.2.2.2.trans a5⟩
  | destroy t =>
    have he : destroyT s t = .ok s1 := he
    unfold destroyT at he
    cases e : s.trig t with
    | none => rw [e] at he; simp at he
    | some g =>
      rw [e] at he
      have : _ = s1 := Except.ok.inj he
      subst this
      obtain ⟨a1, a2, a3, a4, a5, a6, a7⟩ := rem_only s t g.clk
      refine ⟨⟨a3.trans h.next, a4.trans h.ctr, ?_⟩, a1.trans hf, a2, a5⟩
      intro x g' hg'
      have hg' : upd s.trig t none x = some g' := hg'
      show ∃ j, upd r.info t none x = some j ∧ _
      have hx : x ≠ t := by rintro rfl; rw [upd_same] at hg'; simp at hg'
      rw [upd_other _ _ hx] at hg' ⊢
      obtain ⟨j, c1, c2, c3, c4⟩ := h.trig x g' hg'
      exact ⟨j, c1, c2, c3, fun q => List.mem_filter.2 ⟨c4 q, by simpa using hx⟩⟩
  | copy t =>
    have he : copyT s t = .ok s1 := he
    unfold copyT at he
    cases e : s.trig t with
    | none => rw [e] at he; simp at he
    | some g =>
      rw [e] at he
      simp only at he
      obtain ⟨i, hi, b1, b2, b3⟩ := h.trig t g e
      simp only [Ref.doAct]
      rw [hi]
      simp only
      by_cases hga : g.active = true
      · rw [if_pos hga, reg_put _ _ _ (by exact hf)] at he
        rw [if_pos (List.contains_iff_mem.2 (b3 hga))]
        have h2 := hreg (by exact hf) (hnew { g with fired := false, active := false } { i with fired := false } b1 b2 rfl) he
        rw [h.next] at h2
        exact h2
      · have e3 : g = { g with active := false } := by
          have : g.active = false := by simpa using hga
          rw [← this]
        rw [if_neg hga] at he
        have : _ = s1 := Except.ok.inj he
        subst this
        have h3 := hnew { g with fired := false } { i with fired := false } b1 b2 (by simpa using hga)
        refine ⟨?_, hf, rfl, rfl⟩
        split
        · refine ⟨h3.next, h3.ctr, ?_⟩
          intro x g' hg'
          obtain ⟨j, c1, c2, c3, c4⟩ := h3.trig x g' hg'
          exact ⟨j, c1, c2, c3, fun q => List.mem_append_left _ (c4 q)⟩
        · exact h3
  | assign t u =>
    have he : assignT s t u = .ok s1 := he
    unfold assignT endObs at he
    cases e : s.trig t with
    | none => rw [e] at he; simp at he
    | some g =>
      rw [e] at he
      simp only [rem_put] at he
      have h0 := hoff g.clk h e
      obtain ⟨a1, a2, a3, a4, a5, a6, a7⟩ := rem_only s t g.clk
      cases e2 : ((removeTrigger s t g.clk).putT t { g with active := false }).trig u with
      | none => rw [e2] at he; simp at he
      | some g' =>
        rw [e2] at he
        simp only at he
        obtain ⟨i, hi, b1, b2, b3⟩ := h0.trig u g' e2
        have hi' : r.info u = some i := hi
        have hput : ∀ b, (b = true → False) → Rec (((removeTrigger s t g.clk).putT t { g with active := false }).putT t { g' with active := b })
            ((r.quiet t).putI t i) := by
          intro b hb
          refine ⟨h0.next, h0.ctr, ?_⟩
          intro x y hy
          have hy : upd ((removeTrigger s t g.clk).putT t { g with active := false }).trig t _ x = some y := hy
          show ∃ j, upd r.info t _ x = some j ∧ _
          by_cases hx : x = t
          · rw [hx, upd_same] at hy ⊢
            have := Option.some.inj hy
            subst this
            exact ⟨_, rfl, b1, b2, fun q => (hb q).elim⟩
          · rw [upd_other _ _ hx] at hy ⊢
            exact h0.trig x y hy
        simp only [Ref.doAct]
        rw [hi']
        simp only
        by_cases hga : g'.active = true
        · rw [if_pos hga, reg_put _ _ _ (by exact a1.trans hf)] at he
          rw [if_pos (List.contains_iff_mem.2 (List.mem_filter.1 (b3 hga)).1)]
          have h2 := hreg (by exact a1.trans hf) (hput false (by simp)) he
          exact ⟨h2.1, h2.2.1, h2.2.2.1.trans a2, h2.2.2.2.trans a5⟩
        · rw [if_neg hga] at he
          have : _ = s1 := Except.ok.inj he
          subst this
          have h3 := hput g'.active hga
          refine ⟨?_, a1.trans hf, a2, a5⟩
          split
          · refine ⟨h3.next, h3.ctr, ?_⟩
            intro x y hy
            obtain ⟨j, c1, c2, c3, c4⟩ := h3.trig x y hy
            exact ⟨j, c1, c2, c3, fun q => List.mem_append_left _ (c4 q)⟩
          · exact h3
  | count c v =>
    have he : _ = s1 := Except.ok.inj he
    subst he
    exact ⟨⟨h.next, by show upd s.ctr c v = upd r.ctr c v; rw [h.ctr], h.trig⟩, hf, rfl, rfl⟩

theorem late_call {s s1 : St} {a : Act} (h : Late s) (he : callAct s a = .ok s1) : Late s1 := by
  unfold callAct at he
  have h0 : Rec { s with log := s.log ++ [Ev.act a] } (replay s.log) := rec_cong h.rc rfl rfl rfl
  obtain ⟨h1, h2, h3, h4⟩ := rec_act (by exact h.fin) (replay_fin _) h0 he
  refine ⟨h2, h3.trans h.startup, ?_, ?_⟩
  · rw [h4, show ({ s with log := s.log ++ [Ev.act a] } : St).log = s.log ++ [Ev.act a] from rfl, replay_snoc]
    exact h1
  · rw [h4]
    exact good_act h.good a

theorem late_acts {s s1 : St} {as : List Act} (h : Late s) (he : runActs s as = .ok s1) : Late s1 := by
  induction as generalizing s with
  | nil =>
    have := Except.ok.inj he
    subst this; exact h
  | cons a as ih =>
    unfold runActs at he
    cases e : callAct s a with
    | error er => rw [e] at he; simp at he
    | ok s' => rw [e] at he; exact ih (late_call h e) he

theorem late_cong {s s1 : St} (h : Late s) (h1 : s1.fin = s.fin) (h2 : s1.startup = s.startup) (h3 : s1.nextT = s.nextT)
    (h4 : s1.ctr = s.ctr) (h5 : s1.log = s.log) (h6 : s1.trig = s.trig) : Late s1 :=
  ⟨h1.trans h.fin, h2.trans h.startup, by rw [h5]; exact rec_cong h.rc h3 h4 h6, by rw [h5]; exact h.good⟩

theorem late_check {prog : Prog} {s s1 : St} {t : Nat} (h : Late s) (he : check prog s t = .ok s1) : Late s1 := by
  unfold check at he
  cases e : s.trig t with
  | none => rw [e] at he; simp at he
  | some g =>
    rw [e] at he
    simp only at he
    split at he
    · rename_i hga
      split at he
      · rename_i hv
        obtain ⟨i, hi, b1, b2, b3⟩ := h.rc.trig t g e
        have hj : Justified s.log t (s.ctr g.ctr) := by
          refine ⟨b3 hga, i, hi, ?_, ?_⟩
          · rw [h.rc.ctr, b1]
          · rw [← b2]; exact hv
        rw [rem_put] at he
        obtain ⟨a1, a2, a3, a4, a5, a6, a7⟩ := rem_only s t g.clk
        have hL : Late { (removeTrigger s t g.clk).putT t { g with active := false } with
            log := s.log ++ [Ev.fired t (s.ctr g.ctr)] } := by
          refine ⟨a1.trans h.fin, a2.trans h.startup, ?_, good_fired h.good hj⟩
          rw [show ({ (removeTrigger s t g.clk).putT t { g with active := false } with
            log := s.log ++ [Ev.fired t (s.ctr g.ctr)] } : St).log = s.log ++ [Ev.fired t (s.ctr g.ctr)] from rfl, replay_snoc]
          refine ⟨a3.trans h.rc.next, a4.trans h.rc.ctr, ?_⟩
          intro x g' hg'
          have hg' : upd (removeTrigger s t g.clk).trig t _ x = some g' := hg'
          rw [a7] at hg'
          by_cases hx : x = t
          · rw [hx, upd_same] at hg'
            have := Option.some.inj hg'
            subst this
            exact ⟨i, hx ▸ hi, b1, b2, fun q => by simp at q⟩
          · rw [upd_other _ _ hx] at hg'
            obtain ⟨j, c1, c2, c3, c4⟩ := h.rc.trig x g' hg'
            exact ⟨j, c1, c2, c3, fun q => List.mem_filter.2 ⟨c4 q, by simpa using hx⟩⟩
        unfold invoke at he
        rw [show ((removeTrigger s t g.clk).putT t { g with active := false }).log = s.log from a5] at he
        split at he
        · exact absurd he (by simp)
        · rename_i s2 e2
          have h2 := late_acts hL e2
          split at he
          · exact absurd he (by simp)
          · rename_i g2 e3
            have := Except.ok.inj he
            subst this
            obtain ⟨j, c1, c2, c3, c4⟩ := h2.rc.trig t g2 e3
            exact ⟨h2.fin, h2.startup, rec_putT h2.rc c1 c2 c3 c4, h2.good⟩
      · have := Except.ok.inj he
        subst this; exact h
    · exact absurd he (by simp)

theorem late_checks {prog : Prog} {s s1 : St} {ts : List Nat} (h : Late s) (he : checks prog s ts = .ok s1) : Late s1 := by
  induction ts generalizing s with
  | nil =>
    have := Except.ok.inj he
    subst this; exact h
  | cons t ts ih =>
    unfold checks at he
    cases e : check prog s t with
    | error er => rw [e] at he; simp at he
    | ok s' => rw [e] at he; exact ih (late_check h e) he

theorem late_edge {prog : Prog} {s s1 : St} {c : Nat} (h : Late s) (he : edge prog s c = .ok s1) : Late s1 := by
  unfold edge at he
  split at he
  · have := Except.ok.inj he
    subst this; exact h
  · unfold fireTick at he
    split at he
    · exact absurd he (by simp)
    · split at he
      · unfold clockTick at he
        split at he
        · exact absurd he (by simp)
        · rename_i s2 e2
          have h2 := late_checks (late_cong h (by rfl) (by rfl) (by rfl) (by rfl) (by rfl) (by rfl)) e2
          unfold endTick at he
          split at he
          · exact absurd he (by simp)
          · split at he
            · exact absurd he (by simp)
            · have := Except.ok.inj he
              subst this
              exact late_cong h2 rfl rfl rfl rfl rfl rfl
      · exact absurd he (by simp)

theorem late_step {prog : Prog} {s : St} (h : Late s) (o : Op) : Late (step prog s o).1 := by
  unfold step
  split
  · exact h
  · have hask : ∀ t f, Late (ask s t f).1 := by
      intro t f
      unfold ask
      split
      · exact late_cong h rfl rfl rfl rfl rfl rfl
      · exact h
    cases o with
    | act a =>
      show Late (finishAct s (callAct s a)).1
      cases e : callAct s a with
      | ok s' => exact late_call h e
      | error er =>
        cases er with
        | throw => exact h
        | ub => exact late_cong h rfl rfl rfl rfl rfl rfl
        | terminate => exact late_cong h rfl rfl rfl rfl rfl rfl
    | finalize => exact late_cong h (by rw [h.fin]; rfl) rfl rfl rfl rfl rfl
    | startup =>
      show Late (finish s (runStartup s)).1
      unfold runStartup
      rw [h.fin, h.startup]
      simp only [if_true, registerAll, finish]
      exact late_cong h (by rw [h.fin]) (by rw [h.startup]) rfl rfl rfl rfl
    | edge c =>
      show Late (finish s (edge prog s c)).1
      cases e : edge prog s c with
      | ok s' => exact late_edge h e
      | error er => exact late_cong h rfl rfl rfl rfl rfl rfl
    | isActive t => exact hask _ _
    | hasFired t => exact hask _ _
    | point t => exact hask _ _
    | has t => exact hask _ _

/-- before startup -/
structure Pre (s : St) : Prop where
  next : s.nextT = (replay s.log).next
  ctr : s.ctr = (replay s.log).ctr
  trig : ∀ t g, s.trig t = some g → ∃ i, (replay s.log).info t = some i ∧ g.ctr = i.ctr ∧ g.point = i.point ∧
    t ∈ (replay s.log).active ∧ g.target = t
  startup : ∀ t ∈ s.startup, t ∈ (replay s.log).active
  good : Good s.log

theorem pre_init : Pre init := by
  refine ⟨rfl, rfl, ?_, ?_, ?_⟩
  · intro t g h; simp [init] at h
  · intro t h; simp [init] at h
  · intro pre t v post he
    have : ([] : List Ev) = pre ++ Ev.fired t v :: post := he
    simp at this

theorem pre_cong {s s1 : St} (h : Pre s) (h2 : s1.startup = s.startup) (h3 : s1.nextT = s.nextT)
    (h4 : s1.ctr = s.ctr) (h5 : s1.log = s.log) (h6 : s1.trig = s.trig) : Pre s1 :=
  ⟨by rw [h5, h3]; exact h.next, by rw [h5, h4]; exact h.ctr, by rw [h5, h6]; exact h.trig, by rw [h5, h2]; exact h.startup,
    by rw [h5]; exact h.good⟩

theorem pre_make {s s1 : St} {clk ctr point cb : Nat} (h : Pre s) (he : callAct s (.make clk ctr point cb) = .ok s1) :
    Pre s1 := by
  have hlog : replay (s.log ++ [Ev.act (.make clk ctr point cb)]) =
      (({ replay s.log with next := (replay s.log).next + 1 }.putI (replay s.log).next
        { clk := clk, ctr := ctr, point := point, cb := cb, fired := false }).activate (replay s.log).next) := by
    rw [replay_snoc]
    show Ref.enter _ _ = _
    unfold Ref.enter
    rw [if_pos (by exact replay_fin s.log)]
  have hg := good_act h.good (.make clk ctr point cb)
  have key : ∀ (s2 : St) (b : Bool), s2.nextT = s.nextT + 1 → s2.ctr = s.ctr → s2.log = s.log ++ [Ev.act (.make clk ctr point cb)] →
      s2.trig = upd s.trig s.nextT (some { clk := clk, ctr := ctr, point := point, cb := cb, active := b, fired := false, target := s.nextT }) →
      (s2.startup = s.startup ∨ s2.startup = s.startup ++ [s.nextT]) → Pre s2 := by
    intro s2 b k1 k2 k3 k4 k5
    refine ⟨?_, ?_, ?_, ?_, by rw [k3]; exact hg⟩
    · rw [k3, hlog, k1, h.next]; rfl
    · rw [k3, hlog, k2]; exact h.ctr
    · intro t g ht
      rw [k4, h.next] at ht
      rw [k3, hlog]
      show ∃ i, upd (replay s.log).info _ _ t = some i ∧ _
      by_cases hx : t = (replay s.log).next
      · rw [hx, upd_same] at ht ⊢
        have := Option.some.inj ht
        subst this
        exact ⟨_, rfl, rfl, rfl, List.mem_append_right _ (List.mem_singleton.2 rfl), rfl⟩
      · rw [upd_other _ _ hx] at ht ⊢
        obtain ⟨i, c1, c2, c3, c4, c5⟩ := h.trig t g ht
        exact ⟨i, c1, c2, c3, List.mem_append_left _ c4, c5⟩
    · intro t ht
      rw [k3, hlog]
      show t ∈ (replay s.log).active ++ [(replay s.log).next]
      rcases k5 with k5 | k5
      · rw [k5] at ht
        exact List.mem_append_left _ (h.startup t ht)
      · rw [k5] at ht
        rcases List.mem_append.1 ht with ht | ht
        · exact List.mem_append_left _ (h.startup t ht)
        · rw [h.next] at ht
          exact List.mem_append_right _ ht
  have he : makeT { s with log := s.log ++ [Ev.act (.make clk ctr point cb)] } clk ctr point cb = .ok s1 := he
  unfold makeT at he
  cases hf : s.fin with
  | true =>
    obtain ⟨g, hg, a1, a2, a3, a4, a5, a6⟩ := reg_only (by exact hf) he
    have hg' : upd s.trig s.nextT _ s.nextT = some g := hg
    rw [upd_same] at hg'
    have := Option.some.inj hg'
    subst this
    refine key s1 true a3 a4 a5 ?_ (.inl a2)
    rw [a6]
    exact upd_upd _ _ _ _
  | false =>
    unfold registerSelf at he
    simp only [St.putT, upd_same, hf, Bool.false_eq_true, if_false] at he
    have := Except.ok.inj he
    subst this
    exact key _ false rfl rfl rfl rfl (.inr rfl)

theorem pre_step {prog : Prog} {s : St} (h : Pre s) {o : Op} (ho : Early o) : Pre (step prog s o).1 := by
  unfold step
  split
  · exact h
  · have hask : ∀ t f, Pre (ask s t f).1 := by
      intro t f
      unfold ask
      split
      · exact pre_cong h rfl rfl rfl rfl rfl
      · exact h
    cases o with
    | act a =>
      show Pre (finishAct s (callAct s a)).1
      cases a with
      | make clk ctr point cb =>
        cases e : callAct s (.make clk ctr point cb) with
        | ok s' => exact pre_make h e
        | error er =>
          cases er with
          | throw => exact h
          | ub => exact pre_cong h rfl rfl rfl rfl rfl
          | terminate => exact pre_cong h rfl rfl rfl rfl rfl
      | count c v =>
        show Pre { s with log := s.log ++ [Ev.act (.count c v)], ctr := upd s.ctr c v }
        refine ⟨?_, ?_, ?_, ?_, good_act h.good _⟩
        · show s.nextT = (replay (s.log ++ [Ev.act (.count c v)])).next
          rw [replay_snoc]; exact h.next
        · show upd s.ctr c v = (replay (s.log ++ [Ev.act (.count c v)])).ctr
          rw [replay_snoc, h.ctr]; rfl
        · show ∀ t g, s.trig t = some g → ∃ i, (replay (s.log ++ [Ev.act (.count c v)])).info t = some i ∧ _ ∧ _ ∧
            t ∈ (replay (s.log ++ [Ev.act (.count c v)])).active ∧ _
          rw [replay_snoc]; exact h.trig
        · show ∀ t ∈ s.startup, t ∈ (replay (s.log ++ [Ev.act (.count c v)])).active
          rw [replay_snoc]; exact h.startup
      | _ => exact ho.elim
    | finalize => exact pre_cong h rfl rfl rfl rfl rfl
    | startup => exact ho.elim
    | edge c => exact ho.elim
    | isActive t => exact hask _ _
    | hasFired t => exact hask _ _
    | point t => exact hask _ _
    | has t => exact hask _ _

theorem rec_all {s s1 : St} {r : Ref} (ws : List Nat) (hf : s.fin = true) (h : Rec s r) (hw : ∀ t ∈ ws, t ∈ r.active)
    (he : registerAll s ws = .ok s1) : Rec s1 r ∧ s1.fin = true ∧ s1.startup = s.startup ∧ s1.log = s.log := by
  induction ws generalizing s with
  | nil =>
    have := Except.ok.inj he
    subst this
    exact ⟨h, hf, rfl, rfl⟩
  | cons t ws ih =>
    unfold registerAll at he
    cases e : registerSelf s t with
    | error er => rw [e] at he; simp at he
    | ok s' =>
      rw [e] at he
      obtain ⟨g, hg, a1, a2, a3, a4, a5, a6⟩ := reg_only hf e
      obtain ⟨i, hi, b1, b2, b3⟩ := h.trig t g hg
      have h1 : Rec s' r := by
        refine ⟨a3.trans h.next, a4.trans h.ctr, ?_⟩
        intro x g' hg'
        rw [a6] at hg'
        by_cases hx : x = t
        · rw [hx, upd_same] at hg'
          have := Option.some.inj hg'
          subst this
          rw [hx]
          exact ⟨i, hi, b1, b2, fun _ => hw t (List.mem_cons_self ..)⟩
        · rw [upd_other _ _ hx] at hg'
          exact h.trig x g' hg'
      obtain ⟨c1, c2, c3, c4⟩ := ih (a1.trans hf) h1 (fun x hx => hw x (List.mem_cons_of_mem _ hx)) he
      exact ⟨c1, c2, c3.trans a2, c4.trans a5⟩

theorem late_or_dead {prog : Prog} {s : St} (h : Late s ∨ s.dead = true ∧ Good s.log) (o : Op) :
    Late (step prog s o).1 ∨ (step prog s o).1.dead = true ∧ Good (step prog s o).1.log := by
  rcases h with h | ⟨h1, h2⟩
  · exact .inl (late_step h o)
  · right
    unfold step
    rw [if_pos h1]
    exact ⟨h1, h2⟩

theorem pre_startup {prog : Prog} {s : St} (h : Pre s) :
    Late (step prog s .startup).1 ∨ (step prog s .startup).1.dead = true ∧ Good (step prog s .startup).1.log := by
  unfold step
  split
  · rename_i hd
    exact .inr ⟨hd, h.good⟩
  · show Late (finish s (runStartup s)).1 ∨ (finish s (runStartup s)).1.dead = true ∧ Good (finish s (runStartup s)).1.log
    cases e : runStartup s with
    | error er => exact .inr ⟨rfl, h.good⟩
    | ok s' =>
      left
      unfold runStartup at e
      split at e
      · rename_i hf
        have h0 : Rec { s with startup := [] } (replay s.log) := by
          refine ⟨h.next, h.ctr, ?_⟩
          intro t g hg
          obtain ⟨i, c1, c2, c3, c4, c5⟩ := h.trig t g hg
          exact ⟨i, c1, c2, c3, fun _ => c4⟩
        obtain ⟨c1, c2, c3, c4⟩ := rec_all s.startup (by exact hf) h0 h.startup e
        exact ⟨c2, c3, by show Rec s' (replay s'.log); rw [c4]; exact c1, by show Good s'.log; rw [c4]; exact h.good⟩
      · exact absurd e (by simp)

theorem good_run {prog : Prog} (pre post : List Op) (hp : ∀ o ∈ pre, Early o) :
    Good (history prog (pre ++ .startup :: post)) := by
  unfold history
  rw [runOps_append]
  have h1 : Pre (runOps (step prog) init pre).1 := by
    have : ∀ (l : List Op) (s : St), (∀ o ∈ l, Early o) → Pre s → Pre (runOps (step prog) s l).1 := by
      intro l
      induction l with
      | nil => intro s _ h; exact h
      | cons o l ih =>
        intro s hl h
        exact ih _ (fun x hx => hl x (List.mem_cons_of_mem _ hx)) (pre_step h (hl o (List.mem_cons_self ..)))
    exact this pre init hp pre_init
  have h2 := pre_startup (prog := prog) h1
  have h3 := runOps_invariant (step prog) (fun s => Late s ∨ s.dead = true ∧ Good s.log) (fun s o h => late_or_dead h o)
    _ h2 post
  show Good (runOps (step prog) (step prog (runOps (step prog) init pre).1 .startup).1 post).1.log
  rcases h3 with h3 | h3
  · exact h3.good
  · exact h3.2

end Sparta.TrigMan
