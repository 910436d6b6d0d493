import Verif.PayloadEvent.Log
/-! Properties C85 (payloads are delivered once, unaltered, on time and in order) and C86 (cancelling and asking). -/
namespace Sparta.PayloadEvent
variable {α : Type}

instance (t : Spec α) (o : Op α) : Decidable (t.legal o) := by
  cases o with
  | arg =>
    unfold Spec.legal
    cases h : t.running with
    | none => exact isTrue (by intro k hk; cases hk)
    | some k =>
      by_cases hl : (t.item k).live = true
      · exact isTrue (by intro j hj; injection hj with e; rw [← e]; exact hl)
      · exact isFalse (fun hj => hl (hj k rfl))
  | _ => unfold Spec.legal; infer_instance

/-- legal histories -/
def Legal (cap : Nat) (os : List (Op α)) : Prop := legalOps Spec.step Spec.legal (Spec.init α cap) os

instance (cap : Nat) (os : List (Op α)) : Decidable (Legal cap os) := inferInstanceAs (Decidable (legalOps _ _ _ os))

/-- the event after a history -/
def after (cap : Nat) (os : List (Op α)) : PE α := (runOps PE.step (PE.init α cap) os).1
/-- the results of a history -/
def results (cap : Nat) (os : List (Op α)) : List (Res α) := (runOps PE.step (PE.init α cap) os).2

/-- what every permitted step preserves holds after every history -/
theorem hist_induct (I : Spec α → Log α → Prop) (ok : Op α → Prop)
    (hstep : ∀ s t L o, Rep s t → LogOk L t → I t L → t.legal o → ok o → I (t.step o).1 (L.add (o, (t.step o).2)))
    (os : List (Op α)) : ∀ (s : PE α) (t : Spec α) (L : Log α), Rep s t → LogOk L t → I t L → legalOps Spec.step Spec.legal t os → (∀ o ∈ os, ok o) →
      ∃ t', Rep (runOps PE.step s os).1 t' ∧ LogOk ((os.zip (runOps PE.step s os).2).foldl Log.add L) t' ∧
        I t' ((os.zip (runOps PE.step s os).2).foldl Log.add L) ∧ t' = (runOps Spec.step t os).1 := by
  induction os with
  | nil => intro s t L r h i _ _; exact ⟨t, r, h, i, rfl⟩
  | cons o os ih =>
    intro s t L r h i hl hok
    have h1 := rep_step s t o r hl.1
    have h2 := logOk_step o r hl.1 h
    have h3 := hstep s t L o r h i hl.1 (hok o List.mem_cons_self)
    obtain ⟨t', a, b, c, d⟩ := ih (s.step o).1 (t.step o).1 (L.add (o, (t.step o).2)) h1.1 h2 h3 hl.2 (fun o' ho' => hok o' (List.mem_cons_of_mem _ ho'))
    refine ⟨t', a, ?_, ?_, d⟩
    · show LogOk ((os.zip _).foldl Log.add (L.add (o, (s.step o).2))) t'
      rw [h1.2]; exact b
    · show I t' ((os.zip _).foldl Log.add (L.add (o, (s.step o).2)))
      rw [h1.2]; exact c

theorem logOk_init (cap : Nat) : LogOk (Log.init α) (Spec.init α cap) :=
  ⟨rfl, fun k hk => absurd hk (Nat.not_lt_zero k), fun _ => rfl, fun _ _ => rfl, rfl⟩

/-- C85: on every legal history every call returns what the specification says: payloads numbered by preparation, delivered
when due in the order of the schedule calls. -/
theorem C85_refines_partial (cap : Nat) (os : List (Op α)) (hl : Legal cap os) :
    results cap os = (runOps Spec.step (Spec.init α cap) os).2 :=
  (runOps_simulation_legal PE.step Spec.step Spec.legal Rep rep_step _ _ (rep_init cap) os hl).2

/-- a history with two payloads, one scheduled again inside the handler, a cancelled one, and reuse of proxies -/
def demo : List (Op Nat) :=
  [.prepare 7, .schedule 0 1, .prepare 8, .schedule 1 1, .drop 0, .count, .next, .fire, .schedule 1 0, .arg, .ret, .fire, .schedule 1 2, .ret,
   .fire, .prepare 9, .schedule 2 2, .drop 2, .pass, .next, .cancelIf (· == 8), .next, .fire, .ret, .pass]

example : Legal 100 demo := by decide +kernel
example : results 100 demo = [.handle 0, .done, .handle 1, .done, .done, .num 2, .done, .payload 7, .threw, .payload 7, .done, .payload 8, .done,
  .done, .idle, .handle 2, .done, .done, .done, .done, .num 1, .done, .payload 9, .done, .done] := by decide +kernel

/-- C85: with no call that cancels, in every tick that is over the handler received exactly what was scheduled for it: every payload
once for each successful schedule call, unaltered, in the order of the calls. -/
theorem C85_delivered_partial (cap : Nat) (os : List (Op α)) (hl : Legal cap os) (hn : ∀ o ∈ os, NoCancel o) (u : Nat)
    (hu : u < (logOf cap os).now) : (logOf cap os).deliv u = (logOf cap os).sched u := by
  obtain ⟨t, r, h, i, _⟩ := hist_induct (fun t L => ∀ u, L.deliv u ++ pv L t u = L.sched u) NoCancel
    (fun s t L o r h i hl hn u => by
      obtain ⟨new, h1, h2⟩ := flow_step o r hl h hn u
      rw [h1, h2, i u]) os (PE.init α cap) (Spec.init α cap) (Log.init α) (rep_init cap) (logOk_init cap) (fun _ => rfl) hl hn
  have h1 := i u
  have h2 : pv (logOf cap os) t u = [] := by
    unfold pv
    have : t.pending.filter (·.1 == u) = [] := by
      rw [List.filter_eq_nil_iff]
      intro e he hc
      have h3 := (r.pend e he).2
      have h4 : e.1 = u := by simpa using hc
      have h5 : (logOf cap os).now = t.now := h.now
      omega
    rw [this]; rfl
  have h3 : (logOf cap os).deliv u ++ pv (logOf cap os) t u = (logOf cap os).sched u := h1
  rw [h2, List.append_nil] at h3
  exact h3

def demo2 : List (Op Nat) :=
  [.prepare 7, .schedule 0 2, .prepare 8, .schedule 1 1, .drop 1, .next, .fire, .prepare 5, .schedule 2 1, .ret, .pass, .next, .fire, .schedule 0 1,
   .ret, .fire, .ret, .next, .fire, .ret, .next, .count]

example : Legal 100 demo2 ∧ (∀ o ∈ demo2, NoCancel o) ∧ 3 < (logOf 100 demo2).now ∧ (logOf 100 demo2).sched 2 = [7, 5] ∧
    (logOf 100 demo2).sched 3 = [7] ∧ (logOf 100 demo2).deliv 2 = [7, 5] := by
  refine ⟨by decide +kernel, ?_, by decide +kernel, by decide +kernel, by decide +kernel, by decide +kernel⟩
  intro o ho
  simp only [demo2, List.mem_cons, List.not_mem_nil, or_false] at ho
  rcases ho with h | h | h | h | h | h | h | h | h | h | h | h | h | h | h | h | h | h | h | h | h | h <;> subst h <;> trivial

/-- C85: whatever is cancelled, in every tick the handler receives only what was scheduled for that tick, at most once for each
successful schedule call and in their order; nothing is delivered early. -/
theorem C85_only_scheduled_partial (cap : Nat) (os : List (Op α)) (hl : Legal cap os) (u : Nat) :
    ((logOf cap os).deliv u).Sublist ((logOf cap os).sched u) ∧ ((logOf cap os).now < u → (logOf cap os).deliv u = []) := by
  obtain ⟨t, r, h, i, _⟩ := hist_induct (fun t L => ∀ u, (L.deliv u ++ pv L t u).Sublist (L.sched u)) (fun _ => True)
    (fun s t L o r h i hl _ u => by
      by_cases hn : NoCancel o
      · obtain ⟨new, h1, h2⟩ := flow_step o r hl h hn u
        rw [h1, h2]
        exact List.Sublist.append (i u) (List.Sublist.refl _)
      · have key : ∀ sel, (L.deliv u ++ pv L (t.cancel sel) u).Sublist (L.sched u) := fun sel =>
          (List.Sublist.append (List.Sublist.refl _) (cancel_flow_sub t L sel u)).trans (i u)
        cases o with
        | cancelH k => exact key _
        | cancelHAt k rel => exact key _
        | cancelAll => exact key _
        | cancelAt rel => exact key _
        | cancelIf f => exact key _
        | _ => exact absurd trivial hn) os (PE.init α cap) (Spec.init α cap) (Log.init α) (rep_init cap) (logOk_init cap) (fun _ => List.Sublist.refl _) hl
    (fun _ _ => trivial)
  refine ⟨(List.sublist_append_left _ _).trans (i u), ?_⟩
  intro hu
  have h5 : (logOf cap os).now = t.now := h.now
  exact h.late u (by rw [← h5]; exact hu)

example : Legal 100 demo ∧ (logOf 100 demo).sched 3 = [8, 9] ∧ (logOf 100 demo).deliv 3 = [9] ∧ (logOf 100 demo).deliv 1 = [7, 8] := by
  decide +kernel

/-- the call cancels nothing but, at most, payloads that do not satisfy `g` -/
def Spares (g : α → Bool) : Op α → Prop
  | .cancelH _ | .cancelHAt _ _ | .cancelAll | .cancelAt _ => False
  | .cancelIf f => ∀ x, g x = true → f x = false
  | _ => True

/-- C86: `cancelIf` affects no payload that does not satisfy the condition: of the others, exactly what was scheduled for a tick is
delivered in it, in order. -/
theorem C86_cancelIf_spares_partial (g : α → Bool) (cap : Nat) (os : List (Op α)) (hl : Legal cap os) (hn : ∀ o ∈ os, Spares g o) (u : Nat)
    (hu : u < (logOf cap os).now) : ((logOf cap os).deliv u).filter g = ((logOf cap os).sched u).filter g := by
  obtain ⟨t, r, h, i, _⟩ := hist_induct (fun t L => ∀ u, (L.deliv u ++ pv L t u).filter g = (L.sched u).filter g) (Spares g)
    (fun s t L o r h i hl hn u => by
      by_cases hc : NoCancel o
      · obtain ⟨new, h1, h2⟩ := flow_step o r hl h hc u
        rw [h1, h2, List.filter_append (L.deliv u ++ pv L t u), List.filter_append (L.sched u), i u]
      · cases o with
        | cancelIf f =>
          show (L.deliv u ++ pv L (t.cancel (t.holds f)) u).filter g = _
          rw [List.filter_append]
          have : (pv L (t.cancel (t.holds f)) u).filter g = (pv L t u).filter g := by
            have hf : ∀ x, g x = true → f x = false := hn
            -- payloads selected do not satisfy `g`
            have hp : ∀ e ∈ t.pending, L.val e.2 = (t.item e.2).x := fun e he => h.val _ (r.liveLt _ (r.pend e he).1)
            show (((t.pending.filter fun e => !t.holds f e.2).filter (·.1 == u)).filterMap _).filter g = ((t.pending.filter (·.1 == u)).filterMap _).filter g
            have key : ∀ p : List (Nat × Nat), (∀ e ∈ p, L.val e.2 = (t.item e.2).x) →
                (((p.filter fun e => !t.holds f e.2).filter (·.1 == u)).filterMap fun e => L.val e.2).filter g =
                ((p.filter (·.1 == u)).filterMap fun e => L.val e.2).filter g := by
              intro p
              induction p with
              | nil => intro _; rfl
              | cons e p ih =>
                intro hp
                have ih := ih (fun e he => hp e (List.mem_cons_of_mem _ he))
                by_cases hse : t.holds f e.2 = true
                · rw [List.filter_cons_of_neg (by simp [hse]), ih]
                  by_cases hu : (e.1 == u) = true
                  · rw [List.filter_cons_of_pos (by exact hu), List.filterMap_cons]
                    cases hv : L.val e.2 with
                    | none => rfl
                    | some x =>
                      dsimp only
                      rw [List.filter_cons_of_neg]
                      intro hg
                      have := hf x hg
                      unfold Spec.holds at hse
                      rw [← hp e List.mem_cons_self, hv] at hse
                      dsimp only at hse
                      rw [this] at hse; cases hse
                  · rw [List.filter_cons_of_neg (by exact hu)]
                · rw [List.filter_cons_of_pos (by simpa using hse)]
                  by_cases hu : (e.1 == u) = true
                  · rw [List.filter_cons_of_pos (by exact hu), List.filter_cons_of_pos (by exact hu), List.filterMap_cons, List.filterMap_cons]
                    cases hv : L.val e.2 with
                    | none => exact ih
                    | some x =>
                      dsimp only
                      rw [List.filter_cons, List.filter_cons, ih]
                  · rw [List.filter_cons_of_neg (by exact hu), List.filter_cons_of_neg (by exact hu)]; exact ih
            exact key _ hp
          rw [this, ← List.filter_append]
          exact i u
        | cancelH k => exact hn.elim
        | cancelHAt k rel => exact hn.elim
        | cancelAll => exact hn.elim
        | cancelAt rel => exact hn.elim
        | _ => exact absurd trivial hc) os (PE.init α cap) (Spec.init α cap) (Log.init α) (rep_init cap) (logOk_init cap) (fun _ => rfl) hl hn
  have h2 : pv (logOf cap os) t u = [] := by
    unfold pv
    have : t.pending.filter (·.1 == u) = [] := by
      rw [List.filter_eq_nil_iff]
      intro e he hc
      have h3 := (r.pend e he).2
      have h4 : e.1 = u := by simpa using hc
      have h5 : (logOf cap os).now = t.now := h.now
      omega
    rw [this]; rfl
  have h3 : ((logOf cap os).deliv u ++ pv (logOf cap os) t u).filter g = ((logOf cap os).sched u).filter g := i u
  rw [h2, List.append_nil] at h3
  exact h3

example : Legal 100 (demo ++ [.next]) ∧ 3 < (logOf 100 (demo ++ [.next])).now ∧ (logOf 100 demo).sched 3 = [8, 9] ∧ (logOf 100 demo).deliv 3 = [9] := by
  decide +kernel

/-- no payload that satisfies `f` waits or can be scheduled -/
def Barred (f : α → Bool) (t : Spec α) : Prop :=
  ∀ k, (t.item k).live = true → t.holds f k = true → (t.item k).cancelled = true ∧ t.waits k = false

theorem Barred.settle {f : α → Bool} {t : Spec α} (h : Barred f t) (k : Nat) : Barred f (t.settle k) := by
  unfold Spec.settle
  split
  · intro j hj hh
    have hne : j ≠ k := by
      intro e; subst e
      have : (upd t.item j { t.item j with live := false, cancelled := false } j).live = true := hj
      rw [upd_same] at this; cases this
    have e1 : (t.set k { t.item k with live := false, cancelled := false }).item j = t.item j := upd_other _ _ hne
    rw [e1] at hj ⊢
    exact h j hj (by unfold Spec.holds at hh ⊢; rw [e1] at hh; exact hh)
  · exact h

theorem Barred.cancel {f : α → Bool} {t : Spec α} (h : Barred f t) (sel : Nat → Bool) : Barred f (t.cancel sel) := by
  intro j hj hh
  have hx := (cancel_same t sel j).1
  have hh' : t.holds f j = true := by unfold Spec.holds at hh ⊢; rw [hx] at hh; exact hh
  have e : (t.cancel sel).item j = if sel j && (t.item j).live then
        if (t.item j).refs = 0 then { t.item j with live := false, cancelled := false } else { t.item j with cancelled := true }
      else t.item j := rfl
  have hlv : (t.item j).live = true := by
    rw [e] at hj
    split at hj
    · split at hj
      · cases hj
      · exact hj
    · exact hj
  have h0 := h j hlv hh'
  constructor
  · rw [e] at hj ⊢
    split at hj
    · rename_i h1
      split at hj
      · cases hj
      · rename_i h2; rw [if_pos h1, if_neg h2]
    · rename_i h1; rw [if_neg h1]; exact h0.1
  · cases hw : (t.cancel sel).waits j with
    | false => rfl
    | true =>
      obtain ⟨a, h1, h2⟩ := (waits_iff _ j).1 hw
      have : t.waits j = true := (waits_iff t j).2 ⟨a, (List.mem_filter.1 h1).1, h2⟩
      rw [h0.2] at this; cases this

theorem barred_start {s : PE α} {t : Spec α} (r : Rep s t) (f : α → Bool) : Barred f (t.cancel (t.holds f)) := by
  intro j hj hh
  have hx := (cancel_same t (t.holds f) j).1
  have hh' : t.holds f j = true := by
    have h1 : (match ((t.cancel (t.holds f)).item j).x with | some x => f x | none => false) = true := hh
    rw [hx] at h1; exact h1
  have e : (t.cancel (t.holds f)).item j = if t.holds f j && (t.item j).live then
        if (t.item j).refs = 0 then { t.item j with live := false, cancelled := false } else { t.item j with cancelled := true }
      else t.item j := rfl
  rw [e, hh', Bool.true_and] at hj
  constructor
  · rw [e, hh', Bool.true_and]
    split at hj
    · split at hj
      · cases hj
      · rename_i h1 h2; rw [if_pos h1, if_neg h2]
    · rename_i h1; exact absurd hj h1
  · cases hw : (t.cancel (t.holds f)).waits j with
    | false => rfl
    | true =>
      obtain ⟨a, h1, h2⟩ := (waits_iff _ j).1 hw
      have := (List.mem_filter.1 h1).2
      rw [h2, hh'] at this; cases this

theorem barred_step {s : PE α} {t : Spec α} (f : α → Bool) (o : Op α) (r : Rep s t) (hl : t.legal o) (hp : ∀ x, o = .prepare x → f x = false)
    (h : Barred f t) : Barred f (t.step o).1 := by
  cases o with
  | prepare x =>
    have e : (t.step (.prepare x)) = if t.ids.length + 1 < t.cap then
      ({ t with n := t.n + 1, item := upd t.item t.n ⟨some x, 1, false, true⟩ }, .handle t.n) else (t, .threw) := rfl
    rw [e]
    split
    · intro j hj hh
      by_cases ej : j = t.n
      · subst ej
        unfold Spec.holds at hh
        dsimp only at hh
        rw [upd_same] at hh
        dsimp only at hh
        rw [hp x rfl] at hh; cases hh
      · have e1 : (upd t.item t.n ⟨some x, 1, false, true⟩) j = t.item j := upd_other _ _ ej
        have hj' : ((upd t.item t.n ⟨some x, 1, false, true⟩) j).live = true := hj
        rw [e1] at hj'
        have h0 := h j hj' (by unfold Spec.holds at hh ⊢; dsimp only at hh; rw [e1] at hh; exact hh)
        exact ⟨by show ((upd t.item t.n ⟨some x, 1, false, true⟩) j).cancelled = true; rw [e1]; exact h0.1, h0.2⟩
    · exact h
  | copy k =>
    intro j hj hh
    have e : (upd t.item k { t.item k with refs := (t.item k).refs + 1 } j).live = (t.item j).live ∧
        (upd t.item k { t.item k with refs := (t.item k).refs + 1 } j).x = (t.item j).x ∧
        (upd t.item k { t.item k with refs := (t.item k).refs + 1 } j).cancelled = (t.item j).cancelled := by
      unfold upd; split
      · rename_i e; subst e; exact ⟨rfl, rfl, rfl⟩
      · exact ⟨rfl, rfl, rfl⟩
    have hj' : (upd t.item k { t.item k with refs := (t.item k).refs + 1 } j).live = true := hj
    rw [e.1] at hj'
    have h0 := h j hj' (by
      have hh' : (match (upd t.item k { t.item k with refs := (t.item k).refs + 1 } j).x with | some x => f x | none => false) = true := hh
      rw [e.2.1] at hh'; exact hh')
    exact ⟨e.2.2.trans h0.1, h0.2⟩
  | drop k =>
    apply Barred.settle
    intro j hj hh
    have e : (upd t.item k { t.item k with refs := (t.item k).refs - 1 } j).live = (t.item j).live ∧
        (upd t.item k { t.item k with refs := (t.item k).refs - 1 } j).x = (t.item j).x ∧
        (upd t.item k { t.item k with refs := (t.item k).refs - 1 } j).cancelled = (t.item j).cancelled := by
      unfold upd; split
      · rename_i e; subst e; exact ⟨rfl, rfl, rfl⟩
      · exact ⟨rfl, rfl, rfl⟩
    have hj' : (upd t.item k { t.item k with refs := (t.item k).refs - 1 } j).live = true := hj
    rw [e.1] at hj'
    have h0 := h j hj' (by
      have hh' : (match (upd t.item k { t.item k with refs := (t.item k).refs - 1 } j).x with | some x => f x | none => false) = true := hh
      rw [e.2.1] at hh'; exact hh')
    exact ⟨e.2.2.trans h0.1, h0.2⟩
  | move k => exact hl.elim
  | selfAssign k => exact hl.elim
  | schedule k d =>
    have e : (t.step (.schedule k d)) = if t.waits k = true ∨ (t.item k).cancelled = true then (t, .threw)
      else if d = 0 ∧ t.past = true then (t, .threw) else ({ t with pending := t.pending ++ [(t.now + d, k)] }, .done) := rfl
    rw [e]
    split
    · exact h
    · split
      · exact h
      · rename_i hnc _
        intro j hj hh
        have h0 := h j hj hh
        refine ⟨h0.1, ?_⟩
        show List.any (t.pending ++ [(t.now + d, k)]) _ = false
        rw [List.any_append]
        have h1 : t.pending.any (fun e => e.2 == j) = false := h0.2
        rw [h1, Bool.false_or]
        have : k ≠ j := by intro e; subst e; exact hnc (.inr h0.1)
        simpa using this
  | cancelH k => exact h.cancel _
  | cancelHAt k rel => exact h.cancel _
  | cancelAll => exact h.cancel _
  | cancelAt rel => exact h.cancel _
  | cancelIf f => exact h.cancel _
  | confirmIf f => exact h
  | count => exact h
  | isScheduled => exact h
  | isScheduledAt rel => exact h
  | arg =>
    unfold Spec.step
    dsimp only
    split <;> exact h
  | fire =>
    unfold Spec.step
    dsimp only
    split
    · exact h
    · split
      · exact h
      · rename_i e he
        intro j hj hh
        have h0 := h j hj hh
        refine ⟨h0.1, ?_⟩
        cases hw : ({ t with pending := t.pending.filter (·.2 != e.2), running := some e.2, fired := true } : Spec α).waits j with
        | false => rfl
        | true =>
          obtain ⟨a, h1, h2⟩ := (waits_iff _ j).1 hw
          have : t.waits j = true := (waits_iff t j).2 ⟨a, (List.mem_filter.1 h1).1, h2⟩
          rw [h0.2] at this; cases this
  | ret =>
    unfold Spec.step
    dsimp only
    split
    · exact h
    · apply Barred.settle
      exact h
  | pass =>
    have e : (t.step .pass) = if t.over then ({ t with past := true }, .done) else (t, .threw) := rfl
    rw [e]
    split <;> exact h
  | next =>
    have e : (t.step .next) = if t.over then ({ t with now := t.now + 1, past := false, fired := false }, .done) else (t, .threw) := rfl
    rw [e]
    split <;> exact h

theorem zip_append {β γ : Type} : ∀ (a b : List β) (c d : List γ), a.length = c.length → (a ++ b).zip (c ++ d) = a.zip c ++ b.zip d
  | [], _, [], _, _ => rfl
  | [], _, _ :: _, _, h => by cases h
  | _ :: _, _, [], _, h => by cases h
  | x :: a, b, y :: c, d, h => by
    show (x, y) :: (a ++ b).zip (c ++ d) = _
    rw [zip_append a b c d (by simpa using h)]; rfl

theorem results_length (s : PE α) (os : List (Op α)) : (runOps PE.step s os).2.length = os.length := by
  induction os generalizing s with
  | nil => rfl
  | cons o os ih => exact congrArg (· + 1) (ih _)

theorem logOf_append (cap : Nat) (a b : List (Op α)) :
    logOf cap (a ++ b) = (b.zip (runOps PE.step (after cap a) b).2).foldl Log.add (logOf cap a) := by
  unfold logOf after
  rw [runOps_append_snd, zip_append _ _ _ _ (results_length _ _).symm, List.foldl_append]

/-- C86: after `cancelIf(f)` no payload that satisfies `f` is delivered again, whatever the user does with the handles of the
cancelled ones, until a new payload of that kind is prepared. -/
theorem C86_cancelIf_stops_partial (f : α → Bool) (cap : Nat) (os os' : List (Op α)) (hl : Legal cap (os ++ .cancelIf f :: os'))
    (hp : ∀ x, .prepare x ∈ os' → f x = false) (u : Nat) :
    ((logOf cap (os ++ .cancelIf f :: os')).deliv u).filter f = ((logOf cap os).deliv u).filter f := by
  have split_legal : ∀ (a b : List (Op α)) (t : Spec α), legalOps Spec.step Spec.legal t (a ++ b) →
      legalOps Spec.step Spec.legal t a ∧ legalOps Spec.step Spec.legal (runOps Spec.step t a).1 b := by
    intro a
    induction a with
    | nil => intro b t h; exact ⟨trivial, h⟩
    | cons o a ih => intro b t h; exact ⟨⟨h.1, (ih b _ h.2).1⟩, (ih b _ h.2).2⟩
  obtain ⟨hl1, hl2⟩ := split_legal os _ _ hl
  obtain ⟨t, r, h, _, et⟩ := hist_induct (fun _ _ => True) (fun _ => True) (fun _ _ _ _ _ _ _ _ _ => trivial) os (PE.init α cap) (Spec.init α cap) (Log.init α)
    (rep_init cap) (logOk_init cap) trivial hl1 (fun _ _ => trivial)
  rw [← et] at hl2
  have r1 := rep_step _ _ (.cancelIf f) r hl2.1
  have h1 := logOk_step (.cancelIf f) r hl2.1 h
  have b1 : Barred f (t.step (.cancelIf f)).1 := barred_start r f
  obtain ⟨t', _, _, i, _⟩ := hist_induct (fun t' L => Barred f t' ∧ (L.deliv u).filter f = ((logOf cap os).deliv u).filter f) (fun o => ∀ x, o = .prepare x → f x = false)
    (fun s t L o r h i hl hp => by
      refine ⟨barred_step f o r hl hp i.1, ?_⟩
      rw [← i.2]
      cases o with
      | fire =>
        unfold Spec.step
        dsimp only
        split
        · rfl
        · split
          · rfl
          · rename_i e he
            have hm := List.mem_of_find?_eq_some he
            have hlv := (r.pend e hm).1
            obtain ⟨x, hx⟩ := Option.isSome_iff_exists.1 (r.val e.2 hlv)
            rw [hx]
            show (upd L.deliv L.now _ u).filter f = _
            by_cases hu : u = L.now
            · subst hu
              rw [upd_same, List.filter_append]
              have : f x = false := by
                cases hf : f x with
                | false => rfl
                | true =>
                  have h0 := i.1 e.2 hlv (by unfold Spec.holds; rw [hx]; exact hf)
                  have := (waits_iff t e.2).2 ⟨e, hm, rfl⟩
                  rw [h0.2] at this; cases this
              simp [this]
            · rw [upd_other _ _ hu]
      | arg =>
        unfold Spec.step
        dsimp only
        split
        · rfl
        · cases (t.item _).x <;> rfl
      | prepare x =>
        have e : (t.step (.prepare x)) = if t.ids.length + 1 < t.cap then
          ({ t with n := t.n + 1, item := upd t.item t.n ⟨some x, 1, false, true⟩ }, .handle t.n) else (t, .threw) := rfl
        rw [e]; split <;> rfl
      | schedule k d =>
        have e : (t.step (.schedule k d)) = if t.waits k = true ∨ (t.item k).cancelled = true then (t, .threw)
          else if d = 0 ∧ t.past = true then (t, .threw) else ({ t with pending := t.pending ++ [(t.now + d, k)] }, .done) := rfl
        rw [e]; split
        · rfl
        · split <;> rfl
      | ret => unfold Spec.step; dsimp only; split <;> rfl
      | pass =>
        have e : (t.step .pass) = if t.over then ({ t with past := true }, .done) else (t, .threw) := rfl
        rw [e]; split <;> rfl
      | next =>
        have e : (t.step .next) = if t.over then ({ t with now := t.now + 1, past := false, fired := false }, .done) else (t, .threw) := rfl
        rw [e]; split <;> rfl
      | _ => rfl)
    os' _ _ _ r1.1 h1 ⟨b1, rfl⟩ hl2.2 (fun o ho x e => hp x (e ▸ ho))
  have e : logOf cap (os ++ .cancelIf f :: os') = (os'.zip (runOps PE.step ((runOps PE.step (PE.init α cap) os).1.step (.cancelIf f)).1 os').2).foldl Log.add
      ((logOf cap os).add (.cancelIf f, (t.step (.cancelIf f)).2)) := by
    rw [logOf_append, ← r1.2]; rfl
  rw [e]
  exact i.2

example : Legal 100 (demo.take 20 ++ .cancelIf (· == 8) :: [.schedule 1 1, .next, .fire, .ret, .next]) ∧
    (results 100 (demo.take 20 ++ .cancelIf (· == 8) :: [.schedule 1 1, .next, .fire, .ret, .next])).drop 20 =
      [.num 1, .threw, .done, .payload 9, .done, .done] := by
  decide +kernel

/-- C86: with no call that cancels, when the user holds no handle and no handler is running, the number of outstanding events is the number
of successful schedule calls minus the number of deliveries. -/
theorem C86_count_partial (cap : Nat) (os : List (Op α)) (hl : Legal cap os) (hn : ∀ o ∈ os, NoCancel o)
    (hh : ∀ k, (logOf cap os).held k = 0) (hi : (logOf cap os).inside = false) :
    ((after cap os).step .count).2 = .num ((logOf cap os).ns - (logOf cap os).nd) ∧ (logOf cap os).nd ≤ (logOf cap os).ns := by
  obtain ⟨t, r, h, i, _⟩ := hist_induct (fun t L => L.nd + t.pending.length = L.ns) NoCancel
    (fun s t L o r h i hl hn => flowN_step o r hl hn i) os (PE.init α cap) (Spec.init α cap) (Log.init α) (rep_init cap) (logOk_init cap) rfl hl hn
  have i' : (logOf cap os).nd + t.pending.length = (logOf cap os).ns := i
  refine ⟨?_, by omega⟩
  have hlen : (after cap os).inflight.length = t.pending.length := by
    have h1 : (after cap os).inflight.length = t.ids.length := by
      have := r.infl
      have h2 : (after cap os).inflight = t.ids.map (after cap os).hs := this
      rw [h2, List.length_map]
    have hp : t.ids.Perm (t.pending.map (·.2)) := by
      rw [List.perm_ext_iff_of_nodup (ids_nodup t) r.pnd]
      intro k
      rw [mem_ids, List.mem_map]
      constructor
      · rintro ⟨_, hk⟩
        have h0 : (t.item k).refs = 0 := (h.held k).symm.trans (hh k)
        rcases r.keep k (by simp) hk h0 with h2 | h2
        · exact (waits_iff t k).1 h2
        · have : (logOf cap os).inside = t.running.isSome := h.inside
          rw [hi, h2] at this; cases this
      · rintro ⟨e, he, hk⟩
        have := (r.pend e he).1
        rw [hk] at this
        exact ⟨r.liveLt _ this, this⟩
    rw [h1, hp.length_eq, List.length_map]
  show Res.num _ = Res.num _
  rw [hlen]
  congr 1
  omega

example : Legal 100 (demo2.take 5 ++ [.drop 0] : List (Op Nat)) ∧ (logOf 100 (demo2.take 5 ++ [.drop 0] : List (Op Nat))).ns = 2 ∧
    (logOf 100 (demo2.take 5 ++ [.drop 0] : List (Op Nat))).held 0 = 0 ∧ (logOf 100 (demo2.take 5 ++ [.drop 0] : List (Op Nat))).held 1 = 0 := by
  decide +kernel

/-- C86: with no call that cancels, asking whether something is scheduled in a given later cycle (or in the current one, as long as there
was no delivery in it) tells exactly whether something was scheduled for it. -/
theorem C86_isScheduledAt_partial (cap : Nat) (os : List (Op α)) (rel : Nat) (hl : Legal cap (os ++ [.isScheduledAt rel])) (hn : ∀ o ∈ os, NoCancel o) :
    ((after cap os).step (.isScheduledAt rel)).2 = .yes (!((logOf cap os).sched ((logOf cap os).now + rel)).isEmpty) := by
  have split_legal : ∀ (a b : List (Op α)) (t : Spec α), legalOps Spec.step Spec.legal t (a ++ b) →
      legalOps Spec.step Spec.legal t a ∧ legalOps Spec.step Spec.legal (runOps Spec.step t a).1 b := by
    intro a
    induction a with
    | nil => intro b t h; exact ⟨trivial, h⟩
    | cons o a ih => intro b t h; exact ⟨⟨h.1, (ih b _ h.2).1⟩, (ih b _ h.2).2⟩
  obtain ⟨hl1, hl2⟩ := split_legal os _ _ hl
  obtain ⟨t, r, h, ⟨i, j⟩, et⟩ := hist_induct (fun t L => (∀ u, L.deliv u ++ pv L t u = L.sched u) ∧ (t.fired = false → L.deliv t.now = [])) NoCancel
    (fun s t L o r h i hl hn => by
      refine ⟨fun u => ?_, ?_⟩
      · obtain ⟨new, h1, h2⟩ := flow_step o r hl h hn u
        rw [h1, h2, i.1 u]
      · have j := i.2
        cases o with
        | fire =>
          unfold Spec.step
          dsimp only
          split
          · exact j
          · split
            · exact j
            · intro hf; cases hf
        | arg =>
          unfold Spec.step
          dsimp only
          split
          · exact j
          · cases (t.item _).x <;> exact j
        | prepare x =>
          have e : (t.step (.prepare x)) = if t.ids.length + 1 < t.cap then
            ({ t with n := t.n + 1, item := upd t.item t.n ⟨some x, 1, false, true⟩ }, .handle t.n) else (t, .threw) := rfl
          rw [e]; split <;> exact j
        | schedule k d =>
          have e : (t.step (.schedule k d)) = if t.waits k = true ∨ (t.item k).cancelled = true then (t, .threw)
            else if d = 0 ∧ t.past = true then (t, .threw) else ({ t with pending := t.pending ++ [(t.now + d, k)] }, .done) := rfl
          rw [e]; split
          · exact j
          · split <;> exact j
        | drop k =>
          show ((t.set k _).settle k).fired = false → L.deliv ((t.set k _).settle k).now = []
          unfold Spec.settle
          split <;> exact j
        | ret =>
          unfold Spec.step; dsimp only; split
          · exact j
          · rename_i k _
            show (({ t with running := none } : Spec α).settle k).fired = false → L.deliv (({ t with running := none } : Spec α).settle k).now = []
            unfold Spec.settle
            split <;> exact j
        | pass =>
          have e : (t.step .pass) = if t.over then ({ t with past := true }, .done) else (t, .threw) := rfl
          rw [e]; split <;> exact j
        | next =>
          have e : (t.step .next) = if t.over then ({ t with now := t.now + 1, past := false, fired := false }, .done) else (t, .threw) := rfl
          rw [e]; split
          · intro _
            exact h.late _ (Nat.lt_succ_self _)
          · exact j
        | _ => exact j) os (PE.init α cap) (Spec.init α cap) (Log.init α) (rep_init cap) (logOk_init cap) ⟨fun _ => rfl, fun _ => rfl⟩ hl1 hn
  rw [← et] at hl2
  have hleg : rel ≠ 0 ∨ t.fired = false := hl2.1
  have hres := (rep_step _ _ (.isScheduledAt rel) r hl2.1).2
  have hnow : (logOf cap os).now = t.now := h.now
  have hd : (logOf cap os).deliv (t.now + rel) = [] := by
    rcases hleg with h1 | h1
    · exact h.late _ (by omega)
    · by_cases hr : rel = 0
      · subst hr; exact j h1
      · exact h.late _ (by omega)
  have hs : (logOf cap os).deliv (t.now + rel) ++ pv (logOf cap os) t (t.now + rel) = (logOf cap os).sched (t.now + rel) := i _
  rw [hd, List.nil_append] at hs
  show ((runOps PE.step (PE.init α cap) os).1.step (.isScheduledAt rel)).2 = _
  rw [hres, hnow, ← hs]
  show Res.yes _ = Res.yes _
  congr 1
  unfold pv
  have key : ∀ p : List (Nat × Nat), (∀ e ∈ p, ∃ x, (logOf cap os).val e.2 = some x) →
      (p.any fun e => e.1 == t.now + rel) = !((p.filter (·.1 == t.now + rel)).filterMap fun e => (logOf cap os).val e.2).isEmpty := by
    intro p
    induction p with
    | nil => intro _; rfl
    | cons e p ih =>
      intro hp
      have ih := ih (fun e he => hp e (List.mem_cons_of_mem _ he))
      rw [List.any_cons]
      by_cases hu : (e.1 == t.now + rel) = true
      · obtain ⟨x, hx⟩ := hp e List.mem_cons_self
        rw [List.filter_cons_of_pos (by exact hu), List.filterMap_cons, hx, hu]; rfl
      · rw [List.filter_cons_of_neg (by exact hu), ← ih]
        have : (e.1 == t.now + rel) = false := by simpa using hu
        rw [this, Bool.false_or]
  apply key
  intro e he
  have hlv := (r.pend e he).1
  obtain ⟨x, hx⟩ := Option.isSome_iff_exists.1 (r.val _ hlv)
  exact ⟨x, (h.val _ (r.liveLt _ hlv)).trans hx⟩

example : Legal 100 (demo2.take 8 ++ [.isScheduledAt 1] : List (Op Nat)) ∧
    ((after 100 (demo2.take 8)).step (.isScheduledAt 1)).2 = .yes true ∧ ((after 100 (demo2.take 8)).step (.isScheduledAt 2)).2 = .yes false := by
  decide +kernel

/-- C86 fails for the current cycle once there was a delivery in it: the scheduler still stores the entry that was fired, and the proxy that
delivered has been given to another payload. Asking for the current cycle says yes although the payload is scheduled for later, and cancelling in the
current cycle takes that other payload away: it is not delivered in its cycle, where instead the event throws. -/
theorem C86_stale_cancel_violated :
    results 100 [.prepare 7, .schedule 0 0, .drop 0, .fire, .ret, .prepare 8, .schedule 1 2, .drop 1, .isScheduledAt 0, .cancelAt 0, .count, .next, .next, .fire] =
      [.handle 0, .done, .done, .payload 7, .done, .handle 1, .done, .done, .yes true, .num 1, .num 0, .done, .done, .threw] := by
  decide +kernel

/-- C86 fails in the same way in a worse case: the proxy that lost its payload is given to a third payload before the forgotten entry fires, so that
the third payload is delivered one cycle early. -/
theorem C86_stale_early_violated :
    results 100 [.prepare 7, .schedule 0 0, .drop 0, .fire, .ret, .prepare 8, .schedule 1 2, .drop 1, .cancelAt 0, .prepare 9, .schedule 2 3, .drop 2,
      .next, .next, .fire] =
      [.handle 0, .done, .done, .payload 7, .done, .handle 1, .done, .done, .num 1, .handle 2, .done, .done, .done, .done, .payload 9] := by
  decide +kernel

/-- C86 fails: `cancel(rel_cycle)` returns the number of payloads in flight, not of those cancelled; here nothing is cancelled. -/
theorem C86_cancelAt_count_violated :
    results 100 [.prepare 7, .schedule 0 2, .prepare 8, .schedule 1 3, .cancelAt 1, .next, .next, .fire] =
      [.handle 0, .done, .handle 1, .done, .num 2, .done, .done, .payload 7] := by
  decide +kernel

/-- C85 fails inside the handler: when the handler cancels the event and no handle exists, its own argument is destroyed while it runs; when
it then prepares another payload, its argument becomes that one. -/
theorem C85_argument_destroyed_violated :
    results 100 [.prepare 7, .schedule 0 1, .drop 0, .next, .fire, .arg, .cancelAll, .arg] =
      [.handle 0, .done, .done, .done, .payload 7, .payload 7, .num 1, .ub] ∧
    results 100 [.prepare 7, .schedule 0 1, .drop 0, .next, .fire, .cancelAll, .prepare 8, .arg] =
      [.handle 0, .done, .done, .done, .payload 7, .num 1, .handle 1, .payload 8] := by
  decide +kernel

/-- C85 fails for handles that are moved: the defaulted move leaves the pointer in the old handle, whose destruction takes the payload away from
the new one; what is scheduled through it is then another payload. -/
theorem C85_moved_handle_violated :
    results 100 [.prepare 7, .move 0, .prepare 8, .schedule 0 1, .next, .fire] = [.handle 0, .done, .handle 1, .done, .done, .payload 8] := by
  decide +kernel

/-- C85 fails for a handle assigned to itself: its payload is destroyed before the count goes up again. -/
theorem C85_self_assigned_violated :
    results 100 [.prepare 7, .selfAssign 0, .prepare 8, .schedule 0 1, .next, .fire] = [.handle 0, .done, .handle 1, .done, .done, .payload 8] ∧
    results 100 [.prepare 7, .selfAssign 0, .schedule 0 1, .next, .fire] = [.handle 0, .done, .done, .done, .ub] := by
  decide +kernel

end Sparta.PayloadEvent
