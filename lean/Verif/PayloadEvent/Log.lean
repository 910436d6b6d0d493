import Verif.PayloadEvent.Lemmas2
/-!
What the user of a payload event can write down from the calls and their results alone: who prepared which payload,
what was scheduled for which tick and what was delivered in which tick.
-/
namespace Sparta.PayloadEvent
variable {α : Type}

/-- `val k` is the payload of handle `k`, `held k` the number of copies the user holds, `sched u` what was successfully scheduled
for tick `u` in the order of the calls, `deliv u` what the handler received in tick `u`, `ns` and `nd` the numbers of both -/
structure Log (α : Type) where
  now : Nat
  val : Nat → Option α
  held : Nat → Nat
  sched : Nat → List α
  deliv : Nat → List α
  ns : Nat
  nd : Nat
  inside : Bool

def Log.init (α : Type) : Log α := ⟨0, fun _ => none, fun _ => 0, fun _ => [], fun _ => [], 0, 0, false⟩

/-- one call and its result -/
def Log.add (L : Log α) : Op α × Res α → Log α
  | (.prepare x, .handle k) => { L with val := upd L.val k (some x), held := upd L.held k 1 }
  | (.copy k, .done) => { L with held := upd L.held k (L.held k + 1) }
  | (.drop k, .done) => { L with held := upd L.held k (L.held k - 1) }
  | (.schedule k d, .done) => { L with sched := upd L.sched (L.now + d) (L.sched (L.now + d) ++ (L.val k).toList), ns := L.ns + 1 }
  | (.fire, .payload x) => { L with deliv := upd L.deliv L.now (L.deliv L.now ++ [x]), nd := L.nd + 1, inside := true }
  | (.ret, .done) => { L with inside := false }
  | (.next, .done) => { L with now := L.now + 1 }
  | _ => L

/-- the log of a history -/
def logOf (cap : Nat) (os : List (Op α)) : Log α :=
  (os.zip (runOps PE.step (PE.init α cap) os).2).foldl Log.add (Log.init α)

/-- what is still to be delivered in tick `u` -/
def pv (L : Log α) (t : Spec α) (u : Nat) : List α := (t.pending.filter (·.1 == u)).filterMap fun e => L.val e.2

/-- the log agrees with the specification -/
structure LogOk (L : Log α) (t : Spec α) : Prop where
  now : L.now = t.now
  val : ∀ k, k < t.n → L.val k = (t.item k).x
  held : ∀ k, L.held k = (t.item k).refs
  late : ∀ u, t.now < u → L.deliv u = []
  inside : L.inside = t.running.isSome

theorem filterMap_congr' {α β : Type} {f g : α → Option β} {l : List α} (h : ∀ x ∈ l, f x = g x) :
    l.filterMap f = l.filterMap g := by
  induction l with
  | nil => rfl
  | cons a l ih =>
    rw [List.filterMap_cons, List.filterMap_cons, h a List.mem_cons_self, ih fun x hx => h x (List.mem_cons_of_mem _ hx)]

theorem fire_filter {p : List (Nat × Nat)} (hnd : (p.map (·.2)).Nodup) {e : Nat × Nat} {now : Nat} {rest : List (Nat × Nat)}
    (hfl : p.filter (fun e => e.1 == now) = e :: rest) (u : Nat) :
    (p.filter (·.2 != e.2)).filter (·.1 == u) = if u = now then rest else p.filter (·.1 == u) := by
  have he : e ∈ p ∧ (e.1 == now) = true := by
    have : e ∈ p.filter (fun e => e.1 == now) := by rw [hfl]; exact List.mem_cons_self
    exact List.mem_filter.1 this
  rw [List.filter_filter]
  by_cases hu : u = now
  · subst hu
    rw [if_pos rfl]
    have : p.filter (fun a => a.1 == u && a.2 != e.2) = (p.filter (fun a => a.1 == u)).filter (fun a => a.2 != e.2) := by
      rw [List.filter_filter]
      apply List.filter_congr
      intro a _; exact Bool.and_comm _ _
    rw [this, hfl, List.filter_cons_of_neg (by simp), List.filter_eq_self]
    intro a ha
    have hsub : (e :: rest).map (·.2) |>.Nodup := by
      rw [← hfl]
      exact List.Pairwise.sublist (List.Sublist.map _ List.filter_sublist) hnd
    rw [List.map_cons, List.nodup_cons] at hsub
    rw [bne_iff_ne]
    intro h
    exact hsub.1 (List.mem_map.2 ⟨a, ha, h⟩)
  · rw [if_neg hu]
    apply List.filter_congr
    intro a ha
    cases h : (a.1 == u) with
    | false => rfl
    | true =>
      rw [Bool.true_and, bne_iff_ne]
      intro h2
      have h3 : a.1 = u := by simpa using h
      have h4 : e.1 = now := by simpa using he.2
      have h5 : (a.1, e.2) ∈ p := by rw [← h2]; exact ha
      have := pnd_unique hnd h5 he.1
      omega

theorem settle_same (t : Spec α) (k : Nat) : (t.settle k).n = t.n ∧ (t.settle k).pending = t.pending ∧ (t.settle k).now = t.now ∧
    (t.settle k).running = t.running ∧ (∀ j, ((t.settle k).item j).x = (t.item j).x ∧ ((t.settle k).item j).refs = (t.item j).refs) := by
  unfold Spec.settle
  split
  · refine ⟨rfl, rfl, rfl, rfl, ?_⟩
    intro j
    show (upd t.item k _ j).x = _ ∧ (upd t.item k _ j).refs = _
    unfold upd
    split
    · rename_i e; subst e; exact ⟨rfl, rfl⟩
    · exact ⟨rfl, rfl⟩
  · exact ⟨rfl, rfl, rfl, rfl, fun _ => ⟨rfl, rfl⟩⟩

theorem cancel_same (t : Spec α) (sel : Nat → Bool) (j : Nat) :
    ((t.cancel sel).item j).x = (t.item j).x ∧ ((t.cancel sel).item j).refs = (t.item j).refs := by
  unfold Spec.cancel
  dsimp only
  split
  · split <;> exact ⟨rfl, rfl⟩
  · exact ⟨rfl, rfl⟩

theorem logOk_step {s : PE α} {t : Spec α} {L : Log α} (o : Op α) (r : Rep s t) (hl : t.legal o) (h : LogOk L t) :
    LogOk (L.add (o, (t.step o).2)) (t.step o).1 := by
  have hcan : ∀ sel, LogOk L (t.cancel sel) := fun sel =>
    ⟨h.now, fun k hk => (h.val k hk).trans (cancel_same t sel k).1.symm, fun k => (h.held k).trans (cancel_same t sel k).2.symm, h.late, h.inside⟩
  cases o with
  | prepare x =>
    show LogOk (L.add (_, (if _ then _ else _ : Spec α × Res α).2)) (if _ then _ else _ : Spec α × Res α).1
    split
    · refine ⟨h.now, ?_, ?_, h.late, h.inside⟩
      · intro k hk
        have hk' : k < t.n + 1 := hk
        show upd L.val t.n _ k = (upd t.item t.n _ k).x
        unfold upd
        split
        · rfl
        · exact h.val k (by omega)
      · intro k
        show upd L.held t.n _ k = (upd t.item t.n _ k).refs
        unfold upd
        split
        · rfl
        · exact h.held k
    · exact h
  | copy k =>
    refine ⟨h.now, ?_, ?_, h.late, h.inside⟩
    · intro j hj
      show L.val j = (upd t.item k _ j).x
      unfold upd; split
      · rename_i e; subst e; exact h.val j hj
      · exact h.val j hj
    · intro j
      show upd L.held k _ j = (upd t.item k _ j).refs
      unfold upd; split
      · rw [h.held]
      · exact h.held j
  | drop k =>
    have h1 : LogOk (L.add (.drop k, .done)) (t.set k { t.item k with refs := (t.item k).refs - 1 }) := by
      refine ⟨h.now, ?_, ?_, h.late, h.inside⟩
      · intro j hj
        show L.val j = (upd t.item k _ j).x
        unfold upd; split
        · rename_i e; subst e; exact h.val j hj
        · exact h.val j hj
      · intro j
        show upd L.held k _ j = (upd t.item k _ j).refs
        unfold upd; split
        · rw [h.held]
        · exact h.held j
    obtain ⟨e1, _, e3, e4, e5⟩ := settle_same (t.set k { t.item k with refs := (t.item k).refs - 1 }) k
    refine ⟨h1.now.trans e3.symm, ?_, ?_, ?_, ?_⟩
    · intro j hj
      exact (h1.val j (e1 ▸ hj)).trans (e5 j).1.symm
    · intro j
      exact (h1.held j).trans (e5 j).2.symm
    · intro u hu
      exact h1.late u (by
        have hu' : ((t.set k { t.item k with refs := (t.item k).refs - 1 }).settle k).now < u := hu
        rw [e3] at hu'; exact hu')
    · refine h1.inside.trans ?_
      show _ = ((t.set k _).settle k).running.isSome
      rw [e4]
  | move k => exact hl.elim
  | selfAssign k => exact hl.elim
  | schedule k d =>
    show LogOk (L.add (_, (if _ then _ else _ : Spec α × Res α).2)) (if _ then _ else _ : Spec α × Res α).1
    split
    · exact h
    · split
      · exact h
      · exact ⟨h.now, h.val, h.held, h.late, h.inside⟩
  | cancelH k => exact hcan _
  | cancelHAt k rel => exact hcan _
  | cancelAll => exact hcan _
  | cancelAt rel => exact hcan _
  | cancelIf f => exact hcan _
  | confirmIf f => exact h
  | count => exact h
  | isScheduled => exact h
  | isScheduledAt rel => exact h
  | arg =>
    unfold Spec.step
    dsimp only
    split
    · exact h
    · cases (t.item _).x <;> exact h
  | fire =>
    unfold Spec.step
    dsimp only
    split
    · exact h
    · split
      · exact h
      · rename_i e he
        have hl := (r.pend e (List.mem_of_find?_eq_some he)).1
        obtain ⟨x, hx⟩ := Option.isSome_iff_exists.1 (r.val e.2 hl)
        rw [hx]
        refine ⟨h.now, h.val, h.held, ?_, rfl⟩
        intro u hu
        have hu' : t.now < u := hu
        show upd L.deliv L.now _ u = []
        rw [upd_other _ _ (by rw [h.now]; omega)]
        exact h.late u hu
  | ret =>
    unfold Spec.step
    dsimp only
    split
    · exact h
    · rename_i k hk
      obtain ⟨e1, _, e3, e4, e5⟩ := settle_same ({ t with running := none } : Spec α) k
      refine ⟨h.now.trans e3.symm, ?_, ?_, ?_, ?_⟩
      · intro j hj
        exact (h.val j (e1 ▸ hj)).trans (e5 j).1.symm
      · intro j
        exact (h.held j).trans (e5 j).2.symm
      · intro u hu
        exact h.late u (by
          have hu' : (({ t with running := none } : Spec α).settle k).now < u := hu
          rw [e3] at hu'; exact hu')
      · show false = (({ t with running := none } : Spec α).settle k).running.isSome
        rw [e4]; rfl
  | pass =>
    show LogOk (L.add (_, (if _ then _ else _ : Spec α × Res α).2)) (if _ then _ else _ : Spec α × Res α).1
    split
    · exact ⟨h.now, h.val, h.held, h.late, h.inside⟩
    · exact h
  | next =>
    show LogOk (L.add (_, (if _ then _ else _ : Spec α × Res α).2)) (if _ then _ else _ : Spec α × Res α).1
    split
    · refine ⟨?_, h.val, h.held, ?_, h.inside⟩
      · show L.now + 1 = t.now + 1; rw [h.now]
      · intro u hu
        have hu' : t.now + 1 < u := hu
        exact h.late u (by omega)
    · exact h

/-- calls that do not cancel -/
def NoCancel : Op α → Prop
  | .cancelH _ | .cancelHAt _ _ | .cancelAll | .cancelAt _ | .cancelIf _ => False
  | _ => True

/-- without cancelling, what is delivered or still to come grows exactly by what is scheduled -/
theorem flow_step {s : PE α} {t : Spec α} {L : Log α} (o : Op α) (r : Rep s t) (hl : t.legal o) (h : LogOk L t) (hn : NoCancel o) (u : Nat) :
    ∃ new, (L.add (o, (t.step o).2)).deliv u ++ pv (L.add (o, (t.step o).2)) (t.step o).1 u = (L.deliv u ++ pv L t u) ++ new ∧
      (L.add (o, (t.step o).2)).sched u = L.sched u ++ new := by
  have triv : ∃ new, L.deliv u ++ pv L t u = (L.deliv u ++ pv L t u) ++ new ∧ L.sched u = L.sched u ++ new :=
    ⟨[], by rw [List.append_nil], by rw [List.append_nil]⟩
  cases o with
  | prepare x =>
    have e : (t.step (.prepare x)) = if t.ids.length + 1 < t.cap then
      ({ t with n := t.n + 1, item := upd t.item t.n ⟨some x, 1, false, true⟩ }, .handle t.n) else (t, .threw) := rfl
    rw [e]
    split
    · refine ⟨[], ?_, by rw [List.append_nil]; rfl⟩
      rw [List.append_nil]
      show L.deliv u ++ _ = _
      congr 1
      unfold pv
      dsimp only
      apply filterMap_congr'
      intro e he
      have := r.liveLt _ (r.pend e (List.mem_filter.1 he).1).1
      show upd L.val t.n _ e.2 = _
      rw [upd_other _ _ (by omega)]
    · exact triv
  | copy k => exact triv
  | drop k =>
    obtain ⟨_, e2, _, _, _⟩ := settle_same (t.set k { t.item k with refs := (t.item k).refs - 1 }) k
    refine ⟨[], ?_, by rw [List.append_nil]; rfl⟩
    rw [List.append_nil]
    show L.deliv u ++ (((t.set k _).settle k).pending.filter _).filterMap _ = _
    rw [e2]; rfl
  | move k => exact hl.elim
  | selfAssign k => exact hl.elim
  | schedule k d =>
    have e : (t.step (.schedule k d)) = if t.waits k = true ∨ (t.item k).cancelled = true then (t, .threw)
      else if d = 0 ∧ t.past = true then (t, .threw) else ({ t with pending := t.pending ++ [(t.now + d, k)] }, .done) := rfl
    rw [e]
    split
    · exact triv
    · split
      · exact triv
      · by_cases hu : u = t.now + d
        · refine ⟨(L.val k).toList, ?_, ?_⟩
          · show L.deliv u ++ ((t.pending ++ [(t.now + d, k)]).filter _).filterMap (fun e => L.val e.2) = _
            rw [List.filter_append, List.filterMap_append, ← List.append_assoc]
            congr 1
            subst hu
            rw [List.filter_cons_of_pos (by simp), List.filter_nil, List.filterMap_cons]
            dsimp only
            cases L.val k <;> rfl
          · show upd L.sched (L.now + d) _ u = _
            rw [h.now, ← hu, upd_same]
        · refine ⟨[], ?_, ?_⟩
          · show L.deliv u ++ ((t.pending ++ [(t.now + d, k)]).filter _).filterMap (fun e => L.val e.2) = _
            rw [List.filter_append, List.filterMap_append, ← List.append_assoc]
            congr 1
            have : ([(t.now + d, k)].filter (fun e => e.1 == u)) = [] := by simp; omega
            rw [this]; rfl
          · show upd L.sched (L.now + d) _ u = _
            rw [upd_other _ _ (by rw [h.now]; exact hu), List.append_nil]
  | cancelH k => exact hn.elim
  | cancelHAt k rel => exact hn.elim
  | cancelAll => exact hn.elim
  | cancelAt rel => exact hn.elim
  | cancelIf f => exact hn.elim
  | confirmIf f => exact triv
  | count => exact triv
  | isScheduled => exact triv
  | isScheduledAt rel => exact triv
  | arg =>
    unfold Spec.step
    dsimp only
    split
    · exact triv
    · cases (t.item _).x <;> exact triv
  | fire =>
    unfold Spec.step
    dsimp only
    split
    · exact triv
    · split
      · exact triv
      · rename_i e he
        have hlv := (r.pend e (List.mem_of_find?_eq_some he)).1
        obtain ⟨x, hx⟩ := Option.isSome_iff_exists.1 (r.val e.2 hlv)
        rw [hx]
        have hv : L.val e.2 = some x := (h.val _ (r.liveLt _ hlv)).trans hx
        have hhead : (t.pending.filter (fun e => e.1 == t.now)).head? = some e := by rw [List.head?_filter]; exact he
        cases hfl : t.pending.filter (fun e => e.1 == t.now) with
        | nil => rw [hfl] at hhead; cases hhead
        | cons e' rest =>
          rw [hfl] at hhead
          have : e' = e := by injection hhead
          subst this
          refine ⟨[], ?_, by rw [List.append_nil]; rfl⟩
          rw [List.append_nil]
          show upd L.deliv L.now _ u ++ ((t.pending.filter (·.2 != e'.2)).filter (·.1 == u)).filterMap (fun e => L.val e.2) = _
          rw [fire_filter r.pnd hfl u, h.now]
          by_cases hu : u = t.now
          · subst hu
            rw [upd_same, if_pos rfl]
            unfold pv
            rw [hfl, List.filterMap_cons, hv]
            simp
          · rw [upd_other _ _ hu, if_neg hu]; rfl
  | ret =>
    unfold Spec.step
    dsimp only
    split
    · exact triv
    · rename_i k hk
      obtain ⟨_, e2, _, _, _⟩ := settle_same ({ t with running := none } : Spec α) k
      refine ⟨[], ?_, by rw [List.append_nil]; rfl⟩
      rw [List.append_nil]
      show L.deliv u ++ ((({ t with running := none } : Spec α).settle k).pending.filter _).filterMap _ = _
      rw [e2]; rfl
  | pass =>
    have e : (t.step .pass) = if t.over then ({ t with past := true }, .done) else (t, .threw) := rfl
    rw [e]
    split <;> exact triv
  | next =>
    have e : (t.step .next) = if t.over then ({ t with now := t.now + 1, past := false, fired := false }, .done) else (t, .threw) := rfl
    rw [e]
    split <;> exact triv

theorem filter_ne_length {p : List (Nat × Nat)} (hnd : (p.map (·.2)).Nodup) {e : Nat × Nat} (he : e ∈ p) :
    (p.filter (·.2 != e.2)).length + 1 = p.length := by
  induction p with
  | nil => cases he
  | cons a p ih =>
    rw [List.map_cons, List.nodup_cons] at hnd
    by_cases ha : a.2 = e.2
    · rw [List.filter_cons_of_neg (by simp [ha])]
      have : p.filter (·.2 != e.2) = p := by
        rw [List.filter_eq_self]
        intro b hb
        rw [bne_iff_ne]
        intro hc
        exact hnd.1 (List.mem_map.2 ⟨b, hb, by rw [hc, ha]⟩)
      rw [this]; rfl
    · rw [List.filter_cons_of_pos (by simpa using ha)]
      rcases List.mem_cons.1 he with h | h
      · rw [h] at ha; exact absurd rfl ha
      · have := ih hnd.2 h
        simp only [List.length_cons]; omega

/-- without cancelling, the numbers of deliveries made and to come add up -/
theorem flowN_step {s : PE α} {t : Spec α} {L : Log α} (o : Op α) (r : Rep s t) (hl : t.legal o) (hn : NoCancel o)
    (h : L.nd + t.pending.length = L.ns) :
    (L.add (o, (t.step o).2)).nd + (t.step o).1.pending.length = (L.add (o, (t.step o).2)).ns := by
  cases o with
  | prepare x =>
    have e : (t.step (.prepare x)) = if t.ids.length + 1 < t.cap then
      ({ t with n := t.n + 1, item := upd t.item t.n ⟨some x, 1, false, true⟩ }, .handle t.n) else (t, .threw) := rfl
    rw [e]
    split <;> exact h
  | copy k => exact h
  | drop k =>
    obtain ⟨_, e2, _, _, _⟩ := settle_same (t.set k { t.item k with refs := (t.item k).refs - 1 }) k
    show L.nd + ((t.set k _).settle k).pending.length = _
    rw [e2]; exact h
  | move k => exact hl.elim
  | selfAssign k => exact hl.elim
  | schedule k d =>
    have e : (t.step (.schedule k d)) = if t.waits k = true ∨ (t.item k).cancelled = true then (t, .threw)
      else if d = 0 ∧ t.past = true then (t, .threw) else ({ t with pending := t.pending ++ [(t.now + d, k)] }, .done) := rfl
    rw [e]
    split
    · exact h
    · split
      · exact h
      · show L.nd + (t.pending ++ [(t.now + d, k)]).length = L.ns + 1
        rw [List.length_append, List.length_singleton]; omega
  | cancelH k => exact hn.elim
  | cancelHAt k rel => exact hn.elim
  | cancelAll => exact hn.elim
  | cancelAt rel => exact hn.elim
  | cancelIf f => exact hn.elim
  | confirmIf f => exact h
  | count => exact h
  | isScheduled => exact h
  | isScheduledAt rel => exact h
  | arg =>
    unfold Spec.step
    dsimp only
    split
    · exact h
    · cases (t.item _).x <;> exact h
  | fire =>
    unfold Spec.step
    dsimp only
    split
    · exact h
    · split
      · exact h
      · rename_i e he
        have hm := List.mem_of_find?_eq_some he
        obtain ⟨x, hx⟩ := Option.isSome_iff_exists.1 (r.val e.2 (r.pend e hm).1)
        rw [hx]
        show L.nd + 1 + (t.pending.filter _).length = L.ns
        have := filter_ne_length r.pnd hm
        omega
  | ret =>
    unfold Spec.step
    dsimp only
    split
    · exact h
    · rename_i k hk
      obtain ⟨_, e2, _, _, _⟩ := settle_same ({ t with running := none } : Spec α) k
      show L.nd + (({ t with running := none } : Spec α).settle k).pending.length = _
      rw [e2]; exact h
  | pass =>
    have e : (t.step .pass) = if t.over then ({ t with past := true }, .done) else (t, .threw) := rfl
    rw [e]
    split <;> exact h
  | next =>
    have e : (t.step .next) = if t.over then ({ t with now := t.now + 1, past := false, fired := false }, .done) else (t, .threw) := rfl
    rw [e]
    split <;> exact h

/-- cancelling leaves the log and thins out what is to come -/
theorem cancel_flow {t : Spec α} {L : Log α} (sel : Nat → Bool) (g : α → Bool) (hs : ∀ k x, sel k = true → L.val k = some x → g x = false) (u : Nat) :
    (pv L (t.cancel sel) u).filter g = (pv L t u).filter g := by
  show (((t.pending.filter fun e => !sel e.2).filter (·.1 == u)).filterMap _).filter g = ((t.pending.filter (·.1 == u)).filterMap _).filter g
  induction t.pending with
  | nil => rfl
  | cons e p ih =>
    by_cases hse : sel e.2 = true
    · rw [List.filter_cons_of_neg (by simp [hse]), ih]
      by_cases hu : (e.1 == u) = true
      · rw [List.filter_cons_of_pos (by exact hu), List.filterMap_cons]
        cases hv : L.val e.2 with
        | none => rfl
        | some x => rw [List.filter_cons_of_neg (by rw [hs _ x hse hv]; simp)]
      · rw [List.filter_cons_of_neg (by exact hu)]
    · rw [List.filter_cons_of_pos (by simpa using hse)]
      by_cases hu : (e.1 == u) = true
      · rw [List.filter_cons_of_pos (by exact hu), List.filter_cons_of_pos (by exact hu), List.filterMap_cons, List.filterMap_cons]
        cases hv : L.val e.2 with
        | none => exact ih
        | some x =>
          dsimp only
          rw [List.filter_cons, List.filter_cons, ih]
      · rw [List.filter_cons_of_neg (by exact hu), List.filter_cons_of_neg (by exact hu)]; exact ih

theorem cancel_flow_sub (t : Spec α) (L : Log α) (sel : Nat → Bool) (u : Nat) : (pv L (t.cancel sel) u).Sublist (pv L t u) := by
  apply List.Sublist.filterMap
  apply List.Sublist.filter
  exact List.filter_sublist

end Sparta.PayloadEvent
