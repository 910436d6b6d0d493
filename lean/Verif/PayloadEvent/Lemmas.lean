import Verif.PayloadEvent.Spec
/-!
Refinement proof.
-/
namespace Sparta.PayloadEvent
variable {α : Type}

/-- `RepX ex`: model and specification agree; payload `ex` may be one that nothing keeps -/
structure RepX (ex : Option Nat) (s : PE α) (t : Spec α) : Prop where
  cap : s.cap = t.cap
  nh : s.nh = t.n
  now : s.now = t.now
  past : s.past = t.past
  good : ∀ k, (t.item k).live = true → s.px (s.hs k) = ⟨(t.item k).x, true, t.waits k, (t.item k).cancelled, (t.item k).refs⟩
  val : ∀ k, (t.item k).live = true → (t.item k).x.isSome = true
  inj : ∀ j k, (t.item j).live = true → (t.item k).live = true → s.hs j = s.hs k → j = k
  infl : s.inflight = t.ids.map s.hs
  idle : ∀ p, p ∉ s.inflight → s.px p = .fresh
  nd : (s.free ++ s.inflight).Nodup
  lt : ∀ p ∈ s.free ++ s.inflight, p < s.allocIdx
  cnt : s.free.length + s.inflight.length = min s.allocIdx (s.cap - 1)
  todo : ∀ u, t.now ≤ u → (s.todo u).filterMap id = (t.pending.filter (·.1 == u)).map fun e => s.hs e.2
  vis : t.fired = false → ∀ e ∈ s.visited, e = none
  run : s.firing = t.running.map s.hs
  liveLt : ∀ k, (t.item k).live = true → k < t.n
  keep : ∀ k, some k ≠ ex → (t.item k).live = true → (t.item k).refs = 0 → t.waits k = true ∨ t.running = some k
  dead : ∀ k, (t.item k).live = false → (t.item k).refs = 0 ∧ (t.item k).cancelled = false
  pend : ∀ e ∈ t.pending, (t.item e.2).live = true ∧ t.now ≤ e.1
  pnd : (t.pending.map (·.2)).Nodup
  runFired : t.running.isSome = true → t.fired = true
  runLt : ∀ k, t.running = some k → k < t.n

abbrev Rep (s : PE α) (t : Spec α) : Prop := RepX none s t

theorem mem_ids (t : Spec α) (k : Nat) : k ∈ t.ids ↔ k < t.n ∧ (t.item k).live = true := by
  unfold Spec.ids
  rw [List.mem_filter, List.mem_range]

theorem RepX.mem_inflight {ex : Option Nat} {s : PE α} {t : Spec α} (r : RepX ex s t) (p : Nat) :
    p ∈ s.inflight ↔ ∃ k, (t.item k).live = true ∧ s.hs k = p := by
  rw [r.infl, List.mem_map]
  constructor
  · rintro ⟨k, hk, e⟩
    exact ⟨k, ((mem_ids t k).1 hk).2, e⟩
  · rintro ⟨k, hk, e⟩
    exact ⟨k, (mem_ids t k).2 ⟨r.liveLt k hk, hk⟩, e⟩

theorem waits_iff (t : Spec α) (k : Nat) : t.waits k = true ↔ ∃ e ∈ t.pending, e.2 = k := by
  unfold Spec.waits
  rw [List.any_eq_true]
  constructor
  · rintro ⟨e, h1, h2⟩; exact ⟨e, h1, by simpa using h2⟩
  · rintro ⟨e, h1, h2⟩; exact ⟨e, h1, by simpa using h2⟩

theorem ids_nodup (t : Spec α) : t.ids.Nodup := by
  unfold Spec.ids
  exact List.Pairwise.filter _ List.nodup_range

theorem rep_init (cap : Nat) : Rep (PE.init α cap) (Spec.init α cap) := by
  refine ⟨rfl, rfl, rfl, rfl, ?_, ?_, ?_, rfl, ?_, List.nodup_nil, ?_, ?_, ?_, ?_, rfl, ?_, ?_, ?_, ?_, List.nodup_nil, ?_, ?_⟩
  · intro k h; exact absurd h (by simp [Spec.init])
  · intro k h; exact absurd h (by simp [Spec.init])
  · intro j k h; exact absurd h (by simp [Spec.init])
  · intro p _; rfl
  · intro p h; cases h
  · show 0 + 0 = min 0 _; omega
  · intro u _; rfl
  · intro _ e h; cases h
  · intro k h; exact absurd h (by simp [Spec.init])
  · intro k _ h; exact absurd h (by simp [Spec.init])
  · intro k _; exact ⟨rfl, rfl⟩
  · intro e h; cases h
  · intro h; cases h
  · intro k h; cases h

/-! ### giving a proxy back -/

theorem ids_set_dead {t : Spec α} {k : Nat} (i : Item α) (hi : i.live = false) :
    (t.set k i).ids = t.ids.filter (· != k) := by
  unfold Spec.ids Spec.set
  rw [List.filter_filter]
  apply List.filter_congr
  intro j _
  dsimp only
  by_cases e : j = k
  · subst e; simp [hi]
  · rw [upd_other _ _ e]; simp [e]

theorem map_filter_ne {f : Nat → Nat} {k : Nat} : ∀ (l : List Nat), (∀ j ∈ l, f j = f k → j = k) → l.Nodup →
    (l.filter (· != k)).map f = (l.map f).erase (f k)
  | [], _, _ => rfl
  | j :: l, h, hn => by
    have hn' := List.nodup_cons.1 hn
    by_cases e : j = k
    · subst e
      rw [List.map_cons, List.erase_cons_head, List.filter_cons_of_neg (by simp)]
      congr 1
      rw [List.filter_eq_self]
      intro i hi
      simp only [bne_iff_ne]
      intro e; subst e; exact hn'.1 hi
    · rw [List.filter_cons_of_pos (by simpa using e), List.map_cons, List.map_cons, List.erase_cons_tail]
      · rw [map_filter_ne l (fun i hi => h i (List.mem_cons_of_mem _ hi)) hn'.2]
      · simp only [beq_iff_eq]
        intro e'; exact e (h j List.mem_cons_self e')

theorem RepX.nd_infl {ex : Option Nat} {s : PE α} {t : Spec α} (r : RepX ex s t) : s.inflight.Nodup :=
  (List.nodup_append.1 r.nd).2.1

theorem settle_rep {s : PE α} {t : Spec α} {k : Nat} (r : RepX (some k) s t) (hl : (t.item k).live = true) :
    Rep (s.reclaim (s.hs k)) (t.settle k) := by
  have hg := r.good k hl
  unfold Spec.settle
  by_cases hc : (t.item k).refs = 0 ∧ t.waits k = false
  · rw [if_pos hc]
    have hm : s.hs k ∈ s.inflight := (r.mem_inflight _).2 ⟨k, hl, rfl⟩
    have e : s.reclaim (s.hs k) = { s with px := upd s.px (s.hs k) .fresh, free := s.hs k :: s.free, inflight := s.inflight.erase (s.hs k) } := by
      have hup : ∀ (f : Nat → Proxy α) (p : Nat) (a b : Proxy α), upd (upd f p a) p b = upd f p b := by
        intro f p a b; funext j; unfold upd; split <;> rfl
      simp [PE.reclaim, PE.reclaimProxy, PE.setPx, hg, hc.1, hc.2, hup, Proxy.fresh]
    rw [e]
    have hw : ∀ j, (t.set k { t.item k with live := false, cancelled := false }).waits j = t.waits j := fun _ => rfl
    have hlive : ∀ j, ((t.set k { t.item k with live := false, cancelled := false }).item j).live = true →
        j ≠ k ∧ (t.item j).live = true ∧ (t.set k { t.item k with live := false, cancelled := false }).item j = t.item j := by
      intro j h
      have hj : j ≠ k := by
        intro e; subst e; simp [Spec.set] at h
      have : (t.set k { t.item k with live := false, cancelled := false }).item j = t.item j := upd_other _ _ hj
      rw [this] at h
      exact ⟨hj, h, this⟩
    have hnw : ∀ e ∈ t.pending, e.2 ≠ k := by
      intro e he h2
      have := (waits_iff t k).2 ⟨e, he, h2⟩
      rw [hc.2] at this; cases this
    refine ⟨r.cap, r.nh, r.now, r.past, ?_, ?_, ?_, ?_, ?_, ?_, ?_, ?_, r.todo, r.vis, r.run, ?_, ?_, ?_, ?_, r.pnd, r.runFired, r.runLt⟩
    · intro j h
      obtain ⟨h1, h2, h3⟩ := hlive j h
      rw [h3, hw]
      have hne : s.hs j ≠ s.hs k := fun e => h1 (r.inj j k h2 hl e)
      show upd s.px _ _ (s.hs j) = _
      rw [upd_other _ _ hne]
      exact r.good j h2
    · intro j h
      obtain ⟨h1, h2, h3⟩ := hlive j h
      rw [h3]; exact r.val j h2
    · intro i j hi hj h
      exact r.inj i j (hlive i hi).2.1 (hlive j hj).2.1 h
    · show s.inflight.erase (s.hs k) = _
      rw [ids_set_dead _ rfl, r.infl, map_filter_ne _ _ (ids_nodup t)]
      intro j hj h
      exact r.inj j k ((mem_ids t j).1 hj).2 hl h
    · intro p hp
      show upd s.px _ _ p = _
      by_cases e : p = s.hs k
      · subst e
        rw [upd_same]
      · rw [upd_other _ _ e]
        apply r.idle
        intro h
        exact hp ((List.mem_erase_of_ne e).2 h)
    · show (s.hs k :: s.free ++ s.inflight.erase (s.hs k)).Nodup
      have h1 := List.nodup_append.1 r.nd
      rw [List.cons_append, List.nodup_cons]
      constructor
      · rw [List.mem_append]
        rintro (h | h)
        · exact h1.2.2 _ h _ hm rfl
        · exact r.nd_infl.not_mem_erase h
      · rw [List.nodup_append]
        exact ⟨h1.1, h1.2.1.erase _, fun a ha b hb => h1.2.2 a ha b (List.mem_of_mem_erase hb)⟩
    · intro p hp
      have hp' : p ∈ s.hs k :: s.free ++ s.inflight.erase (s.hs k) := hp
      rw [List.cons_append, List.mem_cons, List.mem_append] at hp'
      rcases hp' with h | h | h
      · subst h; exact r.lt _ (List.mem_append.2 (.inr hm))
      · exact r.lt _ (List.mem_append.2 (.inl h))
      · exact r.lt _ (List.mem_append.2 (.inr (List.mem_of_mem_erase h)))
    · show (s.hs k :: s.free).length + (s.inflight.erase (s.hs k)).length = min s.allocIdx (s.cap - 1)
      have h1 := r.cnt
      have h2 := List.length_erase_of_mem hm
      have h3 := List.length_pos_of_mem hm
      rw [List.length_cons]
      omega
    · intro j h
      exact r.liveLt j (hlive j h).2.1
    · intro j _ h h0
      obtain ⟨h1, h2, h3⟩ := hlive j h
      rw [h3] at h0
      exact r.keep j (fun e => h1 (Option.some.inj e)) h2 h0
    · intro j h
      by_cases e : j = k
      · subst e; simp [Spec.set, hc.1]
      · have : (t.set k { t.item k with live := false, cancelled := false }).item j = t.item j := upd_other _ _ e
        rw [this] at h ⊢; exact r.dead j h
    · intro e he
      have he' : e ∈ t.pending := he
      have : (t.set k { t.item k with live := false, cancelled := false }).item e.2 = t.item e.2 := upd_other _ _ (hnw e he')
      rw [this]; exact r.pend e he'
  · have e : s.reclaim (s.hs k) = s := by
      unfold PE.reclaim
      rw [hg, if_neg (by rintro ⟨h1, h2⟩; exact hc ⟨h2, h1⟩)]
    rw [e, if_neg hc]
    refine ⟨r.cap, r.nh, r.now, r.past, r.good, r.val, r.inj, r.infl, r.idle, r.nd, r.lt, r.cnt, r.todo, r.vis, r.run, r.liveLt, ?_, r.dead, r.pend, r.pnd, r.runFired, r.runLt⟩
    intro j _ h h0
    by_cases e : j = k
    · subst e
      cases hw : t.waits j with
      | true => exact .inl rfl
      | false => exact absurd ⟨h0, hw⟩ hc
    · exact r.keep j (fun h => e (Option.some.inj h)) h h0

/-! ### cancelling -/

theorem eventCancelled_lists (s : PE α) (p : Nat) (v : List (Option Nat)) (td : Nat → List (Option Nat)) :
    { s with visited := v, todo := td }.eventCancelled p = { s.eventCancelled p with visited := v, todo := td } := by
  unfold PE.eventCancelled PE.reclaim PE.reclaimProxy PE.setPx
  dsimp only
  split
  · split <;> rfl
  · rfl

theorem cancel_core {s : PE α} {t : Spec α} {k : Nat} (r : Rep s t) (hl : (t.item k).live = true)
    (v : List (Option Nat)) (td : Nat → List (Option Nat)) (hv : t.fired = false → ∀ e ∈ v, e = none)
    (htd : ∀ u, t.now ≤ u → (td u).filterMap id = ((t.pending.filter fun e => !(e.2 == k)).filter (·.1 == u)).map fun e => s.hs e.2) :
    Rep ({ s with visited := v, todo := td }.eventCancelled (s.hs k)) (t.cancel (· == k)) := by
  let t1 : Spec α := { t with pending := t.pending.filter (fun e => !(e.2 == k)), item := upd t.item k { t.item k with cancelled := true } }
  have hw : t1.waits k = false := by
    cases h : t1.waits k with
    | false => rfl
    | true =>
      obtain ⟨e, h1, h2⟩ := (waits_iff t1 k).1 h
      have h1' : e ∈ t.pending.filter (fun e => !(e.2 == k)) := h1
      simp [h2] at h1'
  have hwo : ∀ j, j ≠ k → t1.waits j = t.waits j := by
    intro j hj
    rw [Bool.eq_iff_iff, waits_iff, waits_iff]
    constructor
    · rintro ⟨e, h1, h2⟩
      exact ⟨e, (List.mem_filter.1 h1).1, h2⟩
    · rintro ⟨e, h1, h2⟩
      exact ⟨e, List.mem_filter.2 ⟨h1, by rw [h2]; simp [hj]⟩, h2⟩
  have hitem : ∀ j, j ≠ k → t1.item j = t.item j := fun j hj => upd_other _ _ hj
  have hk : t1.item k = { t.item k with cancelled := true } := upd_same _ _ _
  have hlive : ∀ j, (t1.item j).live = (t.item j).live := by
    intro j
    by_cases e : j = k
    · subst e; rw [hk]
    · rw [hitem j e]
  have hrefs : ∀ j, (t1.item j).refs = (t.item j).refs := by
    intro j
    by_cases e : j = k
    · subst e; rw [hk]
    · rw [hitem j e]
  have hids : t1.ids = t.ids := by
    unfold Spec.ids
    apply List.filter_congr
    intro j _; exact hlive j
  let s1 : PE α := { s with visited := v, todo := td }.setPx (s.hs k) { s.px (s.hs k) with scheduled := false, cancelled := true }
  have hg := r.good k hl
  have r1 : RepX (some k) s1 t1 := by
    refine ⟨r.cap, r.nh, r.now, r.past, ?_, ?_, ?_, ?_, ?_, r.nd, r.lt, r.cnt, htd, hv, r.run, ?_, ?_, ?_, ?_, ?_, r.runFired, r.runLt⟩
    · intro j h
      rw [hlive] at h
      show upd _ _ _ _ = _
      by_cases e : j = k
      · subst e
        show upd s.px (s.hs j) _ (s.hs j) = _
        rw [upd_same, hk, hw, hg]
      · have hne : s.hs j ≠ s.hs k := fun e' => e (r.inj j k h hl e')
        show upd s.px (s.hs k) _ (s.hs j) = _
        rw [upd_other _ _ hne, hitem j e, hwo j e]
        exact r.good j h
    · intro j h
      rw [hlive] at h
      have := r.val j h
      by_cases e : j = k
      · subst e; rw [hk]; exact this
      · rw [hitem j e]; exact this
    · intro i j hi hj
      rw [hlive] at hi hj
      exact r.inj i j hi hj
    · show s.inflight = _
      rw [hids]; exact r.infl
    · intro p hp
      have hp' : p ∉ s.inflight := hp
      have hne : p ≠ s.hs k := by
        intro e; exact hp' ((r.mem_inflight p).2 ⟨k, hl, e.symm⟩)
      show upd s.px (s.hs k) _ p = _
      rw [upd_other _ _ hne]
      exact r.idle p hp'
    · intro j h
      rw [hlive] at h
      exact r.liveLt j h
    · intro j he h h0
      have hj : j ≠ k := fun e => he (by rw [e])
      rw [hlive] at h; rw [hrefs] at h0
      rw [hwo j hj]
      exact r.keep j (by simp) h h0
    · intro j h
      rw [hlive] at h
      have hj : j ≠ k := by intro e; subst e; rw [hl] at h; cases h
      rw [hitem j hj]; exact r.dead j h
    · intro e he
      rw [hlive]
      exact r.pend e (List.mem_filter.1 he).1
    · show ((t.pending.filter (fun e => !(e.2 == k))).map (·.2)).Nodup
      exact List.Pairwise.sublist (List.Sublist.map _ List.filter_sublist) r.pnd
  have r2 := settle_rep r1 (by rw [hlive]; exact hl)
  have e1 : t.cancel (· == k) = t1.settle k := by
    unfold Spec.cancel Spec.settle
    rw [hw, hk]
    dsimp only
    by_cases h0 : (t.item k).refs = 0
    · rw [if_pos ⟨h0, rfl⟩]
      unfold Spec.set
      dsimp only [t1]
      congr 1
      funext j
      by_cases e : j = k
      · subst e
        rw [if_pos (by simp [hl]), if_pos h0, upd_same]
      · rw [if_neg (by simp [e]), upd_other _ _ e, upd_other _ _ e]
    · rw [if_neg (fun h => h0 h.1)]
      dsimp only [t1]
      congr 1
      funext j
      by_cases e : j = k
      · subst e
        rw [if_pos (by simp [hl]), if_neg h0, upd_same]
      · rw [if_neg (by simp [e]), upd_other _ _ e]
  rw [e1]
  exact r2

theorem filterMap_drop (p : Nat) : ∀ l : List (Option Nat), (drop p l).filterMap id = (l.filterMap id).filter (· != p)
  | [] => rfl
  | none :: l => by
    show (drop p l).filterMap id = (l.filterMap id).filter _
    exact filterMap_drop p l
  | some q :: l => by
    have ih := filterMap_drop p l
    by_cases e : q = p
    · subst e
      have : drop q (some q :: l) = none :: drop q l := by unfold drop; simp
      rw [this]
      show (drop q l).filterMap id = (q :: l.filterMap id).filter _
      rw [List.filter_cons_of_neg (by simp), ih]
    · have : drop p (some q :: l) = some q :: drop p l := by unfold drop; simp [e]
      rw [this]
      show q :: (drop p l).filterMap id = (q :: l.filterMap id).filter _
      rw [List.filter_cons_of_pos (by simpa using e), ih]

theorem drop_none {p : Nat} {l : List (Option Nat)} (h : ∀ e ∈ l, e = none) : ∀ e ∈ drop p l, e = none := by
  intro e he
  unfold drop at he
  obtain ⟨a, ha, rfl⟩ := List.mem_map.1 he
  rw [h a ha]; rfl

theorem filter_map_hs {ex : Option Nat} {s : PE α} {t : Spec α} {k : Nat} (r : RepX ex s t) (hl : (t.item k).live = true) (u : Nat) :
    ((t.pending.filter (·.1 == u)).map fun e => s.hs e.2).filter (· != s.hs k) =
      ((t.pending.filter fun e => !(e.2 == k)).filter (·.1 == u)).map fun e => s.hs e.2 := by
  rw [List.filter_map]
  congr 1
  rw [List.filter_filter, List.filter_filter]
  apply List.filter_congr
  intro e he
  have : (s.hs e.2 != s.hs k) = !(e.2 == k) := by
    rw [Bool.eq_iff_iff]
    simp only [bne_iff_ne, Bool.not_eq_true', beq_eq_false_iff_ne]
    constructor
    · intro h h'; exact h (by rw [h'])
    · intro h h'; exact h (r.inj _ _ (r.pend e he).1 hl h')
  simp only [Function.comp_apply, this]
  exact Bool.and_comm _ _

theorem cancel_rep {s : PE α} {t : Spec α} {k : Nat} (r : Rep s t) (hl : (t.item k).live = true) :
    Rep (s.cancel (s.hs k)) (t.cancel (· == k)) := by
  unfold PE.cancel
  apply cancel_core r hl
  · intro hf; exact drop_none (r.vis hf)
  · intro u hu
    rw [filterMap_drop, r.todo u hu, filter_map_hs r hl]

theorem cancel_hs (s : PE α) (p : Nat) : (s.cancel p).hs = s.hs := by
  unfold PE.cancel PE.eventCancelled PE.reclaim PE.reclaimProxy PE.setPx
  dsimp only
  split
  · split <;> rfl
  · rfl

theorem eventCancelled_hs (s : PE α) (p : Nat) : (s.eventCancelled p).hs = s.hs := by
  unfold PE.eventCancelled PE.reclaim PE.reclaimProxy PE.setPx
  dsimp only
  split
  · split <;> rfl
  · rfl

theorem cancel_cancel (t : Spec α) (a b : Nat → Bool) : (t.cancel a).cancel b = t.cancel fun k => a k || b k := by
  unfold Spec.cancel
  dsimp only
  congr 1
  · funext k
    by_cases ha : a k = true <;> by_cases hb : b k = true <;> by_cases hl : (t.item k).live = true <;>
      by_cases h0 : (t.item k).refs = 0 <;> simp [ha, hb, hl, h0]
  · rw [List.filter_filter]
    apply List.filter_congr
    intro e _
    cases a e.2 <;> cases b e.2 <;> rfl

theorem cancel_congr {ex : Option Nat} {s : PE α} {t : Spec α} (r : RepX ex s t) (a b : Nat → Bool)
    (h : ∀ k, (t.item k).live = true → a k = b k) : t.cancel a = t.cancel b := by
  unfold Spec.cancel
  congr 1
  · funext k
    cases hl : (t.item k).live with
    | false => simp
    | true => rw [h k hl]
  · apply List.filter_congr
    intro e he
    rw [h e.2 (r.pend e he).1]

theorem cancel_live (t : Spec α) (a : Nat → Bool) (k : Nat) (h : a k = false) : (t.cancel a).item k = t.item k := by
  unfold Spec.cancel
  simp [h]

theorem cancel_none {t : Spec α} (a : Nat → Bool) (h : ∀ k, a k = false) : t.cancel a = t := by
  unfold Spec.cancel
  have : t.pending.filter (fun e => !a e.2) = t.pending := by
    rw [List.filter_eq_self]; intro e _; rw [h]; rfl
  rw [this]
  have : (fun k => if (a k && (t.item k).live) = true then
      if (t.item k).refs = 0 then { t.item k with live := false, cancelled := false } else { t.item k with cancelled := true }
      else t.item k) = t.item := by
    funext k; rw [h]; simp
  rw [this]

theorem cancelAll_rep : ∀ (L : List Nat) {s : PE α} {t : Spec α}, Rep s t → L.Nodup → (∀ k ∈ L, (t.item k).live = true) →
    Rep (s.cancelAll (L.map s.hs)) (t.cancel fun k => L.contains k)
  | [], s, t, r, _, _ => by
    rw [cancel_none (t := t) (fun k => ([] : List Nat).contains k) (fun k => rfl)]; exact r
  | k :: L, s, t, r, hn, hl => by
    have hn' := List.nodup_cons.1 hn
    have r1 := cancel_rep r (hl k List.mem_cons_self)
    have h := cancelAll_rep L r1 hn'.2 (fun j hj => by
      rw [cancel_live]
      · exact hl j (List.mem_cons_of_mem _ hj)
      · simp only [beq_eq_false_iff_ne]; intro e; subst e; exact hn'.1 hj)
    rw [cancel_hs, cancel_cancel] at h
    have e : (fun j => (j == k) || L.contains j) = fun j => (k :: L).contains j := by
      funext j; rw [List.contains_cons]
    rw [e] at h
    exact h

theorem sat_eq {s : PE α} {t : Spec α} (r : Rep s t) (f : α → Bool) {k : Nat} (hl : (t.item k).live = true) :
    s.sat f (s.hs k) = t.holds f k := by
  unfold PE.sat Spec.holds
  rw [r.good k hl]
  rfl

theorem holds_cancel (t : Spec α) (a : Nat → Bool) (f : α → Bool) : (t.cancel a).holds f = t.holds f := by
  funext k
  unfold Spec.holds
  have : ((t.cancel a).item k).x = (t.item k).x := by
    unfold Spec.cancel; dsimp only
    split
    · split <;> rfl
    · rfl
  rw [this]

theorem cancelIf_rep (f : α → Bool) : ∀ (L : List Nat) {s : PE α} {t : Spec α}, Rep s t → L.Nodup → (∀ k ∈ L, (t.item k).live = true) →
    Rep (s.cancelIf f (L.map s.hs)).1 (t.cancel fun k => L.contains k && t.holds f k) ∧
      (s.cancelIf f (L.map s.hs)).2 = L.countP (t.holds f)
  | [], s, t, r, _, _ => by
    rw [cancel_none (t := t) (fun k => ([] : List Nat).contains k && t.holds f k) (fun k => rfl)]; exact ⟨r, rfl⟩
  | k :: L, s, t, r, hn, hl => by
    have hn' := List.nodup_cons.1 hn
    have hlk := hl k List.mem_cons_self
    show Rep (s.cancelIf f (s.hs k :: L.map s.hs)).1 _ ∧ (s.cancelIf f (s.hs k :: L.map s.hs)).2 = _
    unfold PE.cancelIf
    rw [sat_eq r f hlk]
    cases hh : t.holds f k with
    | true =>
      rw [if_pos rfl]
      have r1 := cancel_rep r hlk
      have h := cancelIf_rep f L r1 hn'.2 (fun j hj => by
        rw [cancel_live]
        · exact hl j (List.mem_cons_of_mem _ hj)
        · simp only [beq_eq_false_iff_ne]; intro e; subst e; exact hn'.1 hj)
      rw [cancel_hs, cancel_cancel, holds_cancel] at h
      have e : (fun j => (j == k) || (L.contains j && t.holds f j)) = fun j => (k :: L).contains j && t.holds f j := by
        funext j
        rw [List.contains_cons]
        by_cases e : j = k
        · subst e; simp [hh]
        · have : (j == k) = false := by simpa using e
          rw [this, Bool.false_or]; try rfl
      rw [e] at h
      refine ⟨h.1, ?_⟩
      dsimp only
      rw [List.countP_cons_of_pos hh, h.2]
    | false =>
      rw [if_neg (by simp)]
      have h := cancelIf_rep f L r hn'.2 (fun j hj => hl j (List.mem_cons_of_mem _ hj))
      have e : (fun j => (L.contains j && t.holds f j)) = fun j => (k :: L).contains j && t.holds f j := by
        funext j
        rw [List.contains_cons]
        by_cases e : j = k
        · subst e; simp [hh]
        · have : (j == k) = false := by simpa using e
          rw [this, Bool.false_or]; try rfl
      rw [e] at h
      refine ⟨h.1, ?_⟩
      rw [List.countP_cons_of_neg (by rw [hh]; simp), h.2]

/-! ### cancelling at a cycle -/

theorem eventCancelled_idem (s : PE α) (p : Nat) : (s.eventCancelled p).eventCancelled p = s.eventCancelled p := by
  have hup : ∀ (f : Nat → Proxy α) (a b : Proxy α), upd (upd f p a) p b = upd f p b := by
    intro f a b; funext j; unfold upd; split <;> rfl
  by_cases h0 : (s.px p).refs = 0
  · by_cases hi : (s.px p).inflight = false
    · simp [PE.eventCancelled, PE.reclaim, PE.reclaimProxy, PE.setPx, h0, hi, hup]
    · simp [PE.eventCancelled, PE.reclaim, PE.reclaimProxy, PE.setPx, h0, hi, hup]
  · simp [PE.eventCancelled, PE.reclaim, PE.setPx, h0, hup]

theorem cancelFound_eq (p : Nat) : ∀ (l : List (Option Nat)) (s : PE α),
    s.cancelFound p l = if l.contains (some p) then s.eventCancelled p else s
  | [], s => rfl
  | e :: l, s => by
    unfold PE.cancelFound
    rw [cancelFound_eq p l, List.contains_cons]
    by_cases he : e = some p
    · rw [if_pos he, eventCancelled_idem, he]
      simp
    · have : (some p == e) = false := by simp; exact fun h => he h.symm
      rw [if_neg he, this, Bool.false_or]

theorem contains_filterMap (p : Nat) (l : List (Option Nat)) : l.contains (some p) = (l.filterMap id).contains p := by
  rw [Bool.eq_iff_iff, List.contains_iff_mem, List.contains_iff_mem, List.mem_filterMap]
  constructor
  · intro h; exact ⟨_, h, rfl⟩
  · rintro ⟨a, h1, h2⟩
    have : a = some p := h2
    rw [← this]; exact h1

theorem entries_contains {s : PE α} {t : Spec α} {k rel : Nat} (r : Rep s t) (hl : (t.item k).live = true)
    (hr : rel ≠ 0 ∨ t.fired = false) :
    (s.entries (s.now + rel)).contains (some (s.hs k)) = t.pending.contains (t.now + rel, k) := by
  have h1 : (s.entries (s.now + rel)).contains (some (s.hs k)) = (s.todo (s.now + rel)).contains (some (s.hs k)) := by
    unfold PE.entries
    by_cases h0 : rel = 0
    · subst h0
      rw [Nat.add_zero, if_pos rfl]
      have hf := hr.resolve_left (by simp)
      rw [Bool.eq_iff_iff, List.contains_iff_mem, List.contains_iff_mem, List.mem_append]
      constructor
      · rintro (h | h)
        · have := r.vis hf _ h; cases this
        · exact h
      · exact .inr
    · rw [if_neg (by omega)]
  rw [h1, contains_filterMap, r.now, r.todo _ (by omega), Bool.eq_iff_iff, List.contains_iff_mem, List.contains_iff_mem, List.mem_map]
  constructor
  · rintro ⟨e, he, h⟩
    obtain ⟨h2, h3⟩ := List.mem_filter.1 he
    have := r.inj _ _ (r.pend e h2).1 hl h
    have h4 : e.1 = t.now + rel := by simpa using h3
    have : e = (t.now + rel, k) := Prod.ext h4 this
    rw [← this]; exact h2
  · intro h
    exact ⟨_, List.mem_filter.2 ⟨h, by simp⟩, rfl⟩

theorem drop_eq_self {p : Nat} {l : List (Option Nat)} (h : l.contains (some p) = false) : drop p l = l := by
  unfold drop
  conv => rhs; rw [← List.map_id l]
  apply List.map_congr_left
  intro e he
  rw [if_neg]
  · rfl
  · intro e'; subst e'
    have := List.contains_iff_mem.2 he
    rw [h] at this; cases this

theorem pnd_unique {l : List (Nat × Nat)} (h : (l.map (·.2)).Nodup) {a b k : Nat} (ha : (a, k) ∈ l) (hb : (b, k) ∈ l) : a = b := by
  induction l with
  | nil => cases ha
  | cons x l ih =>
    rw [List.map_cons, List.nodup_cons] at h
    rcases List.mem_cons.1 ha with h1 | h1 <;> rcases List.mem_cons.1 hb with h2 | h2
    · rw [← h1] at h2; exact (Prod.mk.inj h2).1.symm
    · exact absurd (List.mem_map.2 ⟨_, h2, by rw [← h1]⟩) h.1
    · exact absurd (List.mem_map.2 ⟨_, h1, by rw [← h2]⟩) h.1
    · exact ih h.2 h1 h2

theorem cancelAt_rep {s : PE α} {t : Spec α} {k rel : Nat} (r : Rep s t) (hl : (t.item k).live = true)
    (hr : rel ≠ 0 ∨ t.fired = false) :
    Rep (s.cancelAt (s.hs k) rel) (t.cancel fun i => i == k && t.pending.contains (t.now + rel, k)) := by
  have hc := entries_contains r hl hr
  unfold PE.cancelAt
  dsimp only
  rw [cancelFound_eq, hc]
  cases hp : t.pending.contains (t.now + rel, k) with
  | true =>
    rw [if_pos rfl]
    have hlists : (s.eventCancelled (s.hs k)).visited = s.visited ∧ (s.eventCancelled (s.hs k)).todo = s.todo := by
      unfold PE.eventCancelled PE.reclaim PE.reclaimProxy PE.setPx
      dsimp only
      split
      · split <;> exact ⟨rfl, rfl⟩
      · exact ⟨rfl, rfl⟩
    rw [hlists.1, hlists.2, ← eventCancelled_lists]
    have e : (fun i => i == k && true) = fun i => i == k := by funext i; simp
    rw [e]
    have hmem := List.contains_iff_mem.1 hp
    apply cancel_core r hl
    · intro hf
      split
      · exact drop_none (r.vis hf)
      · exact r.vis hf
    · intro u hu
      by_cases hu' : u = s.now + rel
      · subst hu'
        rw [upd_same, filterMap_drop, r.todo _ hu, filter_map_hs r hl]
      · rw [upd_other _ _ hu', r.todo _ hu]
        congr 1
        rw [List.filter_filter]
        apply List.filter_congr
        intro e he
        cases h1 : (e.1 == u) with
        | false => rfl
        | true =>
          rw [Bool.true_and]
          symm
          rw [Bool.not_eq_true', beq_eq_false_iff_ne]
          intro h2
          have h3 : e.1 = u := by simpa using h1
          have h4 : (e.1, k) ∈ t.pending := by rw [← h2]; exact he
          have := pnd_unique r.pnd h4 hmem
          rw [r.now] at hu'
          omega
  | false =>
    rw [if_neg (by simp), cancel_none _ (fun i => by simp)]
    rw [hp] at hc
    have h1 : (if rel = 0 then drop (s.hs k) s.visited else s.visited) = s.visited := by
      split
      · rename_i h0
        apply drop_eq_self
        cases hx : s.visited.contains (some (s.hs k)) with
        | false => rfl
        | true =>
          have := r.vis (hr.resolve_left (by simp [h0])) _ (List.contains_iff_mem.1 hx)
          cases this
      · rfl
    have h2 : drop (s.hs k) (s.todo (s.now + rel)) = s.todo (s.now + rel) := by
      apply drop_eq_self
      cases hx : (s.todo (s.now + rel)).contains (some (s.hs k)) with
      | false => rfl
      | true =>
        exfalso
        have hm := List.contains_iff_mem.1 hx
        have : some (s.hs k) ∈ s.entries (s.now + rel) := by
          unfold PE.entries
          split
          · exact List.mem_append.2 (.inr hm)
          · exact hm
        rw [List.contains_iff_mem.2 this] at hc
        cases hc
    have h3 : upd s.todo (s.now + rel) (drop (s.hs k) (s.todo (s.now + rel))) = s.todo := by
      funext u
      unfold upd
      split
      · rename_i e; rw [h2, e]
      · rfl
    rw [h1, h3]
    exact r

theorem cancelAt_hs (s : PE α) (p rel : Nat) : (s.cancelAt p rel).hs = s.hs := by
  unfold PE.cancelAt
  dsimp only
  rw [cancelFound_eq]
  split
  · exact eventCancelled_hs s p
  · rfl

theorem cancelAllAt_rep (rel : Nat) : ∀ (L : List Nat) {s : PE α} {t : Spec α}, Rep s t → L.Nodup →
    (∀ k ∈ L, (t.item k).live = true) → (rel ≠ 0 ∨ t.fired = false) →
    Rep (s.cancelAllAt rel (L.map s.hs)) (t.cancel fun i => L.contains i && t.pending.contains (t.now + rel, i))
  | [], s, t, r, _, _, _ => by
    rw [cancel_none (t := t) (fun i => ([] : List Nat).contains i && t.pending.contains (t.now + rel, i)) (fun k => rfl)]; exact r
  | k :: L, s, t, r, hn, hl, hr => by
    have hn' := List.nodup_cons.1 hn
    have r1 := cancelAt_rep r (hl k List.mem_cons_self) hr
    have h := cancelAllAt_rep rel L r1 hn'.2 (fun j hj => by
      rw [cancel_live]
      · exact hl j (List.mem_cons_of_mem _ hj)
      · have : (j == k) = false := by
          simp only [beq_eq_false_iff_ne]; intro e; subst e; exact hn'.1 hj
        rw [this]; rfl) hr
    rw [cancelAt_hs, cancel_cancel] at h
    have e : (fun j => (j == k && t.pending.contains (t.now + rel, k)) ||
        (L.contains j && (t.cancel fun i => i == k && t.pending.contains (t.now + rel, k)).pending.contains (t.now + rel, j))) =
        fun j => (k :: L).contains j && t.pending.contains (t.now + rel, j) := by
      funext j
      rw [List.contains_cons]
      by_cases e : j = k
      · subst e
        have : L.contains j = false := by
          cases hx : L.contains j with
          | false => rfl
          | true => exact absurd (List.contains_iff_mem.1 hx) hn'.1
        rw [this, Bool.false_and, Bool.or_false, Bool.or_false]
      · have h1 : (j == k) = false := by simpa using e
        rw [h1, Bool.false_and, Bool.false_or, Bool.false_or]
        congr 1
        rw [Bool.eq_iff_iff, List.contains_iff_mem, List.contains_iff_mem]
        constructor
        · intro h; exact (List.mem_filter.1 h).1
        · intro h; exact List.mem_filter.2 ⟨h, by simp [e]⟩
    have h' : Rep (s.cancelAllAt rel ((k :: L).map s.hs)) _ := h
    rw [← e]
    exact h'

end Sparta.PayloadEvent
