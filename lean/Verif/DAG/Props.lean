import Verif.DAG.Kahn
/-! Properties C08, C09, C10, C56, C57, C58: the precedence graph. -/
namespace Sparta.DAG
open Relation

/-- the graph after a history of links, unlinks and phase assignments (no early cycle detection) -/
def graph (os : List Op) : G := (runOps G.step (G.init false) os).1

/-- the vertices that take part in some call -/
def Known (os : List Op) (v : Nat) : Prop := v ∈ (graph os).verts

/-- C08: if sorting succeeds, whatever has to come before something else (directly or through others) gets a
strictly smaller group number; numbers start at 1 and do not exceed the reported number of groups. -/
theorem C08_groups_respect_precedence (os : List Op) (g' : G) (h : (graph os).sort = .ok g') :
    (∀ v w, Before (declared os) v w → g'.gid v < g'.gid w) ∧
    (∀ v, Known os v → 1 ≤ g'.gid v ∧ g'.gid v ≤ g'.numGroups) := by
  rcases (Rep.run os).1.sort with ⟨-, g1, h1, -, hv, hr, -, hn, -⟩ | ⟨-, l, h1, -⟩
  · have e : g1 = g' := by
      have := h1.symm.trans h; injection this
    subst e
    refine ⟨?_, fun v hv => ⟨hr.pos v hv, hn v hv⟩⟩
    intro v w p
    induction p with
    | single e => exact hr.lower _ _ e
    | tail _ e ih => have := hr.lower _ _ e; omega
  · have := h1.symm.trans h
    injection this

/-- three events in a row, then the graph is sorted -/
example : ∃ g', (graph [.link 10 11, .link 11 12, .link 10 12]).sort = .ok g'
    ∧ g'.gid 10 = 1 ∧ g'.gid 11 = 2 ∧ g'.gid 12 = 3 := ⟨_, rfl, by decide⟩

/-- C09: sorting succeeds exactly when the precedences have no cycle and reports a cycle exactly when they
have one; there is no other outcome (no assertion fails). -/
theorem C09_sort_fails_iff_cyclic (os : List Op) :
    ((∃ g', (graph os).sort = .ok g') ↔ ¬ Cyclic (declared os)) ∧
    ((∃ l, (graph os).sort = .cycle l) ↔ Cyclic (declared os)) := by
  rcases (Rep.run os).1.sort with ⟨hc, g1, h1, -⟩ | ⟨hc, l, h1, -⟩
  · have h1' : (graph os).sort = .ok g1 := h1
    refine ⟨⟨fun _ => hc, fun _ => ⟨g1, h1⟩⟩, ⟨?_, fun h => absurd h hc⟩⟩
    rintro ⟨l, h⟩; rw [h1'] at h; cases h
  · have h1' : (graph os).sort = .cycle l := h1
    refine ⟨⟨?_, fun h => absurd hc h⟩, ⟨fun _ => hc, fun _ => ⟨l, h1⟩⟩⟩
    rintro ⟨g', h⟩; rw [h1'] at h; cases h

/-- C10: detectCycle always returns, and returns true exactly when there is a cycle. -/
theorem C10_detect_cycle (os : List Op) :
    ∃ b, (graph os).detectCycle = some b ∧ (b = true ↔ Cyclic (declared os)) := (Rep.run os).1.detect

example : (graph [.link 10 11, .link 11 12, .link 12 10]).detectCycle = some true := by decide
example : (graph [.link 10 11, .link 11 12, .link 12 10, .unlink 11 12]).detectCycle = some false := by decide

theorem Steps.append_single {R : Nat → Nat → Prop} {l : List Nat} {v w : Nat} (h : Steps R (l ++ [v])) (e : R v w) :
    Steps R (l ++ [v] ++ [w]) := by
  induction l with
  | nil => exact ⟨e, trivial⟩
  | cons a l ih =>
    cases l with
    | nil => exact ⟨h.1, e, trivial⟩
    | cons b l => exact ⟨h.1, ih h.2⟩

theorem Ranked.chain {V : List Nat} {E : List (Nat × Nat)} {gid : Nat → Nat} (h : Ranked V E gid)
    (hV : ∀ v w, (v, w) ∈ E → v ∈ V ∧ w ∈ V) :
    ∀ n w, w ∈ V → gid w = n → ∃ l, Steps (fun v w => (v, w) ∈ E) (l ++ [w]) ∧ l.length + 1 = gid w := by
  intro n
  induction n with
  | zero => intro w hw h0; have := h.pos w hw; omega
  | succ n ih =>
    intro w hw hn
    rcases h.tight w hw with h1 | ⟨v, hv, h1⟩
    · exact ⟨[], trivial, by simp [h1]⟩
    · obtain ⟨l, h2, h3⟩ := ih v (hV v w hv).1 (by omega)
      exact ⟨l ++ [v], Steps.append_single h2 hv, by simp; omega⟩

theorem Ranked.bound {V : List Nat} {E : List (Nat × Nat)} {gid : Nat → Nat} (h : Ranked V E gid)
    (hV : ∀ v w, (v, w) ∈ E → v ∈ V ∧ w ∈ V) :
    ∀ (l : List Nat) (w : Nat), w ∈ V → Steps (fun v w => (v, w) ∈ E) (l ++ [w]) → l.length + 1 ≤ gid w := by
  intro l w hw hs
  have key : ∀ (l : List Nat) (a w : Nat), a ∈ V → Steps (fun v w => (v, w) ∈ E) (a :: (l ++ [w])) →
      gid a + l.length + 1 ≤ gid w := by
    intro l
    induction l with
    | nil => intro a w _ hs; exact h.lower _ _ hs.1
    | cons b l ih =>
      intro a w _ hs
      have h1 := h.lower _ _ hs.1
      have := ih b w (hV _ _ hs.1).2 hs.2
      simp; omega
  cases l with
  | nil => simpa using h.pos w hw
  | cons a l =>
    have ha : a ∈ V := by
      cases l with
      | nil => exact (hV _ _ hs.1).1
      | cons b l => exact (hV _ _ hs.1).1
    have := key l a w ha hs
    have := h.pos a ha
    simp; omega

/-- C58: the group number of an event is the length of the longest chain of precedences ending in it. Hence it
does not depend on the order in which precedences were declared. -/
theorem C58_group_is_longest_chain (os : List Op) (g' : G) (h : (graph os).sort = .ok g') (w : Nat) (hw : Known os w) :
    (∃ l, Steps (fun v w => (v, w) ∈ declared os) (l ++ [w]) ∧ l.length + 1 = g'.gid w) ∧
    (∀ l, Steps (fun v w => (v, w) ∈ declared os) (l ++ [w]) → l.length + 1 ≤ g'.gid w) := by
  have r := (Rep.run os).1
  rcases r.sort with ⟨-, g1, h1, -, hv, hr, -⟩ | ⟨-, l, h1, -⟩
  · have e : g1 = g' := by
      have := h1.symm.trans h; injection this
    subst e
    exact ⟨hr.chain r.ends _ w hw rfl, fun l hl => hr.bound r.ends l w hw hl⟩
  · have := h1.symm.trans h
    injection this

/-- C58, order independence: two histories that declare the same precedences give the same numbers. -/
theorem C58_order_independent (os os' : List Op) (he : ∀ e, e ∈ declared os ↔ e ∈ declared os') (g g' : G)
    (h : (graph os).sort = .ok g) (h' : (graph os').sort = .ok g') (w : Nat) (hw : Known os w) (hw' : Known os' w) :
    g.gid w = g'.gid w := by
  obtain ⟨⟨l, hl, h1⟩, h2⟩ := C58_group_is_longest_chain os g h w hw
  obtain ⟨⟨l', hl', h3⟩, h4⟩ := C58_group_is_longest_chain os' g' h' w hw'
  have e : (fun v w => (v, w) ∈ declared os) = (fun v w => (v, w) ∈ declared os') := by
    funext v w; exact propext (he (v, w))
  rw [e] at hl h2
  have := h4 l hl
  have := h2 l' hl'
  omega

example : ∀ e, e ∈ declared [.link 10 11, .link 11 12] ↔ e ∈ declared [.link 11 12, .link 10 11, .link 10 11] := by
  intro e
  have h1 : declared [.link 10 11, .link 11 12] = phaseChain ++ [(10, 11), (11, 12)] := by decide
  have h2 : declared [.link 11 12, .link 10 11, .link 10 11] = phaseChain ++ [(11, 12), (10, 11)] := by decide
  rw [h1, h2]
  simp only [List.mem_append, List.mem_cons, List.not_mem_nil, or_false]
  exact ⟨fun h => h.imp_right Or.symm, fun h => h.imp_right Or.symm⟩

/-- C57: when sorting fails, the reported list is a real cycle: consecutive members are declared precedences,
the last member precedes one of the members, and writing the report neither asserts nor crashes. -/
theorem C57_reported_cycle_is_real (os : List Op) (l : List Nat) (h : (graph os).sort = .cycle l) :
    ∃ ne : l ≠ [], Steps (fun v w => (v, w) ∈ declared os) l ∧ (∃ w ∈ l, (l.getLast ne, w) ∈ declared os) ∧
      ∃ edges, (graph os).cycleText l = some edges ∧ ∀ e ∈ edges, e ∈ declared os := by
  have r := (Rep.run os).1
  rcases r.sort with ⟨-, g1, h1, -⟩ | ⟨-, l', h1, hl⟩
  · have := h1.symm.trans h
    injection this
  · have e : l' = l := by
      have := h1.symm.trans h; injection this
    subst e
    obtain ⟨ne, ch, w, hw, hb⟩ := hl
    refine ⟨ne, ch, ⟨w, hw, hb⟩, ?_⟩
    have hmem : ∀ v w, w ∈ (graph os).out v ↔ (v, w) ∈ declared os := r.mem_out
    have hsteps : ∀ e ∈ l'.zip l'.tail, e ∈ declared os := by
      intro e he
      obtain ⟨i, hi, rfl⟩ := List.mem_iff_getElem.1 he
      simp only [List.length_zip, List.length_tail] at hi
      rw [List.getElem_zip]
      simp only [List.getElem_tail]
      exact ch.get i (by omega)
    unfold G.cycleText
    simp only
    rw [if_pos (by
      rw [List.all_eq_true]
      intro e he
      simp only [decide_eq_true_eq]
      rw [hmem]; exact hsteps e he)]
    rw [List.getLast?_eq_some_getLast ne]
    simp only [Option.bind_some]
    cases hf : l'.find? (fun w => decide (w ∈ (graph os).out (l'.getLast ne))) with
    | none =>
      have := List.find?_eq_none.1 hf w hw
      simp only [decide_eq_true_eq] at this
      exact absurd ((hmem _ _).2 hb) this
    | some x =>
      refine ⟨_, rfl, ?_⟩
      intro e he
      rcases List.mem_append.1 he with he | he
      · exact hsteps e he
      · simp only [List.mem_singleton] at he
        subst he
        have := List.find?_some hf
        simp only [decide_eq_true_eq] at this
        exact (hmem _ _).1 this

example : (graph [.link 10 11, .link 11 12, .link 12 11]).sort = .cycle [11, 12, 11] := rfl

theorem Before.mono {E E' : List (Nat × Nat)} (h : ∀ e ∈ E, e ∈ E') {a b : Nat} (p : Before E a b) :
    Before E' a b := by
  induction p with
  | single e => exact .single (h _ e)
  | tail _ e ih => exact .tail ih (h _ e)

theorem link_early {g : G} {E : List (Nat × Nat)} (r : Rep g E) (he : g.early = true) (v w : Nat)
    (hok : ¬ Cyclic E) :
    ((g.link v w).2 = .ok ↔ ¬ Cyclic (addEdge E v w)) ∧
    (Cyclic (addEdge E v w) → ∃ l, (g.link v w).2 = .cycle l ∧ RealCycle (addEdge E v w) l) := by
  obtain ⟨-, -, h⟩ := r.link v w
  have hsame : v = w ∨ (v, w) ∈ E → addEdge E v w = E := fun h => by unfold addEdge; rw [if_pos h]
  rcases h with ⟨h1, h2⟩ | ⟨l, h1, h2, -, h3, h4⟩
  · have hn : ¬ Cyclic (addEdge E v w) := by
      intro hc
      by_cases hh : v = w ∨ (v, w) ∈ E
      · rw [hsame hh] at hc; exact hok hc
      · exact h2 ⟨he, fun e => hh (Or.inl e), fun e => hh (Or.inr e), hc⟩
    exact ⟨⟨fun _ => hn, fun _ => h1⟩, fun h => absurd h hn⟩
  · refine ⟨⟨?_, ?_⟩, fun _ => ⟨l, h1, h2⟩⟩
    · intro h; rw [h1] at h; cases h
    · intro h; exact absurd h2.cyclic h

theorem early_step {g : G} {E : List (Nat × Nat)} (r : Rep g E) (he : g.early = true) (hok : ¬ Cyclic E) (o : Op)
    (ho : (g.step o).2 = .ok) :
    Rep (g.step o).1 (edgesStep E o) ∧ (g.step o).1.early = true ∧ ¬ Cyclic (edgesStep E o) := by
  have lk : ∀ {g : G} {E}, Rep g E → g.early = true → ¬ Cyclic E → ∀ v w, (g.link v w).2 = .ok →
      Rep (g.link v w).1 (addEdge E v w) ∧ (g.link v w).1.early = true ∧ ¬ Cyclic (addEdge E v w) := by
    intro g E r he hok v w h
    obtain ⟨h1, h2, -⟩ := r.link v w
    exact ⟨h1, h2.trans he, (link_early r he v w hok).1.1 h⟩
  cases o with
  | link v w => exact lk r he hok v w ho
  | unlink v w =>
    obtain ⟨g', b, h1, h2⟩ := r.unlink v w
    have h3 : g'.early = true := by
      unfold G.unlink at h1
      split at h1
      · cases h1; exact he
      · split at h1
        · split at h1
          · cases h1; exact he
          · cases h1
        · cases h1; exact he
    simp only [G.step, h1]
    refine ⟨h2, h3, ?_⟩
    rintro ⟨x, p⟩
    exact hok ⟨x, Before.mono (fun e he => (List.mem_filter.1 he).1) p⟩
  | phase p v =>
    simp only [G.step, G.setPhase, edgesStep] at ho ⊢
    by_cases hp : p = 0
    · simp only [hp, if_true] at ho ⊢; exact lk r he hok v 0 ho
    · simp only [hp, if_false] at ho ⊢
      have h1 := lk r he hok (p - 1) v
      generalize g.link (p - 1) v = x at h1 ho
      obtain ⟨g1, o1⟩ := x
      cases o1 with
      | ok => obtain ⟨a, b, c⟩ := h1 rfl; exact lk a b c v p ho
      | cycle l => simp at ho
      | stuck => simp at ho

/-- C57, early detection: with early detection enabled and no link having thrown so far, a link throws exactly
when it would close a cycle, and the reported cycle is real. -/
theorem C57_early_detection (os : List Op) (hos : ∀ o ∈ (runOps G.step (G.init true) os).2, o = .ok) (v w : Nat) :
    let g := (runOps G.step (G.init true) os).1
    let E := declared (os ++ [.link v w])
    ((g.link v w).2 = .ok ↔ ¬ Cyclic E) ∧ (Cyclic E → ∃ l, (g.link v w).2 = .cycle l ∧ RealCycle E l) := by
  have key : ∀ (os : List Op) (g : G) (E : List (Nat × Nat)), Rep g E → g.early = true → ¬ Cyclic E →
      (∀ o ∈ (runOps G.step g os).2, o = .ok) →
      Rep (runOps G.step g os).1 (os.foldl edgesStep E) ∧ (runOps G.step g os).1.early = true ∧
        ¬ Cyclic (os.foldl edgesStep E) := by
    intro os
    induction os with
    | nil => intro g E r he hc _; exact ⟨r, he, hc⟩
    | cons o os ih =>
      intro g E r he hc hall
      obtain ⟨h1, h2, h3⟩ := early_step r he hc o (hall _ (by simp [runOps]))
      exact ih _ _ h1 h2 h3 (fun x hx => hall x (by simp only [runOps]; exact List.mem_cons_of_mem _ hx))
  have h0 : ¬ Cyclic phaseChain := by
    obtain ⟨b, h1, h2⟩ := (Rep.init true).1.detect
    have : (G.init true).detectCycle = some false := by decide
    rw [this] at h1
    injection h1 with h1
    subst h1
    intro hc; exact absurd (h2.2 hc) (by simp)
  obtain ⟨r, he, hc⟩ := key os _ _ (Rep.init true).1 (Rep.init true).2 h0 hos
  have e : declared (os ++ [.link v w]) = addEdge (os.foldl edgesStep phaseChain) v w := by
    simp [declared, edgesStep]
  simp only [e]
  exact link_early r he v w hc

example : ∀ o ∈ (runOps G.step (G.init true) [.link 10 11, .phase 3 10]).2, o = .ok := by decide
example : ((G.init true).link 0 10).2 = .ok ∧ (((G.init true).link 0 10).1.link 10 0).2 = .cycle [10, 0] := by
  decide

/-- an event in the unlink calls of a history is not one of the seven ordering points -/
def KeepsPhases (os : List Op) : Prop := ∀ v w, Op.unlink v w ∈ os → 7 ≤ v ∧ 7 ≤ w

theorem mem_addEdge {E : List (Nat × Nat)} {v w : Nat} {e : Nat × Nat} (h : e ∈ E) : e ∈ addEdge E v w := by
  unfold addEdge; split
  · exact h
  · exact List.mem_append_left _ h

theorem mem_addEdge_self {E : List (Nat × Nat)} {v w : Nat} (h : v ≠ w) : (v, w) ∈ addEdge E v w := by
  unfold addEdge; split
  · rename_i hh; rcases hh with hh | hh
    · exact absurd hh h
    · exact hh
  · simp

theorem keep_edge {os : List Op} (hk : KeepsPhases os) {E : List (Nat × Nat)} {e : Nat × Nat} (he : e ∈ E)
    (hp : e.1 < 7 ∨ e.2 < 7) : e ∈ os.foldl edgesStep E := by
  induction os generalizing E with
  | nil => exact he
  | cons o os ih =>
    apply ih (fun v w h => hk v w (List.mem_cons_of_mem _ h))
    cases o with
    | link v w => exact mem_addEdge he
    | unlink v w =>
      have := hk v w List.mem_cons_self
      refine List.mem_filter.2 ⟨he, ?_⟩
      simp only [ne_eq, decide_eq_true_eq]
      intro h; subst h; simp at hp; omega
    | phase p v =>
      simp only [edgesStep]; split
      · exact mem_addEdge he
      · exact mem_addEdge (mem_addEdge he)

theorem phase_edges {os : List Op} (hk : KeepsPhases os) {p x : Nat} (hx : 7 ≤ x) (hp : p < 7)
    (h : Op.phase p x ∈ os) : (x, p) ∈ declared os ∧ (0 < p → (p - 1, x) ∈ declared os) := by
  unfold declared
  generalize phaseChain = E
  induction os generalizing E with
  | nil => cases h
  | cons o os ih =>
    have hk' : KeepsPhases os := fun v w h => hk v w (List.mem_cons_of_mem _ h)
    rcases List.mem_cons.1 h with h | h
    · subst h
      simp only [List.foldl_cons, edgesStep]
      by_cases h0 : p = 0
      · subst h0
        exact ⟨keep_edge hk' (mem_addEdge_self (by omega)) (Or.inr hp), fun h => by omega⟩
      · rw [if_neg h0]
        exact ⟨keep_edge hk' (mem_addEdge_self (by omega)) (Or.inr hp),
          fun _ => keep_edge hk' (mem_addEdge (mem_addEdge_self (by omega))) (Or.inl (by simp; omega))⟩
    · exact ih hk' h (edgesStep E o)

theorem chain_edges {os : List Op} (hk : KeepsPhases os) {i : Nat} (hi : i < 6) : (i, i + 1) ∈ declared os := by
  apply keep_edge hk _ (Or.inl (by simp; omega))
  have : i = 0 ∨ i = 1 ∨ i = 2 ∨ i = 3 ∨ i = 4 ∨ i = 5 := by omega
  rcases this with rfl | rfl | rfl | rfl | rfl | rfl <;> simp [phaseChain]

/-- C56: scheduling phases: an event assigned to an earlier phase gets a strictly smaller group number than an
event assigned to a later phase, whatever else was declared. (Phases 0 = Trigger .. 6 = PostTick.) -/
theorem C56_phases_in_order (os : List Op) (hk : KeepsPhases os) (g' : G) (h : (graph os).sort = .ok g')
    (p q x y : Nat) (hpq : p < q) (hq : q < 7) (hx : 7 ≤ x) (hy : 7 ≤ y)
    (h1 : Op.phase p x ∈ os) (h2 : Op.phase q y ∈ os) : g'.gid x < g'.gid y := by
  obtain ⟨hb, -⟩ := C08_groups_respect_precedence os g' h
  have e1 := hb _ _ (.single (phase_edges hk hx (by omega) h1).1)
  have e2 := hb _ _ (.single ((phase_edges hk hy hq h2).2 (by omega)))
  have e3 : ∀ k, p + k < 7 → g'.gid p ≤ g'.gid (p + k) := by
    intro k
    induction k with
    | zero => intro _; exact Nat.le_refl _
    | succ k ih =>
      intro hk'
      have := ih (by omega)
      have := hb _ _ (.single (chain_edges hk (i := p + k) (by omega)))
      rw [← Nat.add_assoc]
      omega
  have := e3 (q - 1 - p) (by omega)
  have e : p + (q - 1 - p) = q - 1 := by omega
  rw [e] at this
  omega

example : KeepsPhases [.phase 1 10, .phase 5 11, .link 11 12, .unlink 11 12] := by
  intro v w h; simp at h; omega
example : ∃ g', (graph [.phase 1 10, .phase 5 11]).sort = .ok g' ∧ g'.gid 10 = 2 ∧ g'.gid 11 = 7 :=
  ⟨_, rfl, by decide⟩

end Sparta.DAG
