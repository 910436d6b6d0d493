import Verif.Pipeline.Lemmas3
/-! Helper lemmas for the Pipeline: facts about the specification. -/
namespace Sparta.Pipeline
variable {α : Type}

/-- items from the last stage down to stage `k` -/
def tops (st : Nat → Option α) (n k : Nat) : List α := (List.range' k (n - k)).reverse.filterMap st

theorem tops_succ (st : Nat → Option α) {n k : Nat} (h : k < n) :
    tops st n k = tops st n (k + 1) ++ (st k).toList := by
  unfold tops
  have : n - k = (n - (k + 1)) + 1 := by omega
  rw [this, List.range'_succ, List.reverse_cons, List.filterMap_append]
  cases e : st k <;> simp [e]

/-- the items of the pipeline, oldest first -/
def Spec.items (s : Spec α) : List α := (List.range s.n).reverse.filterMap s.stage ++ s.app.toList

theorem items_tops (s : Spec α) : s.items = tops s.stage s.n 0 ++ s.app.toList := by
  unfold Spec.items tops
  rw [List.range_eq_range', Nat.sub_zero]

theorem tops_congr {st st' : Nat → Option α} {n k : Nat} (h : ∀ j, j < n → st j = st' j) (hk : k ≤ n) :
    tops st n k = tops st' n k := by
  unfold tops
  have key : ∀ l : List Nat, (∀ j ∈ l, j < n) → l.filterMap st = l.filterMap st' := by
    intro l hl
    induction l with
    | nil => rfl
    | cons a l ih =>
      rw [List.filterMap_cons, List.filterMap_cons, h a (hl a (List.mem_cons_self ..)),
        ih (fun j hj => hl j (List.mem_cons_of_mem _ hj))]
  refine key _ (fun j hj => ?_)
  have := List.mem_range'_1.1 (List.mem_reverse.1 hj)
  omega

/-- the item going from stage k-1 up, if any -/
def goesUp (s : Spec α) (t : Stall) (k : Nat) : List α :=
  if 0 < k ∧ s.leaves t (k - 1) = true then (s.stage (k - 1)).toList else []

theorem tops_moved (s : Spec α) (t : Stall) (k : Nat) (hk : k ≤ s.n) (hn : 0 < s.n) :
    goesUp s t s.n ++ tops (s.moved t) s.n k = tops s.stage s.n k ++ goesUp s t k := by
  obtain ⟨c, hc⟩ : ∃ c, k + c = s.n := ⟨s.n - k, by omega⟩
  induction c generalizing k with
  | zero =>
    have : k = s.n := by omega
    subst this
    simp [tops]
  | succ c ih =>
    have hk' : k < s.n := by omega
    rw [tops_succ _ hk', tops_succ _ hk', ← List.append_assoc, ih (k + 1) (by omega) (by omega), List.append_assoc,
      List.append_assoc]
    refine congrArg (fun l => _ ++ l) ?_
    unfold goesUp Spec.moved
    have h0 : 0 < k + 1 := by omega
    simp only [Nat.add_sub_cancel, h0, true_and]
    by_cases hup : 0 < k ∧ s.leaves t (k - 1) = true ∧ s.occupied (k - 1) = true
    · have hup' : 0 < k ∧ s.leaves t (k - 1) = true := ⟨hup.1, hup.2.1⟩
      rw [if_pos hup, if_pos hup']
      by_cases ho : s.occupied k = true
      · have := no_overwrite s t (j := k - 1) (by omega) hup.2.1 (by rw [Nat.sub_add_cancel hup.1]; exact ho)
        rw [Nat.sub_add_cancel hup.1] at this
        rw [if_pos this]
      · have : s.stage k = none := by unfold Spec.occupied at ho; cases e : s.stage k <;> simp_all
        rw [this]; simp
    · rw [if_neg hup]
      have hg : (if 0 < k ∧ s.leaves t (k - 1) = true then (s.stage (k - 1)).toList else []) = [] := by
        split
        · rename_i h
          have : s.stage (k - 1) = none := by
            cases e : s.stage (k - 1) with
            | none => rfl
            | some x => exact absurd ⟨h.1, h.2, by simp [Spec.occupied, e]⟩ hup
          rw [this]; rfl
        · rfl
      rw [hg]
      split <;> simp

theorem items_shift (s : Spec α) (hn : 0 < s.n) (hst : ∀ t, s.stall = some t → t.stage < s.n) :
    s.items = (if (match s.stall with | some t => decide (t.stage < s.n - 1) | none => true)
        then (s.stage (s.n - 1)).toList else []) ++ s.shift.items := by
  cases hs : s.stall with
  | none =>
    simp only [if_true]
    rw [items_tops, items_tops]
    unfold Spec.shift
    rw [hs]
    dsimp only
    rw [Option.toList_none, List.append_nil]
    have key : ∀ k c, k + 1 + c = s.n → (s.stage (s.n - 1)).toList ++ tops (fun j => if j = 0 then s.app else s.stage (j - 1)) s.n (k + 1)
        = tops s.stage s.n k := by
      intro k c hc
      induction c generalizing k with
      | zero =>
        have : s.n = k + 1 := by omega
        rw [this, tops_succ s.stage (show k < k + 1 by omega)]
        simp [tops]
      | succ c ih =>
        rw [tops_succ _ (show k + 1 < s.n by omega), tops_succ s.stage (show k < s.n by omega), ← List.append_assoc,
          ih (k + 1) (by omega)]
        simp
    rw [tops_succ (fun j => if j = 0 then s.app else s.stage (j - 1)) hn, ← List.append_assoc, key 0 (s.n - 1) (by omega)]
    simp
  | some t =>
    dsimp only
    have h := tops_moved s t 0 (Nat.zero_le _) hn
    have hg0 : goesUp s t 0 = [] := by simp [goesUp]
    rw [hg0, List.append_nil] at h
    have hgn : goesUp s t s.n = if decide (t.stage < s.n - 1) = true then (s.stage (s.n - 1)).toList else [] := by
      unfold goesUp
      rw [leaves_last]
      simp [hn]
    rw [hgn] at h
    rw [items_tops, ← h, List.append_assoc]
    generalize (if decide (t.stage < s.n - 1) = true then (s.stage (s.n - 1)).toList else []) = pre
    refine congrArg (fun l => pre ++ l) ?_
    rw [items_tops]
    unfold Spec.shift
    rw [hs]
    dsimp only
    by_cases hz : s.moved t 0 = none
    · rw [if_pos hz]
      dsimp only
      rw [tops_succ _ hn, tops_succ _ hn, hz]
      have : tops (fun j => if j = 0 then s.app else s.moved t j) s.n (0 + 1) = tops (s.moved t) s.n (0 + 1) := by
        unfold tops
        have key : ∀ l : List Nat, (∀ j ∈ l, j ≠ 0) →
            l.filterMap (fun j => if j = 0 then s.app else s.moved t j) = l.filterMap (s.moved t) := by
          intro l hl
          induction l with
          | nil => rfl
          | cons a l ih =>
            rw [List.filterMap_cons, List.filterMap_cons, ih (fun j hj => hl j (List.mem_cons_of_mem _ hj))]
            simp [hl a (List.mem_cons_self ..)]
        refine key _ (fun j hj => ?_)
        have := List.mem_range'_1.1 (List.mem_reverse.1 hj)
        omega
      rw [this]; simp
    · rw [if_neg hz]

theorem tick_same (s : Spec α) : s.tick.n = s.n ∧ s.tick.stage = s.stage ∧ s.tick.app = s.app ∧ s.tick.regd = s.regd := by
  unfold Spec.tick
  split
  · exact ⟨rfl, rfl, rfl, rfl⟩
  · split
    · exact ⟨unstall_n s, unstall_stage s, unstall_app s, unstall_regd s⟩
    · exact ⟨rfl, rfl, rfl, rfl⟩

theorem items_tick (s : Spec α) : s.tick.items = s.items := by
  obtain ⟨h1, h2, h3, _⟩ := tick_same s
  unfold Spec.items
  rw [h1, h2, h3]

/-- in front of the stall: an item moves exactly when there is room ahead that no held item separates from
it -/
theorem leaves_iff (s : Spec α) (t : Stall) (ht : t.stage < s.n) (hh : t.held t.stage = true) {j : Nat} (hj : j ≤ t.stage) :
    s.leaves t j = true ↔
      ∃ i, j < i ∧ i ≤ t.stage ∧ s.occupied i = false ∧ ∀ i', j ≤ i' → i' < i → t.held i' = false := by
  obtain ⟨c, hc⟩ : ∃ c, j + c = t.stage := ⟨t.stage - j, by omega⟩
  induction c generalizing j with
  | zero =>
    have hjt : j = t.stage := by omega
    subst hjt
    constructor
    · intro h
      exfalso
      by_cases e : t.stage + 1 < s.n
      · rw [leaves_succ s t e] at h; simp [hh] at h
      · have e2 : t.stage = s.n - 1 := by omega
        rw [e2, leaves_last] at h
        simp at h; omega
    · rintro ⟨i, h1, h2, _⟩; omega
  | succ c ih =>
    rw [leaves_succ s t (by omega), if_neg (by omega)]
    have ih' := ih (j := j + 1) (by omega) (by omega)
    constructor
    · intro h
      simp only [Bool.and_eq_true, Bool.not_eq_true', Bool.or_eq_true] at h
      obtain ⟨h1, h2 | h2⟩ := h
      · refine ⟨j + 1, by omega, by omega, h2, fun i' hi hi2 => ?_⟩
        have : i' = j := by omega
        subst this; exact h1
      · obtain ⟨i, a, b, c', d⟩ := ih'.1 h2
        refine ⟨i, by omega, b, c', fun i' hi hi2 => ?_⟩
        by_cases e : i' = j
        · subst e; exact h1
        · exact d i' (by omega) hi2
    · rintro ⟨i, a, b, c', d⟩
      simp only [Bool.and_eq_true, Bool.not_eq_true', Bool.or_eq_true]
      refine ⟨d j (Nat.le_refl _) a, ?_⟩
      by_cases e : i = j + 1
      · subst e; exact Or.inl c'
      · exact Or.inr (ih'.2 ⟨i, by omega, b, c', fun i' hi hi2 => d i' (by omega) hi2⟩)

/-- where the item of stage j is after the moves -/
theorem shift_stay (s : Spec α) {t : Stall} (hs : s.stall = some t) {j : Nat} (hj : j < s.n)
    (ho : s.occupied j = true) (hl : s.leaves t j = false) : s.shift.stage j = s.stage j := by
  have hm : s.moved t j = s.stage j := by
    unfold Spec.moved
    rw [if_neg, hl]
    · simp
    · rintro ⟨h0, h1, h2⟩
      have := no_overwrite s t (j := j - 1) (by omega) h1 (by rw [Nat.sub_add_cancel h0]; exact ho)
      rw [Nat.sub_add_cancel h0, hl] at this
      cases this
  unfold Spec.shift
  rw [hs]
  dsimp only
  by_cases hz : s.moved t 0 = none
  · rw [if_pos hz]
    dsimp only
    split
    · rename_i e
      have hz' : s.moved t j = none := by rw [e]; exact hz
      rw [hm] at hz'
      unfold Spec.occupied at ho
      rw [hz'] at ho; cases ho
    · exact hm
  · rw [if_neg hz]; exact hm

theorem shift_move (s : Spec α) {t : Stall} (hs : s.stall = some t) {j : Nat}
    (ho : s.occupied j = true) (hl : s.leaves t j = true) : s.shift.stage (j + 1) = s.stage j := by
  have hm : s.moved t (j + 1) = s.stage j := by
    unfold Spec.moved
    rw [if_pos (by rw [Nat.add_sub_cancel]; exact ⟨by omega, hl, ho⟩), Nat.add_sub_cancel]
  unfold Spec.shift
  rw [hs]
  dsimp only
  split
  · dsimp only; rw [if_neg (by omega)]; exact hm
  · exact hm

/-- an empty stage is filled only from behind -/
theorem shift_empty (s : Spec α) {t : Stall} (hs : s.stall = some t) {j : Nat} (h0 : 0 < j)
    (ho : s.stage j = none ∨ s.leaves t j = true) (hl : s.occupied (j - 1) = false ∨ s.leaves t (j - 1) = false) :
    s.shift.stage j = none := by
  have hm : s.moved t j = none := by
    unfold Spec.moved
    rw [if_neg]
    · rcases ho with h | h
      · rw [h]; simp
      · rw [h]; simp
    · rintro ⟨_, h1, h2⟩
      rcases hl with h | h
      · rw [h] at h2; cases h2
      · rw [h] at h1; cases h1
  unfold Spec.shift
  rw [hs]
  dsimp only
  split
  · dsimp only; rw [if_neg (by omega)]; exact hm
  · exact hm

/-- spec invariant of stalls -/
def SOk (s : Spec α) : Prop :=
  0 < s.n ∧ ∀ t, s.stall = some t → t.stage < s.n ∧ 0 < t.cycles ∧ t.held t.stage = true ∧
    (∀ j, t.stage < j → t.held j = false) ∧ (t.crush = false → ∀ j, j ≤ t.stage → t.held j = true)

theorem SOk.same {s s' : Spec α} (h : SOk s) (h1 : s'.n = s.n) (h2 : s'.stall = s.stall ∨ s'.stall = none) : SOk s' := by
  refine ⟨by rw [h1]; exact h.1, fun t ht => ?_⟩
  rcases h2 with h2 | h2
  · rw [h2] at ht; rw [h1]; exact h.2 t ht
  · rw [h2] at ht; cases ht

theorem SOk.step {s : Spec α} (h : SOk s) (o : Op α) : SOk (s.step o).1 := by
  cases o with
  | append x => simp only [Spec.step]; split <;> exact h.same rfl (Or.inl rfl)
  | writeStage k x => simp only [Spec.step]; split <;> exact h.same rfl (Or.inl rfl)
  | invalidateStage k => simp only [Spec.step]; split <;> exact h.same rfl (Or.inl rfl)
  | activate k => simp only [Spec.step]; split <;> exact h.same rfl (Or.inl rfl)
  | deactivate k => simp only [Spec.step]; split <;> exact h.same rfl (Or.inl rfl)
  | stall k c crush suppress =>
    simp only [Spec.step]
    split
    · rename_i hk
      split
      · exact h
      · rename_i hc
        refine ⟨h.1, fun t ht => ?_⟩
        cases ht
        refine ⟨hk.1, by show 0 < c; omega, heldBy_self s hk.2.1, fun j hj => heldBy_le s hj, ?_⟩
        intro hcr j hj
        have hcr' : crush = false := hcr
        subst hcr'
        show s.heldBy k false j = true
        rw [heldBy_nocrush]
        simpa using hj
    · exact h
  | clearStall => simp only [Spec.step]; split; exact h.same (unstall_n s) (Or.inr (unstall_stall s)); exact h
  | flushStage k =>
    simp only [Spec.step]
    split
    · refine h.same (flush_n s k) ?_
      unfold Spec.flush
      dsimp only
      split
      · exact Or.inr (unstall_stall s)
      · exact Or.inl rfl
    · exact h
  | flushAllStages => exact h.same (unstall_n s) (Or.inr (unstall_stall s))
  | update =>
    simp only [Spec.step]
    obtain ⟨e1, e2, e3, e4⟩ := shift_same s
    have h' : SOk s.shift := h.same e1 (Or.inl e4)
    unfold Spec.tick
    split
    · exact h'
    · rename_i t ht
      split
      · exact h'.same (unstall_n _) (Or.inr (unstall_stall _))
      · rename_i hc
        refine ⟨h'.1, fun t' ht' => ?_⟩
        cases ht'
        obtain ⟨a, b, c, d, e⟩ := h'.2 t ht
        exact ⟨a, by show 0 < t.cycles - 1; omega, c, d, e⟩
  | _ => exact h

theorem SOk.run {s : Spec α} (h : SOk s) (os : List (Op α)) : SOk (runOps Spec.step s os).1 := by
  induction os generalizing s with
  | nil => exact h
  | cons o os ih => exact ih (h.step o)

end Sparta.Pipeline
