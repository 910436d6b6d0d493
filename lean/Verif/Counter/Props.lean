import Verif.Counter.Lemmas

/-!
# Properties C112 and C113: counters and cycle counters
-/

namespace Sparta.Counter

/-- values given to `set` are 64 bit numbers -/
def Sized (os : List Op) : Prop := ∀ w, Op.set w ∈ os → w < word

/-- C112: after every history a counter returns the sum of what was added since it was last set, modulo the word;
increments return the new value (post-increment the old one); `set` throws exactly when the behavior is not
`COUNT_LATEST` -/
theorem C112_value (b : Behavior) (os : List Op) (hw : Sized os) (n w : Nat) :
    let c := (runOps Ctr.step (.init b) os).1
    let v := shown b os 0
    (c.step .get).2 = .val (v % word) ∧
      (c.step (.add n)).2 = .val ((v + n) % word) ∧
      (c.step .pre).2 = .val ((v + 1) % word) ∧
      (c.step .post).2 = .val (v % word) ∧
      (c.step (.set w)).2 = if b = .latest then .val w else .threw := by
  have h := ctr_run os (.init b) 0 rfl hw
  have hlt := ctr_lt os (.init b) (show 0 < word by decide) hw
  intro c v
  have hv : c.val = v % word := by rw [← Nat.mod_eq_of_lt hlt]; exact h.2
  have hb : c.behavior = b := h.1
  refine ⟨?_, ?_, ?_, ?_, ?_⟩
  · simp only [Ctr.step, hv]
  · simp only [Ctr.step, Ctr.increment, hv, Nat.mod_add_mod]
  · simp only [Ctr.step, Ctr.increment, hv, Nat.mod_add_mod]
  · simp only [Ctr.step, hv]
  · by_cases h : b = .latest <;> simp [Ctr.step, Ctr.set, hb, h]

example : (runOps Ctr.step (.init .latest) [.add 3, .set 10, .pre, .post, .get]).2 =
    [.val 3, .val 10, .val 11, .val 11, .val 12] := by decide +kernel

theorem shown_le (b : Behavior) (hb : b ≠ .latest) (os : List Op) (v : Nat) : v ≤ shown b os v := by
  induction os generalizing v with
  | nil => exact Nat.le_refl _
  | cons o os ih =>
    cases o with
    | set w => simp only [shown, if_neg hb]; exact ih v
    | add n => exact Nat.le_trans (Nat.le_add_right v n) (ih _)
    | pre => exact Nat.le_trans (Nat.le_add_right v 1) (ih _)
    | post => exact Nat.le_trans (Nat.le_add_right v 1) (ih _)
    | get => exact ih v

/-- C112, part: a counter that is not `COUNT_LATEST` never decreases and shows the exact sum. Missing: sums of 2^64
or more, which wrap without an exception although the documentation says "with overflow detection". -/
theorem C112_monotone_partial (b : Behavior) (hb : b ≠ .latest) (os ps : List Op) (hw : Sized (os ++ ps))
    (hs : shown b (os ++ ps) 0 < word) :
    ∃ v v', ((runOps Ctr.step (.init b) os).1.step .get).2 = .val v ∧
      ((runOps Ctr.step (.init b) (os ++ ps)).1.step .get).2 = .val v' ∧ v ≤ v' ∧ v' = shown b (os ++ ps) 0 := by
  have h1 := (C112_value b os (fun w hm => hw w (List.mem_append_left _ hm)) 0 0).1
  have h2 := (C112_value b (os ++ ps) hw 0 0).1
  have hle : shown b os 0 ≤ shown b (os ++ ps) 0 := by rw [shown_append]; exact shown_le b hb ps _
  refine ⟨_, _, h1, h2, ?_, Nat.mod_eq_of_lt hs⟩
  rw [Nat.mod_eq_of_lt hs, Nat.mod_eq_of_lt (Nat.lt_of_le_of_lt hle hs)]
  exact hle

example : Sized ([.add 3] ++ [.add 4, .set 1, .pre]) ∧ shown .normal ([.add 3] ++ [.add 4, .set 1, .pre]) 0 < word := by
  refine ⟨fun w h => ?_, by decide⟩
  simp at h
  subst h
  decide

/-- C112 is violated: an addition to a counter of behavior `COUNT_NORMAL` makes it smaller, without an exception -/
theorem C112_overflow_violated :
    ∃ os : List Op, ∃ n v v', n < word ∧
      ((runOps Ctr.step (.init .normal) os).1.step .get).2 = .val v ∧
      ((runOps Ctr.step (.init .normal) os).1.step (.add n)).2 = .val v' ∧ v' < v :=
  ⟨[.add (2 ^ 64 - 1)], 1, 2 ^ 64 - 1, 0, by decide +kernel⟩

/-- C113: after every history the value of a cycle counter is the sum over the periods of counting of the number of
cycles from start to stop, both with their delays, times the multiplier of the period; the period that has not ended
counts to the current cycle. Starting throws exactly while it counts, stopping exactly while it does not count or
before the delayed start. -/
theorem C113_value (now : Nat) (h : now < word - half) (os : List COp)
    (hl : legalOps CSpec.step CSpec.legal (.init now) os) :
    (runOps CSys.step (.init now) os).2 = (runOps CSpec.step (.init now) os).2 ∧
      ((runOps CSys.step (.init now) os).1.step .get).2 =
        .val (((runOps CSpec.step (.init now) os).1.periods.map fun p => p.mult * (p.stop - p.first)).sum % word) := by
  have hr := runOps_simulation_legal CSys.step CSpec.step CSpec.legal CRep
    (fun s t o r hl => crep_step s t o hl r) _ _ (crep_init h) os hl
  exact ⟨hr.2, congrArg Res.val hr.1.get⟩

example : legalOps CSpec.step CSpec.legal (.init 5)
      [.start 2 3, .tick 2, .get, .stop 0, .tick 4, .get, .update 7, .tick 1, .stop 2, .get] ∧
    (runOps CSys.step (.init 5) [.start 2 3, .tick 2, .get, .stop 0, .tick 4, .get, .update 7, .tick 1, .stop 2, .get]).2 =
      [.done, .done, .val 0, .threw, .done, .val 6, .done, .done, .done, .val 27] := by decide +kernel

/-- C113: without delays the value of a cycle counter is the sum, over the cycles that ended, of the multiplier in
force at the end of each, zero when it did not count -/
theorem C113_cycles (now : Nat) (h : now < word - half) (os : List COp)
    (hl : legalOps CSpec.step CSpec.legal (.init now) os) (hp : ∀ o ∈ os, o.prompt) :
    ((runOps CSys.step (.init now) os).1.step .get).2 = .val ((os.foldl Log.step ⟨[], none⟩).cycles.sum % word) := by
  have hr := (runOps_simulation_legal CSys.step CSpec.step CSpec.legal CRep
    (fun s t o r hl => crep_step s t o hl r) _ _ (crep_init h) os hl).1
  have hlog : ∀ (os : List COp) (t : CSpec) (l : Log), (∀ o ∈ os, o.prompt) → LRep t l →
      LRep (runOps CSpec.step t os).1 (os.foldl Log.step l) := by
    intro os
    induction os with
    | nil => exact fun _ _ _ r => r
    | cons o os ih =>
      exact fun t l hp r => ih _ _ (fun o ho => hp o (List.mem_cons_of_mem _ ho))
        (lrep_step t l o (hp o (List.mem_cons_self ..)) r)
  have := hlog os (.init now) ⟨[], none⟩ hp ⟨rfl, fun _ _ h => (by cases h), rfl⟩
  show Res.val _ = _
  rw [hr.get, this.sum]

example : legalOps CSpec.step CSpec.legal (.init 5) [.tick 1, .start 2 0, .tick 2, .update 3, .tick 1, .stop 0, .tick 2] ∧
    (∀ o ∈ [COp.tick 1, .start 2 0, .tick 2, .update 3, .tick 1, .stop 0, .tick 2], o.prompt) ∧
    ([COp.tick 1, .start 2 0, .tick 2, .update 3, .tick 1, .stop 0, .tick 2].foldl Log.step ⟨[], none⟩).cycles =
      [0, 2, 2, 3, 0, 0] := by
  refine ⟨by decide +kernel, ?_, by decide +kernel⟩
  intro o ho
  simp at ho
  rcases ho with rfl | rfl | rfl | rfl | rfl | rfl | rfl <;> simp [COp.prompt]

theorem value_le (t : CSpec) (o : COp) : t.value ≤ (t.step o).1.value := by
  rw [value_eq, value_eq]
  have hmul : ∀ m a b : Nat, a ≤ b → m * a ≤ m * b := fun m a b h => Nat.mul_le_mul_left m h
  cases o with
  | tick k =>
    cases hc : t.cur with
    | none => simp [CSpec.step, hc]
    | some p => simp only [CSpec.step, hc]; exact Nat.add_le_add_left (hmul _ _ _ (by omega)) _
  | start m d => cases hc : t.cur <;> simp [CSpec.step, hc]
  | stop d =>
    cases hc : t.cur with
    | none => simp [CSpec.step, hc]
    | some p =>
      obtain ⟨m, f⟩ := p
      by_cases hf : f ≤ t.now + d
      · simp [CSpec.step, hc, hf, Period.total]; exact hmul _ _ _ (by omega)
      · simp [CSpec.step, hc, hf]
  | update m =>
    cases hc : t.cur with
    | none => simp [CSpec.step, hc]
    | some p =>
      obtain ⟨m', f⟩ := p
      by_cases hf : f ≤ t.now <;> simp [CSpec.step, hc, hf, Period.total]
  | get => exact Nat.le_refl _
  | isCounting => exact Nat.le_refl _

/-- C113: a cycle counter never decreases while its value is below 2^64 -/
theorem C113_monotone (now : Nat) (h : now < word - half) (os ps : List COp)
    (hl : legalOps CSpec.step CSpec.legal (.init now) os) (hl' : legalOps CSpec.step CSpec.legal (.init now) (os ++ ps))
    (hw : (runOps CSpec.step (.init now) (os ++ ps)).1.value < word) :
    ∃ v v', ((runOps CSys.step (.init now) os).1.step .get).2 = .val v ∧
      ((runOps CSys.step (.init now) (os ++ ps)).1.step .get).2 = .val v' ∧ v ≤ v' := by
  have hle : ∀ (ps : List COp) (t : CSpec), t.value ≤ (runOps CSpec.step t ps).1.value := by
    intro ps
    induction ps with
    | nil => exact fun t => Nat.le_refl _
    | cons o ps ih => exact fun t => Nat.le_trans (value_le t o) (ih _)
  refine ⟨_, _, (C113_value now h os hl).2, (C113_value now h (os ++ ps) hl').2, ?_⟩
  have h1 := hle ps (runOps CSpec.step (.init now) os).1
  rw [← runOps_append] at h1
  show CSpec.value _ % word ≤ CSpec.value _ % word
  rw [Nat.mod_eq_of_lt hw, Nat.mod_eq_of_lt (Nat.lt_of_le_of_lt h1 hw)]
  exact h1

example : legalOps CSpec.step CSpec.legal (.init 0) ([.start 4 1, .tick 3] ++ [.stop 2, .start 1 0, .tick 1]) ∧
    (runOps CSpec.step (.init 0) ([.start 4 1, .tick 3] ++ [.stop 2, .start 1 0, .tick 1])).1.value = 17 ∧ 17 < word := by
  decide +kernel

end Sparta.Counter
