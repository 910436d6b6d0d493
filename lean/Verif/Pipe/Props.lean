import Verif.Pipe.Lemmas
/-! Properties C19, C20 and C55: Pipe. -/
namespace Sparta.Pipe
variable {α : Type}

/-- C19: after any history of calls on a pipe updated explicitly, every call had the outcome of the row of
stages of `Spec`, and the pipe shows exactly that row: validity and data of every stage, the appended item,
and an assertion for a stage number that does not exist. -/
theorem C19_pipe_stages (n : Nat) (hn : n < 2 ^ 31) (p : P α) (h : P.init α n = some p) (os : List (Op α)) :
    let q := (runOps P.step p os).1
    let s := (runOps Spec.step (Spec.init α n) os).1
    (runOps P.step p os).2 = (runOps Spec.step (Spec.init α n) os).2
      ∧ (∀ k, q.isValid k = if k < s.n then some (s.stage k).isSome else none)
      ∧ (∀ k, q.read k = if k < s.n then s.stage k else none)
      ∧ q.isAppended = s.app.isSome ∧ q.mem q.physNeg1 = s.app := by
  intro q s
  have ho : p.ownUpdates = false := by
    unfold P.init at h; split at h
    · rw [← Option.some.inj h]
    · cases h
  have hr := (Rep.init hn h).run ho os
  have r : Rep q s := hr.1
  refine ⟨hr.2, r.isValid, r.read, ?_, r.memApp⟩
  unfold P.isAppended; rw [r.memApp]

/-- one cycle: append the input of the cycle, if any, then update -/
def cycleOps : Option α → List (Op α)
  | none => [.update]
  | some x => [.append x, .update]

/-- C19: the pipe is an exact delay line: fed with one optional item per cycle, stage `k` shows the item
of `k + 1` cycles ago, no item is lost, duplicated or reordered, and appends always succeed. -/
theorem C19_pipe_delay_line (n : Nat) (hn : n < 2 ^ 31) (p : P α) (h : P.init α n = some p)
    (inputs : List (Option α)) :
    let q := (runOps P.step p (inputs.flatMap cycleOps)).1
    (∀ k, k < n → q.read k = (inputs.reverse[k]?).join)
      ∧ (∀ b ∈ (runOps P.step p (inputs.flatMap cycleOps)).2, b = true) := by
  intro q
  have key : ∀ (inputs : List (Option α)) (s : Spec α), s.app = none →
      let t := (runOps Spec.step s (inputs.flatMap cycleOps)).1
      t.n = s.n ∧ t.app = none
      ∧ (∀ k, t.stage k = if k < inputs.length then (inputs.reverse[k]?).join
          else s.stage (k - inputs.length))
      ∧ (∀ b ∈ (runOps Spec.step s (inputs.flatMap cycleOps)).2, b = true) := by
    intro inputs
    induction inputs with
    | nil => intro s hs; exact ⟨rfl, hs, fun k => by simp [runOps], fun b hb => by simp [runOps] at hb⟩
    | cons a l ih =>
      intro s hs
      simp only [List.flatMap_cons]
      rw [runOps_append, runOps_append_snd]
      have hstep : (runOps Spec.step s (cycleOps a)).1
          = { s with app := none, stage := fun j => if j = 0 then a else s.stage (j - 1) } := by
        cases a <;> simp [runOps, cycleOps, Spec.step, hs]
      have hout : ∀ b ∈ (runOps Spec.step s (cycleOps a)).2, b = true := by
        cases a <;> simp [runOps, cycleOps, Spec.step, hs]
      rw [hstep]
      obtain ⟨h1, h2, h3, h4⟩ := ih { s with app := none, stage := fun j => if j = 0 then a else s.stage (j - 1) } rfl
      refine ⟨h1, h2, ?_, ?_⟩
      · intro k
        rw [h3 k, List.reverse_cons, List.length_cons]
        by_cases hk : k < l.length
        · rw [if_pos hk, if_pos (by omega), List.getElem?_append_left (by simpa using hk)]
        · rw [if_neg hk]
          by_cases e : k = l.length
          · subst e; simp
          · simp only [show k - l.length ≠ 0 by omega, if_false, show ¬ k < l.length + 1 by omega]
            congr 1
      · intro b hb
        rcases List.mem_append.1 hb with hb | hb
        · exact hout b hb
        · exact h4 b hb
  obtain ⟨c1, -, c3, -, -⟩ := C19_pipe_stages n hn p h (inputs.flatMap cycleOps)
  obtain ⟨k1, -, k3, k4⟩ := key inputs (Spec.init α n) rfl
  refine ⟨fun k hk => ?_, fun b hb => k4 b (c1 ▸ hb)⟩
  rw [c3 k, if_pos (by rw [k1]; exact hk), k3 k]
  split
  · rfl
  · rename_i hge
    rw [List.getElem?_eq_none (by simp; omega)]; rfl

example : ∃ p, P.init Nat 3 = some p ∧
    let q := (runOps P.step p ([some 7, none, some 9].flatMap cycleOps)).1
    (List.range 3).map q.read = [some 9, none, some 7] := ⟨_, rfl, by decide⟩

/-- C20 in the histories where `flushIf` never matches the item appended in the same cycle: numValid()
is the number of valid stages (and isAnyValid() is right). Missing: histories where it does match, see
`C20_pipe_num_valid_violated`. -/
theorem C20_pipe_num_valid_partial (n : Nat) (hn : n < 2 ^ 31) (p : P α) (h : P.init α n = some p)
    (os : List (Op α)) (ok : (Spec.init α n).okHistory os) :
    let q := (runOps P.step p os).1
    q.numValid = ((List.range n).filter (fun k => q.isValid k = some true)).length
      ∧ (q.isAnyValid = true ↔ q.isAppended = true ∨ ∃ k, k < n ∧ q.isValid k = some true) := by
  intro q
  have hf := (Full.init hn h).run os ok
  have f : Full q (runOps Spec.step (Spec.init α n) os).1 := hf.1
  have hsn : ∀ (os : List (Op α)) (s : Spec α), (runOps Spec.step s os).1.n = s.n := by
    intro os s
    refine runOps_invariant Spec.step (fun t => t.n = s.n) ?_ s rfl os
    intro t o ht
    cases o <;> simp only [Spec.step] <;> (try split) <;> exact ht
  have hn' := hsn os (Spec.init α n)
  have r := f.rep
  generalize (runOps Spec.step (Spec.init α n) os).1 = s at f hn' r
  have hn'' : s.n = n := hn'
  have hv : ∀ k, k < n → (q.isValid k = some true ↔ (s.stage k).isSome = true) := by
    intro k hk
    rw [r.isValid, if_pos (by omega)]; simp
  constructor
  · rw [f.nv]
    unfold Spec.count
    rw [hn'']
    congr 1
    apply List.filter_congr
    intro k hk
    rw [Bool.eq_iff_iff, decide_eq_true_iff]
    exact (hv k (List.mem_range.1 hk)).symm
  · unfold P.isAnyValid P.isAppended
    rw [r.memApp, f.nv, count_eq, hn'']
    simp only [Bool.or_eq_true, decide_eq_true_eq]
    constructor
    · rintro (h | h)
      · right
        apply Classical.byContradiction
        intro hne
        have : cnt s.stage n = cnt (fun _ => (none : Option α)) n := by
          apply cnt_congr
          intro j hj
          cases h' : (s.stage j).isSome with
          | false => rfl
          | true => exact absurd ⟨j, hj, (hv j hj).2 h'⟩ hne
        rw [this, cnt_none] at h; omega
      · exact Or.inl h
    · rintro (h | ⟨k, hk, h⟩)
      · exact Or.inr h
      · exact Or.inl (cnt_pos hk ((hv k hk).1 h))

example : (Spec.init Nat 3).okHistory [.append 4, .update, .flushIf (· = 4), .append 5, .flushIf (· = 4)] := by
  simp [Spec.okHistory, Spec.okOp, Spec.step, Spec.init]

/-- C20 fails when `flushIf` matches the appended item: an item in stage 0 and a flushed appended item
leave numValid() = 0 and empty() although stage 0 is valid. -/
theorem C20_pipe_num_valid_violated :
    ∃ p, P.init Nat 3 = some p ∧
      let q := (runOps P.step p [.append 4, .update, .append 5, .flushIf (· = 5)]).1
      q.numValid = 0 ∧ q.isValid 0 = some true ∧ q.isAnyValid = false := ⟨_, rfl, by decide⟩

/-- C55 in the histories where `flushIf` never matches the item appended in the same cycle: after
performOwnUpdates() the pipe shows at all times what a pipe updated once per cycle shows (here: the row of
stages of `Spec`, shifted at every cycle). The histories before and after performOwnUpdates() are
arbitrary. -/
theorem C55_pipe_own_updates_partial (n : Nat) (hn : n < 2 ^ 31) (p : P α) (h : P.init α n = some p)
    (os₁ os₂ : List (Op α)) (ok : (Spec.init α n).okHistory (os₁ ++ os₂)) :
    let p₁ := (runOps P.step p os₁).1.performOwnUpdates
    let q := (runOps P.step p₁ os₂).1
    let s := (runOps Spec.step (Spec.init α n) (os₁ ++ os₂)).1
    (∀ k, q.isValid k = if k < s.n then some (s.stage k).isSome else none)
      ∧ (∀ k, q.read k = if k < s.n then s.stage k else none)
      ∧ q.isAppended = s.app.isSome
      ∧ (runOps P.step p₁ os₂).2
          = (runOps Spec.step (runOps Spec.step (Spec.init α n) os₁).1 os₂).2 := by
  intro p₁ q s
  have ho : p.ownUpdates = false := by
    unfold P.init at h; split at h
    · rw [← Option.some.inj h]
    · cases h
  have split : ∀ (a b : List (Op α)) (s : Spec α), s.okHistory (a ++ b) →
      s.okHistory a ∧ (runOps Spec.step s a).1.okHistory b := by
    intro a
    induction a with
    | nil => intro b s h; exact ⟨trivial, h⟩
    | cons o a ih => intro b s h; obtain ⟨h1, h2⟩ := ih b _ h.2; exact ⟨⟨h.1, h1⟩, h2⟩
  obtain ⟨ok1, ok2⟩ := split os₁ os₂ _ ok
  have f1 := ((Full.init hn h).run os₁ ok1).1
  have ho1 : (runOps P.step p os₁).1.ownUpdates = false := by
    refine runOps_invariant P.step (fun p => p.ownUpdates = false) ?_ p ho os₁
    intro s o hs; rw [step_own, hs]
  have f2 := (f1.performOwnUpdates ho1).1.run os₂ ok2
  have f : Full q s := by
    have := f2.1
    rw [← runOps_append] at this
    exact this
  refine ⟨f.rep.isValid, f.rep.read, ?_, f2.2⟩
  unfold P.isAppended; rw [f.rep.memApp]

/-- C55 fails when `flushIf` matches the appended item: the pipe stops rescheduling its update and the item
stays in stage 1 for ever (here: for any number of further cycles). -/
theorem C55_pipe_own_updates_violated (cycles : Nat) :
    ∃ p, P.init Nat 4 = some p ∧
      let q := (runOps P.step p.performOwnUpdates
        ([.append 4, .update, .append 5, .flushIf (· = 5), .update] ++ List.replicate cycles .update)).1
      q.read 1 = some 4 := by
  refine ⟨_, rfl, ?_⟩
  intro q
  show (runOps P.step _ _).1.read 1 = some 4
  rw [runOps_append]
  generalize hp : (runOps P.step (P.performOwnUpdates _)
    [.append 4, .update, .append 5, .flushIf (· = 5), .update]).1 = p
  have h1 : p.ownUpdates = true := by rw [← hp]; decide
  have h2 : p.pending = false := by rw [← hp]; decide
  have h3 : p.read 1 = some 4 := by rw [← hp]; decide
  have h4 : (runOps P.step p (List.replicate cycles .update)).1 = p := by
    induction cycles with
    | zero => rfl
    | succ c ih =>
      rw [List.replicate_succ]
      have : (p.step .update).1 = p := by simp [P.step, P.cycle, h1, h2]
      show (runOps P.step (p.step .update).1 _).1 = p
      rw [this, ih]
  rw [h4, h3]

end Sparta.Pipe
