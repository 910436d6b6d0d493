import Verif.Pipe.Lemmas
import Verif.Pipeline.Spec
/-! Helper lemmas for the Pipeline: the moves of the inner Pipe. -/
namespace Sparta.Pipeline
open Sparta.Pipe (P Full)
variable {α : Type}

/-- the inner pipe holds these stages and this appended item -/
structure D (p : P α) (n : Nat) (app : Option α) (st : Nat → Option α) : Prop where
  full : Full p ⟨n, app, st⟩
  own : p.ownUpdates = false

theorem D.congr {p : P α} {n : Nat} {app : Option α} {st st' : Nat → Option α} (d : D p n app st)
    (h : ∀ j, j < n → st j = st' j) : D p n app st' := by
  obtain ⟨⟨⟨pow, hn, pos, lt, tl, mem⟩, nv, _⟩, own⟩ := d
  refine ⟨⟨⟨pow, hn, pos, lt, tl, ?_⟩, ?_, ?_⟩, own⟩
  · intro j hj
    rw [mem j hj]
    unfold Pipe.view
    by_cases h1 : j < n
    · simp [h1, h j h1]
    · simp [h1]
  · rw [nv, Pipe.count_eq, Pipe.count_eq]
    exact Pipe.cnt_congr (fun j hj => congrArg Option.isSome (h j hj))
  · intro h; rw [own] at h; cases h

theorem D.n_eq {p : P α} {n : Nat} {app : Option α} {st : Nat → Option α} (d : D p n app st) : p.n = n :=
  d.full.rep.hn

theorem D.pos {p : P α} {n : Nat} {app : Option α} {st : Nat → Option α} (d : D p n app st) : 0 < n := by
  have := d.full.rep.pos; have := d.n_eq; omega

theorem D.isValid {p : P α} {n : Nat} {app : Option α} {st : Nat → Option α} (d : D p n app st) (k : Nat) :
    p.isValid k = if k < n then some (st k).isSome else none := d.full.rep.isValid k

theorem D.isValid_lt {p : P α} {n : Nat} {app : Option α} {st : Nat → Option α} (d : D p n app st) {k : Nat}
    (h : k < n) : p.isValid k = some (st k).isSome := by rw [d.isValid, if_pos h]

theorem D.read {p : P α} {n : Nat} {app : Option α} {st : Nat → Option α} (d : D p n app st) (k : Nat) :
    p.read k = if k < n then st k else none := d.full.rep.read k

theorem D.isAppended {p : P α} {n : Nat} {app : Option α} {st : Nat → Option α} (d : D p n app st) :
    p.isAppended = app.isSome := by
  have := d.full.rep.memApp
  unfold P.isAppended
  rw [this]

theorem D.isAnyValid {p : P α} {n : Nat} {app : Option α} {st : Nat → Option α} (d : D p n app st) :
    p.isAnyValid = true ↔ app.isSome = true ∨ ∃ j, j < n ∧ (st j).isSome = true := by
  have hm := d.full.rep.memApp
  have hc := d.full.nv
  rw [Pipe.count_eq] at hc
  unfold P.isAnyValid
  rw [hm, hc]
  constructor
  · intro h
    simp only [Bool.or_eq_true, decide_eq_true_eq] at h
    rcases h with h | h
    · right
      apply Classical.byContradiction
      intro hne
      have : Pipe.cnt st n = Pipe.cnt (fun _ => (none : Option α)) n := by
        apply Pipe.cnt_congr
        intro j hj
        cases e : st j with
        | none => rfl
        | some x => exact absurd ⟨j, hj, by simp [e]⟩ hne
      rw [Pipe.cnt_none] at this
      omega
    · exact Or.inl h
  · rintro (h | ⟨j, hj, h⟩)
    · simp [h]
    · have := Pipe.cnt_pos hj h
      simp only [Bool.or_eq_true, decide_eq_true_eq]
      exact Or.inl this

theorem D.append {p : P α} {n : Nat} {app : Option α} {st : Nat → Option α} (d : D p n app st) (x : α) :
    (app.isSome = true ∧ p.append x = none) ∨ (app = none ∧ ∃ q, p.append x = some q ∧ D q n (some x) st) := by
  have h := d.full.step (.append x) trivial
  have ho := Pipe.step_own p (.append x)
  simp only [P.step, Pipe.Spec.step] at h ho
  cases e : app with
  | some y =>
    left
    refine ⟨rfl, ?_⟩
    simp only [e, Option.isSome_some, if_true] at h
    cases e2 : p.append x with
    | none => rfl
    | some q => rw [e2] at h; exact absurd h.2 (by simp)
  | none =>
    right
    refine ⟨rfl, ?_⟩
    simp only [e, Option.isSome_none, Bool.false_eq_true, if_false] at h
    cases e2 : p.append x with
    | none => rw [e2] at h; exact absurd h.2 (by simp)
    | some q => rw [e2] at h ho; exact ⟨q, rfl, h.1, by rw [ho]; exact d.own⟩

theorem D.writePS {p : P α} {n : Nat} {app : Option α} {st : Nat → Option α} (d : D p n app st)
    {k : Nat} (hk : k < n) (x : α) :
    ∃ q, p.writePS k x = some q ∧ D q n app (fun j => if j = k then some x else st j) := by
  have h := d.full.step (.writePS k x) trivial
  have ho := Pipe.step_own p (.writePS k x)
  simp only [P.step, Pipe.Spec.step, hk, if_true] at h ho
  cases e2 : p.writePS k x with
  | none => rw [e2] at h; exact absurd h.2 (by simp)
  | some q => rw [e2] at h ho; exact ⟨q, rfl, h.1, by rw [ho]; exact d.own⟩

theorem D.writePS_none {p : P α} {n : Nat} {app : Option α} {st : Nat → Option α} (d : D p n app st)
    {k : Nat} (hk : ¬ k < n) (x : α) : p.writePS k x = none := by
  have := d.n_eq
  unfold P.writePS P.physStage
  rw [if_neg (by omega)]; rfl

theorem D.invalidatePS {p : P α} {n : Nat} {app : Option α} {st : Nat → Option α} (d : D p n app st)
    {k : Nat} (hk : k < n) (hs : (st k).isSome = true) :
    ∃ q, p.invalidatePS k = some q ∧ D q n app (fun j => if j = k then none else st j) := by
  have h := d.full.step (.invalidatePS k) trivial
  have ho := Pipe.step_own p (.invalidatePS k)
  simp only [P.step, Pipe.Spec.step, hk, hs, and_self, if_true] at h ho
  cases e2 : p.invalidatePS k with
  | none => rw [e2] at h; exact absurd h.2 (by simp)
  | some q => rw [e2] at h ho; exact ⟨q, rfl, h.1, by rw [ho]; exact d.own⟩

theorem D.invalidatePS_none {p : P α} {n : Nat} {app : Option α} {st : Nat → Option α} (d : D p n app st)
    {k : Nat} (hk : ¬ (k < n ∧ (st k).isSome = true)) : p.invalidatePS k = none := by
  have h := d.full.step (.invalidatePS k) trivial
  simp only [P.step, Pipe.Spec.step, hk, if_false] at h
  cases e2 : p.invalidatePS k with
  | none => rfl
  | some q => rw [e2] at h; exact absurd h.2 (by simp)

theorem D.flushPS {p : P α} {n : Nat} {app : Option α} {st : Nat → Option α} (d : D p n app st)
    {k : Nat} (hk : k < n) :
    ∃ q, p.flushPS k = some q ∧ D q n app (fun j => if j = k then none else st j) := by
  have h := d.full.step (.flushPS k) trivial
  have ho := Pipe.step_own p (.flushPS k)
  simp only [P.step, Pipe.Spec.step, hk, if_true] at h ho
  cases e2 : p.flushPS k with
  | none => rw [e2] at h; exact absurd h.2 (by simp)
  | some q => rw [e2] at h ho; exact ⟨q, rfl, h.1, by rw [ho]; exact d.own⟩

theorem D.flushAppend {p : P α} {n : Nat} {app : Option α} {st : Nat → Option α} (d : D p n app st) :
    D p.flushAppend n none st :=
  ⟨(d.full.step .flushAppend trivial).1, by rw [← d.own]; rfl⟩

theorem D.shiftAppend {p : P α} {n : Nat} {app : Option α} {st : Nat → Option α} (d : D p n app st) :
    ∃ q, p.shiftAppend.map (·.1) = some q ∧
      D q n (if st 0 = none then none else app) (fun j => if j = 0 ∧ st 0 = none then app else st j) := by
  have h := d.full.step .shiftAppend trivial
  have ho := Pipe.step_own p .shiftAppend
  simp only [P.step, Pipe.Spec.step] at h ho
  cases e2 : p.shiftAppend with
  | none =>
    exfalso
    unfold P.shiftAppend at e2
    split at e2
    · cases e2
    · rename_i x hx
      have hz : p.physStage 0 = some ((p.tail + 0) % 2 ^ 32 &&& (p.phys - 1)) := by
        have := d.pos; have := d.n_eq
        unfold P.physStage; rw [if_pos (by omega)]
      rw [hz] at e2
      simp only [Option.bind_some] at e2
      split at e2
      · cases e2
      · simp [P.writePS, hz] at e2
  | some q =>
    rw [e2] at h ho
    refine ⟨q.1, rfl, ?_⟩
    have hq : q.1.ownUpdates = false := by rw [ho]; exact d.own
    by_cases hs : st 0 = none
    · by_cases ha : app.isSome = true
      · rw [if_pos ⟨ha, hs⟩] at h
        rw [if_pos hs]
        refine ⟨?_, hq⟩
        have := h.1
        simpa [hs] using this
      · rw [if_neg (fun e => ha e.1)] at h
        have ha' : app = none := by cases app <;> simp_all
        rw [if_pos hs]
        subst ha'
        refine D.congr ⟨h.1, hq⟩ ?_
        intro j hj
        by_cases hj0 : j = 0
        · subst hj0; simp [hs]
        · simp [hj0]
    · rw [if_neg (fun e => hs e.2)] at h
      rw [if_neg hs]
      exact D.congr ⟨h.1, hq⟩ (fun j hj => by simp [hs])

theorem D.update {p : P α} {n : Nat} {app : Option α} {st : Nat → Option α} (d : D p n app st) :
    ∃ q, p.update = some q ∧ D q n none (fun j => if j = 0 then app else st (j - 1)) := by
  have h := d.full.step .update trivial
  have ho := Pipe.step_own p .update
  simp only [P.step, Pipe.Spec.step, d.own, Bool.false_eq_true, if_false] at h ho
  cases e2 : p.update with
  | none => rw [e2] at h; exact absurd h.2 (by simp)
  | some q => rw [e2] at h ho; exact ⟨q, rfl, h.1, ho⟩

/-- moving one item up -/
theorem D.moveUp {p : P α} {n : Nat} {app : Option α} {st : Nat → Option α} (d : D p n app st)
    {k : Nat} (hk : k + 1 < n) :
    ∃ q, moveUp p (k + 1) = some q ∧
      D q n app (fun j => if (st k).isSome ∧ j = k + 1 then st k else if (st k).isSome ∧ j = k then none else st j) := by
  unfold Pipeline.moveUp
  rw [Nat.add_sub_cancel, d.isValid, if_pos (by omega)]
  cases e : st k with
  | none => exact ⟨p, rfl, d.congr (fun j hj => by simp)⟩
  | some x =>
    have hr : p.read k = some x := by rw [d.read, if_pos (by omega), e]
    obtain ⟨q, hq, dq⟩ := d.writePS hk x
    obtain ⟨q2, hq2, dq2⟩ := dq.invalidatePS (k := k) (by omega) (by simp [e])
    refine ⟨q2, ?_, dq2.congr (fun j hj => ?_)⟩
    · simp [hr, hq, hq2]
    · by_cases h1 : j = k
      · subst h1
        simp
      · by_cases h2 : j = k + 1
        · simp [h2]
        · simp [h1, h2]

/-- state of the stages when the moves above stage `k` are done -/
def Mid (s : Spec α) (t : Stall) (k : Nat) (st : Nat → Option α) : Prop :=
  ∀ j, j < s.n → st j =
    if k < j then s.moved t j
    else if j = k then (if s.leaves t k then none else s.stage k)
    else s.stage j

theorem leaves_last (s : Spec α) (t : Stall) : s.leaves t (s.n - 1) = decide (t.stage < s.n - 1) := by
  unfold Spec.leaves
  rw [Nat.sub_self]; rfl

theorem leaves_succ (s : Spec α) (t : Stall) {j : Nat} (hj : j + 1 < s.n) :
    s.leaves t j = if t.stage < j then true
      else !t.held j && (!s.occupied (j + 1) || s.leaves t (j + 1)) := by
  unfold Spec.leaves
  have : s.n - 1 - j = (s.n - 1 - (j + 1)) + 1 := by omega
  rw [this]
  have hj' : s.n - 1 - (s.n - 1 - (j + 1) + 1) = j := by omega
  simp only [Spec.leavesD, hj']

/-- behind the stall every item leaves its stage -/
theorem leaves_after (s : Spec α) (t : Stall) {j : Nat} (h : t.stage < j) (hj : j < s.n) :
    s.leaves t j = true := by
  by_cases e : j + 1 < s.n
  · rw [leaves_succ s t e, if_pos h]
  · have : j = s.n - 1 := by omega
    subst this
    rw [leaves_last]; simpa using h

/-- an item that stays blocks the one before it -/
theorem no_overwrite (s : Spec α) (t : Stall) {j : Nat} (hj : j + 1 < s.n)
    (h1 : s.leaves t j = true) (h2 : s.occupied (j + 1) = true) : s.leaves t (j + 1) = true := by
  rw [leaves_succ s t hj] at h1
  split at h1
  · exact leaves_after s t (by omega) hj
  · simp [h2] at h1
    exact h1.2

/-- one step of either loop -/
theorem Mid.step {s : Spec α} {t : Stall} {k : Nat} {st st' : Nat → Option α} (hk : k + 1 < s.n)
    (h : Mid s t (k + 1) st)
    (h2 : ∀ j, j < s.n → st' j = if s.leaves t k = true ∧ (s.stage k).isSome = true then
        (if j = k + 1 then s.stage k else if j = k then none else st j) else st j) : Mid s t k st' := by
  intro j hj
  rw [h2 j hj]
  have hkv : st k = s.stage k := by rw [h k (by omega), if_neg (by omega), if_neg (by omega)]
  by_cases hm : s.leaves t k = true ∧ (s.stage k).isSome = true
  · rw [if_pos hm]
    by_cases e1 : j = k + 1
    · subst e1
      rw [if_pos rfl, if_pos (by omega)]
      unfold Spec.moved
      rw [if_pos]
      · rfl
      · exact ⟨by omega, hm.1, hm.2⟩
    · rw [if_neg e1]
      by_cases e2 : j = k
      · subst e2
        simp [hm.1]
      · rw [if_neg e2, h j hj]
        by_cases e3 : k < j
        · rw [if_pos (by omega), if_pos e3]
        · rw [if_neg (by omega), if_neg (by omega), if_neg e3, if_neg e2]
  · rw [if_neg hm, h j hj]
    by_cases e1 : k + 1 < j
    · rw [if_pos e1, if_pos (by omega)]
    · rw [if_neg e1]
      by_cases e2 : j = k + 1
      · subst e2
        rw [if_pos rfl, if_pos (show k < k + 1 by omega)]
        unfold Spec.moved
        rw [if_neg (show ¬ (0 < k + 1 ∧ s.leaves t (k + 1 - 1) = true ∧ s.occupied (k + 1 - 1) = true) from
          fun hx => hm ⟨hx.2.1, hx.2.2⟩)]
      · rw [if_neg e2, if_neg (by omega)]
        by_cases e3 : j = k
        · subst e3
          rw [if_pos rfl]
          cases hl : s.leaves t j with
          | false => simp
          | true =>
            have : s.stage j = none := by
              cases e : s.stage j with
              | none => rfl
              | some x => exact absurd ⟨hl, by simp [e]⟩ hm
            simp [this]
        · rw [if_neg e3]

theorem advLoop_spec {s : Spec α} {t : Stall} (k : Nat) (hk : k < s.n)
    {p : P α} {st : Nat → Option α} (d : D p s.n s.app st) (hm : Mid s t k st) :
    ∃ q st', advLoop (t.stage + 1) p k = some (q, min k (t.stage + 1)) ∧ D q s.n s.app st' ∧
      Mid s t (min k (t.stage + 1)) st' := by
  induction k generalizing p st with
  | zero =>
    refine ⟨p, st, ?_, d, ?_⟩
    · unfold advLoop; simp
    · simpa using hm
  | succ k ih =>
    unfold advLoop
    by_cases hg : k + 1 > t.stage + 1
    · rw [if_pos hg]
      obtain ⟨q, hq, dq⟩ := d.moveUp hk
      have hl : s.leaves t k = true := leaves_after s t (by omega) (by omega)
      have hkv : st k = s.stage k := by rw [hm k (by omega), if_neg (by omega), if_neg (by omega)]
      obtain ⟨q2, st2, h1, h2, h3⟩ := ih (by omega) dq (hm.step hk (fun j hj => by
        rw [hkv]
        by_cases e : (s.stage k).isSome = true
        · simp [e, hl]
        · simp [e]))
      refine ⟨q2, st2, ?_, h2, ?_⟩
      · rw [hq, Option.bind_some, h1]
        congr 2; omega
      · have : min (k + 1) (t.stage + 1) = min k (t.stage + 1) := by omega
        rw [this]; exact h3
    · rw [if_neg hg]
      have : min (k + 1) (t.stage + 1) = k + 1 := by omega
      rw [this]
      exact ⟨p, st, rfl, d, hm⟩

theorem bubbleLoop_spec {s : Spec α} {t : Stall} {adv : Nat → Bool}
    (ha : ∀ j, j < s.n → adv j = !t.held j) (k : Nat) (hk : k < s.n) (hkt : k ≤ t.stage + 1)
    {p : P α} {st : Nat → Option α} (d : D p s.n s.app st) (hm : Mid s t k st) :
    ∃ q st', bubbleLoop adv p k = some q ∧ D q s.n s.app st' ∧ Mid s t 0 st' := by
  induction k generalizing p st with
  | zero => exact ⟨p, st, rfl, d, hm⟩
  | succ k ih =>
    unfold bubbleLoop
    have hkv : st k = s.stage k := by rw [hm k (by omega), if_neg (by omega), if_neg (by omega)]
    have hkv1 : st (k + 1) = if s.leaves t (k + 1) then none else s.stage (k + 1) := by
      rw [hm (k + 1) (by omega), if_neg (by omega), if_pos rfl]
    have hl := leaves_succ s t hk
    rw [if_neg (by omega)] at hl
    rw [d.isValid_lt hk, d.isValid_lt (k := k) (by omega), ha k (by omega)]
    have hcond : (!t.held k && some (st (k + 1)).isSome == some false && some (st k).isSome == some true) =
        (s.leaves t k && (s.stage k).isSome) := by
      rw [hl, hkv, hkv1]
      unfold Spec.occupied
      cases t.held k <;> cases s.leaves t (k + 1) <;> cases s.stage (k + 1) <;> cases s.stage k <;> rfl
    rw [hcond]
    obtain ⟨q, hq, dq⟩ := d.moveUp hk
    cases hb : s.leaves t k && (s.stage k).isSome with
    | true =>
      simp only [Bool.and_eq_true] at hb
      rw [if_pos rfl, hq, Option.bind_some]
      exact ih (by omega) (by omega) dq (hm.step hk (fun j hj => by
        rw [hkv]; simp [hb.1, hb.2]))
    | false =>
      simp only [Bool.and_eq_false_iff] at hb
      rw [if_neg (by simp), Option.bind_some]
      refine ih (by omega) (by omega) d (hm.step hk (fun j hj => ?_))
      rw [if_neg]
      rintro ⟨h1, h2⟩
      rcases hb with hb | hb
      · rw [hb] at h1; cases h1
      · rw [hb] at h2; cases h2

/-- the whole of `drain_` -/
theorem drain_spec {s : Spec α} {t : Stall} {m : PL α} (hs : s.stall = some t)
    (ht : t.stage < s.n) (ha : ∀ j, j < s.n → m.adv j = !t.held j) (d : D m.pipe s.n s.app s.stage) :
    ∃ q, m.drain (t.stage + 1) = some q ∧ D q s.n s.shift.app s.shift.stage := by
  have hpos := d.pos
  have h1 : ∃ p1 st1, (if t.stage + 1 ≤ m.pipe.n - 1 ∧ m.pipe.isValid (m.pipe.n - 1) = some true
        then m.pipe.invalidatePS (m.pipe.n - 1) else some m.pipe) = some p1 ∧ D p1 s.n s.app st1 ∧
      Mid s t (s.n - 1) st1 := by
    rw [d.n_eq, d.isValid_lt (k := s.n - 1) (by omega)]
    by_cases hc : t.stage + 1 ≤ s.n - 1 ∧ some (s.stage (s.n - 1)).isSome = some true
    · rw [if_pos hc]
      obtain ⟨q, hq, dq⟩ := d.invalidatePS (k := s.n - 1) (by omega) (by simpa using hc.2)
      refine ⟨q, _, hq, dq, ?_⟩
      intro j hj
      rw [if_neg (by omega)]
      rw [leaves_last]
      have : decide (t.stage < s.n - 1) = true := by have := hc.1; simp; omega
      by_cases e : j = s.n - 1 <;> simp [e, this]
    · rw [if_neg hc]
      refine ⟨m.pipe, s.stage, rfl, d, ?_⟩
      intro j hj
      rw [if_neg (by omega), leaves_last]
      by_cases e : j = s.n - 1
      · rw [if_pos e, e]
        by_cases e2 : t.stage < s.n - 1
        · have : s.stage (s.n - 1) = none := by
            cases e3 : s.stage (s.n - 1) with
            | none => rfl
            | some x => exact absurd ⟨e2, by simp [e3]⟩ hc
          simp [this]
        · simp [e2]
      · rw [if_neg e]
  obtain ⟨p1, st1, e1, d1, m1⟩ := h1
  obtain ⟨p2, st2, e2, d2, m2⟩ := advLoop_spec (s.n - 1) (by omega) d1 m1
  obtain ⟨p3, st3, e3, d3, m3⟩ := bubbleLoop_spec ha (min (s.n - 1) (t.stage + 1)) (by omega) (by omega) d2 m2
  obtain ⟨p4, e4, d4⟩ := d3.shiftAppend
  refine ⟨p4, ?_, ?_⟩
  · unfold PL.drain
    simp only [e1, Option.bind_some]
    rw [d.n_eq, e2, Option.bind_some]
    simp only [e3, Option.bind_some]
    exact e4
  · have hmv : ∀ j, j < s.n → st3 j = s.moved t j := by
      intro j hj
      rw [m3 j hj]
      by_cases e : 0 < j
      · rw [if_pos e]
      · have : j = 0 := by omega
        subst this
        simp [Spec.moved]
    rw [hmv 0 hpos] at d4
    unfold Spec.shift
    rw [hs]
    dsimp only
    by_cases hz : s.moved t 0 = none
    · rw [if_pos hz] at d4 ⊢
      refine d4.congr (fun j hj => ?_)
      by_cases e : j = 0
      · simp [e, hz]
      · simp [e, hmv j hj]
    · rw [if_neg hz] at d4 ⊢
      refine d4.congr (fun j hj => ?_)
      simp [hz, hmv j hj]

end Sparta.Pipeline
