import Verif.UniqEv.Lemmas
/-! # Properties of unique events -/
namespace Sparta.UniqEv

/-! ## C215: a unique event fires once in every tick it was scheduled for -/

/-- However often it is scheduled for a tick, the handler is called once in it; it is not called in a tick
for which it was not scheduled, or for which that was cancelled; the calls come in the order of time. -/
theorem C215_unique (ops : List UOp) (hp : ∀ op ∈ ops, op.plain) :
    let u := (U.run {} ops).1
    u.q.log.Pairwise (· < ·)
    ∧ (∀ t, t < u.q.now → u.q.log.count t = if U.wants {} (fun _ => false) ops t = true then 1 else 0)
    ∧ ∀ t, u.q.now ≤ t → (U.wants {} (fun _ => false) ops t = true ↔ t ∈ u.q.waiting ∨ t ∈ u.q.log) :=
  let h := UOk.run ops {} _ UOk.init hp
  ⟨h.q.sorted, fun _ ht => h.q.count ht, fun t _ => h.q.want t⟩

/-- A request is refused exactly if the event has fired in that tick, or the group of the event has been
passed in the present tick. -/
theorem C215_refused (ops : List UOp) (hp : ∀ op ∈ ops, op.plain) (rel : Nat) (late : Bool) :
    let u := (U.run {} ops).1
    ((u.step (.schedule rel late)).2 = some .fired ↔ u.q.now + rel ∈ u.q.log)
    ∧ ((u.step (.schedule rel late)).2 = some .precedence ↔ rel = 0 ∧ late = true ∧ u.q.now ∉ u.q.log)
    ∧ ((u.step (.schedule rel late)).2 ≠ none → (u.step (.schedule rel late)).1 = u) := by
  have h := UOk.run ops {} _ UOk.init hp
  intro u
  have hf := h.fired_iff rel
  show ((u.schedule rel late).2 = some .fired ↔ _) ∧ ((u.schedule rel late).2 = some .precedence ↔ _)
    ∧ ((u.schedule rel late).2 ≠ none → (u.schedule rel late).1 = u)
  unfold U.schedule
  by_cases h1 : u.last = some (u.q.now + rel)
  · simp only [if_pos h1]
    refine ⟨⟨fun _ => hf.mp h1, fun _ => trivial⟩, ⟨fun k => (by cases k), fun k => ?_⟩, fun _ => trivial⟩
    obtain ⟨k1, _, k3⟩ := k
    subst k1
    exact absurd (hf.mp h1) k3
  · simp only [if_neg h1]
    have hnl : u.q.now + rel ∉ u.q.log := fun k => h1 (hf.mpr k)
    by_cases h2 : rel = 0 ∧ late = true
    · simp only [if_pos h2]
      refine ⟨⟨fun k => (by cases k), fun k => absurd k hnl⟩, ⟨fun _ => ⟨h2.1, h2.2, ?_⟩, fun _ => trivial⟩, fun _ => trivial⟩
      have := hnl
      rw [h2.1] at this
      exact this
    · simp only [if_neg h2]
      refine ⟨⟨fun k => ?_, fun k => absurd k hnl⟩, ⟨fun k => ?_, fun k => absurd ⟨k.1, k.2.1⟩ h2⟩, fun k => ?_⟩
      · split at k <;> cases k
      · split at k <;> cases k
      · split at k <;> exact absurd rfl k

/-- Time can always go on past the ticks in which all waiting entries have fired, so that every request
comes due: firing in the present tick takes away its only entry. -/
theorem C215_progress (ops : List UOp) (hp : ∀ op ∈ ops, op.plain) :
    let u := (U.run {} ops).1
    u.q.now ∉ ((u.step .fire).1).q.waiting
    ∧ (((u.step .fire).1).step (.advance 1)).1.q.now = u.q.now + 1 := by
  have h := UOk.run ops {} _ UOk.init hp
  intro u
  have key : u.fire.q = u.q.fire := by
    unfold U.fire Q.fire
    split <;> rfl
  have hn : u.q.now ∉ u.q.fire.waiting ∧ u.q.fire.now = u.q.now := by
    unfold Q.fire
    split
    · exact ⟨fun k => ((h.q.nodup.mem_erase_iff).mp k).1 rfl, rfl⟩
    · rename_i k; exact ⟨k, rfl⟩
  refine ⟨?_, ?_⟩
  · show u.q.now ∉ u.fire.q.waiting
    rw [key]; exact hn.1
  · show (u.fire.q.advance 1).now = u.q.now + 1
    rw [key]
    unfold Q.advance
    rw [if_neg]
    · show u.q.fire.now + 1 = _
      rw [hn.2]
    · intro k
      obtain ⟨t, t1, t2⟩ := List.any_eq_true.mp k
      have t2 := of_decide_eq_true t2
      rw [hn.2] at t2
      have t3 := h.q.fire.future t t1
      rw [hn.2] at t3
      have : t = u.q.now := by omega
      exact hn.1 (this ▸ t1)

/-- Three requests for tick 5 give one call; a fourth in tick 5 after it is refused. -/
example :
    let ops : List UOp := [.schedule 5 false, .advance 2, .schedule 3 false, .advance 3, .schedule 0 false, .fire,
      .schedule 0 false, .schedule 2 false, .cancelAt 2, .schedule 4 false, .fire, .advance 4, .fire, .advance 1]
    (∀ op ∈ ops, op.plain) ∧ (U.run {} ops).1.q.log = [5, 9]
    ∧ (U.run {} ops).2 = [none, none, none, none, none, none, some .fired, none, none, none, none, none, none, none] := by
  decide

/-- The checks are made by the thread that calls: a request made asynchronously is put into the queue
without them, and the handler is called twice in one tick. -/
theorem C215_async_violated :
    ∃ ops : List UOp, (∀ op ∈ ops, ∀ t, op ≠ .restart t) ∧ (U.run {} ops).1.q.log = [3, 3]
      ∧ (U.run {} ops).2 = [none, none, none, none, none] :=
  ⟨[.schedule 3 false, .drained 3, .advance 3, .fire, .fire], by
    refine ⟨fun op hop t e => ?_, by decide, by decide⟩
    subst e
    simp at hop⟩

/-- After a restart at the tick in which it fired last, a request for that tick is refused though the event
has not fired in it since. -/
theorem C215_restart_violated :
    ∃ ops : List UOp, (U.run {} ops).2 = [none, none, none, none, some .fired] ∧ (U.run {} ops).1.q.waiting = []
      ∧ ops.getLast? = some (.schedule 0 false) ∧ ops.dropLast.getLast? = some (.restart 3) :=
  ⟨[.schedule 3 false, .advance 3, .fire, .restart 3, .schedule 0 false], by decide⟩

/-! ## C216: a single cycle unique event -/

/-- Scheduled at ticks of its clock for the present or the next cycle, in any order and any number of times,
the event fires once in every cycle it was scheduled for and in no other. -/
theorem C216_single (p : Nat) (hpos : 0 < p) (ops : List SOp) (hl : S.legals { period := p } (fun _ => false) ops) :
    let s := (S.run { period := p } ops).1
    s.q.log.Pairwise (· < ·)
    ∧ (∀ t, t < s.q.now →
        s.q.log.count t = if S.wants { period := p } (fun _ => false) ops t = true then 1 else 0)
    ∧ ∀ t, s.q.now ≤ t → (S.wants { period := p } (fun _ => false) ops t = true ↔ t ∈ s.q.waiting ∨ t ∈ s.q.log) :=
  let h := SOk.run ops { period := p } _ (SOk.init p hpos) hl
  ⟨h.q.sorted, fun _ ht => h.q.count ht, fun t _ => h.q.want t⟩

/-- A request is refused only for being more than one cycle ahead, or for a new entry in the present tick
after its group was passed; a refused request changes nothing. -/
theorem C216_refused (s : S) (c : Nat) (late : Bool) :
    ((s.step (.schedule c late)).2 = some .tooFar ↔ 2 ≤ c)
    ∧ ((s.step (.schedule c late)).2 = some .precedence → late = true ∧ c * s.period = 0)
    ∧ (s.step (.schedule c late)).2 ≠ some .fired
    ∧ ((s.step (.schedule c late)).2 ≠ none → (s.step (.schedule c late)).1 = s) := by
  show ((s.schedule c late).2 = some .tooFar ↔ 2 ≤ c) ∧ ((s.schedule c late).2 = some .precedence → _)
    ∧ (s.schedule c late).2 ≠ some .fired ∧ ((s.schedule c late).2 ≠ none → (s.schedule c late).1 = s)
  unfold S.schedule
  by_cases hc : c < 2
  case neg =>
    rw [if_pos hc]
    exact ⟨⟨fun _ => by omega, fun _ => rfl⟩, fun k => (by cases k), fun k => (by cases k), fun _ => rfl⟩
  rw [if_neg (fun k => k hc)]
  have h2 : ¬ 2 ≤ c := by omega
  simp only []
  split
  · split
    · rename_i k
      exact ⟨⟨fun k => (by cases k), fun k => absurd k h2⟩, fun _ => ⟨k.2, k.1⟩, fun k => (by cases k), fun _ => rfl⟩
    · exact ⟨⟨fun k => (by cases k), fun k => absurd k h2⟩, fun k => (by cases k), fun k => (by cases k), fun k => absurd rfl k⟩
  · split
    · split
      · rename_i k
        exact ⟨⟨fun k => (by cases k), fun k => absurd k h2⟩, fun _ => ⟨k.2, k.1⟩, fun k => (by cases k), fun _ => rfl⟩
      · exact ⟨⟨fun k => (by cases k), fun k => absurd k h2⟩, fun k => (by cases k), fun k => (by cases k), fun k => absurd rfl k⟩
    · exact ⟨⟨fun k => (by cases k), fun k => absurd k h2⟩, fun k => (by cases k), fun k => (by cases k), fun k => absurd rfl k⟩

/-- In such use no check of a debug build ever fails. -/
theorem C216_debug (p : Nat) (hpos : 0 < p) (ops : List SOp) (c : Nat) (late : Bool) (hc : c < 2)
    (hl : S.legals { period := p } (fun _ => false) (ops ++ [.schedule c late])) :
    (S.run { period := p } ops).1.debugOk c = true := by
  have aux : ∀ (ops : List SOp) (s : S) (w : Nat → Bool), s.legals w (ops ++ [.schedule c late]) →
      s.legals w ops ∧ (s.run ops).1.legal (s.wants w ops) (.schedule c late) := by
    intro ops
    induction ops with
    | nil => intro s w h; exact ⟨trivial, h.1⟩
    | cons op ops ih =>
      intro s w h
      obtain ⟨a, b⟩ := ih _ _ h.2
      exact ⟨⟨h.1, a⟩, b⟩
  obtain ⟨a, b⟩ := aux ops _ _ hl
  have h := SOk.run ops { period := p } _ (SOk.init p hpos) a
  exact (h.schedule c late b.1 b.2).2 hc

/-- Period 10: requests for the next cycle, then for the present one, each twice. -/
example :
    let ops : List SOp := [.schedule 1 false, .schedule 1 false, .advance 10, .schedule 1 false, .schedule 0 false,
      .fire, .schedule 0 false, .schedule 2 false, .advance 10, .schedule 0 false, .fire, .schedule 1 false, .schedule 0 true,
      .advance 7, .advance 3, .fire, .schedule 0 true, .advance 10, .schedule 1 false, .schedule 0 true, .schedule 0 false]
    S.legals { period := 10 } (fun _ => false) ops
    ∧ (S.run { period := 10 } ops).1.q.log = [10, 20, 30] ∧ (S.run { period := 10 } ops).1.q.waiting = [50, 40]
    ∧ (S.run { period := 10 } ops).2.filterMap id = [.tooFar, .precedence] := by
  decide +kernel

/-- In tick 0, a request for the present cycle is lost if one for the next cycle came before it. -/
theorem C216_tick_zero_violated :
    ∃ ops : List SOp, ops = [.schedule 1 false, .schedule 0 false]
      ∧ (S.run { period := 10 } ops).2 = [none, none] ∧ (S.run { period := 10 } ops).1.q.waiting = [10]
      ∧ S.wants { period := 10 } (fun _ => false) ops 0 = true :=
  ⟨_, rfl, by decide⟩

/-- After a cancellation, requests for the same cycle are ignored. -/
theorem C216_cancel_violated :
    ∃ ops : List SOp, ops = [.advance 10, .schedule 1 false, .cancel, .schedule 1 false, .advance 10, .schedule 0 false, .fire]
      ∧ (S.run { period := 10 } ops).2 = [none, none, none, none, none, none, none]
      ∧ (S.run { period := 10 } ops).1.q.log = [] ∧ (S.run { period := 10 } ops).1.q.waiting = [] :=
  ⟨_, rfl, by decide⟩

/-- Scheduled at ticks that are not ticks of its clock, it fires twice in one tick; in debug builds a check
fails instead. -/
theorem C216_other_clock_violated :
    ∃ ops : List SOp, ops = [.advance 1, .schedule 1 false, .advance 4, .schedule 1 false, .advance 2, .schedule 0 false,
        .fire, .advance 4, .schedule 0 false, .fire, .fire]
      ∧ (S.run { period := 10 } ops).1.q.log = [7, 11, 11]
      ∧ (S.run { period := 10 } (ops.take 5)).1.debugOk 0 = false :=
  ⟨_, rfl, by decide⟩

/-- After a restart at an earlier tick, it fires twice in one tick. -/
theorem C216_restart_violated :
    ∃ ops : List SOp, ops = [.advance 30, .schedule 0 false, .fire, .restart 10, .schedule 1 false, .schedule 0 false,
        .schedule 1 false, .fire, .advance 10, .fire, .fire]
      ∧ (S.run { period := 10 } ops).1.q.log = [30, 10, 20, 20] :=
  ⟨_, rfl, by decide⟩

end Sparta.UniqEv
