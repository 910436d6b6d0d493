import Verif.Scheduler.Run
import Verif.DAG.Props
/-! Properties C01-C07 and C59-C63: the scheduler.

`Reach cfg H s`: the scheduler can get into state `s` when the simulated program is `H` (what each handler does)
and the user makes any calls.  `s.trace` is what happened since `finalize` or the last `restartAt`. -/
namespace Sparta.Scheduler

theorem mem_pending_iff {tr : List Obs} {r : Req} : r ∈ pending tr ↔ ∃ pre now rel post,
    tr = pre ++ .accept r now rel :: post ∧ r ∉ fires post ∧ ∀ o ∈ post, o.covers r = false := by
  generalize hn : tr.length = n
  induction n generalizing tr with
  | zero =>
    have : tr = [] := List.length_eq_zero_iff.1 hn
    subst this
    simp [pending]
  | succ n ih =>
    rcases List.eq_nil_or_concat tr with rfl | ⟨tr', o, rfl⟩
    · simp at hn
    · have ih' := ih (tr := tr') (by simpa using hn)
      rw [List.concat_eq_append, pending_snoc]
      constructor
      · intro h
        have h' : (r ∈ pending tr' ∧ (∀ t, o ≠ .fire r t) ∧ o.covers r = false) ∨ ∃ a b, o = .accept r a b := by
          cases o with
          | accept r' a b =>
            simp only [pendStep, List.mem_cons] at h
            rcases h with rfl | h
            · exact Or.inr ⟨a, b, rfl⟩
            · exact Or.inl ⟨h, by simp, rfl⟩
          | fire r' t =>
            simp only [pendStep, List.mem_filter, decide_eq_true_eq] at h
            refine Or.inl ⟨h.1, ?_, rfl⟩
            intro t' e; cases e; exact h.2 rfl
          | _ => 
            simp only [pendStep, List.mem_filter] at h
            exact Or.inl ⟨h.1, by simp, by simpa using h.2⟩
        rcases h' with ⟨h1, h2, h3⟩ | ⟨a, b, rfl⟩
        · obtain ⟨pre, now, rel, post, e, h4, h5⟩ := ih'.1 h1
          refine ⟨pre, now, rel, post ++ [o], by simp [e], ?_, ?_⟩
          · rw [fires_append, List.mem_append]
            rintro (h | h)
            · exact h4 h
            · obtain ⟨t, ht⟩ := mem_fires.1 h
              simp at ht; exact h2 t ht.symm
          · intro o' ho'
            rcases List.mem_append.1 ho' with h | h
            · exact h5 o' h
            · simp at h; subst h; exact h3
        · exact ⟨tr', a, b, [], rfl, by simp [fires], by simp⟩
      · rintro ⟨pre, now, rel, post, e, h4, h5⟩
        rcases snoc_split e with ⟨_, h2, _⟩ | ⟨p, rfl, h2⟩
        · subst h2; simp [pendStep]
        · have hp : r ∈ pending tr' := by
            refine ih'.2 ⟨pre, now, rel, p, h2, ?_, fun o' ho' => h5 o' (by simp [ho'])⟩
            intro h; apply h4; rw [fires_append]; simp [h]
          have hc := h5 o (by simp)
          cases o with
          | accept => simp [pendStep, hp]
          | fire r' t =>
            simp only [pendStep, List.mem_filter, decide_eq_true_eq]
            refine ⟨hp, ?_⟩
            rintro rfl; apply h4; rw [fires_append]; simp [fires]
          | _ => simp [pendStep, List.mem_filter, hp, hc]

/-- `n` steps of the machine -/
def iter (cfg : Cfg) (H : St → Nat → List Call) : Nat → St → St
  | 0, s => s
  | n + 1, s => iter cfg H n (s.micro cfg H true)

theorem Reach.iter {cfg : Cfg} {H : St → Nat → List Call} (n : Nat) {s : St} (h : Reach cfg H s) :
    Reach cfg H (iter cfg H n s) := by
  induction n generalizing s with
  | zero => exact h
  | succ n ih => exact ih (.micro true h)

theorem During.iter {cfg : Cfg} {H : St → Nat → List Call} {s0 : St} {m : Option Nat} {ex : Bool} (n : Nat) {s : St}
    (h : During cfg H s0 m ex s) : During cfg H s0 m ex (iter cfg H n s) := by
  induction n generalizing s with
  | zero => exact h
  | succ n ih => exact ih (.micro true h)

/-! ### a small program for the examples

Event `e` is in group `e + 1`.  Event 0's handler schedules event 1 in this tick, event 2 in this tick (later
group), event 0 three ticks later and (rejected while event 1 is firing) nothing else; event 1's handler tries to
schedule event 0 in the same tick, which is backwards. -/

def demoCfg : Cfg := ⟨fun e => e + 1, 4⟩
def demoH : St → Nat → List Call := fun _ e =>
  if e = 0 then [.schedule 2 0 true false, .schedule 1 0 true false, .schedule 1 0 true false]
  else if e = 1 then [.schedule 0 0 true false]
  else []
/-- state after `schedule(0, 5)` and `run(10, true)` -/
def demo0 : St := (St.init.exec demoCfg (.schedule 0 5 true false)).exec demoCfg (.schedule 3 7 false false)
def demo1 : St := demo0.startRun demoCfg (some 10) true
def demo (n : Nat) : St := iter demoCfg demoH n demo1

theorem demo0_reach : Reach demoCfg demoH demo0 := .call _ (.call _ .init rfl) rfl
theorem demo_reach (n : Nat) : Reach demoCfg demoH (demo n) := (Reach.run _ _ demo0_reach rfl).iter n

/-! ### C01 -/

/-- C01: a handler runs only at the tick for which its event was requested: request time plus delay. -/
theorem C01_fires_at_due_tick {cfg : Cfg} {H : St → Nat → List Call} {s : St} (h : Reach cfg H s)
    {pre post : List Obs} {r : Req} {t : Nat} (hs : s.trace = pre ++ .fire r t :: post) :
    ∃ now rel, .accept r now rel ∈ pre ∧ t = now + rel := by
  obtain ⟨k, I, _⟩ := h.inv
  obtain ⟨h1, h2⟩ := I.valid pre r t post hs
  obtain ⟨p1, now, rel, p2, e, _, _⟩ := mem_pending_iff.1 h1
  refine ⟨now, rel, by simp [e], ?_⟩
  have := (I.accOk p1 r now rel (p2 ++ .fire r t :: post) (by simp [hs, e])).1
  omega

/-- C01: the ticks at which handlers run never decrease. -/
theorem C01_ticks_monotone {cfg : Cfg} {H : St → Nat → List Call} {s : St} (h : Reach cfg H s) :
    (fires s.trace).Pairwise (fun a b => a.due ≤ b.due) := by
  obtain ⟨k, I, _⟩ := h.inv
  refine I.firesSorted.imp ?_
  intro a b hab
  unfold Req.lt at hab; omega

/-- C01: a request is recorded with the tick at which the call was made, and the handler of an event starts with the
clock showing the recorded tick. -/
theorem C01_clock_in_handler (cfg : Cfg) (H : St → Nat → List Call) (s : St) (x : Entry) (e : Nat)
    (hx : x.ev = some (.user e)) :
    ∃ s1 : St, s1.trace = s.trace ++ [.fire ⟨x.rid, .user e, s.tick, s.grp, x.cont⟩ s1.tick] ∧
      s.fireEntry cfg H x = s1.execAll cfg (H s1 e) := by
  unfold St.fireEntry
  rw [hx]
  exact ⟨_, rfl, rfl⟩

/-- the demo fires event 0 at tick 5, event 1 twice and event 2 in the same tick, event 3 at tick 7, the stop at 9 -/
example : (fires (demo 100).trace).map (fun r => (r.ev, r.due)) =
    [(.user 0, 5), (.user 1, 5), (.user 1, 5), (.user 2, 5), (.user 3, 7), (.stop, 9)] := by decide +kernel

/-! ### C02 -/

/-- the request `a` was accepted before the request `b` -/
def AcceptedBefore (tr : List Obs) (a b : Req) : Prop :=
  ∃ pre n l post n' l', tr = pre ++ .accept b n l :: post ∧ .accept a n' l' ∈ pre

/-- C02: handlers run in order of tick, then of group, then of request; the group of a request is the one assigned to
its event. -/
theorem C02_group_then_fifo {cfg : Cfg} {H : St → Nat → List Call} {s : St} (h : Reach cfg H s) :
    (fires s.trace).Pairwise (fun a b => a.due < b.due ∨ (a.due = b.due ∧
      (a.grp < b.grp ∨ (a.grp = b.grp ∧ AcceptedBefore s.trace a b)))) ∧
    ∀ r ∈ fires s.trace, r.grp = cfg.fgEv r.ev := by
  obtain ⟨k, I, _⟩ := h.inv
  have hacc : ∀ r ∈ fires s.trace, ∃ p1 n l p2, s.trace = p1 ++ .accept r n l :: p2 := by
    intro r hr
    obtain ⟨t, ht⟩ := mem_fires.1 hr
    obtain ⟨pre, post, e⟩ := List.append_of_mem ht
    obtain ⟨p1, now, rel, p2, e2, _⟩ := mem_pending_iff.1 (I.valid pre r t post e).1
    exact ⟨p1, now, rel, p2 ++ .fire r t :: post, by simp [e, e2]⟩
  refine ⟨?_, ?_⟩
  · refine List.Pairwise.imp_of_mem ?_ I.firesSorted
    intro a b ha hb hab
    unfold Req.lt at hab
    rcases hab with h1 | ⟨h1, h2 | ⟨h2, h3⟩⟩
    · exact Or.inl h1
    · exact Or.inr ⟨h1, Or.inl h2⟩
    · refine Or.inr ⟨h1, Or.inr ⟨h2, ?_⟩⟩
      obtain ⟨p1, n, l, p2, e1⟩ := hacc a ha
      obtain ⟨q1, n', l', q2, e2⟩ := hacc b hb
      refine ⟨q1, n', l', q2, n, l, e2, ?_⟩
      have hm : Obs.accept a n l ∈ q1 ++ .accept b n' l' :: q2 := by rw [← e2, e1]; simp
      rcases List.mem_append.1 hm with h | h
      · exact h
      · rcases List.mem_cons.1 h with h | h
        · cases h; omega
        · obtain ⟨x1, x2, e3⟩ := List.append_of_mem h
          have := (I.accOk (q1 ++ .accept b n' l' :: x1) a n l x2 (by simp [e2, e3])).2.2.1 b n' l' (by simp)
          omega
  · intro r hr
    obtain ⟨p1, n, l, p2, e⟩ := hacc r hr
    exact (I.accOk p1 r n l p2 e).2.1

example : (fires (demo 100).trace).map (fun r => (r.grp, r.rid)) = [(2, 0), (3, 4), (3, 5), (4, 3), (5, 1), (6, 2)] := by
  decide +kernel

/-! ### C03 -/

theorem Inv.pending_due {cfg : Cfg} {s : St} {k : Nat} (I : Inv cfg s k) (hp : s.pc ≠ .aborted) {r : Req}
    (hr : r ∈ pending s.trace) : s.tick ≤ r.due := by
  obtain ⟨q, hq, e, _⟩ := (I.agree r).1 hr
  rw [← e]
  have h := I.phase
  cases hc : s.pc with
  | idle => simp only [Phase, hc] at h; exact h.2.1 q hq
  | loop => simp only [Phase, hc] at h; exact h.2.1 q hq
  | firing =>
    simp only [Phase, hc] at h
    obtain ⟨q', qs, e1, e2, _⟩ := h
    have := sorted_head_le (e1 ▸ I.sorted) q (e1 ▸ hq)
    omega
  | aborted => exact absurd hc hp

theorem Inv.fired_due {cfg : Cfg} {s : St} {k : Nat} (I : Inv cfg s k) (hp : s.pc ≠ .aborted) {r : Req}
    (hr : r ∈ fires s.trace) : r.due ≤ s.tick ∧ (s.pc = .idle → r.due < s.tick) := by
  have h := I.phase
  cases hc : s.pc with
  | idle => simp only [Phase, hc] at h; have := h.2.2 r hr; exact ⟨by omega, fun _ => this⟩
  | loop => simp only [Phase, hc] at h; exact ⟨h.2.2.1 r hr, fun h => by cases h⟩
  | firing =>
    simp only [Phase, hc] at h
    obtain ⟨q', qs, e1, e2, e3, _⟩ := h
    refine ⟨?_, fun h => by cases h⟩
    rcases e3 r hr with h | h <;> omega
  | aborted => exact absurd hc hp

theorem pairwise_lt_count {l : List Req} (h : l.Pairwise Req.lt) (r : Req) : l.count r ≤ 1 := by
  induction l with
  | nil => simp
  | cons a l ih =>
    rw [List.pairwise_cons] at h
    rw [List.count_cons]
    split
    · rename_i e
      have e : a = r := by simpa using e
      have : l.count r = 0 := by
        rw [List.count_eq_zero]
        intro hm
        have := h.1 r hm
        subst e
        unfold Req.lt at this; omega
      omega
    · have := ih h.2; omega

/-- C03: an accepted request runs at most once; once its tick has passed it has run, unless it was withdrawn by a
cancel call made after it; before its tick has come it has not run. -/
theorem C03_no_loss_no_duplicate {cfg : Cfg} {H : St → Nat → List Call} {s : St} (h : Reach cfg H s)
    (hp : s.pc = .idle) {pre post : List Obs} {r : Req} {now rel : Nat}
    (hs : s.trace = pre ++ .accept r now rel :: post) :
    (fires s.trace).count r ≤ 1 ∧
    (r.due < s.tick → r ∈ fires post ∨ ∃ o ∈ post, o.covers r = true) ∧
    (s.tick ≤ r.due → r ∉ fires s.trace) := by
  obtain ⟨k, I, _⟩ := h.inv
  have hna : s.pc ≠ .aborted := by simp [hp]
  refine ⟨pairwise_lt_count I.firesSorted r, ?_, ?_⟩
  · intro hd
    apply Classical.byContradiction
    intro hc
    rw [not_or] at hc
    have : r ∈ pending s.trace := mem_pending_iff.2 ⟨pre, now, rel, post, hs, hc.1, by
      intro o ho
      cases ho' : o.covers r with
      | false => rfl
      | true => exact absurd ⟨o, ho, ho'⟩ hc.2⟩
    have := I.pending_due hna this
    omega
  · intro hd hf
    have := (I.fired_due hna hf).2 hp
    omega

/-- C03: nothing runs that was not requested before, or that was withdrawn, or that has run already. -/
theorem C03_fired_was_waiting {cfg : Cfg} {H : St → Nat → List Call} {s : St} (h : Reach cfg H s)
    {pre post : List Obs} {r : Req} {t : Nat} (hs : s.trace = pre ++ .fire r t :: post) :
    ∃ p1 now rel p2, pre = p1 ++ .accept r now rel :: p2 ∧ r ∉ fires p2 ∧ ∀ o ∈ p2, o.covers r = false := by
  obtain ⟨k, I, _⟩ := h.inv
  exact mem_pending_iff.1 (I.valid pre r t post hs).1

example : (demo 100).pc = .idle ∧ (demo 100).tick = 10 ∧ (fires (demo 100).trace).length = 6 ∧
    pending (demo 100).trace = [] := by decide +kernel

/-! ### C04 -/

/-- C04: while the handler of `e` runs, scheduling `e'` without delay is refused exactly when the group of `e'` comes
before the group of `e` (or does not exist); a refused call changes nothing. -/
theorem C04_backwards_rejected {cfg : Cfg} {H : St → Nat → List Call} {s : St} (h : Reach cfg H s)
    (hp : s.pc = .firing) {q : Quantum} {qs : List Quantum} (hq : s.queue = q :: qs) {x : Entry} {e : Nat}
    (hx : (q.groups s.grp)[s.idx]? = some x) (he : x.ev = some (.user e)) (tr : List Obs) (e' : Nat) (c u : Bool) :
    (({ s with trace := tr } : St).scheduleEv cfg (.user e') 0 c u = none ↔
      cfg.fg e' < cfg.fg e ∨ ¬ cfg.fg e' < cfg.nGroups) ∧
    (({ s with trace := tr } : St).scheduleEv cfg (.user e') 0 c u = none →
      ({ s with trace := tr } : St).exec cfg (.schedule e' 0 c u) = { s with trace := tr }) := by
  obtain ⟨k, I, hk⟩ := h.inv
  obtain rfl := hk hp
  have hg := I.own q (by simp [hq]) s.grp x (List.mem_of_getElem? hx) _ he
  simp only [Cfg.fgEv] at hg
  constructor
  · unfold St.scheduleEv
    simp only [Cfg.fgEv, true_and]
    rw [hg]
    split
    · rename_i h1; simp [h1]
    · rename_i h1
      by_cases h2 : cfg.fg e' < cfg.nGroups
      · simp [h1, h2]
      · simp [h2]
  · intro hn
    simp [St.exec, hn]

/-- C04: a request that is not refused (and not merged into one already waiting) is waiting afterwards, for the right
tick; by C03 it then runs in that tick unless it is withdrawn. -/
theorem C04_accepted_waits {cfg : Cfg} {s s' : St} {e rel : Nat} {c : Bool}
    (h : s.scheduleEv cfg (.user e) rel c false = some s') :
    ∃ r ∈ pending s'.trace, r.ev = .user e ∧ r.due = s.tick + rel ∧ r.grp = cfg.fg e ∧ r.cont = c := by
  unfold St.scheduleEv at h
  simp only at h
  split at h
  · cases h
  split at h
  · cases h
  cases h
  refine ⟨⟨s.rid, .user e, s.tick + rel, cfg.fg e, c⟩, ?_, rfl, rfl, rfl, rfl⟩
  unfold St.enqueue St.noteCont
  cases c <;> simp [pending_snoc, pendStep, Cfg.fgEv]

/-- C04: with a delay nothing is refused (for events whose group exists). -/
theorem C04_delayed_always_accepted {cfg : Cfg} {s : St} {e rel : Nat} {c u : Bool} (hr : rel ≠ 0)
    (hg : cfg.fg e < cfg.nGroups) : ∃ s', s.scheduleEv cfg (.user e) rel c u = some s' := by
  unfold St.scheduleEv
  simp [hr, Cfg.fgEv, hg]

/-- in the demo, event 1 is firing and may not schedule event 0 without delay, but may schedule event 2 -/
example : (demo 4).pc = .firing ∧ (demo 4).grp = 3 ∧ ((demo 4).scheduleEv demoCfg (.user 0) 0 true false).isNone = true ∧
    ((demo 4).scheduleEv demoCfg (.user 2) 0 true false).isSome = true := by decide +kernel

/-- C04 fails after an exception: the documented recovery (`stopRunning(); restartAt(1)`) leaves
`current_group_firing_` as it was, so an event of a smaller group cannot be scheduled for the current tick although
nothing is being fired (the code even dereferences the null `current_tick_quantum_` for its message). -/
theorem C04_after_recovery_violated : ∃ (cfg : Cfg) (H : St → Nat → List Call) (s : St), Reach cfg H s ∧ s.pc = .idle ∧
    s.queue.length = 0 ∧ cfg.fg 0 < cfg.nGroups ∧ (s.scheduleEv cfg (.user 0) 0 true false).isNone = true := by
  refine ⟨⟨fun e => e + 1, 4⟩, fun _ _ => [.throw],
    (iter ⟨fun e => e + 1, 4⟩ (fun _ _ => [.throw]) 2
      ((St.init.exec ⟨fun e => e + 1, 4⟩ (.schedule 3 0 true false)).startRun ⟨fun e => e + 1, 4⟩ none false)).recover 1,
    .recover 1 (Reach.iter 2 (.run none false (.call _ .init rfl) rfl)) (by decide +kernel), rfl, rfl, by decide, by decide +kernel⟩

/-! ### C05 -/

/-- C05: a request withdrawn by a cancel call never runs. -/
theorem C05_cancelled_never_fires {cfg : Cfg} {H : St → Nat → List Call} {s : St} (h : Reach cfg H s)
    {pre post : List Obs} {o : Obs} {r : Req} {now rel t : Nat} (hs : s.trace = pre ++ o :: post) (hc : o.covers r = true)
    (hr : .accept r now rel ∈ pre) : .fire r t ∉ post := by
  obtain ⟨k, I, _⟩ := h.inv
  intro hm
  obtain ⟨m1, m2, e⟩ := List.append_of_mem hm
  obtain ⟨p1, n', l', p2, e1, h2, h3⟩ :=
    mem_pending_iff.1 (I.valid (pre ++ o :: m1) r t m2 (by simp [hs, e])).1
  obtain ⟨a1, a2, e2⟩ := List.append_of_mem hr
  -- the acceptance of `r` is unique, so it lies in `pre`, and `o` lies after it
  have hlen : p1.length < pre.length := by
    apply Classical.byContradiction
    intro hge
    have hlen2 : pre.length ≤ p1.length := by omega
    have hp1 : p1 = pre ++ p1.drop pre.length := by
      have h4 : (pre ++ o :: m1).take pre.length = pre := by simp
      rw [e1, List.take_append_of_le_length hlen2] at h4
      calc p1 = p1.take pre.length ++ p1.drop pre.length := (List.take_append_drop ..).symm
        _ = _ := by rw [h4]
    have hsplit : s.trace = p1 ++ .accept r n' l' :: (p2 ++ .fire r t :: m2) := by
      rw [hs, e]
      have := congrArg (· ++ Obs.fire r t :: m2) e1
      simpa using this
    have := (I.accOk p1 r n' l' (p2 ++ .fire r t :: m2) hsplit).2.2.1 r now rel (by rw [hp1]; simp [hr])
    omega
  have ho : o ∈ p2 := by
    have h5 : (pre ++ o :: m1)[pre.length]? = some o := by simp
    rw [e1, List.getElem?_append_right (by omega)] at h5
    obtain ⟨d, hd⟩ : ∃ d, pre.length - p1.length = d + 1 := ⟨pre.length - p1.length - 1, by omega⟩
    rw [hd] at h5
    simp only [List.getElem?_cons_succ] at h5
    exact List.mem_of_getElem? h5
  have := h3 o ho
  rw [hc] at this; cases this

/-- C05: `cancelEvent(e)` withdraws exactly the waiting requests of `e`, `cancelEvent(e, rel)` exactly those due
`rel` ticks from now; every other request keeps waiting (and, by C03, runs). -/
theorem C05_cancel_withdraws_only_that_event (cfg : Cfg) (s : St) (e rel : Nat) (r : Req) :
    (r ∈ pending (s.exec cfg (.cancel e)).trace ↔ r ∈ pending s.trace ∧ r.ev ≠ .user e) ∧
    (r ∈ pending (s.exec cfg (.cancelAt e rel)).trace ↔
      r ∈ pending s.trace ∧ ¬ (r.ev = .user e ∧ r.due = s.tick + rel)) ∧
    (r ∈ pending (s.exec cfg (.cancelAsync e)).trace ↔ r ∈ pending s.trace ∧ r.ev ≠ .user e) := by
  refine ⟨?_, ?_, ?_⟩
  · simp [St.exec, St.cancel, pending_snoc, pendStep, Obs.covers]
  · simp only [St.exec, St.cancelAt, pending_snoc, pendStep, Obs.covers, List.mem_filter]
    simp
    intro _
    constructor
    · rintro (h | h) h'
      · exact absurd h' h
      · exact h
    · intro h
      by_cases h' : r.ev = .user e
      · exact Or.inr (h h')
      · exact Or.inl h'
  · simp [St.exec, St.cancel, St.cancelAsync, pending_snoc, pendStep, Obs.covers]

/-- cancelling the second of two waiting events: only the first one runs -/
example :
    let s0 := ((St.init.exec demoCfg (.schedule 2 1 true false)).exec demoCfg (.schedule 3 1 true false)).exec demoCfg (.cancel 3)
    let s := iter demoCfg demoH 100 (s0.startRun demoCfg (some 10) true)
    s.pc = .idle ∧ (fires s.trace).map (·.ev) = [.user 2, .stop] := by decide +kernel

/-! ### C06, C07 -/

/-- C06: a run of exactly `n` ticks that is not interrupted by `stopRunning` advances the clock by `n`, runs everything
due in those ticks, and runs nothing else.  `_partial`: assumes that no stop request of an earlier run is still waiting,
see `C06_exact_run_violated`. -/
theorem C06_exact_run_partial {cfg : Cfg} {H : St → Nat → List Call} {s0 s : St} (h0 : Reach cfg H s0)
    (hp : s0.pc = .idle) (hH : ∀ s e, Call.stop ∉ H s e) (hns : ∀ r ∈ pending s0.trace, r.ev ≠ .stop) (n : Nat)
    (h : During cfg H s0 (some n) true s) (hret : s.pc = .idle) :
    s.tick = s0.tick + n ∧ (∀ r ∈ pending s.trace, s0.tick + n ≤ r.due) ∧
    (∀ r ∈ fires s.trace, r.due < s0.tick + n) := by
  have ht : s.tick = s0.tick + n := by
    by_cases hw : n = 0 ∨ s0.nothingWithin n = true
    · simpa using (h.immediate hp hw).1
    · rw [not_or] at hw
      have j := J.during h0 hp hH hns (n := some n) (ex := true) (by simp [hw.1])
        (by intro m hm; cases hm; simpa using hw.2) h
      simp only [J, hret, Ended, Option.map_some, Option.some.injEq] at j
      rcases j with ⟨t, h1, h2⟩ | ⟨_, h2⟩
      · omega
      · have := (h2 _ rfl).2; cases this
  obtain ⟨k, I, _⟩ := (h.reach h0 hp).inv
  have hna : s.pc ≠ .aborted := by simp [hret]
  refine ⟨ht, fun r hr => ht ▸ I.pending_due hna hr, fun r hr => ht ▸ (I.fired_due hna hr).2 hret⟩

/-- the demo's `run(10, true)` -/
example : (∀ s e, Call.stop ∉ demoH s e) ∧ (∀ r ∈ pending demo0.trace, r.ev ≠ .stop) ∧
    During demoCfg demoH demo0 (some 10) true (demo 100) ∧ (demo 100).pc = .idle ∧ (demo 100).tick = 10 := by
  refine ⟨?_, by decide, During.iter 100 .start, by decide +kernel, by decide +kernel⟩
  intro s e; unfold demoH; split <;> (try split) <;> simp

/-- C06 fails: `run(10)` that ends early because no continuing event is left leaves its stop event in the queue; the
next `run(20, true)` is cut short by it and advances the clock by 9 instead of 20.  No handler calls `stopRunning`. -/
theorem C06_exact_run_violated : ∃ (cfg : Cfg) (H : St → Nat → List Call) (s0 s : St), Reach cfg H s0 ∧ s0.pc = .idle ∧
    (∀ s e, Call.stop ∉ H s e) ∧ During cfg H s0 (some 20) true s ∧ s.pc = .idle ∧ s0.tick = 1 ∧ s.tick = 10 := by
  refine ⟨demoCfg, fun _ _ => [],
    iter demoCfg (fun _ _ => []) 30 ((St.init.exec demoCfg (.schedule 0 0 true false)).startRun demoCfg (some 10) false),
    iter demoCfg (fun _ _ => []) 60 ((iter demoCfg (fun _ _ => []) 30
      ((St.init.exec demoCfg (.schedule 0 0 true false)).startRun demoCfg (some 10) false)).startRun demoCfg (some 20) true),
    Reach.iter 30 (.run _ _ (.call _ .init rfl) rfl), by decide +kernel, by simp, During.iter 60 .start,
    by decide +kernel, by decide +kernel, by decide +kernel⟩

/-- C07: a run without limit returns only when no continuing event is waiting.  `_partial`: same assumption on stop
requests of earlier runs. -/
theorem C07_run_until_no_continuing_partial {cfg : Cfg} {H : St → Nat → List Call} {s0 s : St} (h0 : Reach cfg H s0)
    (hp : s0.pc = .idle) (hH : ∀ s e, Call.stop ∉ H s e) (hns : ∀ r ∈ pending s0.trace, r.ev ≠ .stop) (ex : Bool)
    (h : During cfg H s0 none ex s) (hret : s.pc = .idle) : ∀ r ∈ pending s.trace, r.cont = false := by
  have j := J.during h0 hp hH hns (n := none) (ex := ex) (by simp) (by simp) h
  simp only [J, hret, Ended, Option.map_none] at j
  rcases j with ⟨t, h1, _⟩ | ⟨h1, _⟩
  · cases h1
  · exact h1

/-- C07: a run limited to `n` ticks never goes beyond them, and every continuing event due in them has run (or was
withdrawn) when it returns. -/
theorem C07_limited_run_partial {cfg : Cfg} {H : St → Nat → List Call} {s0 s : St} (h0 : Reach cfg H s0)
    (hp : s0.pc = .idle) (hH : ∀ s e, Call.stop ∉ H s e) (hns : ∀ r ∈ pending s0.trace, r.ev ≠ .stop) (n : Nat) (ex : Bool)
    (h : During cfg H s0 (some n) ex s) (hret : s.pc = .idle) :
    s.tick ≤ s0.tick + n ∧ ∀ r ∈ pending s.trace, r.cont = true → s0.tick + n ≤ r.due := by
  obtain ⟨k0, I0, _⟩ := h0.inv
  obtain ⟨k, I, _⟩ := (h.reach h0 hp).inv
  have hna : s.pc ≠ .aborted := by simp [hret]
  by_cases hw : n = 0 ∨ s0.nothingWithin n = true
  · obtain ⟨h1, _, h2, h3, _⟩ := h.immediate hp hw
    refine ⟨by rw [h1]; split <;> omega, ?_⟩
    intro r hr _
    rw [h3] at hr
    obtain ⟨q, hq, e, _⟩ := (I0.agree r).1 hr
    rcases hw with rfl | hw
    · exact I0.pending_due (by simp [hp]) hr
    · unfold St.nothingWithin at hw
      cases hc : s0.queue with
      | nil => rw [hc] at hq; simp at hq
      | cons q0 qs =>
        rw [hc] at hw hq
        simp only [decide_eq_true_eq] at hw
        have := sorted_head_le (hc ▸ I0.sorted) q hq
        omega
  · rw [not_or] at hw
    have j := J.during h0 hp hH hns (n := some n) (ex := ex) (by simp [hw.1])
      (by intro m hm; cases hm; simpa using hw.2) h
    simp only [J, hret, Ended, Option.map_some, Option.some.injEq] at j
    rcases j with ⟨t, h1, h2⟩ | ⟨h1, h2⟩
    · refine ⟨by omega, fun r hr _ => ?_⟩
      have := I.pending_due hna hr; omega
    · refine ⟨?_, fun r hr hc => ?_⟩
      · have := (h2 _ rfl).1; omega
      · rw [h1 r hr] at hc; cases hc

/-- a run without limit: the continuing event at tick 4 runs, the non-continuing one at tick 8 does not -/
example :
    let s0 := (St.init.exec demoCfg (.schedule 2 4 true false)).exec demoCfg (.schedule 3 8 false false)
    let s := iter demoCfg demoH 100 (s0.startRun demoCfg none false)
    s.pc = .idle ∧ s.tick = 5 ∧ (fires s.trace).map (·.ev) = [.user 2] ∧ (pending s.trace).map (·.ev) = [.user 3] := by
  decide +kernel

/-- C07 fails in general, for the same reason as C06: here `run()` returns at tick 10 although a continuing event is
waiting for tick 50. -/
theorem C07_run_until_no_continuing_violated : ∃ (cfg : Cfg) (H : St → Nat → List Call) (s0 s : St), Reach cfg H s0 ∧
    s0.pc = .idle ∧ (∀ s e, Call.stop ∉ H s e) ∧ During cfg H s0 none false s ∧ s.pc = .idle ∧
    ∃ r ∈ pending s.trace, r.cont = true ∧ r.due = 50 := by
  refine ⟨demoCfg, fun _ _ => [],
    (iter demoCfg (fun _ _ => []) 30 ((St.init.exec demoCfg (.schedule 0 0 true false)).startRun demoCfg (some 10) false)).exec
      demoCfg (.schedule 0 49 true false),
    iter demoCfg (fun _ _ => []) 60 (((iter demoCfg (fun _ _ => []) 30
      ((St.init.exec demoCfg (.schedule 0 0 true false)).startRun demoCfg (some 10) false)).exec
      demoCfg (.schedule 0 49 true false)).startRun demoCfg none false),
    .call _ (Reach.iter 30 (.run _ _ (.call _ .init rfl) rfl)) (by decide +kernel), by decide +kernel, by simp,
    During.iter 60 .start, by decide +kernel, ⟨2, .user 0, 50, 2, true⟩, by decide +kernel, rfl, rfl⟩

/-! ### C59: unique events -/

theorem any_ev {l : List Entry} {ev : Ev} : l.any (fun x => x.ev == some ev) = true ↔
    ∃ (i rid : Nat) (c : Bool), l[i]? = some (Entry.mk rid (some ev) c) := by
  rw [List.any_eq_true]
  constructor
  · rintro ⟨⟨rid, e, c⟩, hm, he⟩
    obtain ⟨i, hi⟩ := List.getElem?_of_mem hm
    have : e = some ev := by simpa using he
    subst this
    exact ⟨i, rid, c, hi⟩
  · rintro ⟨i, rid, c, h⟩
    exact ⟨_, List.mem_of_getElem? h, by simp⟩

theorem groupAt_spec {l : List Quantum} (hs : l.Pairwise (fun a b => a.tick < b.tick)) (t g : Nat) :
    (∃ q ∈ l, q.tick = t ∧ groupAt t g l = q.groups g) ∨ ((∀ q ∈ l, q.tick ≠ t) ∧ groupAt t g l = []) := by
  induction l with
  | nil => right; simp [groupAt]
  | cons a l ih =>
    rw [List.pairwise_cons] at hs
    unfold groupAt
    by_cases h1 : a.tick = t
    · left; exact ⟨a, by simp, h1, by simp [h1]⟩
    · by_cases h2 : t < a.tick
      · right
        refine ⟨?_, by simp [h1, h2]⟩
        intro q hq
        rcases List.mem_cons.1 hq with rfl | h
        · exact h1
        · have := hs.1 q h; omega
      · simp only [h1, h2, if_false]
        rcases ih hs.2 with ⟨q, h3, h4, h5⟩ | ⟨h3, h4⟩
        · left; exact ⟨q, by simp [h3], h4, h5⟩
        · right
          refine ⟨?_, h4⟩
          intro q hq
          rcases List.mem_cons.1 hq with rfl | h
          · exact h1
          · exact h3 q h

theorem Inv.groupAt_waiting {cfg : Cfg} {s : St} {k : Nat} (I : Inv cfg s k) {ev : Ev} {t : Nat}
    (h : ∃ r ∈ pending s.trace, r.ev = ev ∧ r.due = t) :
    (groupAt t (cfg.fgEv ev) s.queue).any (fun x => x.ev == some ev) = true := by
  obtain ⟨r, hr, rfl, rfl⟩ := h
  obtain ⟨q, hq, e1, i, e2, _⟩ := (I.agree r).1 hr
  have hg := I.own q hq r.grp _ e2.mem r.ev rfl
  rcases groupAt_spec I.sorted r.due (cfg.fgEv r.ev) with ⟨q', h1, h2, h3⟩ | ⟨h1, _⟩
  · have : q' = q := pairwise_tick_inj I.sorted h1 hq (by omega)
    subst this
    rw [h3, any_ev]
    exact ⟨i, r.rid, r.cont, hg ▸ e2⟩
  · exact absurd e1 (h1 q hq)

theorem Inv.waiting_of_groupAt {cfg : Cfg} {s : St} (I : Inv cfg s 0) {ev : Ev} {t g : Nat}
    (h : (groupAt t g s.queue).any (fun x => x.ev == some ev) = true) : ∃ r ∈ pending s.trace, r.ev = ev ∧ r.due = t := by
  obtain ⟨i, rid, c, h1⟩ := any_ev.1 h
  rcases groupAt_spec I.sorted t g with ⟨q', h2, h3, h4⟩ | ⟨_, h2⟩
  · rw [h4] at h1
    exact ⟨⟨rid, ev, t, g, c⟩, (I.agree _).2 (InQ_zero.2 ⟨q', h2, h3, i, h1⟩), rfl, rfl⟩
  · rw [h2] at h1; simp at h1

/-- C59: requesting a unique event for a tick for which it is already waiting adds nothing (whether from a handler or
from outside). -/
theorem C59_unique_not_added_twice {cfg : Cfg} {H : St → Nat → List Call} {s : St} (h : Reach cfg H s) (e rel : Nat)
    (c : Bool) (hw : ∃ r ∈ pending s.trace, r.ev = .user e ∧ r.due = s.tick + rel) :
    (s.exec cfg (.schedule e rel c true)).trace = s.trace := by
  obtain ⟨k, I, _⟩ := h.inv
  have hg := I.groupAt_waiting hw
  simp only [St.exec, St.scheduleEv]
  split
  · rfl
  · split
    · rfl
    · simp only [Option.getD_some]
      rw [enqueue_noteCont_merged (by simpa using hg)]
      unfold St.noteCont
      split <;> rfl

/-- C59: outside of a run, it is added when it is not waiting for that tick. -/
theorem C59_unique_added_when_not_waiting {cfg : Cfg} {H : St → Nat → List Call} {s : St} (h : Reach cfg H s)
    (hp : s.pc = .idle) (e rel : Nat) (c : Bool) (hg : cfg.fg e < cfg.nGroups) (h0 : s.grp = 0)
    (hw : ¬ ∃ r ∈ pending s.trace, r.ev = .user e ∧ r.due = s.tick + rel) :
    ∃ r, (s.exec cfg (.schedule e rel c true)).trace = s.trace ++ [.accept r s.tick rel] ∧ r.ev = .user e ∧
      r.due = s.tick + rel := by
  obtain ⟨k, I, _⟩ := h.inv
  obtain rfl := I.idle_zero hp
  have hn : (groupAt (s.tick + rel) (cfg.fg e) s.queue).any (fun x => x.ev == some (.user e)) = false := by
    cases hc : (groupAt (s.tick + rel) (cfg.fg e) s.queue).any (fun x => x.ev == some (.user e)) with
    | false => rfl
    | true => exact absurd (I.waiting_of_groupAt hc) hw
  refine ⟨⟨s.rid, .user e, s.tick + rel, cfg.fg e, c⟩, ?_, rfl, rfl⟩
  simp only [St.exec, St.scheduleEv, Cfg.fgEv, h0, Nat.not_lt_zero, and_false, if_false, hg, not_true_eq_false,
    Option.getD_some, St.enqueue, St.noteCont]
  simp only [hn, Bool.and_false, Bool.false_eq_true, if_false]
  split <;> rfl

/-- requested twice for tick 3, the unique event runs once -/
example :
    let s0 := (St.init.exec demoCfg (.schedule 2 3 true true)).exec demoCfg (.schedule 2 3 true true)
    let s := iter demoCfg demoH 100 (s0.startRun demoCfg none false)
    s.pc = .idle ∧ (fires s.trace).map (fun r => (r.ev, r.due)) = [(.user 2, 3)] := by decide +kernel

/-- C59 in the stronger reading "a unique event runs at most once per tick" fails: event 5 (group 6) runs, the next
event of its group cancels it and schedules it again, and it runs a second time in the same tick. -/
theorem C59_unique_once_per_tick_violated : ∃ (cfg : Cfg) (H : St → Nat → List Call) (s : St), Reach cfg H s ∧
    (∀ s e x r c u, Call.schedule x r c u ∈ H s e → u = true) ∧
    ∃ r r', r ≠ r' ∧ r ∈ fires s.trace ∧ r' ∈ fires s.trace ∧ r.ev = .user 5 ∧ r'.ev = .user 5 ∧ r.due = r'.due := by
  refine ⟨⟨fun _ => 1, 1⟩, fun _ e => if e = 6 then [.cancel 5, .schedule 5 0 true true] else [],
    iter ⟨fun _ => 1, 1⟩ (fun _ e => if e = 6 then [.cancel 5, .schedule 5 0 true true] else []) 20
      (((St.init.exec ⟨fun _ => 1, 1⟩ (.schedule 5 0 true true)).exec ⟨fun _ => 1, 1⟩ (.schedule 6 0 true true)).startRun
        ⟨fun _ => 1, 1⟩ none false),
    Reach.iter 20 (.run _ _ (.call _ (.call _ .init rfl) rfl) rfl), ?_,
    ⟨0, .user 5, 0, 2, true⟩, ⟨2, .user 5, 0, 2, true⟩, by decide, by decide +kernel, by decide +kernel, rfl, rfl, rfl⟩
  intro s e x r c u h
  dsimp only at h
  split at h
  · simp at h; exact h.2.2.2
  · simp at h

/-! ### C60: queries -/

/-- C60: outside of a run `isScheduled` tells exactly whether the event is waiting (at all, or for that tick). -/
theorem C60_is_scheduled {cfg : Cfg} {H : St → Nat → List Call} {s : St} (h : Reach cfg H s) (hp : s.pc = .idle)
    (e rel : Nat) :
    (s.isScheduled cfg e = true ↔ ∃ r ∈ pending s.trace, r.ev = .user e) ∧
    (s.isScheduledAt cfg e rel = true ↔ ∃ r ∈ pending s.trace, r.ev = .user e ∧ r.due = s.tick + rel) := by
  obtain ⟨k, I, _⟩ := h.inv
  obtain rfl := I.idle_zero hp
  constructor
  · unfold St.isScheduled
    rw [List.any_eq_true]
    constructor
    · rintro ⟨q, hq, hx⟩
      obtain ⟨i, rid, c, h1⟩ := any_ev.1 hx
      exact ⟨⟨rid, .user e, q.tick, cfg.fg e, c⟩, (I.agree _).2 (InQ_zero.2 ⟨q, hq, rfl, i, h1⟩), rfl⟩
    · rintro ⟨r, hr, he⟩
      obtain ⟨q, hq, e1, i, e2⟩ := InQ_zero.1 ((I.agree r).1 hr)
      have hg := I.own q hq r.grp _ e2.mem r.ev rfl
      rw [he] at hg e2
      rw [hg] at e2
      exact ⟨q, hq, any_ev.2 ⟨i, r.rid, r.cont, e2⟩⟩
  · exact ⟨fun hh => I.waiting_of_groupAt hh, fun hh => I.groupAt_waiting hh⟩

/-- C60: inside a handler `isScheduled` still never misses a waiting event. -/
theorem C60_is_scheduled_in_handler_partial {cfg : Cfg} {H : St → Nat → List Call} {s : St} (h : Reach cfg H s) (e rel : Nat)
    (hw : ∃ r ∈ pending s.trace, r.ev = .user e ∧ r.due = s.tick + rel) :
    s.isScheduledAt cfg e rel = true ∧ s.isScheduled cfg e = true := by
  obtain ⟨k, I, _⟩ := h.inv
  refine ⟨I.groupAt_waiting hw, ?_⟩
  obtain ⟨r, hr, he, hd⟩ := hw
  obtain ⟨q, hq, e1, i, e2, _⟩ := (I.agree r).1 hr
  have hg := I.own q hq r.grp _ e2.mem r.ev rfl
  rw [he] at hg e2
  rw [hg] at e2
  unfold St.isScheduled
  rw [List.any_eq_true]
  exact ⟨q, hq, any_ev.2 ⟨i, r.rid, r.cont, e2⟩⟩

/-- C60 inside a handler: `isScheduled` also says yes for an event that has just run and is not waiting. -/
theorem C60_is_scheduled_in_handler_violated : ∃ (cfg : Cfg) (H : St → Nat → List Call) (s : St), Reach cfg H s ∧
    s.pc = .firing ∧ pending s.trace = [] ∧ s.isScheduled cfg 0 = true :=
  ⟨demoCfg, fun _ _ => [], iter demoCfg (fun _ _ => []) 2
    ((St.init.exec demoCfg (.schedule 0 0 true false)).startRun demoCfg none false),
    Reach.iter 2 (.run _ _ (.call _ .init rfl) rfl), by decide +kernel, by decide +kernel, by decide +kernel⟩

/-- C60: outside of a run nothing is waiting for a tick before `nextEventTick`, and INDEFINITE means that nothing is
waiting. -/
theorem C60_next_event_tick {cfg : Cfg} {H : St → Nat → List Call} {s : St} (h : Reach cfg H s) (hp : s.pc = .idle) :
    (s.nextEventTick = none → pending s.trace = []) ∧
    ∀ t, s.nextEventTick = some t → s.tick ≤ t ∧ ∀ r ∈ pending s.trace, t ≤ r.due := by
  obtain ⟨k, I, _⟩ := h.inv
  have ph := I.phase
  simp only [Phase, hp] at ph
  unfold St.nextEventTick
  cases hq : s.queue with
  | nil =>
    refine ⟨fun _ => ?_, by simp⟩
    apply List.eq_nil_iff_forall_not_mem.2
    intro r hr
    obtain ⟨q, h1, _⟩ := (I.agree r).1 hr
    rw [hq] at h1; simp at h1
  | cons q qs =>
    refine ⟨by simp, ?_⟩
    intro t ht
    simp at ht; subst ht
    refine ⟨ph.2.1 q (by simp [hq]), ?_⟩
    intro r hr
    obtain ⟨q', h1, h2, _⟩ := (I.agree r).1 hr
    rw [← h2]
    exact sorted_head_le (hq ▸ I.sorted) q' (hq ▸ h1)

example : demo0.isScheduled demoCfg 3 = true ∧ demo0.isScheduledAt demoCfg 3 6 = false ∧ demo0.nextEventTick = some 5 := by
  decide

/-! ### C61: elapsed ticks -/

/-- where the elapsed tick count stands -/
def Trailing (s : St) : Prop :=
  match s.pc with
  | .idle => s.elapsed = s.tick - 1
  | .loop => s.elapsed ≤ s.tick
  | .firing => s.elapsed = s.tick
  | .aborted => True

theorem exec_elapsed (cfg : Cfg) (s : St) (c : Call) :
    (s.exec cfg c).elapsed = s.elapsed ∧ (s.exec cfg c).tick = s.tick ∧ (s.exec cfg c).pc = s.pc := by
  cases c with
  | schedule e rel cont uniq =>
    simp only [St.exec]
    cases h : s.scheduleEv cfg (.user e) rel cont uniq with
    | none => exact ⟨rfl, rfl, rfl⟩
    | some s' =>
      have := schedule_fields h
      exact ⟨this.2.2.2.2.2.2.1, this.1, this.2.2.1⟩
  | _ => exact ⟨rfl, rfl, rfl⟩

theorem execAll_elapsed (cfg : Cfg) (s : St) (cs : List Call) :
    (s.execAll cfg cs).elapsed = s.elapsed ∧ (s.execAll cfg cs).tick = s.tick ∧
    ((s.execAll cfg cs).pc = s.pc ∨ (s.execAll cfg cs).pc = .aborted) := by
  induction cs generalizing s with
  | nil => exact ⟨rfl, rfl, Or.inl rfl⟩
  | cons c cs ih =>
    by_cases ht : c = .throw
    · subst ht; exact ⟨rfl, rfl, Or.inr rfl⟩
    · have : s.execAll cfg (c :: cs) = (s.exec cfg c).execAll cfg cs := by
        cases c <;> first | rfl | exact absurd rfl ht
      rw [this]
      have h1 := exec_elapsed cfg s c
      have h2 := ih (s.exec cfg c)
      rw [h1.1, h1.2.1, h1.2.2] at h2
      exact h2

theorem drain_elapsed {cfg : Cfg} {as : List Async} {s : St} :
    (∀ s', s.drainAsync cfg as = some s' → s'.elapsed = s.elapsed ∧ s'.tick = s.tick ∧ s'.pc = s.pc) ∧
    (s.drainAsync cfg as = none → (s.drainStuck cfg as).pc = .aborted) := by
  induction as generalizing s with
  | nil => exact ⟨fun s' h => by cases h; exact ⟨rfl, rfl, rfl⟩, fun h => by cases h⟩
  | cons a as ih =>
    unfold St.drainAsync St.drainStuck
    cases hs : s.scheduleEv cfg (.user a.e) a.rel a.cont false with
    | none => exact ⟨fun s' h => (by cases h), fun _ => rfl⟩
    | some s1 =>
      have hf := schedule_fields hs
      have h2 := ih (s := s1)
      rw [hf.1, hf.2.2.1, hf.2.2.2.2.2.2.1] at h2
      exact h2

theorem Trailing.micro {cfg : Cfg} {H : St → Nat → List Call} {s : St} {k : Nat} (I : Inv cfg s k) (h : Trailing s)
    (seen : Bool) : Trailing (s.micro cfg H seen) := by
  have ph := I.phase
  cases hp : s.pc with
  | idle => simpa [St.micro, hp] using h
  | aborted => simpa [St.micro, hp] using h
  | loop =>
    simp only [Trailing, hp] at h
    simp only [Phase, hp] at ph
    simp only [St.micro, hp]
    split
    · cases hq : s.queue with
      | nil => simp [Trailing]
      | cons q qs =>
        have hle := ph.2.1 q (by simp [hq])
        have h1 : (s.enterQuantum q).elapsed = (s.enterQuantum q).tick := by
          simp only [St.enterQuantum, dist]; omega
        simp only
        unfold St.beginQuantum
        have hd := drain_elapsed (cfg := cfg) (as := (s.enterQuantum q).async) (s := s.enterQuantum q)
        simp only
        split
        · split
          · rename_i s2 hs
            obtain ⟨a1, a2, a3⟩ := hd.1 s2 hs
            have a3' : s2.pc = .firing := a3
            simp only [Trailing, a3']
            omega
          · rename_i hs
            simp only [Trailing, hd.2 hs]
        · exact h1
    · simp only [Trailing, St.finish, dist]; omega
  | firing =>
    simp only [Trailing, hp] at h
    simp only [Phase, hp] at ph
    obtain ⟨q, qs, hq, _⟩ := ph
    simp only [St.micro, hp, hq]
    split
    · split
      · rename_i x hx
        have key : ∀ s' : St, s'.elapsed = s.elapsed → s'.tick = s.tick → (s'.pc = .firing ∨ s'.pc = .aborted) →
            Trailing { s' with idx := s.idx + 1 } := by
          intro s' a1 a2 a3
          rcases a3 with a3 | a3
          · simp only [Trailing, a3]; omega
          · simp only [Trailing, a3]
        unfold St.fireEntry
        split
        · exact key _ rfl rfl (Or.inl hp)
        · exact key _ rfl rfl (Or.inl hp)
        · simp only
          have hh := execAll_elapsed cfg { s with trace := s.trace ++ [.fire ⟨x.rid, .user ‹_›, s.tick, s.grp, x.cont⟩ s.tick] }
            (H { s with trace := s.trace ++ [.fire ⟨x.rid, .user ‹_›, s.tick, s.grp, x.cont⟩ s.tick] } ‹_›)
          refine key _ hh.1 hh.2.1 ?_
          rcases hh.2.2 with h | h
          · exact Or.inl (h.trans hp)
          · exact Or.inr h
      · simp only [Trailing]; exact h
    · unfold St.endQuantum
      cases qs with
      | nil => simp only [Trailing, St.finish, dist]; omega
      | cons q' qs' =>
        simp only
        split
        · simp only [Trailing, St.finish, dist]; omega
        · simp only [Trailing]; omega

/-- C61: as documented, the elapsed tick count equals the current tick while handlers run and is one behind it after a
run, given that it was one behind it (or both were 0) before.  `_partial`: `restartAt` breaks this, see below. -/
theorem C61_elapsed_ticks_partial {cfg : Cfg} {H : St → Nat → List Call} {s0 s : St} (h0 : Reach cfg H s0)
    (hp : s0.pc = .idle) (ht : s0.elapsed = s0.tick - 1) {n : Option Nat} {ex : Bool} (h : During cfg H s0 n ex s) :
    (s.pc = .idle → s.elapsed = s.tick - 1) ∧ (s.pc = .firing → s.elapsed = s.tick) := by
  suffices hh : Trailing s by
    unfold Trailing at hh
    constructor <;> intro hc <;> rw [hc] at hh <;> exact hh
  induction h with
  | start =>
    have h0' : s0.elapsed ≤ s0.tick := by omega
    unfold St.startRun
    split
    · simp only [Trailing, hp]; exact ht
    · cases n with
      | none => simp only [Trailing]; exact h0'
      | some n =>
        simp only
        split
        · split
          · simp only [Trailing, hp, dist]
            rename_i hn _ _
            have : n ≠ 0 := by rintro rfl; exact hn rfl
            omega
          · simp only [Trailing, hp]; exact ht
        · cases hs : St.scheduleEv cfg { s0 with firstTick := false, running := !s0.queue.isEmpty } .stop (n - 1) ex false with
          | none => simp only [Trailing, Option.getD_none]; exact h0'
          | some s2 =>
            have hf := schedule_fields hs
            simp only [Trailing, Option.getD_some]
            rw [hf.1, hf.2.2.2.2.2.2.1]; exact h0'
  | micro seen hd ih =>
    obtain ⟨k, I, _⟩ := (hd.reach h0 hp).inv
    exact ih.micro I seen
  | async a _ ih => exact ih

/-- documented example: after `run(10, true)` the current tick is 10 and 9 ticks have elapsed -/
example : (demo 100).tick = 10 ∧ (demo 100).elapsed = 9 ∧ demo0.elapsed = demo0.tick - 1 := by decide +kernel

/-- C61 fails after `restartAt(5)` of a scheduler that has run: an event at the current tick 5 runs with 7 elapsed
ticks. -/
theorem C61_elapsed_ticks_violated : ∃ (cfg : Cfg) (H : St → Nat → List Call) (s : St), Reach cfg H s ∧
    s.pc = .firing ∧ s.tick = 5 ∧ s.elapsed = 7 := by
  refine ⟨demoCfg, fun _ _ => [], iter demoCfg (fun _ _ => []) 1
    ((((St.init.startRun demoCfg (some 10) true).restartAt 5).exec demoCfg (.schedule 0 0 true false)).startRun demoCfg none false),
    Reach.iter 1 (.run _ _ (.call _ (.restart 5 (.run _ _ .init rfl) (by decide)) (by decide)) (by decide)),
    by decide +kernel, by decide +kernel, by decide +kernel⟩

/-! ### C62: restart and clear -/

/-- C62: after `clearEvents` or `restartAt` nothing is waiting, `isFinished` holds and no event is scheduled; `restartAt`
sets the clock. -/
theorem C62_restart_forgets (cfg : Cfg) (s : St) (t e : Nat) :
    pending s.clearEvents.trace = [] ∧ s.clearEvents.finished = true ∧ s.clearEvents.isScheduled cfg e = false ∧
    s.clearEvents.tick = s.tick ∧
    pending (s.restartAt t).trace = [] ∧ (s.restartAt t).isScheduled cfg e = false ∧ (s.restartAt t).tick = t ∧
    (s.restartAt t).nextEventTick = none := by
  refine ⟨?_, rfl, rfl, rfl, rfl, rfl, rfl, rfl⟩
  simp only [St.clearEvents, pending_snoc, pendStep_clear]

/-- C62: what was waiting when `clearEvents` was called never runs. -/
theorem C62_cleared_never_fires {cfg : Cfg} {H : St → Nat → List Call} {s : St} (h : Reach cfg H s)
    {pre post : List Obs} {r : Req} {now rel t : Nat} (hs : s.trace = pre ++ .clear :: post)
    (hr : .accept r now rel ∈ pre) : .fire r t ∉ post :=
  C05_cancelled_never_fires h hs rfl hr

example : pending demo0.trace ≠ [] ∧ demo0.clearEvents.isScheduled demoCfg 3 = false := by decide

/-! ### C64: requests from other threads -/

/-- `rs` are the requests `as` as accepted at tick `now` -/
inductive Delivered (now : Nat) : List Async → List Obs → Prop
  | nil : Delivered now [] []
  | cons {as obs} (a : Async) (rid grp : Nat) : Delivered now as obs →
      Delivered now (a :: as) (.accept ⟨rid, .user a.e, now + a.rel, grp, a.cont⟩ now a.rel :: obs)

theorem drain_delivered {cfg : Cfg} {as : List Async} {s s' : St} (h : s.drainAsync cfg as = some s') :
    s'.tick = s.tick ∧ ∃ obs, Delivered s.tick as obs ∧ s'.trace = s.trace ++ obs := by
  induction as generalizing s with
  | nil => cases h; exact ⟨rfl, [], .nil, by simp⟩
  | cons a as ih =>
    unfold St.drainAsync at h
    split at h
    · cases h
    · rename_i s1 hs
      have hf := schedule_fields hs
      obtain ⟨e1, obs, e2, e3⟩ := ih h
      obtain ⟨r, h1, h2, h3, h4⟩ : ∃ r : Req, s1.trace = s.trace ++ [.accept r s.tick a.rel] ∧ r.ev = .user a.e ∧
          r.due = s.tick + a.rel ∧ r.cont = a.cont := by
        unfold St.scheduleEv at hs
        simp only at hs
        split at hs
        · cases hs
        split at hs
        · cases hs
        cases hs
        refine ⟨⟨s.rid, .user a.e, s.tick + a.rel, cfg.fgEv (.user a.e), a.cont⟩, ?_, rfl, rfl, rfl⟩
        unfold St.noteCont
        split <;> simp [St.enqueue]
      obtain ⟨rid, ev, due, grp, c⟩ := r
      simp only at h2 h3 h4
      subst h2 h3 h4
      refine ⟨e1.trans hf.1, _, .cons a rid grp (hf.1 ▸ e2), ?_⟩
      rw [e3, h1]; simp

theorem drain_ok {cfg : Cfg} {as : List Async} {s : St} (h : ∀ a ∈ as, cfg.fg a.e < cfg.nGroups)
    (h0 : ∀ a ∈ as, a.rel = 0 → s.grp ≤ cfg.fg a.e) : s.drainAsync cfg as ≠ none := by
  induction as generalizing s with
  | nil => simp [St.drainAsync]
  | cons a as ih =>
    unfold St.drainAsync
    split
    · rename_i hs
      have h1 := h a (by simp)
      have h2 := h0 a (by simp)
      have h3 : ¬ (a.rel = 0 ∧ cfg.fg a.e < s.grp) := fun hc => by have := h2 hc.1; omega
      simp [St.scheduleEv, Cfg.fgEv, h1, h3] at hs
    · rename_i s1 hs
      exact ih (fun x hx => h x (by simp [hx])) (fun x hx => (schedule_fields hs).2.1 ▸ h0 x (by simp [hx]))

/-- C64: when a tick begins, the requests made by other threads (if this thread sees them) are accepted in the order in
which they were made, relative to that tick, each exactly once, and nothing stays behind to be delivered again; unless
one of them is a zero-delay request for a group that comes before the groups of that tick. -/
theorem C64_async_delivered_once_partial {cfg : Cfg} {H : St → Nat → List Call} {s : St} {q : Quantum} {qs : List Quantum}
    (hp : s.pc = .loop) (hr : s.running = true) (hq : s.queue = q :: qs) (hg : ∀ a ∈ s.async, cfg.fg a.e < cfg.nGroups)
    (h0 : ∀ a ∈ s.async, a.rel = 0 → q.first ≤ cfg.fg a.e) :
    (s.micro cfg H true).async = [] ∧
    ∃ obs, Delivered q.tick s.async obs ∧ (s.micro cfg H true).trace = s.trace ++ obs := by
  simp only [St.micro, hp, hr, hq, if_true, St.beginQuantum]
  cases hd : (s.enterQuantum q).drainAsync cfg (s.enterQuantum q).async with
  | none => exact absurd hd (drain_ok hg h0)
  | some s2 =>
    obtain ⟨_, obs, h1, h2⟩ := drain_delivered hd
    exact ⟨rfl, obs, h1, h2⟩

theorem exec_async (cfg : Cfg) (s : St) (c : Call) (h : ∀ e, c ≠ .cancelAsync e) : (s.exec cfg c).async = s.async := by
  cases c with
  | schedule e rel cont uniq =>
    simp only [St.exec]
    cases hs : s.scheduleEv cfg (.user e) rel cont uniq with
    | none => rfl
    | some s' => exact (schedule_fields hs).2.2.2.2.2.1
  | cancelAsync e => exact absurd rfl (h e)
  | _ => rfl

theorem execAll_async (cfg : Cfg) (s : St) (cs : List Call) (h : ∀ e, Call.cancelAsync e ∉ cs) :
    (s.execAll cfg cs).async = s.async := by
  induction cs generalizing s with
  | nil => rfl
  | cons c cs ih =>
    by_cases ht : c = .throw
    · subst ht; rfl
    · have : s.execAll cfg (c :: cs) = (s.exec cfg c).execAll cfg cs := by
        cases c <;> first | rfl | exact absurd rfl ht
      rw [this, ih _ (fun e hm => h e (by simp [hm])), exec_async _ _ _ (fun e hc => h e (by simp [hc]))]

/-- C64: a request of another thread never gets lost: in each step of a run either the list of requests stays as it is,
or a tick begins and all of it is accepted (handlers that withdraw such requests excepted). -/
theorem C64_async_not_lost {cfg : Cfg} {H : St → Nat → List Call} (s : St) (seen : Bool)
    (hH : ∀ s e x, Call.cancelAsync x ∉ H s e) :
    (s.micro cfg H seen).async = s.async ∨
    ((s.micro cfg H seen).async = [] ∧ ∃ obs, Delivered (s.micro cfg H seen).tick s.async obs ∧
      (s.micro cfg H seen).trace = s.trace ++ obs) := by
  have stuck : ∀ (as : List Async) (s : St), (s.drainStuck cfg as).async = s.async := by
    intro as
    induction as with
    | nil => intro s; rfl
    | cons a as ih =>
      intro s
      unfold St.drainStuck
      split
      · rfl
      · rename_i s1 hs
        rw [ih]; exact (schedule_fields hs).2.2.2.2.2.1
  unfold St.micro
  split
  · exact Or.inl rfl
  · exact Or.inl rfl
  · split
    · split
      · exact Or.inl rfl
      · rename_i q qs hq
        unfold St.beginQuantum
        simp only
        split
        · split
          · rename_i s2 hd
            obtain ⟨e1, obs, h1, h2⟩ := drain_delivered hd
            refine Or.inr ⟨rfl, obs, ?_, h2⟩
            show Delivered s2.tick _ _
            rw [e1]; exact h1
          · exact Or.inl (stuck _ _)
        · exact Or.inl rfl
    · exact Or.inl rfl
  · split
    · exact Or.inl rfl
    · split
      · split
        · left
          unfold St.fireEntry
          split
          · rfl
          · rfl
          · exact execAll_async _ _ _ (fun x => hH _ _ x)
        · exact Or.inl rfl
      · left
        unfold St.endQuantum
        split
        · rfl
        · split <;> rfl

/-- C64: `cancelAsyncEvent(e)` withdraws `e` whether it is in the queue or not yet delivered, and nothing else. -/
theorem C64_cancel_async (cfg : Cfg) (s : St) (e : Nat) :
    (∀ r, r ∈ pending (s.exec cfg (.cancelAsync e)).trace ↔ r ∈ pending s.trace ∧ r.ev ≠ .user e) ∧
    (∀ a, a ∈ (s.exec cfg (.cancelAsync e)).async ↔ a ∈ s.async ∧ a.e ≠ e) := by
  refine ⟨fun r => (C05_cancel_withdraws_only_that_event cfg s e 0 r).2.2, fun a => ?_⟩
  simp [St.exec, St.cancelAsync, St.cancel]

example :
    let s : St := { (St.init.exec demoCfg (.schedule 0 3 true false)).startRun demoCfg none false with
      async := [⟨2, 4, true⟩, ⟨1, 0, true⟩] }
    let s' := s.micro demoCfg demoH true
    s'.async.length = 0 ∧ (pending s'.trace).map (fun r => (r.ev, r.due)) = [(.user 1, 3), (.user 2, 7), (.user 0, 3)] := by
  decide +kernel

/-- C64 fails when one of the requests is rejected: the exception leaves `run`, the request before it is in the queue
and still in the list, to be delivered a second time. -/
theorem C64_async_delivered_once_violated : ∃ (cfg : Cfg) (H : St → Nat → List Call) (s : St), Reach cfg H s ∧
    s.pc = .aborted ∧ ∃ a ∈ s.async, ∃ r ∈ pending s.trace, r.ev = .user a.e ∧ r.due = 7 := by
  refine ⟨demoCfg, fun _ _ => [], _, .micro true (.async ⟨0, 0, true⟩ (.async ⟨3, 4, true⟩
      (.run none false (.call (.schedule 2 3 true false) .init rfl) rfl))), by decide +kernel,
    ⟨3, 4, true⟩, by decide +kernel, ?_⟩
  refine ⟨⟨1, .user 3, 7, demoCfg.fg 3, true⟩, by decide +kernel, rfl, rfl⟩

/-! ### C63: declared precedence is firing order -/

/-- the scheduler as `finalize` sets it up from a sorted graph: events are vertices of the graph -/
def finalized (g : DAG.G) : Cfg := ⟨g.gid, g.numGroups⟩

theorem finalized_fg (g : DAG.G) {v : Nat} (h : g.gid v ≠ 0) : (finalized g).fg v = g.gid v + 1 := if_pos h

/-- C63: if `a` is declared to precede `b` (directly or through others), then in every tick in which both run, every
run of `a` comes before every run of `b`: no later request for `a` in that tick can get in after `b` has run. -/
theorem C63_precedence_is_firing_order (os : List DAG.Op) (g : DAG.G) (hs : (DAG.graph os).sort = .ok g)
    {H : St → Nat → List Call} {s : St} (h : Reach (finalized g) H s) {a b : Nat}
    (hab : DAG.Before (DAG.declared os) a b) {i j : Nat} {ra rb : Req} (hi : (fires s.trace)[i]? = some ra)
    (hj : (fires s.trace)[j]? = some rb) (ha : ra.ev = .user a) (hb : rb.ev = .user b) (hd : ra.due = rb.due)
    (hk : DAG.Known os a) : i < j := by
  obtain ⟨h1, h2⟩ := C02_group_then_fifo h
  have h8 := DAG.C08_groups_respect_precedence os g hs
  have hlt := h8.1 a b hab
  have hpos := (h8.2 a hk).1
  have ga := h2 ra (List.mem_of_getElem? hi)
  have gb := h2 rb (List.mem_of_getElem? hj)
  rw [ha] at ga; rw [hb] at gb
  have hgg : ra.grp < rb.grp := by
    rw [ga, gb]
    show (finalized g).fg a < (finalized g).fg b
    rw [finalized_fg g (by omega), finalized_fg g (by omega)]
    omega
  obtain ⟨l1, e1⟩ := List.getElem?_eq_some_iff.1 hi
  obtain ⟨l2, e2⟩ := List.getElem?_eq_some_iff.1 hj
  rcases Nat.lt_trichotomy i j with hij | hij | hij
  · exact hij
  · subst hij
    rw [hi] at hj; cases hj; omega
  · have := List.pairwise_iff_getElem.1 h1 j i l2 l1 hij
    rw [e1, e2] at this
    omega

/-- C63: every event that takes part in the graph can always be scheduled with a delay, and an event may always
schedule a later one without delay. -/
theorem C63_successor_accepted (os : List DAG.Op) (g : DAG.G) (hs : (DAG.graph os).sort = .ok g)
    {H : St → Nat → List Call} {s : St} (h : Reach (finalized g) H s) (hp : s.pc = .firing) {q : Quantum}
    {qs : List Quantum} (hq : s.queue = q :: qs) {x : Entry} {a b : Nat} (hx : (q.groups s.grp)[s.idx]? = some x)
    (he : x.ev = some (.user a)) (hab : DAG.Before (DAG.declared os) a b) (ha : DAG.Known os a) (hb : DAG.Known os b)
    (c u : Bool) : s.scheduleEv (finalized g) (.user b) 0 c u ≠ none := by
  have h8 := DAG.C08_groups_respect_precedence os g hs
  have hlt := h8.1 a b hab
  have hpa := (h8.2 a ha).1
  have hpb := (h8.2 b hb).2
  intro hn
  have := (C04_backwards_rejected h hp hq hx he s.trace b c u).1.1 hn
  rw [finalized_fg g (by omega : g.gid a ≠ 0), finalized_fg g (by omega : g.gid b ≠ 0)] at this
  have hN : (finalized g).nGroups = g.numGroups + 3 := rfl
  omega

/-- three events in a row, all due at tick 2, requested in the wrong order: they run in the declared order -/
example : ∃ g, (DAG.graph [.link 10 11, .link 11 12]).sort = .ok g ∧
    let s0 := ((St.init.exec (finalized g) (.schedule 12 2 true false)).exec (finalized g) (.schedule 11 2 true false)).exec
      (finalized g) (.schedule 10 2 true false)
    let s := iter (finalized g) (fun _ _ => []) 100 (s0.startRun (finalized g) none false)
    s.pc = .idle ∧ (fires s.trace).map (·.ev) = [.user 10, .user 11, .user 12] := ⟨_, rfl, by decide +kernel⟩

end Sparta.Scheduler
