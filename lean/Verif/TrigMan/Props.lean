import Verif.TrigMan.Track
/-!
C138-C144: counter triggers.
-/
namespace Sparta.TrigMan

/-- a program used in the examples: callback 0 does nothing; callback 1 deactivates trigger 1; callback 2 sets trigger 0
again; callback 3 sets trigger 0 and deactivates it again; callback 4 makes a trigger and counts -/
def sample : Prog := fun cb _ =>
  match cb with
  | 1 => [.deactivate 1]
  | 2 => [.set 0]
  | 3 => [.set 0, .deactivate 0]
  | 4 => [.make 0 1 2 0, .count 1 5]
  | _ => []

/-- two triggers on clock 0, one on clock 1; the first is set again by its callback -/
def ordinary : List Op :=
  life [.act (.make 0 0 3 2), .act (.make 0 0 5 0), .act (.make 1 1 2 4)]
    [.edge 0, .act (.count 0 4), .edge 0, .isActive 0, .hasFired 0, .act (.count 0 6), .edge 0, .isActive 1, .has 1,
     .act (.make 1 0 100 0), .act (.count 1 3), .edge 1, .act (.deactivate 2), .act (.reset 1 9), .point 1, .edge 0]

-- C138

/-- Whenever the program keeps its obligations and stays clear of the calls the code mishandles, everything that the
program can ask is answered, and every callback happens, exactly as promised. -/
theorem C138_counter_triggers_partial (prog : Prog) (ops : List Op) (hp : Proper prog ops) (hs : Safe prog ops) :
    answers prog ops = idealAnswers prog ops ∧ history prog ops = idealHistory prog ops := by
  obtain ⟨h1, h2⟩ := run_ok inv_init ops hp hs
  exact ⟨h1, h2.log⟩

example : Proper sample ordinary ∧ Safe sample ordinary ∧ firings (history sample ordinary) = [0, 1, 0, 2, 0, 4] := by
  refine ⟨?_, ?_, ?_⟩ <;> (try unfold Proper) <;> (try unfold Safe) <;> decide +kernel

/-- Without the second condition it is false. -/
theorem C138_counter_triggers_violated :
    ∃ prog ops, Proper prog ops ∧ answers prog ops ≠ idealAnswers prog ops ∧ history prog ops ≠ idealHistory prog ops :=
  ⟨sample, life [.act (.make 0 0 3 1), .act (.make 0 0 3 0)] [.act (.count 0 4), .edge 0],
    by unfold Proper; decide +kernel, by decide +kernel, by decide +kernel⟩

/-- A trigger assigned to itself is switched off. -/
theorem C138_self_assignment_violated :
    ∃ prog ops, Proper prog ops ∧
      answers prog ops = [.ok, .ok, .ok, .ok, .bool true, .ok, .bool false] ∧
      idealAnswers prog ops = [.ok, .ok, .ok, .ok, .bool true, .ok, .bool true] :=
  ⟨sample, life [.act (.make 0 0 3 0), .act (.make 0 0 4 0)] [.isActive 0, .act (.assign 0 0), .isActive 0],
    by unfold Proper; decide +kernel, by decide +kernel, by decide +kernel⟩

-- C139

/-- Whatever the program and its callbacks do after startup: a callback only ever runs for a trigger that was activated and
neither deactivated nor run since, and only when its counter has reached its point. -/
theorem C139_no_unjustified_callback_partial (prog : Prog) (pre post : List Op) (hp : ∀ o ∈ pre, Early o)
    (before after : List Ev) (t v : Nat)
    (h : history prog (pre ++ .startup :: post) = before ++ .fired t v :: after) : Justified before t v :=
  good_run pre post hp before t v after h

example : ∃ before after, history sample ([.act (.make 0 0 3 3), .act (.make 0 0 3 0), .finalize] ++ .startup ::
    [.act (.count 0 4), .edge 0]) = before ++ .fired 1 4 :: after :=
  ⟨[.act (.make 0 0 3 3), .act (.make 0 0 3 0), .act (.count 0 4), .fired 0 4, .act (.set 0), .act (.deactivate 0)], [],
    by decide +kernel⟩

/-- Before startup it is false: a trigger that was deactivated runs nevertheless. -/
theorem C139_no_unjustified_callback_violated :
    ∃ prog ops before after t v, Proper prog ops ∧ history prog ops = before ++ .fired t v :: after ∧ ¬ Justified before t v := by
  refine ⟨sample, [.act (.make 0 0 3 0), .act (.deactivate 0), .finalize, .startup, .act (.count 0 4), .edge 0],
    [.act (.make 0 0 3 0), .act (.deactivate 0), .act (.count 0 4)], [], 0, 4, by unfold Proper; decide +kernel,
    by decide +kernel, ?_⟩
  intro h
  exact absurd h.1 (by decide +kernel)

-- C140

theorem ideal_answer {prog : Prog} {r : Ref} {o : Op} (h : (r.step prog o).1.proper = true) :
    (r.step prog o).2 ≠ .gone ∧ ∀ e, (r.step prog o).2 = .fail e → e = .throw ∧ ∃ t, o = .act (.set t) := by
  have hok : ∀ {a : Ans}, a = .ok → a ≠ .gone ∧ ∀ e, a = .fail e → e = .throw ∧ ∃ t, o = .act (.set t) := by
    intro a ha
    subst ha
    exact ⟨by simp, fun e he => by simp at he⟩
  have hask : ∀ t f, (∀ i, f i ≠ .gone ∧ ∀ e, f i ≠ .fail e) → (r.ask t f).1.proper = true →
      (r.ask t f).2 ≠ .gone ∧ ∀ e, (r.ask t f).2 = .fail e → e = .throw ∧ ∃ t, o = .act (.set t) := by
    intro t f hf hp
    unfold Ref.ask at hp ⊢
    cases hi : r.info t with
    | none => rw [hi] at hp; simp at hp
    | some i => exact ⟨(hf i).1, fun e he => absurd he ((hf i).2 e)⟩
  cases o with
  | act a =>
    show (r.outer a).2 ≠ .gone ∧ ∀ e, (r.outer a).2 = .fail e → _
    cases a with
    | set t =>
      rcases outer_cases r (.set t) with e | e
      · rw [e]
        exact ⟨by simp, fun er he => ⟨by simp at he; exact he.symm, t, rfl⟩⟩
      · rw [e]; exact hok rfl
    | _ => exact hok rfl
  | finalize => exact hok rfl
  | startup => exact hok rfl
  | edge c => exact hok rfl
  | isActive t => exact hask _ _ (fun _ => by simp) h
  | hasFired t => exact hask _ _ (fun _ => by simp) h
  | point t => exact hask _ _ (fun _ => by simp) h
  | has t => exact hask _ _ (fun _ => by simp) h

/-- Under the same conditions nothing fails, at no tick and no call, except that setting an active trigger is refused. -/
theorem C140_nothing_fails_partial (prog : Prog) (ops : List Op) (hp : Proper prog ops) (hs : Safe prog ops) :
    ∀ p ∈ ops.zip (answers prog ops), p.2 ≠ .gone ∧ ∀ e, p.2 = .fail e → e = .throw ∧ ∃ t, p.1 = .act (.set t) := by
  rw [(C138_counter_triggers_partial prog ops hp hs).1]
  unfold idealAnswers
  unfold Proper at hp
  unfold Safe at hs
  generalize rinit = r at hp hs ⊢
  induction ops generalizing r with
  | nil => intro p hp'; simp at hp'
  | cons o ops ih =>
    intro p hm
    have hm' : p ∈ (o, (r.step prog o).2) :: ops.zip (runOps (Ref.step prog) (r.step prog o).1 ops).2 := hm
    rcases List.mem_cons.1 hm' with hm' | hm'
    · rw [hm']
      exact ideal_answer (run_flags (r := (r.step prog o).1) hp hs).1
    · exact ih _ hp hs p hm'

example : Proper sample (ordinary ++ [.act (.set 1)]) ∧ Safe sample (ordinary ++ [.act (.set 1)]) ∧
    (answers sample (ordinary ++ [.act (.set 1)])).getLast? = some (.fail .throw) := by
  refine ⟨?_, ?_, ?_⟩ <;> (try unfold Proper) <;> (try unfold Safe) <;> decide +kernel

/-- A callback that deactivates another trigger of its clock: the tick fails. -/
theorem C140_deactivate_other_violated :
    ∃ prog ops, Proper prog ops ∧ answers prog ops = [.ok, .ok, .ok, .ok, .ok, .fail .throw] ∧
      ops.getLast? = some (.edge 0) :=
  ⟨sample, life [.act (.make 0 0 3 1), .act (.make 0 0 3 0)] [.act (.count 0 4), .edge 0],
    by unfold Proper; decide +kernel, by decide +kernel, by decide +kernel⟩

/-- A callback that sets its trigger and changes its mind: the next tick fails. -/
theorem C140_set_and_deactivate_violated :
    ∃ prog ops, Proper prog ops ∧ answers prog ops = [.ok, .ok, .ok, .ok, .ok, .ok, .bool false, .bool true, .fail .throw] ∧
      ops.drop 6 = [.isActive 0, .has 0, .edge 0] :=
  ⟨sample, life [.act (.make 0 0 3 3), .act (.make 0 1 3 0)] [.act (.count 0 4), .edge 0, .isActive 0, .has 0, .edge 0],
    by unfold Proper; decide +kernel, by decide +kernel, by decide +kernel⟩

/-- Deactivating the only trigger of a clock between ticks: the next tick is a call into a deleted object. -/
theorem C140_last_trigger_violated :
    ∃ prog ops, Proper prog ops ∧ answers prog ops = [.ok, .ok, .ok, .ok, .ok, .fail .ub] ∧
      ops.drop 3 = [.edge 0, .act (.deactivate 0), .edge 0] :=
  ⟨sample, life [.act (.make 0 0 3 0)] [.edge 0, .act (.deactivate 0), .edge 0],
    by unfold Proper; decide +kernel, by decide +kernel, by decide +kernel⟩

/-- So is it when the only trigger has run and is then destroyed. -/
theorem C140_destroy_fired_violated :
    ∃ prog ops, Proper prog ops ∧ answers prog ops = [.ok, .ok, .ok, .ok, .ok, .ok, .fail .ub] ∧
      ops.drop 3 = [.act (.count 0 4), .edge 0, .act (.destroy 0), .edge 0] :=
  ⟨sample, life [.act (.make 0 0 3 0)] [.act (.count 0 4), .edge 0, .act (.destroy 0), .edge 0],
    by unfold Proper; decide +kernel, by decide +kernel, by decide +kernel⟩

/-- A trigger that is set before startup makes the startup fail. -/
theorem C140_set_before_startup_violated :
    ∃ prog ops, Proper prog ops ∧ answers prog ops = [.ok, .ok, .ok, .fail .throw] ∧
      ops = [.act (.make 0 0 3 0), .act (.set 0), .finalize, .startup] :=
  ⟨sample, [.act (.make 0 0 3 0), .act (.set 0), .finalize, .startup],
    by unfold Proper; decide +kernel, by decide +kernel, rfl⟩

-- C141

theorem history_snoc (prog : Prog) (ops : List Op) (o : Op) :
    history prog (ops ++ [o]) = (step prog (runOps (step prog) init ops).1 o).1.log := by
  unfold history
  rw [runOps_append]
  rfl

theorem snoc_flags {prog : Prog} {ops : List Op} {o : Op} (hp : Proper prog (ops ++ [o])) (hs : Safe prog (ops ++ [o])) :
    Proper prog ops ∧ Safe prog ops := by
  unfold Proper at hp ⊢
  unfold Safe at hs ⊢
  rw [runOps_append] at hp hs
  exact step_flags (o := o) hp hs

/-- at a tick: the state of the promise before it, what the history says, and the history after it -/
theorem tick_facts {prog : Prog} {pre post : List Op} {c : Nat} (hb : ∀ o ∈ pre, Building o)
    (hp : Proper prog (life pre post ++ [.edge c])) (hs : Safe prog (life pre post ++ [.edge c])) :
    ∃ r : Ref, Tr r ∧ Inv (runOps (step prog) init (life pre post)).1 r none ∧ r.log = history prog (life pre post) ∧
      history prog (life pre post ++ [.edge c]) = (r.edge prog c).log := by
  obtain ⟨p1, s1⟩ := snoc_flags hp hs
  have h1 := (run_ok inv_init (life pre post) p1 s1).2
  refine ⟨_, (life_run (prog := prog) pre post hb).tr, h1, h1.log.symm, ?_⟩
  rw [(C138_counter_triggers_partial prog _ hp hs).2]
  unfold idealHistory
  rw [runOps_append]
  rfl

/-- At a tick of a clock whose callbacks make no calls, exactly the active triggers of that clock run whose counter has
reached their point, in the order of activation. -/
theorem C141_a_tick_runs_what_is_due_partial (pre post : List Op) (c : Nat) (hb : ∀ o ∈ pre, Building o)
    (hp : Proper (fun _ _ => []) (life pre post ++ [.edge c])) (hs : Safe (fun _ _ => []) (life pre post ++ [.edge c])) :
    history (fun _ _ => []) (life pre post ++ [.edge c]) = history (fun _ _ => []) (life pre post) ++
      dueEvents (replay (history (fun _ _ => []) (life pre post)))
        ((replay (history (fun _ _ => []) (life pre post))).on c) := by
  obtain ⟨r, htr, hinv, hlog, he⟩ := tick_facts hb hp hs
  rw [he, ← hlog, track_on htr]
  show (Ref.looks _ { r with fresh := [] } c (r.on c)).log = _
  rw [looks_quiet (r := { r with fresh := [] }) (replay r.log)]
  · exact List.Pairwise.filter _ hinv.actND
  · intro t ht
    exact (List.mem_filter.1 ht).1
  · intro t _ hm
    simp at hm
  · exact htr.ctr
  · intro t _
    exact htr.info t

/-- three triggers on one clock, one of which runs and is set again -/
def plain : List Op :=
  life [.act (.make 0 0 3 2), .act (.make 0 0 5 0), .act (.make 0 1 8 4)]
    [.edge 0, .act (.count 0 4), .edge 0, .act (.count 0 5), .act (.set 0)]

example : Proper (fun _ _ => []) (plain ++ [.edge 0]) ∧ Safe (fun _ _ => []) (plain ++ [.edge 0]) ∧
    firings (history (fun _ _ => []) (plain ++ [.edge 0])) = [0, 1, 0] := by
  refine ⟨?_, ?_, ?_⟩ <;> (try unfold Proper) <;> (try unfold Safe) <;> decide +kernel

/-- Whatever the callbacks do: an active trigger of the clock whose counter has reached its point runs at the tick, unless a
callback of that tick touches the trigger or its counter. -/
theorem C141_no_due_trigger_is_missed_partial (prog : Prog) (pre post : List Op) (c : Nat) (hb : ∀ o ∈ pre, Building o)
    (hp : Proper prog (life pre post ++ [.edge c])) (hs : Safe prog (life pre post ++ [.edge c]))
    (t : Nat) (i : Info) (hon : t ∈ (replay (history prog (life pre post))).on c)
    (hi : (replay (history prog (life pre post))).info t = some i)
    (hdue : i.point ≤ (replay (history prog (life pre post))).ctr i.ctr) (new : List Ev)
    (hnew : history prog (life pre post ++ [.edge c]) = history prog (life pre post) ++ new) :
    ¬ leavesAlone t i.ctr new := by
  intro hl
  obtain ⟨r, htr, hinv, hlog, he⟩ := tick_facts hb hp hs
  rw [← hlog] at hon hi hdue hnew
  rw [track_on htr] at hon
  rw [htr.ctr] at hdue
  rw [he] at hnew
  have hinf := htr.info t
  rw [hi] at hinf
  cases hj : r.info t with
  | none => rw [hj] at hinf; simp at hinf
  | some j =>
    rw [hj] at hinf
    have hst : strip i = strip j := Option.some.inj hinf
    have e1 : (strip i).ctr = (strip j).ctr := congrArg Info.ctr hst
    have e2 : (strip i).point = (strip j).point := congrArg Info.point hst
    replace e1 : i.ctr = j.ctr := e1
    replace e2 : i.point = j.point := e2
    have ht : t < r.next := by
      apply Classical.byContradiction
      intro hx
      rw [hinv.bound t (by omega)] at hj
      simp at hj
    have := looks_due (prog := prog) (t := t) (k := i.ctr) (c := c) (td := r.on c) (r := { r with fresh := [] }) (new := new) (i := j)
      (track_cong htr (by rfl) (by rfl) (by rfl) (by rfl) (by rfl)) hnew hl hon (List.mem_filter.1 hon).1
      (by intro hm; simp at hm) hj e1.symm ht
    apply this
    rw [← e2]
    exact hdue

example : Proper sample (ordinary ++ [.act (.count 0 9), .edge 0]) ∧ Safe sample (ordinary ++ [.act (.count 0 9), .edge 0]) ∧
    (replay (history sample (ordinary ++ [.act (.count 0 9)]))).on 0 = [1, 0] := by
  refine ⟨?_, ?_, ?_⟩ <;> (try unfold Proper) <;> (try unfold Safe) <;> decide +kernel

-- C142

theorem answers_snoc (prog : Prog) (ops : List Op) (o : Op) :
    (answers prog (ops ++ [o])).getLast? = some (step prog (runOps (step prog) init ops).1 o).2 := by
  unfold answers
  rw [runOps_append_snd]
  show (_ ++ [(step prog (runOps (step prog) init ops).1 o).2]).getLast? = _
  simp

/-- A trigger says that it is active, and is known to the manager, exactly if the history says so: it was activated and
neither deactivated nor run since; and it reports the point it was last given. -/
theorem C142_reported_state_partial (prog : Prog) (pre post : List Op) (hb : ∀ o ∈ pre, Building o)
    (hp : Proper prog (life pre post)) (hs : Safe prog (life pre post)) (t : Nat) (i : Info)
    (hi : (replay (history prog (life pre post))).info t = some i) :
    (answers prog (life pre post ++ [.isActive t])).getLast? =
        some (.bool ((replay (history prog (life pre post))).active.contains t)) ∧
      (answers prog (life pre post ++ [.has t])).getLast? =
        some (.bool ((replay (history prog (life pre post))).active.contains t)) ∧
      (answers prog (life pre post ++ [.point t])).getLast? = some (.num i.point) := by
  have hinv := (run_ok inv_init (life pre post) hp hs).2
  have htr := (life_run (prog := prog) pre post hb).tr
  rw [answers_snoc, answers_snoc, answers_snoc]
  have hlog : history prog (life pre post) = (runOps (Ref.step prog) rinit (life pre post)).1.log := hinv.log
  rw [hlog] at hi ⊢
  unfold Proper at hp
  unfold Safe at hs
  generalize (runOps (Ref.step prog) rinit (life pre post)).1 = r at hinv htr hp hs hi ⊢
  have hinf := htr.info t
  rw [hi] at hinf
  cases hj : r.info t with
  | none => rw [hj] at hinf; simp at hinf
  | some j =>
    rw [hj] at hinf
    have hst : strip i = strip j := Option.some.inj hinf
    have e2 : (strip i).point = (strip j).point := congrArg Info.point hst
    replace e2 : i.point = j.point := e2
    have hq : ∀ f, r.ask t f = (r, f j) := by intro f; unfold Ref.ask; rw [hj]
    have k1 := (step_ok (prog := prog) hinv (.isActive t) (by show (r.ask t _).1.proper = true; rw [hq]; exact hp)
      (by show (r.ask t _).1.safe = true; rw [hq]; exact hs)).1
    have k2 := (step_ok (prog := prog) hinv (.has t) (by show (r.ask t _).1.proper = true; rw [hq]; exact hp)
      (by show (r.ask t _).1.safe = true; rw [hq]; exact hs)).1
    have k3 := (step_ok (prog := prog) hinv (.point t) (by show (r.ask t _).1.proper = true; rw [hq]; exact hp)
      (by show (r.ask t _).1.safe = true; rw [hq]; exact hs)).1
    have q1 : (r.step prog (.isActive t)).2 = .bool (r.active.contains t) := by show (r.ask t _).2 = _; rw [hq]
    have q2 : (r.step prog (.has t)).2 = .bool (r.active.contains t) := by show (r.ask t _).2 = _; rw [hq]
    have q3 : (r.step prog (.point t)).2 = .num j.point := by show (r.ask t _).2 = _; rw [hq]
    rw [htr.active, k1, k2, k3, q1, q2, q3, e2]
    exact ⟨rfl, rfl, rfl⟩

example : (replay (history sample ordinary)).active = [3, 1, 0] ∧
    ((replay (history sample ordinary)).info 1).isSome = true ∧ ((replay (history sample ordinary)).info 2).isSome = true := by
  decide +kernel

/-- Without the conditions the two answers can differ (the second witness of C140). -/
theorem C142_reported_state_violated :
    ∃ prog ops t, Proper prog ops ∧ (answers prog (ops ++ [.isActive t])).getLast? = some (.bool false) ∧
      (answers prog (ops ++ [.has t])).getLast? = some (.bool true) :=
  ⟨sample, life [.act (.make 0 0 3 3), .act (.make 0 1 3 0)] [.act (.count 0 4), .edge 0], 0,
    by unfold Proper; decide +kernel, by decide +kernel, by decide +kernel⟩

-- C143

/-- Triggers constructed while the simulator is being built stay inactive until the startup; at the startup all of them become
active, in the order of construction. -/
theorem C143_startup_activates (prog : Prog) (pre : List Op) (hb : ∀ o ∈ pre, Building o) (hp : Proper prog pre) :
    (∀ t, t < made pre → (answers prog (pre ++ [.isActive t])).getLast? = some (.bool false) ∧
      (answers prog (pre ++ [.has t])).getLast? = some (.bool false) ∧
      (answers prog (life pre [.isActive t])).getLast? = some (.bool true) ∧
      (answers prog (life pre [.has t])).getLast? = some (.bool true)) ∧
    (replay (history prog (life pre []))).active = List.range (made pre) := by
  have hbuilt := built_run (prog := prog) pre hb
  have hmade := built_made (prog := prog) pre rinit hb built_init
  rw [show rinit.next = 0 from rfl, Nat.zero_add] at hmade
  have hs : Safe prog pre := hbuilt.safe
  have hinv := (run_ok inv_init pre hp hs).2
  obtain ⟨b1, b2, b3, b4, b5, b6⟩ := begun_eq (prog := prog) pre hb
  have hp2 : Proper prog (life pre []) := by
    unfold Proper
    rw [life_state]
    exact b5.trans hp
  have hs2 : Safe prog (life pre []) := by
    unfold Safe
    rw [life_state]
    exact b6
  have hinv2 := (run_ok inv_init (life pre []) hp2 hs2).2
  have hst : (runOps (Ref.step prog) rinit (life pre [])).1 = begun prog pre := life_state pre []
  have hact : (replay (history prog (life pre []))).active = List.range (made pre) := by
    have : history prog (life pre []) = (begun prog pre).log := by rw [← hst]; exact hinv2.log
    rw [this, b1.tr.active, b2, hmade]
  refine ⟨?_, hact⟩
  intro t ht
  have halive : (runOps (Ref.step prog) rinit pre).1.alive t = true := (hbuilt.alive t).1 (by rw [hmade]; exact ht)
  obtain ⟨i, hi⟩ := Option.isSome_iff_exists.1 halive
  have hq : ∀ f, (runOps (Ref.step prog) rinit pre).1.ask t f = ((runOps (Ref.step prog) rinit pre).1, f i) := by
    intro f; unfold Ref.ask; rw [hi]
  rw [answers_snoc, answers_snoc]
  have k1 := (step_ok (prog := prog) hinv (.isActive t) (by show (Ref.ask _ t _).1.proper = true; rw [hq]; exact hp)
      (by show (Ref.ask _ t _).1.safe = true; rw [hq]; exact hs)).1
  have k2 := (step_ok (prog := prog) hinv (.has t) (by show (Ref.ask _ t _).1.proper = true; rw [hq]; exact hp)
      (by show (Ref.ask _ t _).1.safe = true; rw [hq]; exact hs)).1
  have q1 : ((runOps (Ref.step prog) rinit pre).1.step prog (.isActive t)).2 = .bool false := by
    show (Ref.ask _ t _).2 = _; rw [hq, hbuilt.active]; rfl
  have q2 : ((runOps (Ref.step prog) rinit pre).1.step prog (.has t)).2 = .bool false := by
    show (Ref.ask _ t _).2 = _; rw [hq, hbuilt.active]; rfl
  have hmem : (List.range (made pre)).contains t = true := by simp [ht]
  obtain ⟨j, hj, _⟩ : ∃ j, (replay (history prog (life pre []))).info t = some j ∧ True := by
    have : history prog (life pre []) = (begun prog pre).log := by rw [← hst]; exact hinv2.log
    rw [this]
    have hi' : (begun prog pre).info t = some i := by rw [b4]; exact hi
    obtain ⟨j, hj, _⟩ := track_some b1.tr hi'
    exact ⟨j, hj, trivial⟩
  have hl : ∀ o, life pre [o] = life pre [] ++ [o] := by intro o; simp [life]
  have fin := C142_reported_state_partial prog pre [] hb hp2 hs2 t j hj
  rw [hact, hmem] at fin
  rw [hl, hl]
  exact ⟨by rw [k1, q1], by rw [k2, q2], fin.1, fin.2.1⟩

example : (∀ o ∈ [Op.act (.make 0 0 3 2), .act (.count 0 7), .act (.make 1 0 5 0), .isActive 0], Building o) ∧
    Proper sample [Op.act (.make 0 0 3 2), .act (.count 0 7), .act (.make 1 0 5 0), .isActive 0] ∧
    made [Op.act (.make 0 0 3 2), .act (.count 0 7), .act (.make 1 0 5 0), .isActive 0] = 2 := by
  refine ⟨?_, ?_, ?_⟩
  · intro o ho
    simp at ho
    rcases ho with h | h | h | h <;> subst h <;> trivial
  · unfold Proper; decide +kernel
  · rfl

-- C144

/-- The callbacks of a tick of clock `c` are those of triggers of that clock that were active before the tick, each at most once,
in the order of activation; what a callback activates waits for the next tick. -/
theorem C144_only_triggers_of_the_clock_partial (prog : Prog) (pre post : List Op) (c : Nat) (hb : ∀ o ∈ pre, Building o)
    (hp : Proper prog (life pre post ++ [.edge c])) (hs : Safe prog (life pre post ++ [.edge c])) :
    ∃ new, history prog (life pre post ++ [.edge c]) = history prog (life pre post) ++ new ∧
      (firings new).Sublist ((replay (history prog (life pre post))).on c) ∧ (firings new).Nodup := by
  obtain ⟨r, htr, hinv, hlog, he⟩ := tick_facts hb hp hs
  obtain ⟨new, h1, h2⟩ := edge_log prog r c
  refine ⟨new, ?_, ?_, ?_⟩
  · rw [he, ← hlog]; exact h1
  · rw [← hlog, track_on htr]; exact h2
  · exact List.Sublist.nodup h2 (List.Pairwise.filter _ hinv.actND)

example : Proper sample (life [.act (.make 0 0 3 4), .act (.make 0 0 5 0)] [.act (.count 0 6)] ++ [.edge 0]) ∧
    Safe sample (life [.act (.make 0 0 3 4), .act (.make 0 0 5 0)] [.act (.count 0 6)] ++ [.edge 0]) ∧
    firings (history sample (life [.act (.make 0 0 3 4), .act (.make 0 0 5 0)] [.act (.count 0 6)] ++ [.edge 0])) = [0, 1] := by
  refine ⟨?_, ?_, ?_⟩ <;> (try unfold Proper) <;> (try unfold Safe) <;> decide +kernel

end Sparta.TrigMan
