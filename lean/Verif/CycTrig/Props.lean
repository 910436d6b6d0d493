import Verif.CycTrig.Hist
/-!
C145-C148: cycle triggers.  `per` gives the periods of the clocks, `prog` what the callbacks do; both are arbitrary.
-/
namespace Sparta.CycTrig

/-- clock 0 has period 1, clock 1 period 4, clock 2 period 10 -/
def clocks : Nat → Nat
  | 0 => 1
  | 1 => 4
  | _ => 10

/-- callbacks that do nothing -/
def quiet : Prog := fun _ => []

/-- the first two callbacks set the trigger again -/
def again : Prog := fun h => if (h.filter fun e => match e with | .fired _ => true | _ => false).length ≤ 2 then [.set] else []

-- C145

/-- A cycle trigger behaves like a slot that holds at most one time. -/
theorem C145_one_slot_partial (per : Nat → Nat) (prog : Prog) (ops : List Op) (hp : Proper per prog ops) (hs : Safe per prog ops) :
    answers per prog ops = idealAnswers per prog ops ∧ history per prog ops = idealHistory per prog ops :=
  ⟨(inv_all hp hs).1, (inv_all hp hs).2.log⟩

example : Proper clocks again [.act (.align true), .act (.prepRel 1 3), .finalize, .startup, .act .set, .wait 5, .fire, .fire, .wait 100, .fire, .isActive] ∧
    Safe clocks again [.act (.align true), .act (.prepRel 1 3), .finalize, .startup, .act .set, .wait 5, .fire, .fire, .wait 100, .fire, .isActive] ∧
    history clocks again [.act (.align true), .act (.prepRel 1 3), .finalize, .startup, .act .set, .wait 5, .fire, .fire, .wait 100, .fire, .isActive] =
      [.act 0 (.align true), .act 0 (.prepRel 1 3), .act 0 .set, .fired 12, .act 12 .set, .fired 24, .act 24 .set, .fired 36] := by
  refine ⟨?_, ?_, ?_⟩ <;> (try unfold Proper) <;> (try unfold Safe) <;> decide +kernel

/-- The obligation alone does not suffice: a trigger that was relative once and is then set to an absolute cycle runs after the
old relative delay. -/
theorem C145_switch_to_absolute_violated : ∃ per prog ops, Proper per prog ops ∧ history per prog ops ≠ idealHistory per prog ops ∧
    .fired 103 ∈ history per prog ops ∧ .fired 200 ∈ idealHistory per prog ops :=
  ⟨clocks, quiet, [.finalize, .startup, .act (.setRel 0 3), .fire, .wait 97, .act (.setAbs 0 200), .fire], by
    unfold Proper; refine ⟨?_, ?_, ?_, ?_⟩ <;> decide +kernel⟩

/-- A trigger that was prepared in both ways can never be set again: `set` throws. -/
theorem C145_prepared_twice_violated : ∃ per prog ops, Proper per prog ops ∧ answers per prog ops ≠ idealAnswers per prog ops ∧
    .fail .throw ∈ answers per prog ops ∧ .fail .throw ∉ idealAnswers per prog ops :=
  ⟨clocks, quiet, [.finalize, .startup, .act (.prepAbs 0 3), .act (.prepRel 0 4), .act .set], by
    unfold Proper; refine ⟨?_, ?_, ?_, ?_⟩ <;> decide +kernel⟩

/-- Deactivating a trigger before the startup has no effect: it runs nevertheless. -/
theorem C145_deactivate_before_startup_violated : ∃ per prog ops, Proper per prog ops ∧ .fired 7 ∈ history per prog ops ∧
    .fired 7 ∉ idealHistory per prog ops :=
  ⟨clocks, quiet, [.act (.setRel 0 7), .act .deactivate, .finalize, .startup, .fire], by
    unfold Proper; refine ⟨?_, ?_, ?_⟩ <;> decide +kernel⟩

/-- In the callback, where the trigger is no longer active, it can be set but not given a new time: `setRelative` throws. -/
theorem C145_new_time_in_callback_violated : ∃ per prog ops, Proper per prog ops ∧ answers per prog ops ≠ idealAnswers per prog ops ∧
    .fail .throw ∈ answers per prog ops ∧ .fail .throw ∉ idealAnswers per prog ops :=
  ⟨clocks, fun h => if h.length ≤ 2 then [.setRel 0 5] else [], [.finalize, .startup, .act (.setRel 0 3), .fire, .fire], by
    unfold Proper; refine ⟨?_, ?_, ?_, ?_⟩ <;> decide +kernel⟩

/-- An absolute cycle that is over is documented never to occur; instead the event is put before the present tick. -/
theorem C145_past_cycle_violated : ∃ per prog ops, Proper per prog ops ∧ .fail .past ∈ answers per prog ops :=
  ⟨clocks, quiet, [.finalize, .startup, .wait 50, .act (.setAbs 1 3)], by
    unfold Proper; refine ⟨?_, ?_⟩ <;> decide +kernel⟩

/-- An aligned trigger with a delay of 0 divides by zero. -/
theorem C145_align_zero_violated : ∃ per prog ops, Proper per prog ops ∧ .fail .ub ∈ answers per prog ops :=
  ⟨clocks, quiet, [.finalize, .startup, .act (.align true), .act (.setRel 1 0)], by
    unfold Proper; refine ⟨?_, ?_⟩ <;> decide +kernel⟩

/-- Setting a deactivated trigger whose old event has not passed is forbidden but not refused; the trigger then runs at the old
time, and not at the new one. -/
theorem C145_set_while_old_event_pending_violated : ∃ per prog ops, .fired 10 ∈ history per prog ops ∧ .fired 12 ∉ history per prog ops ∧
    .fired 12 ∈ idealHistory per prog ops ∧ .fired 10 ∉ idealHistory per prog ops :=
  ⟨clocks, quiet, [.finalize, .startup, .act (.setRel 0 10), .wait 2, .act .deactivate, .act .set, .fire, .fire], by
    refine ⟨?_, ?_, ?_, ?_⟩ <;> decide +kernel⟩

-- C146

/-- A callback runs only if the trigger was set and neither deactivated nor run since; each setting leads to at most one callback.
This holds for every program, also for one that breaks its obligations, if it deactivates nothing before the startup. -/
theorem C146_no_callback_without_setting_partial (per : Nat → Nat) (prog : Prog) (pre post : List Op) (hp : ∀ o ∈ pre, Early o)
    (before after : List Ev) (τ : Nat) (h : history per prog (pre ++ .startup :: post) = before ++ .fired τ :: after) :
    (cfg before).set.isSome = true :=
  good_run pre post hp before τ after h

example : (∀ o ∈ [Op.act (.setRel 0 7), .finalize], Early o) ∧
    history clocks again ([Op.act (.setRel 0 7), .finalize] ++ .startup :: [.act .set, .fire, .act .deactivate, .act .set, .fire, .act .deactivate, .fire]) =
      [.act 0 (.setRel 0 7)] ++ .fired 7 :: [.act 7 .set, .act 7 .deactivate, .act 7 .set, .fired 14, .act 14 .set, .act 14 .deactivate] := by
  refine ⟨?_, ?_⟩
  · intro o ho
    simp at ho
    rcases ho with h | h <;> subst h <;> trivial
  · decide +kernel

theorem C146_deactivated_before_startup_violated : ∃ per prog ops before after τ,
    history per prog ops = before ++ .fired τ :: after ∧ (cfg before).set = none :=
  ⟨clocks, quiet, [.act (.setRel 0 7), .act .deactivate, .finalize, .startup, .fire], [.act 0 (.setRel 0 7), .act 0 .deactivate], [], 7, by
    refine ⟨?_, ?_⟩ <;> decide +kernel⟩

-- C147

theorem lt_next_multiple (a b : Nat) (h : 0 < b) : a < (a / b + 1) * b := by
  have := Nat.lt_mul_div_succ a h
  rw [Nat.mul_comm] at this
  exact this

theorem div_add_mul (a n p : Nat) (hp : 0 < p) : (a + n * p) / p = a / p + n := Nat.add_mul_div_right a n hp

/-- When a callback runs, the trigger was set at some tick `τ0`.  An absolute trigger runs in the cycle it was given, a relative one
the given number of cycles after `τ0`, an aligned one in the first cycle after `τ0` that is a multiple of the given number.
The callback is a whole number of cycles after `τ0`. -/
theorem C147_time_of_the_callback_partial (per : Nat → Nat) (hper : ∀ k, 0 < per k) (prog : Prog) (ops : List Op)
    (hp : Proper per prog ops) (hs : Safe per prog ops) (before after : List Ev) (τ : Nat)
    (h : history per prog ops = before ++ .fired τ :: after) :
    ∃ τ0, (cfg before).set = some τ0 ∧ τ0 ≤ τ ∧ (τ - τ0) % per (cfg before).clk = 0 ∧
      ((cfg before).mode = .abs → τ / per (cfg before).clk = (cfg before).val) ∧
      ((cfg before).mode = .rel → (cfg before).align = false → τ = τ0 + (cfg before).val * per (cfg before).clk) ∧
      ((cfg before).mode = .rel → (cfg before).align = true →
        (cfg before).val ∣ τ / per (cfg before).clk ∧ τ0 / per (cfg before).clk < τ / per (cfg before).clk ∧
        ∀ c, (cfg before).val ∣ c → τ0 / per (cfg before).clk < c → τ / per (cfg before).clk ≤ c) := by
  have hg := (ti_all hp hs).good
  have hl : history per prog ops = (runOps (Ref.step per prog) rinit ops).1.log := (inv_all hp hs).2.log
  rw [hl] at h
  obtain ⟨τ0, h1, h2, h3⟩ := hg before τ after h
  generalize cfg before = c at h1 h2 h3 ⊢
  have hk := hper c.clk
  have hd : τ = τ0 + (targetCycle c.mode c.align c.val (τ0 / per c.clk) - τ0 / per c.clk) * per c.clk := h3
  refine ⟨τ0, h1, by omega, ?_, ?_, ?_, ?_⟩
  · rw [hd, Nat.add_sub_cancel_left]; exact Nat.mul_mod_left _ _
  · intro hm
    have h2 : τ0 / per c.clk ≤ c.val := by simpa [okAt, hm] using h2
    rw [hd, div_add_mul _ _ _ hk, hm]
    show τ0 / per c.clk + (c.val - τ0 / per c.clk) = c.val
    omega
  · intro hm ha
    rw [hd, hm, ha]
    show τ0 + (τ0 / per c.clk + c.val - τ0 / per c.clk) * per c.clk = _
    rw [Nat.add_sub_cancel_left]
  · intro hm ha
    have hv : 0 < c.val := by simpa [okAt, hm, ha] using h2
    have ht : τ / per c.clk = (τ0 / per c.clk / c.val + 1) * c.val := by
      rw [hd, div_add_mul _ _ _ hk, hm, ha]
      show τ0 / per c.clk + ((τ0 / per c.clk / c.val + 1) * c.val - τ0 / per c.clk) = _
      have := lt_next_multiple (τ0 / per c.clk) _ hv
      omega
    rw [ht]
    refine ⟨Nat.dvd_mul_left _ _, lt_next_multiple _ _ hv, ?_⟩
    rintro x ⟨q, rfl⟩ hlt
    have : τ0 / per c.clk / c.val < q := (Nat.div_lt_iff_lt_mul hv).2 (by rw [Nat.mul_comm]; exact hlt)
    rw [Nat.mul_comm c.val q]
    exact Nat.mul_le_mul_right _ this

example : Proper clocks quiet [.finalize, .startup, .wait 23, .act (.align true), .act (.setRel 1 5), .wait 3, .fire] ∧
    Safe clocks quiet [.finalize, .startup, .wait 23, .act (.align true), .act (.setRel 1 5), .wait 3, .fire] ∧
    history clocks quiet [.finalize, .startup, .wait 23, .act (.align true), .act (.setRel 1 5), .wait 3, .fire] =
      [.act 23 (.align true), .act 23 (.setRel 1 5)] ++ .fired 43 :: [] := by
  refine ⟨?_, ?_, ?_⟩ <;> (try unfold Proper) <;> (try unfold Safe) <;> decide +kernel

-- C148

theorem history_snoc (per : Nat → Nat) (prog : Prog) (ops : List Op) (o : Op) :
    history per prog (ops ++ [o]) = (step per prog (runOps (step per prog) init ops).1 o).1.log := by
  unfold history
  rw [runOps_append]
  rfl

/-- Once the simulation has started, a trigger that is set runs: its next event is the callback, which then makes its calls and
nothing else. -/
theorem C148_a_set_trigger_runs_partial (per : Nat → Nat) (prog : Prog) (ops : List Op)
    (hp : Proper per prog (ops ++ [.fire])) (hs : Safe per prog (ops ++ [.fire])) (hst : .startup ∈ ops)
    (hset : (cfg (history per prog ops)).set.isSome = true) :
    ∃ τ l, history per prog (ops ++ [.fire]) = history per prog ops ++ .fired τ :: l ∧
      l.length = (prog (history per prog ops ++ [.fired τ])).length ∧ ∀ e ∈ l, ∃ τ a, e = Ev.act τ a := by
  have hp' := hp
  have hs' := hs
  unfold Proper at hp'
  unfold Safe at hs'
  rw [runOps_append] at hp' hs'
  obtain ⟨p1, s1⟩ := run_flags (per := per) (prog := prog) (r := (runOps (Ref.step per prog) rinit ops).1) (ops := [.fire]) hp' hs'
  have hl : history per prog ops = (runOps (Ref.step per prog) rinit ops).1.log := (inv_all p1 s1).2.log
  have hl2 : history per prog (ops ++ [.fire]) = ((runOps (Ref.step per prog) rinit ops).1.fire per prog).log := by
    have := (inv_all hp hs).2.log
    rw [runOps_append, runOps_append] at this
    rw [history_snoc]
    exact this
  have ht := ti_all p1 s1
  have hstarted : (runOps (Ref.step per prog) rinit ops).1.started = true := run_started (.inr hst)
  rw [hl2, hl]
  rw [hl] at hset
  generalize (runOps (Ref.step per prog) rinit ops).1 = r at ht hstarted hset ⊢
  have hact := ht.back hset
  cases ha : r.armed with
  | none =>
    have hw : r.waiting = true := by
      unfold Ref.active at hact
      rw [ha] at hact
      simpa using hact
    have := (ht.waiting hw).2.2
    rw [hstarted] at this
    simp at this
  | some d =>
    rw [fire_armed hstarted ha]
    obtain ⟨l, l1, l2, l3⟩ := acts_log per { r with now := d, armed := none, log := r.log ++ [Ev.fired d] } (prog (r.log ++ [Ev.fired d]))
    refine ⟨d, l, ?_, l2, l3⟩
    show (Ref.runActs per _ _).log = _
    rw [l1]
    show (r.log ++ [_]) ++ l = _
    simp

example : Proper clocks again ([.act (.prepAbs 2 4), .finalize, .startup, .wait 3, .act .set, .wait 2] ++ [.fire]) ∧
    Safe clocks quiet ([.act (.prepAbs 2 4), .finalize, .startup, .wait 3, .act .set, .wait 2] ++ [.fire]) ∧
    .startup ∈ [Op.act (.prepAbs 2 4), .finalize, .startup, .wait 3, .act .set, .wait 2] ∧
    (cfg (history clocks quiet [.act (.prepAbs 2 4), .finalize, .startup, .wait 3, .act .set, .wait 2])).set = some 3 := by
  refine ⟨?_, ?_, ?_, ?_⟩ <;> (try unfold Proper) <;> (try unfold Safe) <;> decide +kernel

/-- `isActive` says whether the trigger is set and was neither deactivated nor run since. -/
theorem C148_isActive_partial (per : Nat → Nat) (prog : Prog) (ops : List Op) (hp : Proper per prog ops) (hs : Safe per prog ops) :
    (answers per prog (ops ++ [.isActive])).getLast? = some (.bool (cfg (history per prog ops)).set.isSome) := by
  have hq : answers per prog (ops ++ [.isActive]) = answers per prog ops ++ [(step per prog (runOps (step per prog) init ops).1 .isActive).2] := by
    unfold answers
    rw [runOps_append_snd]
    rfl
  rw [hq, List.getLast?_concat]
  have hi := (inv_all hp hs).2
  have ht := ti_all hp hs
  rw [show history per prog ops = (runOps (Ref.step per prog) rinit ops).1.log from hi.log]
  rw [(step_ok (per := per) (prog := prog) hi .isActive hp hs).1]
  show some (Ans.bool (Ref.active _)) = _
  congr 2
  generalize (runOps (Ref.step per prog) rinit ops).1 = r at ht ⊢
  rw [Bool.eq_iff_iff]
  refine ⟨?_, ht.back⟩
  intro ha
  unfold Ref.active at ha
  rw [Bool.or_eq_true] at ha
  rcases ha with ha | ha
  · obtain ⟨d, hd⟩ := Option.isSome_iff_exists.1 ha
    obtain ⟨τ0, h1, _⟩ := ht.armed d hd
    rw [h1]; rfl
  · rw [(ht.waiting ha).1]; rfl

example : Proper clocks quiet [.act (.setRel 2 4), .finalize, .startup, .wait 3, .act .deactivate, .fire, .act .set] ∧
    Safe clocks quiet [.act (.setRel 2 4), .finalize, .startup, .wait 3, .act .deactivate, .fire, .act .set] ∧
    (answers clocks quiet ([.act (.setRel 2 4), .finalize, .startup, .wait 3, .act .deactivate, .fire, .act .set] ++ [.isActive])).getLast? = some (.bool true) := by
  refine ⟨?_, ?_, ?_⟩ <;> (try unfold Proper) <;> (try unfold Safe) <;> decide +kernel

/-- Nothing fails but calls that are refused: those that change or set a trigger that is set, and setting one that was never given a
time.  A refused call changes nothing. -/
theorem C148_nothing_fails_partial (per : Nat → Nat) (prog : Prog) (ops : List Op) (o : Op)
    (hp : Proper per prog (ops ++ [o])) (hs : Safe per prog (ops ++ [o])) (e : Err)
    (hf : (answers per prog (ops ++ [o])).getLast? = some (.fail e)) :
    e = .throw ∧ history per prog (ops ++ [o]) = history per prog ops ∧
      ∃ a, o = .act a ∧ a ≠ .deactivate ∧
        ((cfg (history per prog ops)).set.isSome = true ∨ (a = .set ∧ (cfg (history per prog ops)).given = false)) := by
  have hp' := hp
  have hs' := hs
  unfold Proper at hp'
  unfold Safe at hs'
  rw [runOps_append] at hp' hs'
  obtain ⟨p1, s1⟩ := run_flags (per := per) (prog := prog) (r := (runOps (Ref.step per prog) rinit ops).1) (ops := [o]) hp' hs'
  have hq : answers per prog (ops ++ [o]) = answers per prog ops ++ [(step per prog (runOps (step per prog) init ops).1 o).2] := by
    unfold answers
    rw [runOps_append_snd]
    rfl
  have hi := (inv_all p1 s1).2
  have hl : history per prog ops = (runOps (Ref.step per prog) rinit ops).1.log := hi.log
  obtain ⟨hans, hi2⟩ := step_ok (per := per) (prog := prog) hi o hp' hs'
  have hl2 : history per prog (ops ++ [o]) = ((runOps (Ref.step per prog) rinit ops).1.step per prog o).1.log := by
    rw [history_snoc]
    exact hi2.log
  have ht := ti_all p1 s1
  rw [hq, List.getLast?_concat, hans] at hf
  rw [hl2, hl]
  clear hl2 hl hi2 hans hq hi hp hs hp' hs' p1 s1
  generalize (runOps (Ref.step per prog) rinit ops).1 = r at ht hf ⊢
  have hf := Option.some.inj hf
  cases o with
  | act a =>
    have hf : (r.outer per a).2 = .fail e := hf
    show e = _ ∧ (r.outer per a).1.log = _ ∧ _
    rcases outer_cases per r a with ⟨hr, he⟩ | he
    · rw [he] at hf ⊢
      have hf : Ans.fail .throw = .fail e := hf
      have hset : r.active = true → (cfg r.log).set.isSome = true := by
        intro ha
        unfold Ref.active at ha
        rw [Bool.or_eq_true] at ha
        rcases ha with ha | ha
        · obtain ⟨d, hd⟩ := Option.isSome_iff_exists.1 ha
          obtain ⟨τ0, h1, _⟩ := ht.armed d hd
          rw [h1]; rfl
        · rw [(ht.waiting ha).1]; rfl
      refine ⟨by injection hf with hf; exact hf.symm, rfl, a, rfl, ?_, ?_⟩
      · intro h; subst h; simp [Ref.refuse] at hr
      · cases a with
        | set =>
          have hr : (r.active || r.mode.isNone) = true := hr
          rw [Bool.or_eq_true] at hr
          rcases hr with hr | hr
          · exact .inl (hset hr)
          · exact .inr ⟨rfl, by rw [ht.given]; cases e : r.mode with | none => rfl | some m => rw [e] at hr; simp at hr⟩
        | deactivate => simp [Ref.refuse] at hr
        | _ => exact .inl (hset hr)
    · rw [he] at hf
      simp at hf
  | _ => simp [Ref.step] at hf

example : Proper clocks quiet ([.act (.setRel 2 4), .finalize, .startup, .wait 3] ++ [.act (.align true)]) ∧
    Safe clocks quiet ([.act (.setRel 2 4), .finalize, .startup, .wait 3] ++ [.act (.align true)]) ∧
    (answers clocks quiet ([.act (.setRel 2 4), .finalize, .startup, .wait 3] ++ [.act (.align true)])).getLast? = some (.fail .throw) := by
  refine ⟨?_, ?_, ?_⟩ <;> (try unfold Proper) <;> (try unfold Safe) <;> decide +kernel

end Sparta.CycTrig
