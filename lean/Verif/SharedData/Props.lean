import Verif.SharedData.Lemmas
/-! Property C27: SharedData. -/
namespace Sparta.SharedData
variable {α : Type}

/-- C27: every result is that of the latch: a write becomes visible at the next cycle boundary and not before,
and stays until replaced or cleared. Missing: several writes to one object in one cycle, copies of an object
between a write and the end of the cycle, and writes after an assignment; the code is wrong in these cases
(theorems `_violated`). -/
theorem C27_latch_partial (m : Bool) (v : Nat → α) (os : List (Op α))
    (hl : legalOps Spec.step Spec.legal (Spec.init m v) os) :
    (runOps step (World.init m v) os).2 = (runOps Spec.step (Spec.init m v) os).2 :=
  (runOps_simulation_legal step Spec.step Spec.legal Rep rep_step _ _ (rep_init m v) os hl).2

example : legalOps Spec.step Spec.legal (Spec.init false (fun _ => 7))
    [.write 0 1, .read 0, .tick, .read 0, .write 0 2, .copyNew 1 2, .tick, .read 0, .tick, .read 0] := by decide +kernel

/-- manual objects: every history is covered, with copies and assignments -/
theorem C27_manual (v : Nat → α) (os : List (Op α)) :
    (runOps step (World.init true v) os).2 = (runOps Spec.step (Spec.init true v) os).2 := by
  refine C27_latch_partial true v os ?_
  suffices h : ∀ s : Spec α, s.manual = true → (∀ i, (s.objs i).due = false) → legalOps Spec.step Spec.legal s os from
    h _ rfl (fun _ => rfl)
  induction os with
  | nil => intro s _ _; trivial
  | cons o os ih =>
    intro s hs hd
    refine ⟨?_, ih _ ?_ ?_⟩
    · cases o with
      | write i v => exact Or.inl hs
      | copyNew i j => exact hd j
      | assign i j => exact hd j
      | _ => trivial
    · cases o <;> simp only [Spec.step, Spec.set] <;> (try split) <;> exact hs
    · intro k
      cases o <;> simp only [Spec.step, Spec.set] <;> (try split) <;> (try simp only [upd]) <;> (try split) <;>
        (try simp only [hs, hd, Latch.advance]) <;> first | rfl | exact hd _ | simp [hd]

/-- several writes, copies and an assignment of manual objects: the last write wins everywhere -/
example : (runOps step (World.init true (fun _ => 7))
    [.write 0 1, .write 0 2, .copyNew 1 0, .assign 2 0, .read 0, .update 0, .update 1, .update 2, .read 0, .read 1, .read 2]).2 =
    [.done, .done, .done, .done, .value 7, .done, .done, .done, .value 2, .value 2, .value 2] := by decide +kernel

/-- ops that do not change the visible value of object `i` -/
def Quiet (i : Nat) : Op α → Prop
  | .writePS j _ | .clear j | .clearPS j | .access j _ | .construct j _ | .copyNew j _ | .assign j _ | .write j _
  | .clearNS j | .accessNS j _ => j ≠ i
  | .update _ => False
  | _ => True

/-- C27: a single write in a cycle, in readable form: after any legal history, writing `v` to object `i`,
ending the cycle and then any calls and cycle ends that do not touch object `i`, a read yields `v`;
and in the cycle of the write a read still yields what it did before. -/
theorem C27_visible_next_cycle_partial (v0 : Nat → α) (os qs : List (Op α)) (i : Nat) (v : α)
    (hl : legalOps Spec.step Spec.legal (Spec.init false v0) (os ++ [.write i v, .tick] ++ qs))
    (hq : ∀ o ∈ qs, Quiet i o) :
    (step (runOps step (World.init false v0) (os ++ [.write i v, .tick] ++ qs)).1 (.read i)).2 = .value v ∧
    (step (runOps step (World.init false v0) (os ++ [.write i v])).1 (.read i)).2 =
      (step (runOps step (World.init false v0) os).1 (.read i)).2 := by
  have hsplit : ∀ (s : Spec α) (a c : List (Op α)), legalOps Spec.step Spec.legal s (a ++ c) →
      legalOps Spec.step Spec.legal s a ∧ legalOps Spec.step Spec.legal (runOps Spec.step s a).1 c := by
    intro s a c
    induction a generalizing s with
    | nil => exact fun h => ⟨trivial, h⟩
    | cons o a ih => exact fun h => ⟨⟨h.1, (ih _ h.2).1⟩, (ih _ h.2).2⟩
  have sim : ∀ os : List (Op α), legalOps Spec.step Spec.legal (Spec.init false v0) os →
      Rep (runOps step (World.init false v0) os).1 (runOps Spec.step (Spec.init false v0) os).1 := fun os h =>
    (runOps_simulation_legal step Spec.step Spec.legal Rep rep_step _ _ (rep_init false v0) os h).1
  have hread : ∀ {w : World α} {s : Spec α}, Rep w s → (step w (.read i)).2 = resOf (s.objs i).visible := by
    intro w s h
    exact (rep_step w s (.read i) h trivial).2
  have hman : ∀ os : List (Op α), (runOps Spec.step (Spec.init false v0) os).1.manual = false := by
    intro os
    refine runOps_invariant Spec.step (fun s => s.manual = false) ?_ _ rfl os
    intro s o h
    cases o <;> simp only [Spec.step, Spec.set] <;> (try split) <;> exact h
  have h1 := (hsplit _ _ _ hl).1
  have h2 := hsplit _ os [.write i v, .tick] h1
  constructor
  · rw [hread (sim _ hl)]
    rw [runOps_append, runOps_append]
    have hm := hman os
    generalize (runOps Spec.step (Spec.init false v0) os).1 = s at *
    have e : (runOps Spec.step s [.write i v, .tick]).1.objs i = ⟨some v, none, false, (s.objs i).assigned⟩ := by
      simp [runOps, Spec.step, Spec.set, Latch.advance, upd_same, hm]
    generalize (runOps Spec.step s [.write i v, .tick]).1 = t at *
    have e1 : (t.objs i).visible = some v := by rw [e]
    have e2 : (t.objs i).due = false := by rw [e]
    clear e hl h1 h2
    suffices hs : ((runOps Spec.step t qs).1.objs i).visible = some v by rw [hs]; rfl
    induction qs generalizing t with
    | nil => exact e1
    | cons o qs ih =>
      have hq0 := hq o (by simp)
      have keep : ∀ (j : Nat) (l : Latch α), j ≠ i → (t.set j l).objs i = t.objs i := by
        intro j l hj; simp only [Spec.set]; exact upd_other _ _ (fun e => hj e.symm)
      have hstep : (((t.step o).1.objs i).visible = some v ∧ ((t.step o).1.objs i).due = false) := by
        cases o with
        | tick => simp [Spec.step, Latch.advance, e1, e2]
        | update j => exact hq0.elim
        | isValid j => exact ⟨e1, e2⟩
        | isValidNS j => exact ⟨e1, e2⟩
        | read j => exact ⟨e1, e2⟩
        | readNS j => exact ⟨e1, e2⟩
        | access j x => simp only [Spec.step]; split
                        · rw [keep j _ hq0]; exact ⟨e1, e2⟩
                        · exact ⟨e1, e2⟩
        | accessNS j x => simp only [Spec.step]; split
                          · rw [keep j _ hq0]; exact ⟨e1, e2⟩
                          · exact ⟨e1, e2⟩
        | write j x => simp only [Spec.step]; rw [keep j _ hq0]; exact ⟨e1, e2⟩
        | writePS j x => simp only [Spec.step]; rw [keep j _ hq0]; exact ⟨e1, e2⟩
        | clear j => simp only [Spec.step]; rw [keep j _ hq0]; exact ⟨e1, e2⟩
        | clearNS j => simp only [Spec.step]; rw [keep j _ hq0]; exact ⟨e1, e2⟩
        | clearPS j => simp only [Spec.step]; rw [keep j _ hq0]; exact ⟨e1, e2⟩
        | construct j x => simp only [Spec.step]; rw [keep j _ hq0]; exact ⟨e1, e2⟩
        | copyNew j k => simp only [Spec.step]; rw [keep j _ hq0]; exact ⟨e1, e2⟩
        | assign j k => simp only [Spec.step]; rw [keep j _ hq0]; exact ⟨e1, e2⟩
      exact ih (fun o h => hq o (by simp [h])) _ hstep.1 hstep.2
  · have hw : legalOps Spec.step Spec.legal (Spec.init false v0) (os ++ [.write i v]) := by
      have : os ++ [.write i v, .tick] = (os ++ [.write i v]) ++ [.tick] := by simp
      rw [this] at h1
      exact (hsplit _ _ _ h1).1
    rw [hread (sim _ hw), hread (sim _ h2.1), runOps_append]
    simp [runOps, Spec.step, Spec.set, upd_same]

example : legalOps Spec.step Spec.legal (Spec.init false (fun _ => 7)) ([.write 0 1, .tick] ++ [.write 0 2, .tick] ++ [.tick, .write 1 5, .tick])
  ∧ (∀ o ∈ [Op.tick, .write 1 5, .tick], Quiet 0 o) := by
  refine ⟨by decide +kernel, ?_⟩
  simp [Quiet]

theorem updates_two (o : Obj α) (h : o.current < 2) (n : Nat) :
    (o.updates (n + 2)).get (o.updates (n + 2)).pstate = none ∧
    (o.updates (n + 2)).get (o.updates (n + 2)).nstate = none := by
  have key : ∀ (n : Nat) (p : Obj α), p.current < 2 → p.get p.pstate = none → p.get p.nstate = none →
      (p.updates n).get (p.updates n).pstate = none ∧ (p.updates n).get (p.updates n).nstate = none := by
    intro n
    induction n with
    | zero => intro p _ h1 h2; exact ⟨h1, h2⟩
    | succ n ih =>
      intro p h h1 h2
      obtain ⟨u1, u2, u3, _⟩ := update_obj p h
      exact ih p.update u1 (u2.trans h2) u3
  obtain ⟨u1, u2, u3, _⟩ := update_obj o h
  obtain ⟨t1, t2, t3, _⟩ := update_obj o.update u1
  exact key n o.update.update t1 (t2.trans u3) t3

theorem isValid_of {w : World α} {i : Nat} {o : Obj α} (h : w.objs i = o) (hb : o.broken = false) :
    (step w (.isValid i)).2 = .bool (o.get o.pstate).isSome := by
  subst h; simp [step, hb]

theorem read_of {w : World α} {i : Nat} {o : Obj α} (h : w.objs i = o) (hb : o.broken = false) :
    (step w (.read i)).2 = resOf (o.get o.pstate) := by
  subst h; simp [step, hb]

theorem write_tick_lost (o : Obj α) (h1 : o.current < 2) (h2 : o.pending = 1) (h3 : o.tracker = .live)
    (h4 : o.broken = false) (v : α) :
    (o.write false v).tick.broken = false ∧ (o.write false v).tick.get (o.write false v).tick.pstate = none := by
  obtain ⟨p1, p2, p3, p4⟩ := put_other o o.nstate (some v)
  have ho' : o.write false v = { o.put o.nstate (some v) with pending := 2 } := by
    unfold Obj.write; dsimp only; rw [if_neg (by simp), p2, h2]
  rw [ho']
  generalize ho : ({ o.put o.nstate (some v) with pending := 2 } : Obj α) = o'
  have q1 : o'.current < 2 := by rw [← ho]; dsimp only; rw [p1]; exact h1
  have q2 : o'.pending = 2 := by rw [← ho]
  have q3 : o'.tracker = .live := by rw [← ho]; dsimp only; rw [p3]; exact h3
  have q4 : o'.broken = false := by rw [← ho]; dsimp only; rw [p4]; exact h4
  clear ho ho'
  have ht : o'.tick = { o'.updates 2 with pending := 0 } := by
    unfold Obj.tick
    rw [if_neg (by omega), q3, q2]
  rw [ht]
  constructor
  · show (o'.updates 2).broken = false
    simp only [Obj.updates]
    rw [(update_obj _ (update_obj o' q1).1).2.2.2.2.2, (update_obj o' q1).2.2.2.2.2, q4]
  · exact (updates_two o' q1 0).1

/-- C27 fails when an object is written more than once in a cycle: every write schedules its own update, the
second update moves the cleared slot into view, and all the data is lost. This holds after every legal history. -/
theorem C27_two_writes_violated (v0 : Nat → α) (os : List (Op α)) (i : Nat) (v v' : α)
    (hl : legalOps Spec.step Spec.legal (Spec.init false v0) (os ++ [.write i v])) :
    (step (runOps step (World.init false v0) (os ++ [.write i v, .write i v', .tick])).1 (.isValid i)).2 = .bool false := by
  have hs := (runOps_simulation_legal step Spec.step Spec.legal Rep rep_step _ _ (rep_init false v0) _ hl).1
  have hman : (runOps Spec.step (Spec.init false v0) (os ++ [.write i v])).1.manual = false := by
    refine runOps_invariant Spec.step (fun s => s.manual = false) ?_ _ rfl _
    intro s o h
    cases o <;> simp only [Spec.step, Spec.set] <;> (try split) <;> exact h
  have hdue : ((runOps Spec.step (Spec.init false v0) (os ++ [.write i v])).1.objs i).due = true := by
    rw [runOps_append] at hman ⊢
    simp only [runOps, Spec.step, Spec.set, upd_same] at hman ⊢
    simp [hman]
  rw [show os ++ [.write i v, .write i v', .tick] = (os ++ [.write i v]) ++ [.write i v', .tick] by simp, runOps_append]
  generalize (runOps Spec.step (Spec.init false v0) (os ++ [.write i v])).1 = s at *
  generalize (runOps step (World.init false v0) (os ++ [.write i v])).1 = w at *
  have r := hs.objs i
  have hp : (w.objs i).pending = 1 := by rw [r.pend, hdue]; rfl
  have ht : (w.objs i).tracker = .live := by
    rcases r.trk with e | e
    · exact e
    · rw [r.asg e] at hdue; cases hdue
  obtain ⟨k1, k2⟩ := write_tick_lost (w.objs i) r.cur hp ht r.brk v'
  have hrun : (runOps step w [.write i v', .tick]).1.objs i = ((w.objs i).write false v').tick := by
    have hwm : w.manual = false := hs.man.trans hman
    simp only [runOps, step, r.brk, hwm, Bool.false_eq_true, if_false, World.set, upd_same]
  rw [isValid_of hrun k1, k2]; rfl

example : (runOps step (World.init false (fun _ => 7)) [.write 0 1, .write 0 2, .tick, .isValid 0, .read 0]).2 =
    [.done, .done, .done, .bool false, .threw] := by decide +kernel

/-- C27 fails for copies: a copy made after the write in the same cycle never shows the written value, however
long one waits -/
theorem C27_copy_violated (n : Nat) :
    (step (runOps step (World.init false (fun _ => 7)) ([.write 0 1, .copyNew 1 0] ++ List.replicate (n + 1) .tick)).1 (.read 0)).2 = .value 1 ∧
    (step (runOps step (World.init false (fun _ => 7)) ([.write 0 1, .copyNew 1 0] ++ List.replicate (n + 1) .tick)).1 (.read 1)).2 = .value 7 := by
  rw [runOps_append, List.replicate_succ]
  generalize hw : (runOps step (World.init false (fun _ => 7)) [.write 0 1, .copyNew 1 0]).1 = w
  have key : ∀ (n : Nat) (w : World Nat), (w.objs 0).pending = 0 → (w.objs 1).pending = 0 →
      (runOps step w (List.replicate n .tick)).1.objs 0 = w.objs 0 ∧
      (runOps step w (List.replicate n .tick)).1.objs 1 = w.objs 1 := by
    intro n
    induction n with
    | zero => intro w _ _; exact ⟨rfl, rfl⟩
    | succ n ih =>
      intro w h0 h1
      have e0 : (w.objs 0).tick = w.objs 0 := by unfold Obj.tick; rw [if_pos h0]
      have e1 : (w.objs 1).tick = w.objs 1 := by unfold Obj.tick; rw [if_pos h1]
      have := ih { w with objs := fun i => (w.objs i).tick } (by dsimp only; rw [e0]; exact h0)
        (by dsimp only; rw [e1]; exact h1)
      simp only [List.replicate_succ, runOps, step]
      dsimp only at this
      rw [e0, e1] at this
      exact this
  have h0 : ((step w .tick).1.objs 0) = ⟨1, none, some 1, 0, .live, false⟩ := by rw [← hw]; rfl
  have h1 : ((step w .tick).1.objs 1) = ⟨0, some 7, some 1, 0, .live, false⟩ := by rw [← hw]; rfl
  obtain ⟨k0, k1⟩ := key n (step w .tick).1 (by rw [h0]) (by rw [h1])
  rw [h0] at k0
  rw [h1] at k1
  simp only [runOps]
  constructor
  · exact read_of k0 rfl
  · exact read_of k1 rfl

/-- C27 fails after an assignment: the update event of the next write follows a pointer to a destroyed temporary -/
theorem C27_assign_violated :
    (runOps step (World.init false (fun _ => 7)) [.assign 0 1, .write 0 3, .tick, .read 0]).2 =
      [.done, .done, .done, .ub] := by decide +kernel

end Sparta.SharedData
