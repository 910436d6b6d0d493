import Verif.STimer.Rel
/-!
# Properties of state timers (C200-C206)
-/
namespace Sparta.STimer

/-- The enum classes as the unit knows them. -/
def known (cs : List (Nat × Nat)) : List (Nat × Nat) := cs.map fun c => (key c.1, c.2)

/-- The books of a run of a unit made in cycle `now`. -/
def books (now : Nat) (s0 : Sys) (ops : List Op) : Book := Book.run { now := now } ops (run s0 ops).2

variable {now init : Nat} {cs : List (Nat × Nat)} {s0 : Sys}

theorem rel_of (hm : make now init cs = .ok s0) {ops : List Op} (hl : ∀ op ∈ ops, Legal (known cs) op)
    (hd : .destroy ∉ ops) : Rel (run s0 ops).1 (books now s0 ops) := by
  obtain ⟨h1, h2, _⟩ := make_rel hm
  exact h1.run ops s0 _ (fun op ho => by rw [h2]; exact hl op ho) hd

theorem inv_of (hm : make now init cs = .ok s0) {ops : List Op} (hl : ∀ op ∈ ops, Legal (known cs) op) :
    Inv (run s0 ops).1 (books now s0 ops) := by
  obtain ⟨h1, h2, _⟩ := make_rel hm
  exact Inv.run ops s0 _ (.inl h1) (fun op ho => by rw [h2]; exact hl op ho)

theorem classes_of (hm : make now init cs = .ok s0) (ops : List Op) :
    (run s0 ops).1.classes = known cs ∧ (run s0 ops).1.init = init := by
  obtain ⟨_, h2, h3, _⟩ := make_rel hm
  have := run_classes ops s0
  exact ⟨this.1.trans h2, this.2.trans h3⟩

/-! ## C200 -/

/-- C200: however timers are taken, used, queried and dropped, right after a query the values put into
the histogram of a state add up to the cycles all timers together were in that state. -/
theorem C200_query (hm : make now init cs = .ok s0) (ops : List Op)
    (hl : ∀ op ∈ ops, Legal (known cs) op) (hd : .destroy ∉ ops) (k i : Nat) :
    (step (run s0 ops).1 .query).2 = none
    ∧ tally (step (run s0 ops).1 .query).1.hist k i = (books now s0 ops).all k i := by
  have r := rel_of hm hl hd
  simp only [step, r.alive, if_true]
  exact ⟨r.query.1, r.query.2.2 k i⟩

/-- C200: and so they do once the unit has been destroyed, whatever happens to the handles then. -/
theorem C200_destroy (hm : make now init cs = .ok s0) (ops more : List Op)
    (hl : ∀ op ∈ ops, Legal (known cs) op) (hd : .destroy ∉ ops) (k i : Nat) :
    (step (run s0 ops).1 .destroy).2 = none
    ∧ tally (run s0 (ops ++ .destroy :: more)).1.hist k i = (books now s0 ops).all k i := by
  have r := rel_of hm hl hd
  have hdes := r.destroy
  have e : step (run s0 ops).1 .destroy
      = ({ (releaseAll (run s0 ops).1 (run s0 ops).1.active).1 with alive := false }, none) := by
    simp only [step, r.alive, if_true]
    revert hdes
    generalize releaseAll (run s0 ops).1 (run s0 ops).1.active = x
    intro hdes
    match x, hdes with
    | (s', none), _ => rfl
    | (s', some e), h => exact absurd h.1 (by simp)
  refine ⟨by rw [e], ?_⟩
  have h1 : (run s0 (ops ++ .destroy :: more)).1 = (run (step (run s0 ops).1 .destroy).1 more).1 := by
    show (runOps step s0 (ops ++ .destroy :: more)).1 = _
    rw [runOps_append]; rfl
  rw [h1, e]
  have hdone := hdes.2
  have hall : (books now s0 ops).all k i = ((books now s0 ops).step .destroy none).all k i := rfl
  rw [hall]
  revert hdone
  generalize ((books now s0 ops).step .destroy none) = b
  have hcl : ({ (releaseAll (run s0 ops).1 (run s0 ops).1.active).1 with alive := false } : Sys).classes
      = known cs := by
    show (releaseAll (run s0 ops).1 (run s0 ops).1.active).1.classes = _
    rw [(releaseAll_classes _ _).1]; exact (classes_of hm ops).1
  revert hcl
  generalize ({ (releaseAll (run s0 ops).1 (run s0 ops).1.active).1 with alive := false } : Sys) = s
  intro hcl hdone
  -- once the unit has gone no cycle is counted any more
  have key : ∀ (more : List Op) (s : Sys) (b : Book), Done s b →
      tally (run s more).1.hist k i = b.all k i := by
    intro more
    induction more with
    | nil => intro s b hb; exact hb.sum k i
    | cons op more ih =>
      intro s b hb
      have hgo : Done (step s op).1 (b.step op (step s op).2)
          ∧ (b.step op (step s op).2).all k i = b.all k i := by
        cases op with
        | tick n =>
          refine ⟨hb.tick n, ?_⟩
          exact ((hb.tick n).sum k i).symm.trans (hb.sum k i)
        | allocate => simp only [step, hb.alive]; exact ⟨hb, rfl⟩
        | start h code i => simp only [step, hb.alive]; exact ⟨hb, rfl⟩
        | stop h code i => simp only [step, hb.alive]; exact ⟨hb, rfl⟩
        | query => simp only [step, hb.alive]; exact ⟨hb, rfl⟩
        | destroy => simp only [step, hb.alive]; exact ⟨hb, rfl⟩
        | drop h =>
          have : Done (step s (.drop h)).1 (b.step (.drop h) (step s (.drop h)).2) := by
            have := Inv.step (.inr hb) (.drop h) trivial
            rcases this with r' | r'
            · have ha : (step s (.drop h)).1.alive = false := by
                simp only [step]
                split
                · rw [if_neg (by rw [hb.alive]; simp)]; exact hb.alive
                · exact hb.alive
              rw [r'.alive] at ha; cases ha
            · exact r'
          refine ⟨this, ?_⟩
          cases (step s (.drop h)).2 <;> rfl
      rw [← hgo.2]
      exact ih _ _ hgo.1
  exact key more s b hdone

/-- C200 without its restriction is false: entering a state that does not exist is refused, but only
after the state the timer is in has been given its time, which it is given again later. -/
theorem C200_violated :
    ∃ s0, make 1 1 [(7, 2)] = .ok s0 ∧
      (run s0 [.allocate, .start 0 7 0, .tick 5, .start 0 7 2, .tick 5, .drop 0]).2
        = [none, none, none, some .range, none, none]
      ∧ (books 1 s0 [.allocate, .start 0 7 0, .tick 5, .start 0 7 2, .tick 5, .drop 0]).all 7 0 = 10
      ∧ tally (run s0 [.allocate, .start 0 7 0, .tick 5, .start 0 7 2, .tick 5, .drop 0]).1.hist 7 0 = 15 :=
  ⟨_, rfl, by decide +kernel⟩

/-- A run of two timers with queries in between: the hypotheses of C200 can be met. -/
example : ∃ s0, make 3 1 [(7, 2), (8, 3)] = .ok s0 ∧
    (∀ op ∈ [Op.allocate, .start 0 7 0, .tick 4, .allocate, .start 1 7 0, .query, .tick 2, .start 0 7 1, .tick 1],
      Legal (known [(7, 2), (8, 3)]) op)
    ∧ (books 3 s0 [.allocate, .start 0 7 0, .tick 4, .allocate, .start 1 7 0, .query, .tick 2, .start 0 7 1,
        .tick 1]).all 7 0 = 9 :=
  ⟨_, rfl, by decide +kernel⟩

/-! ## C201 -/

/-- C201: dropping a timer puts one value into the histogram of every state of every enum class: the
cycles that timer was in the state since the last query. -/
theorem C201_drop (hm : make now init cs = .ok s0) (ops : List Op)
    (hl : ∀ op ∈ ops, Legal (known cs) op) (hd : .destroy ∉ ops) (h : Nat)
    (hlive : (books now s0 ops).live h = true) :
    (step (run s0 ops).1 (.drop h)).2 = none
    ∧ (step (run s0 ops).1 (.drop h)).1.hist = (run s0 ops).1.hist
        ++ (known cs).flatMap fun c => (List.range c.2).map fun i => (c.1, i, (books now s0 ops).since h c.1 i) := by
  have r := rel_of hm hl hd
  have hcl := (classes_of hm ops).1
  obtain ⟨x, hx⟩ := (r.live h).mp hlive
  have hok : Ok { (run s0 ops).1 with handles := (run s0 ops).1.handles.set h none } (books now s0 ops).all :=
    ⟨r.ok.len, r.ok.nodup, r.ok.bound, r.ok.keys, r.ok.timer, r.ok.idle, r.ok.sum⟩
  obtain ⟨e, _⟩ := hok.releaseTimer x (r.mem hx)
  have e' : step (run s0 ops).1 (.drop h)
      = releaseTimer { (run s0 ops).1 with handles := (run s0 ops).1.handles.set h none } x := by
    simp only [step, hx]
    rw [if_pos r.alive]
  rw [e', e]
  refine ⟨rfl, ?_⟩
  show (run s0 ops).1.hist ++ samples (run s0 ops).1.classes
    (closeAll (run s0 ops).1.now ((run s0 ops).1.timers x)) = _
  congr 1
  unfold samples
  rw [hcl]
  congr 1
  funext c
  apply List.map_congr_left
  intro i _
  rw [closeAll_delta, r.since h x hx]

/-- Without queries the cycles since the last query are all the cycles. -/
theorem since_spent : ∀ (ops : List Op) (rs : List (Option Err)) (b : Book), .query ∉ ops →
    (∀ h k i, b.since h k i = b.spent h k i) →
    ∀ h k i, (b.run ops rs).since h k i = (b.run ops rs).spent h k i := by
  intro ops
  induction ops with
  | nil => intro rs b _ hb; exact hb
  | cons op ops ih =>
    intro rs b hq hb
    cases rs with
    | nil => exact hb
    | cons r rs =>
      have hq' : .query ∉ ops := fun hm => hq (List.mem_cons_of_mem _ hm)
      refine ih rs (b.step op r) hq' ?_
      cases r with
      | some e => cases op <;> exact hb
      | none =>
        cases op with
        | tick n =>
          intro h k i
          show b.since h k i + _ = b.spent h k i + _
          rw [hb]
        | query => exact absurd List.mem_cons_self hq
        | _ => exact hb

/-- C201: without queries, that value is all the time the timer was in the state, from when it was taken
from the pool. -/
theorem C201_whole (hm : make now init cs = .ok s0) (ops : List Op)
    (hl : ∀ op ∈ ops, Legal (known cs) op) (hd : .destroy ∉ ops) (hq : .query ∉ ops) (h : Nat)
    (hlive : (books now s0 ops).live h = true) :
    (step (run s0 ops).1 (.drop h)).1.hist = (run s0 ops).1.hist
        ++ (known cs).flatMap fun c => (List.range c.2).map fun i => (c.1, i, (books now s0 ops).spent h c.1 i) := by
  rw [(C201_drop hm ops hl hd h hlive).2]
  have := since_spent ops (run s0 ops).2 { now := now } hq (fun _ _ _ => rfl)
  congr 1
  congr 1
  funext c
  apply List.map_congr_left
  intro i _
  rw [show (books now s0 ops).since h c.1 i = (books now s0 ops).spent h c.1 i from this h c.1 i]

/-- C201 without its restriction is false: a query splits the time of a timer into two values, so asking
changes the histograms found in the end. -/
theorem C201_split_violated :
    ∃ s0, make 1 1 [(7, 1)] = .ok s0 ∧
      (run s0 [.allocate, .start 0 7 0, .tick 3, .tick 4, .drop 0]).1.hist = [(7, 0, 7)]
      ∧ (run s0 [.allocate, .start 0 7 0, .tick 3, .query, .tick 4, .drop 0]).1.hist = [(7, 0, 3), (7, 0, 4)] :=
  ⟨_, rfl, by decide +kernel⟩

example : ∃ s0, make 1 1 [(7, 2)] = .ok s0 ∧
    (books 1 s0 [.allocate, .start 0 7 0, .tick 3, .start 0 7 1, .tick 2]).live 0 = true
    ∧ (books 1 s0 [.allocate, .start 0 7 0, .tick 3, .start 0 7 1, .tick 2]).spent 0 7 0 = 3
    ∧ (books 1 s0 [.allocate, .start 0 7 0, .tick 3, .start 0 7 1, .tick 2]).since 0 7 1 = 2 :=
  ⟨_, rfl, by decide +kernel⟩

/-! ## C202 -/

/-- C202: which calls a timer accepts depends on the calls made through its handle alone. -/
theorem C202_start (hm : make now init cs = .ok s0) (ops : List Op)
    (hl : ∀ op ∈ ops, Legal (known cs) op) (hd : .destroy ∉ ops) (h code i : Nat)
    (hlive : (books now s0 ops).live h = true) :
    (step (run s0 ops).1 (.start h code i)).2 = none ↔
      (∃ n, (known cs).lookup (key code) = some n ∧ i < n)
      ∧ (∀ t, (books now s0 ops).cur h (key code) ≠ some (i, t))
      ∧ (∀ j, (books now s0 ops).cur h (key code) ≠ some (j, 0)) := by
  have r := rel_of hm hl hd
  obtain ⟨x, hx⟩ := (r.live h).mp hlive
  have := r.start_iff hx code i
  rw [(classes_of hm ops).1] at this
  simp only [step, r.alive, hx]
  exact this

/-- C202: a state can be left exactly when the timer is in it. -/
theorem C202_stop (hm : make now init cs = .ok s0) (ops : List Op)
    (hl : ∀ op ∈ ops, Legal (known cs) op) (hd : .destroy ∉ ops) (h code i : Nat)
    (hlive : (books now s0 ops).live h = true) :
    (step (run s0 ops).1 (.stop h code i)).2 = none ↔
      ((known cs).lookup (key code)).isSome ∧ ∃ t, (books now s0 ops).cur h (key code) = some (i, t) := by
  have r := rel_of hm hl hd
  obtain ⟨x, hx⟩ := (r.live h).mp hlive
  have := r.stop_iff hx code i
  rw [(classes_of hm ops).1] at this
  simp only [step, r.alive, hx]
  exact this

/-- C202: a timer taken from the pool is in no state and has spent no time, though it may have been used
before: every state of every class can be entered, none can be left. -/
theorem C202_fresh (hm : make now init cs = .ok s0) (ops : List Op)
    (hl : ∀ op ∈ ops, Legal (known cs) op) (hd : .destroy ∉ ops)
    (ha : (step (run s0 ops).1 .allocate).2 = none) :
    let ops' := ops ++ [.allocate]
    let h := (books now s0 ops).count
    (books now s0 ops').live h = true
    ∧ (∀ k i, (books now s0 ops').cur h k = none ∧ (books now s0 ops').spent h k i = 0
        ∧ (books now s0 ops').since h k i = 0)
    ∧ (∀ code i n, (known cs).lookup (key code) = some n → i < n →
        (step (run s0 ops').1 (.start h code i)).2 = none)
    ∧ (∀ code i, (step (run s0 ops').1 (.stop h code i)).2 ≠ none) := by
  intro ops' h
  have r := rel_of hm hl hd
  have hb : books now s0 ops' = (books now s0 ops).step .allocate none := by
    have e2 : (run s0 ops').2 = (run s0 ops).2 ++ [none] := by
      show (runOps step s0 (ops ++ [.allocate])).2 = _
      rw [runOps_append_snd]
      show _ ++ [(step (run s0 ops).1 .allocate).2] = _
      rw [ha]; rfl
    show Book.run _ (ops ++ [.allocate]) (run s0 ops').2 = _
    rw [e2]
    have hlen : (run s0 ops).2.length = ops.length := by
      show (runOps step s0 ops).2.length = _
      clear e2 ha hl hd r
      generalize s0 = s
      induction ops generalizing s with
      | nil => rfl
      | cons o os ih => simp [runOps, ih]
    show _ = (Book.run { now := now } ops (run s0 ops).2).step .allocate none
    revert hlen
    generalize (run s0 ops).2 = rs
    generalize ({ now := now } : Book) = b
    clear e2 ha hl hd r
    intro hlen
    induction ops generalizing rs b with
    | nil => cases rs with
      | nil => rfl
      | cons _ _ => cases hlen
    | cons o os ih =>
      cases rs with
      | nil => cases hlen
      | cons r rs =>
        simp only [List.cons_append, Book.run]
        exact ih rs _ (by simpa using hlen)
  have hl' : ∀ op ∈ ops', Legal (known cs) op := by
    intro op ho
    rcases List.mem_append.mp ho with h1 | h1
    · exact hl op h1
    · cases List.mem_singleton.mp h1; trivial
  have hd' : .destroy ∉ ops' := by
    intro ho
    rcases List.mem_append.mp ho with h1 | h1
    · exact hd h1
    · cases List.mem_singleton.mp h1
  have hcur : ∀ k, (books now s0 ops').cur h k = none := by
    intro k
    rw [hb]
    show (books now s0 ops).cur (books now s0 ops).count k = none
    exact r.dead _ (fun x hx => by rw [r.count, List.getElem?_eq_none (Nat.le_refl _)] at hx; cases hx) k
  have hlive : (books now s0 ops').live h = true := by
    rw [hb]
    show upd (books now s0 ops).live (books now s0 ops).count true (books now s0 ops).count = true
    rw [upd_same]
  refine ⟨hlive, fun k i => ⟨hcur k, ?_⟩, fun code i n hn hi => ?_, fun code i hc => ?_⟩
  · rw [hb]
    exact r.later _ (by show _ ≤ (books now s0 ops).count; rw [r.count]; exact Nat.le_refl _) k i
  · rw [C202_start hm ops' hl' hd' h code i hlive, hcur]
    exact ⟨⟨n, hn, hi⟩, fun t he => (by cases he), fun j he => (by cases he)⟩
  · rw [C202_stop hm ops' hl' hd' h code i hlive, hcur] at hc
    obtain ⟨_, t, ht⟩ := hc
    cases ht

/-- A timer used, dropped and taken again. -/
example : ∃ s0, make 1 1 [(7, 2)] = .ok s0 ∧
    (run s0 [.allocate, .start 0 7 0, .tick 3, .drop 0, .allocate, .stop 1 7 0, .start 1 7 0]).2
      = [none, none, none, none, none, some .noActive, none] := ⟨_, rfl, by decide +kernel⟩

/-! ## C203 -/

/-- C203: a call that is refused leaves the unit as it was, if the state that was to be entered exists. -/
theorem C203_refused (hm : make now init cs = .ok s0) (ops : List Op)
    (h code i : Nat) :
    (∀ e, (step (run s0 ops).1 (.stop h code i)).2 = some e →
      (step (run s0 ops).1 (.stop h code i)).1 = (run s0 ops).1)
    ∧ (Legal (known cs) (.start h code i) → ∀ e, (step (run s0 ops).1 (.start h code i)).2 = some e →
      (step (run s0 ops).1 (.start h code i)).1 = (run s0 ops).1) := by
  constructor
  · intro e he
    simp only [step] at *
    split at he
    · exact stop_fail (by rw [he]; simp)
    · rfl
  · intro hL e he
    simp only [step] at *
    split at he
    · refine start_fail ?_ (by rw [he]; simp)
      rw [(classes_of hm ops).1]; exact hL
    · rfl

/-- C203 fails for a state entered in cycle 0: no other state of the class can be entered before it has
been left, unlike in every other cycle. -/
theorem C203_cycle0_violated :
    (∃ s0, make 0 1 [(7, 2)] = .ok s0 ∧
      (run s0 [.allocate, .start 0 7 0, .tick 5, .start 0 7 1]).2 = [none, none, none, some .startTime])
    ∧ (∃ s0, make 1 1 [(7, 2)] = .ok s0 ∧
      (run s0 [.allocate, .start 0 7 0, .tick 5, .start 0 7 1]).2 = [none, none, none, none]) :=
  ⟨⟨_, rfl, by decide +kernel⟩, ⟨_, rfl, by decide +kernel⟩⟩

/-- C203 fails for an enum class that was never given to the unit but whose hash code ends in the same
32 bits as one that was: its states are taken for those of the other class. -/
theorem C203_collision_violated :
    ∃ s0, make 1 1 [(7, 2)] = .ok s0 ∧
      (run s0 [.allocate, .start 0 4294967303 1, .tick 5, .drop 0]).2 = [none, none, none, none]
      ∧ (run s0 [.allocate, .start 0 4294967303 1, .tick 5, .drop 0]).1.hist = [(7, 0, 0), (7, 1, 5)] :=
  ⟨_, rfl, by decide +kernel⟩

example : ∃ s0, make 1 1 [(7, 2)] = .ok s0 ∧ Legal (known [(7, 2)]) (.start 0 7 1)
    ∧ (step (run s0 [.allocate, .start 0 7 1]).1 (.start 0 7 1)).2 = some .already :=
  ⟨_, rfl, by decide +kernel⟩

/-! ## C204 -/

theorem length_filter_sum (l : List Nat) (p : Nat → Bool) (g : Nat → Nat)
    (h : ∀ a, g a = if p a = true then 1 else 0) : (l.filter p).length = (l.map g).sum := by
  induction l with
  | nil => rfl
  | cons a l ih =>
    rw [List.map_cons, List.sum_cons, ← ih, h a]
    by_cases ha : p a = true
    · rw [List.filter_cons_of_pos ha, if_pos ha, List.length_cons]; omega
    · rw [List.filter_cons_of_neg ha, if_neg ha]; omega

theorem sum_ones (l : List Nat) : (l.map fun _ => 1).sum = l.length := by
  induction l with
  | nil => rfl
  | cons a l ih => rw [List.map_cons, List.sum_cons, ih, List.length_cons]; omega

theorem inFlight_active {s : Sys} {b : Book} (r : Rel s b) : b.inFlight = s.active.length := by
  rw [r.perm.length_eq, ← sum_ones, sum_live]
  unfold Book.inFlight
  rw [r.count]
  apply length_filter_sum
  intro a
  by_cases ha : b.live a = true
  · obtain ⟨x, hx⟩ := (r.live a).mp ha
    rw [if_pos ha, hx]
  · rw [if_neg ha]
    split
    · rename_i x hx; exact absurd ((r.live a).mpr ⟨x, hx⟩) ha
    · rfl

/-- C204: a timer can always be taken while fewer than 10000 are in use, if the unit was made with at
least one. -/
theorem C204_allocate (hm : make now init cs = .ok s0) (hi : 0 < init) (ops : List Op)
    (hl : ∀ op ∈ ops, Legal (known cs) op) (hd : .destroy ∉ ops)
    (hf : (books now s0 ops).inFlight < 10000) :
    (step (run s0 ops).1 .allocate).2 = none := by
  have r := rel_of hm hl hd
  rw [inFlight_active r] at hf
  simp only [step, r.alive, if_true]
  unfold allocate
  by_cases ha : (run s0 ops).1.avail = []
  · have hlen := r.ok.len
    rw [ha] at hlen
    have hg : grow (run s0 ops).1 = ((grow (run s0 ops).1).1, none)
        ∧ (grow (run s0 ops).1).1.avail
          = ((List.range init).map ((run s0 ops).1.total + ·)).reverse := by
      unfold grow
      have : (run s0 ops).1.total < maxTimers := by
        simp at hlen; unfold maxTimers; omega
      rw [if_pos ha, if_pos this]
      refine ⟨rfl, ?_⟩
      show ((List.range (run s0 ops).1.init).map ((run s0 ops).1.total + ·)).reverse = _
      rw [(classes_of hm ops).2]
    have hok := r.ok.grow
    rw [hg.1]
    simp only
    match hav : (grow (run s0 ops).1).1.avail with
    | [] =>
      rw [hg.2] at hav
      have := congrArg List.length hav
      simp at this
      omega
    | id :: rest => rw [take_ok hok hav]
  · have hg : grow (run s0 ops).1 = ((run s0 ops).1, none) := by unfold grow; rw [if_neg ha]
    rw [hg]
    simp only
    match hav : (run s0 ops).1.avail with
    | [] => exact absurd hav ha
    | id :: rest => rw [take_ok r.ok hav]

/-- C204: and there are never more in use than 9999 and the number the unit was made with. -/
theorem C204_bound (hm : make now init cs = .ok s0) (ops : List Op)
    (hl : ∀ op ∈ ops, Legal (known cs) op) (hd : .destroy ∉ ops) :
    (books now s0 ops).inFlight < 10000 + init := by
  have r := rel_of hm hl hd
  rw [inFlight_active r]
  have h1 := r.ok.len
  have h2 := r.cap
  rw [(classes_of hm ops).2] at h2
  unfold maxTimers at h2
  omega

/-- C204 without its restriction is false: a unit made with no timers cannot make any. -/
theorem C204_zero_violated (now : Nat) :
    ∃ s0, make now 0 [(7, 2)] = .ok s0 ∧ (run s0 [.allocate]).2 = [some .undefined] := ⟨_, rfl, rfl⟩

example : ∃ s0, make 1 1 [(7, 2)] = .ok s0 ∧
    (books 1 s0 [.allocate, .allocate, .drop 0, .allocate, .allocate]).inFlight = 3
    ∧ (step (run s0 [.allocate, .allocate, .drop 0, .allocate, .allocate]).1 .allocate).2 = none :=
  ⟨_, rfl, by decide +kernel⟩

/-! ## C205 -/

/-- C205: a handle may be dropped after its unit has been destroyed: nothing is counted again. -/
theorem C205_outlive (hm : make now init cs = .ok s0) (ops : List Op)
    (hl : ∀ op ∈ ops, Legal (known cs) op) (h : Nat) (hg : (books now s0 ops).gone = true)
    (hlive : (books now s0 ops).live h = true) :
    (step (run s0 ops).1 (.drop h)).2 = none
    ∧ (step (run s0 ops).1 (.drop h)).1.hist = (run s0 ops).1.hist := by
  rcases inv_of hm hl with r | r
  · rw [r.gone] at hg; cases hg
  · obtain ⟨x, hx⟩ := (r.live h).mp hlive
    simp only [step, hx]
    rw [if_neg (by rw [r.alive]; simp)]
    exact ⟨rfl, rfl⟩

/-- C205: a handle works exactly while it has not been dropped and its unit exists. -/
theorem C205_undefined (hm : make now init cs = .ok s0) (ops : List Op)
    (hl : ∀ op ∈ ops, Legal (known cs) op) (h code i : Nat) :
    ((step (run s0 ops).1 (.start h code i)).2 = some .undefined ↔
      ((books now s0 ops).live h = false ∨ (books now s0 ops).gone = true))
    ∧ ((step (run s0 ops).1 (.stop h code i)).2 = some .undefined ↔
      ((books now s0 ops).live h = false ∨ (books now s0 ops).gone = true)) := by
  rcases inv_of hm hl with r | r
  · by_cases hlive : (books now s0 ops).live h = true
    · obtain ⟨x, hx⟩ := (r.live h).mp hlive
      rw [hlive, r.gone]
      simp only [step, r.alive, hx]
      have h1 : (startState (run s0 ops).1 x code i).2 ≠ some .undefined := by
        unfold startState startSet
        split
        · simp
        · simp only
          split
          · split
            · simp
            · split
              · simp
              · split <;> simp
          · split <;> simp
      have h2 : (endState (run s0 ops).1 x code i).2 ≠ some .undefined := by
        unfold endState endSet
        split
        · simp
        · simp only
          split
          · simp
          · split <;> simp
      simp [h1, h2]
    · have hf : (books now s0 ops).live h = false := by simpa using hlive
      rw [hf]
      have hn : ∀ x, (run s0 ops).1.handles[h]? ≠ some (some x) := fun x hx =>
        hlive ((r.live h).mpr ⟨x, hx⟩)
      simp only [step, r.alive]
      match hh : (run s0 ops).1.handles[h]? with
      | none => simp
      | some none => simp
      | some (some x) => exact absurd hh (hn x)
  · rw [r.gone]
    simp only [step, r.alive]
    simp

example : ∃ s0, make 1 1 [(7, 2)] = .ok s0 ∧
    (run s0 [.allocate, .start 0 7 0, .tick 4, .destroy, .tick 3, .start 0 7 1, .drop 0]).2
      = [none, none, none, none, none, some .undefined, none]
    ∧ (run s0 [.allocate, .start 0 7 0, .tick 4, .destroy, .tick 3, .start 0 7 1, .drop 0]).1.hist
      = [(7, 0, 4), (7, 1, 0)] := ⟨_, rfl, by decide +kernel⟩

/-! ## C206 -/

theorem queryAll_again : ∀ (ids : List Nat) (s : Sys), (∀ id ∈ ids, (s.timers id).last = s.now) →
    queryAll s ids = (s, none) := by
  intro ids
  induction ids with
  | nil => intro s _; rfl
  | cons id ids ih =>
    intro s h
    show (match queryTimer s id with
      | (s', none) => queryAll s' ids
      | (s', some e) => (s', some e)) = _
    have : queryTimer s id = (s, none) := by
      unfold queryTimer; rw [if_pos (h id List.mem_cons_self)]
    rw [this]
    exact ih s (fun x hx => h x (List.mem_cons_of_mem _ hx))

/-- C206: a second query in the same cycle changes nothing. -/
theorem C206_again (hm : make now init cs = .ok s0) (ops : List Op)
    (hl : ∀ op ∈ ops, Legal (known cs) op) (hd : .destroy ∉ ops) :
    (step (step (run s0 ops).1 .query).1 .query) = ((step (run s0 ops).1 .query).1, none) := by
  have r := rel_of hm hl hd
  obtain ⟨_, _, ⟨hs, ts, h3⟩, _, h5, _, _⟩ := Ok.queryAll _ _ r.ok (fun _ h => h)
  have e : step (run s0 ops).1 .query = queryAll (run s0 ops).1 (run s0 ops).1.active := by
    simp only [step, r.alive, if_true]
  rw [e]
  have hact : (queryAll (run s0 ops).1 (run s0 ops).1.active).1.active = (run s0 ops).1.active := by rw [h3]
  have hnow : (queryAll (run s0 ops).1 (run s0 ops).1.active).1.now = (run s0 ops).1.now := by rw [h3]
  have hal : (queryAll (run s0 ops).1 (run s0 ops).1.active).1.alive = true := by rw [h3]; exact r.alive
  show (if (queryAll (run s0 ops).1 (run s0 ops).1.active).1.alive then _ else _) = _
  rw [if_pos hal]
  apply queryAll_again
  rw [hact, hnow]
  exact h5

/-- C206: two queries in different cycles do not count a cycle twice, and a query does not end a state. -/
example : ∃ s0, make 1 2 [(7, 1)] = .ok s0 ∧
    (run s0 [.allocate, .start 0 7 0, .tick 3, .query, .query, .tick 2, .query, .stop 0 7 0]).1.hist
      = [(7, 0, 3), (7, 0, 2)]
    ∧ (run s0 [.allocate, .start 0 7 0, .tick 3, .query, .query, .tick 2, .query, .stop 0 7 0]).2
      = [none, none, none, none, none, none, none, none] := ⟨_, rfl, by decide +kernel⟩

end Sparta.STimer
