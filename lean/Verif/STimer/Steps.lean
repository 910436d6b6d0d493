import Verif.STimer.Lemmas
/-! # What every timer and the pool keep up -/
namespace Sparta.STimer

/-- The state `i` is one of the enum class `k`. -/
def inClass (classes : List (Nat × Nat)) (k i : Nat) : Prop := ∃ n, classes.lookup k = some n ∧ i < n

structure TOk (cs : List (Nat × Nat)) (now : Nat) (t : Timer) : Prop where
  last : t.last ≤ now
  zero : t.last = now → ∀ k i, (t.sets k).delta i = 0
  start : ∀ k, (t.sets k).active.isSome → (t.sets k).start ≤ now
  range : ∀ k a, (t.sets k).active = some a → inClass cs k a
  out : ∀ k i, ¬ inClass cs k i → (t.sets k).delta i = 0

def Idle (t : Timer) : Prop := ∀ k, (t.sets k).active = none ∧ ∀ i, (t.sets k).delta i = 0

theorem TOk.new (cs : List (Nat × Nat)) (now : Nat) : TOk cs now {} :=
  ⟨Nat.zero_le _, fun _ _ _ => rfl, fun _ h => (by cases h), fun _ _ h => (by cases h), fun _ _ _ => rfl⟩

theorem Idle.new : Idle {} := fun _ => ⟨rfl, fun _ => rfl⟩

theorem Idle.pend {t : Timer} (h : Idle t) (now k i : Nat) : pend now t k i = 0 := by
  unfold STimer.pend; rw [pendS_inactive _ _ _ _ (h k).1, (h k).2]

theorem TOk.pend_now {cs : List (Nat × Nat)} {now : Nat} {t : Timer} (h : TOk cs now t)
    (hl : t.last = now) (k i : Nat) : pend now t k i = 0 := by
  unfold pend pendS
  rw [h.zero hl]
  by_cases ha : (t.sets k).active = some i
  · have := h.start k (by rw [ha]; rfl)
    rw [if_pos ha, hl]
    split <;> omega
  · rw [if_neg ha]

theorem TOk.pend_out {cs : List (Nat × Nat)} {now : Nat} {t : Timer} (h : TOk cs now t) (k i : Nat)
    (ho : ¬ inClass cs k i) : pend now t k i = 0 := by
  unfold pend pendS
  rw [h.out k i ho, if_neg (fun ha => ho (h.range k i ha))]

theorem TOk.timely {s : Sys} {t : Timer} (h : TOk s.classes s.now t) : timely s t = true := by
  unfold STimer.timely
  rw [List.all_eq_true]
  intro c _
  rw [decide_eq_true_eq]
  cases ha : (t.sets c.1).active with
  | none => exact .inl rfl
  | some a => exact .inr (h.start c.1 (by rw [ha]; rfl))

theorem TOk.tick {cs : List (Nat × Nat)} {now : Nat} {t : Timer} (h : TOk cs now t) (n : Nat) :
    TOk cs (now + n) t :=
  ⟨Nat.le_trans h.last (Nat.le_add_right _ _),
   fun hl k i => h.zero (by have := h.last; omega) k i,
   fun k hk => Nat.le_trans (h.start k hk) (Nat.le_add_right _ _), h.range, h.out⟩

theorem TOk.pend_tick {cs : List (Nat × Nat)} {now : Nat} {t : Timer} (h : TOk cs now t)
    (n k i : Nat) :
    pend (now + n) t k i = pend now t k i + (if (t.sets k).active = some i then n else 0) :=
  pendS_tick now t.last n _ i h.last (h.start k)

theorem zeroed_active (cs : List (Nat × Nat)) (t : Timer) (k : Nat) :
    ((zeroed cs t).sets k).active = (t.sets k).active := rfl

theorem zeroed_delta {cs : List (Nat × Nat)} {t : Timer} (k i : Nat)
    (h : ¬ inClass cs k i → (t.sets k).delta i = 0) : ((zeroed cs t).sets k).delta i = 0 := by
  show (match cs.lookup k with
          | some n => if i < n then 0 else (t.sets k).delta i
          | none => (t.sets k).delta i) = 0
  match hl : cs.lookup k with
  | none => exact h (fun ⟨n, hn, _⟩ => by rw [hl] at hn; cases hn)
  | some n =>
    by_cases hi : i < n
    · exact if_pos hi
    · show (if i < n then 0 else (t.sets k).delta i) = 0
      rw [if_neg hi]
      exact h (fun ⟨m, hm, him⟩ => by rw [hl] at hm; cases hm; exact hi him)

/-- The timer after a query. -/
def queried (cs : List (Nat × Nat)) (now : Nat) (t : Timer) : Timer :=
  { zeroed cs (endAll now t) with last := now }

theorem endAll_out {cs : List (Nat × Nat)} {now : Nat} {t : Timer} (h : TOk cs now t) (k i : Nat)
    (ho : ¬ inClass cs k i) : ((endAll now t).sets k).delta i = 0 := by
  show (endTimer now t.last (t.sets k)).delta i = 0
  rw [endTimer_delta]
  exact h.pend_out k i ho

theorem queried_delta {cs : List (Nat × Nat)} {now : Nat} {t : Timer} (h : TOk cs now t) (k i : Nat) :
    ((queried cs now t).sets k).delta i = 0 := zeroed_delta k i (endAll_out h k i)

theorem queried_active (cs : List (Nat × Nat)) (now : Nat) (t : Timer) (k : Nat) :
    ((queried cs now t).sets k).active = (t.sets k).active := endTimer_active _ _ _

theorem queried_start (cs : List (Nat × Nat)) (now : Nat) (t : Timer) (k : Nat) :
    ((queried cs now t).sets k).start = (t.sets k).start := endTimer_start _ _ _

theorem TOk.queried {cs : List (Nat × Nat)} {now : Nat} {t : Timer} (h : TOk cs now t) :
    TOk cs now (queried cs now t) :=
  ⟨Nat.le_refl _, fun _ => queried_delta h,
   fun k hk => by rw [queried_start]; rw [queried_active] at hk; exact h.start k hk,
   fun k a ha => by rw [queried_active] at ha; exact h.range k a ha,
   fun k i _ => queried_delta h k i⟩

/-- The timer after a release. -/
def released (cs : List (Nat × Nat)) (now : Nat) (t : Timer) : Timer := zeroed cs (closeAll now t)

theorem closeAll_active (now : Nat) (t : Timer) (k : Nat) : ((closeAll now t).sets k).active = none := by
  show (if (t.sets k).active.isSome then
      { endTimer now t.last (t.sets k) with active := none, start := 0 } else t.sets k).active = none
  cases h : (t.sets k).active with
  | none => exact h
  | some a => rfl

theorem closeAll_delta (now : Nat) (t : Timer) (k i : Nat) :
    ((closeAll now t).sets k).delta i = pend now t k i := by
  show (if (t.sets k).active.isSome then
      { endTimer now t.last (t.sets k) with active := none, start := 0 } else t.sets k).delta i = _
  cases h : (t.sets k).active with
  | none => unfold pend; rw [pendS_inactive _ _ _ _ h]; rfl
  | some a =>
    show (endTimer now t.last (t.sets k)).delta i = _
    rw [endTimer_delta]; rfl

theorem released_idle {cs : List (Nat × Nat)} {now : Nat} {t : Timer} (h : TOk cs now t) :
    Idle (released cs now t) := fun k =>
  ⟨closeAll_active now t k, fun i => zeroed_delta k i (fun ho => by
    rw [closeAll_delta]; exact h.pend_out k i ho)⟩

theorem TOk.released {cs : List (Nat × Nat)} {now : Nat} {t : Timer} (h : TOk cs now t) :
    TOk cs now (released cs now t) :=
  ⟨h.last, fun _ k i => (released_idle h k).2 i, fun k hk => (by rw [(released_idle h k).1] at hk; cases hk),
   fun k a ha => (by rw [(released_idle h k).1] at ha; cases ha), fun k i _ => (released_idle h k).2 i⟩

theorem tally_pend {cs : List (Nat × Nat)} {now : Nat} {t u : Timer} (h : TOk cs now t) (k i : Nat)
    (hn : (cs.map (·.1)).Nodup) (hu : (u.sets k).delta i = pend now t k i) :
    tally (samples cs u) k i = pend now t k i := by
  rw [tally_samples cs u k i hn]
  match hl : cs.lookup k with
  | none => exact (h.pend_out k i (fun ⟨n, hn, _⟩ => by rw [hl] at hn; cases hn)).symm
  | some n =>
    by_cases hi : i < n
    · show (if i < n then (u.sets k).delta i else 0) = _
      rw [if_pos hi]; exact hu
    · show (if i < n then (u.sets k).delta i else 0) = _
      rw [if_neg hi]
      exact (h.pend_out k i (fun ⟨m, hm, him⟩ => by rw [hl] at hm; cases hm; exact hi him)).symm

/-! ## Entering and leaving a state -/

/-- What `startState` does to a part when it succeeds. -/
def begun (now last i : Nat) (ss : SSet) : SSet := { endTimer now last ss with active := some i, start := now }

theorem startSet_ok {now last n i : Nat} {ss : SSet} {r : SSet} (h : startSet now last n i ss = (r, none)) :
    r = begun now last i ss ∧ i < n ∧ ss.active ≠ some i ∧ (ss.active.isSome → ss.start ≠ 0) := by
  unfold startSet at h
  cases ha : ss.active with
  | none =>
    rw [ha] at h
    simp only at h
    split at h
    · rename_i hi
      cases h
      refine ⟨?_, hi, by simp, by simp⟩
      unfold begun endTimer; simp [ha]
    · cases h
  | some a =>
    rw [ha] at h
    simp only at h
    split at h
    · cases h
    · split at h
      · cases h
      · split at h
        · rename_i h1 h2 hi
          cases h
          exact ⟨rfl, hi, fun he => h1 (by cases he; rfl), fun _ => h2⟩
        · cases h

theorem startSet_iff (now last n i : Nat) (ss : SSet) :
    (startSet now last n i ss).2 = none
      ↔ i < n ∧ ss.active ≠ some i ∧ (ss.active.isSome → ss.start ≠ 0) := by
  constructor
  · intro h
    have : startSet now last n i ss = ((startSet now last n i ss).1, none) := by rw [← h]
    exact (startSet_ok this).2
  · rintro ⟨hi, h1, h2⟩
    unfold startSet
    cases ha : ss.active with
    | none => simp [hi]
    | some a =>
      have e1 : ¬ a = i := fun he => h1 (by rw [ha, he])
      have e2 : ¬ ss.start = 0 := h2 (by rw [ha]; rfl)
      simp [hi, e1, e2]

theorem startSet_fail {now last n i : Nat} {ss : SSet} (hi : i < n)
    (h : (startSet now last n i ss).2 ≠ none) : (startSet now last n i ss).1 = ss := by
  revert h
  unfold startSet
  cases ss.active with
  | none => simp [hi]
  | some a =>
    simp only [hi, if_true]
    split
    · simp
    · split <;> simp

theorem endSet_iff (now last i : Nat) (ss : SSet) :
    (endSet now last i ss).2 = none ↔ ss.active = some i := by
  unfold endSet
  cases ss.active with
  | none => simp
  | some a =>
    by_cases h : a = i
    · simp [h]
    · simp [h]

theorem endSet_fail {now last i : Nat} {ss : SSet} (h : (endSet now last i ss).2 ≠ none) :
    (endSet now last i ss).1 = ss := by
  revert h
  unfold endSet
  cases ss.active with
  | none => simp
  | some a => by_cases h : a = i <;> simp [h]

/-- What `endState` does to a part when it succeeds. -/
def ended (now last : Nat) (ss : SSet) : SSet := { endTimer now last ss with active := none, start := 0 }

theorem endSet_ok {now last i : Nat} {ss : SSet} (h : ss.active = some i) :
    (endSet now last i ss).1 = ended now last ss := by
  unfold endSet; rw [h]; simp [ended]

theorem TOk.put {cs : List (Nat × Nat)} {now : Nat} {t : Timer} (h : TOk cs now t) (k : Nat) (ss : SSet)
    (hd : ∀ i, ss.delta i = pend now t k i) (hs : ss.active.isSome → ss.start ≤ now)
    (hr : ∀ a, ss.active = some a → inClass cs k a) : TOk cs now (t.put k ss) := by
  have e : ∀ j, (t.put k ss).sets j = upd t.sets k ss j := fun _ => rfl
  refine ⟨h.last, fun hl j i => ?_, fun j => ?_, fun j => ?_, fun j i => ?_⟩
  · rw [e]
    by_cases hj : j = k
    · subst hj; rw [upd_same, hd]; exact h.pend_now hl j i
    · rw [upd_other _ _ hj]; exact h.zero hl j i
  · rw [e]
    by_cases hj : j = k
    · subst hj; rw [upd_same]; exact hs
    · rw [upd_other _ _ hj]; exact h.start j
  · rw [e]
    by_cases hj : j = k
    · subst hj; rw [upd_same]; exact hr
    · rw [upd_other _ _ hj]; exact h.range j
  · rw [e]
    by_cases hj : j = k
    · subst hj; rw [upd_same, hd]; exact h.pend_out j i
    · rw [upd_other _ _ hj]; exact h.out j i

theorem put_pend {now : Nat} {t : Timer} (k : Nat) (ss : SSet)
    (hd : ∀ i, pendS now t.last ss i = pend now t k i) (j i : Nat) :
    pend now (t.put k ss) j i = pend now t j i := by
  show pendS now t.last (upd t.sets k ss j) i = _
  by_cases hj : j = k
  · subst hj; rw [upd_same]; exact hd i
  · rw [upd_other _ _ hj]; rfl

theorem begun_delta (now : Nat) (t : Timer) (k i j : Nat) :
    (begun now t.last i (t.sets k)).delta j = pend now t k j := endTimer_delta _ _ _ _

theorem begun_pend {now : Nat} {t : Timer} (hl : t.last ≤ now) (k i j : Nat) :
    pendS now t.last (begun now t.last i (t.sets k)) j = pend now t k j := by
  rw [pendS_begun now t.last _ j i hl _ rfl rfl rfl]; exact begun_delta now t k i j

theorem ended_delta (now : Nat) (t : Timer) (k j : Nat) :
    (ended now t.last (t.sets k)).delta j = pend now t k j := endTimer_delta _ _ _ _

theorem ended_pend {now : Nat} {t : Timer} (k j : Nat) :
    pendS now t.last (ended now t.last (t.sets k)) j = pend now t k j := by
  rw [pendS_inactive _ _ _ _ rfl]; exact ended_delta now t k j

/-! ## The pool -/

structure Ok (s : Sys) (T : Nat → Nat → Nat) : Prop where
  len : s.active.length + s.avail.length = s.total
  nodup : (s.active ++ s.avail).Nodup
  bound : ∀ id ∈ s.active ++ s.avail, id < s.total
  keys : (s.classes.map (·.1)).Nodup
  timer : ∀ id, TOk s.classes s.now (s.timers id)
  idle : ∀ id, id ∉ s.active → Idle (s.timers id)
  sum : ∀ k i, tally s.hist k i + (s.active.map fun id => pend s.now (s.timers id) k i).sum = T k i

theorem sum_upd_timer {s : Sys} (l : List Nat) (t : Timer) (id k i : Nat)
    (h : pend s.now t k i = pend s.now (s.timers id) k i) :
    (l.map fun x => pend s.now (upd s.timers id t x) k i).sum
      = (l.map fun x => pend s.now (s.timers x) k i).sum := by
  apply sum_map_congr
  intro x _
  by_cases hx : x = id
  · subst hx; rw [upd_same]; exact h
  · rw [upd_other _ _ hx]

/-- Changing one active timer, with the same cycles waiting. -/
theorem Ok.change {s : Sys} {T : Nat → Nat → Nat} (h : Ok s T) (id : Nat) (t : Timer) (ha : id ∈ s.active)
    (ht : TOk s.classes s.now t) (hp : ∀ k i, pend s.now t k i = pend s.now (s.timers id) k i) :
    Ok { s with timers := upd s.timers id t } T := by
  refine ⟨h.len, h.nodup, h.bound, h.keys, fun x => ?_, fun x hx => ?_, fun k i => ?_⟩
  · show TOk s.classes s.now (upd s.timers id t x)
    by_cases hxi : x = id
    · subst hxi; rw [upd_same]; exact ht
    · rw [upd_other _ _ hxi]; exact h.timer x
  · show Idle (upd s.timers id t x)
    have hxi : x ≠ id := fun e => hx (by rw [e]; exact ha)
    rw [upd_other _ _ hxi]; exact h.idle x hx
  · show tally s.hist k i + (s.active.map fun x => pend s.now (upd s.timers id t x) k i).sum = _
    rw [sum_upd_timer _ _ _ _ _ (hp k i)]; exact h.sum k i

theorem Ok.queryTimer {s : Sys} {T : Nat → Nat → Nat} (h : Ok s T) (id : Nat) (ha : id ∈ s.active) :
    (queryTimer s id).2 = none ∧ Ok (queryTimer s id).1 T
    ∧ (∃ hs ts, (queryTimer s id).1 = { s with hist := hs, timers := ts } )
    ∧ (∀ k i, pend s.now ((queryTimer s id).1.timers id) k i = 0)
    ∧ ((queryTimer s id).1.timers id).last = s.now
    ∧ (∀ x, x ≠ id → (queryTimer s id).1.timers x = s.timers x)
    ∧ (∀ k, (((queryTimer s id).1.timers id).sets k).active = ((s.timers id).sets k).active
        ∧ (((queryTimer s id).1.timers id).sets k).start = ((s.timers id).sets k).start) := by
  unfold STimer.queryTimer
  by_cases hl : (s.timers id).last = s.now
  · rw [if_pos hl]
    exact ⟨rfl, h, ⟨s.hist, s.timers, rfl⟩, (h.timer id).pend_now hl, hl, fun _ _ => rfl,
      fun _ => ⟨rfl, rfl⟩⟩
  · rw [if_neg hl, if_neg (by rw [(h.timer id).timely]; simp)]
    have hz : ∀ k i, pend s.now (queried s.classes s.now (s.timers id)) k i = 0 :=
      fun k i => (h.timer id).queried.pend_now rfl k i
    have hq : upd s.timers id (queried s.classes s.now (s.timers id)) id
        = queried s.classes s.now (s.timers id) := upd_same _ _ _
    refine ⟨rfl, ⟨h.len, h.nodup, h.bound, h.keys, fun x => ?_, fun x hx => ?_, fun k i => ?_⟩,
      ⟨_, _, rfl⟩, fun k i => ?_, ?_, fun x hx => ?_, fun k => ?_⟩
    · show TOk s.classes s.now (upd s.timers id (queried s.classes s.now (s.timers id)) x)
      by_cases hxi : x = id
      · subst hxi; rw [upd_same]; exact (h.timer x).queried
      · rw [upd_other _ _ hxi]; exact h.timer x
    · show Idle (upd s.timers id (queried s.classes s.now (s.timers id)) x)
      have hxi : x ≠ id := fun e => hx (by rw [e]; exact ha)
      rw [upd_other _ _ hxi]; exact h.idle x hx
    · show tally (s.hist ++ samples s.classes (endAll s.now (s.timers id))) k i
          + (s.active.map fun x =>
              pend s.now (upd s.timers id (queried s.classes s.now (s.timers id)) x) k i).sum = T k i
      rw [tally_append, tally_pend (h.timer id) k i h.keys (endTimer_delta _ _ _ _), ← h.sum k i,
        sum_erase _ _ _ ha, sum_erase _ (fun x => pend s.now (s.timers x) k i) _ ha, upd_same, hz]
      have hne : ∀ x ∈ s.active.erase id, x ≠ id := fun x hx =>
        ((List.Nodup.mem_erase_iff (List.nodup_append.mp h.nodup).1).mp hx).1
      rw [sum_map_congr (s.active.erase id) _ (fun x => pend s.now (s.timers x) k i)
        (fun x hx => by rw [upd_other _ _ (hne x hx)])]
      omega
    · show pend s.now (upd s.timers id (queried s.classes s.now (s.timers id)) id) k i = 0
      rw [hq]; exact hz k i
    · show (upd s.timers id (queried s.classes s.now (s.timers id)) id).last = s.now
      rw [hq]; rfl
    · exact upd_other _ _ hx
    · show ((upd s.timers id (queried s.classes s.now (s.timers id)) id).sets k).active = _
        ∧ ((upd s.timers id (queried s.classes s.now (s.timers id)) id).sets k).start = _
      rw [hq]; exact ⟨queried_active _ _ _ _, queried_start _ _ _ _⟩

theorem Ok.releaseTimer {s : Sys} {T : Nat → Nat → Nat} (h : Ok s T) (id : Nat) (ha : id ∈ s.active) :
    releaseTimer s id = ({ s with
        hist := s.hist ++ samples s.classes (closeAll s.now (s.timers id))
        timers := upd s.timers id (released s.classes s.now (s.timers id))
        avail := id :: s.avail
        active := s.active.erase id }, none)
    ∧ Ok (releaseTimer s id).1 T := by
  have hlen : (s.active.erase id).length + (id :: s.avail).length = s.total := by
    have := h.len
    rw [List.length_erase_of_mem ha, List.length_cons]
    have : 0 < s.active.length := List.length_pos_of_mem ha
    omega
  have e : STimer.releaseTimer s id = ({ s with
        hist := s.hist ++ samples s.classes (closeAll s.now (s.timers id))
        timers := upd s.timers id (released s.classes s.now (s.timers id))
        avail := id :: s.avail
        active := s.active.erase id }, none) := by
    unfold STimer.releaseTimer
    rw [if_neg (by rw [(h.timer id).timely]; simp)]
    unfold releaseToPool
    simp only [ha, if_true, hlen]
    rfl
  refine ⟨e, ?_⟩
  rw [e]
  have hnd := (List.nodup_append.mp h.nodup).1
  have hperm : (s.active.erase id ++ id :: s.avail).Perm (s.active ++ s.avail) :=
    (List.perm_middle).trans ((List.perm_cons_erase ha).symm.append_right s.avail)
  refine ⟨hlen, hperm.nodup_iff.mpr h.nodup, fun x hx => h.bound x (hperm.mem_iff.mp hx), h.keys,
    fun x => ?_, fun x hx => ?_, fun k i => ?_⟩
  · show TOk s.classes s.now (upd s.timers id (released s.classes s.now (s.timers id)) x)
    by_cases hxi : x = id
    · subst hxi; rw [upd_same]; exact (h.timer x).released
    · rw [upd_other _ _ hxi]; exact h.timer x
  · show Idle (upd s.timers id (released s.classes s.now (s.timers id)) x)
    by_cases hxi : x = id
    · subst hxi; rw [upd_same]; exact released_idle (h.timer x)
    · rw [upd_other _ _ hxi]
      exact h.idle x (fun hm => hx ((List.Nodup.mem_erase_iff hnd).mpr ⟨hxi, hm⟩))
  · show tally (s.hist ++ samples s.classes (closeAll s.now (s.timers id))) k i
        + ((s.active.erase id).map fun x =>
            pend s.now (upd s.timers id (released s.classes s.now (s.timers id)) x) k i).sum = T k i
    rw [tally_append, tally_pend (h.timer id) k i h.keys (closeAll_delta _ _ _ _), ← h.sum k i,
      sum_erase _ (fun x => pend s.now (s.timers x) k i) _ ha]
    have hne : ∀ x ∈ s.active.erase id, x ≠ id := fun x hx =>
      ((List.Nodup.mem_erase_iff hnd).mp hx).1
    rw [sum_map_congr (s.active.erase id) _ (fun x => pend s.now (s.timers x) k i)
      (fun x hx => by rw [upd_other _ _ (hne x hx)])]
    omega

theorem Ok.queryAll {T : Nat → Nat → Nat} : ∀ (ids : List Nat) (s : Sys), Ok s T →
    (∀ id ∈ ids, id ∈ s.active) →
    (queryAll s ids).2 = none ∧ Ok (queryAll s ids).1 T
    ∧ (∃ hs ts, (queryAll s ids).1 = { s with hist := hs, timers := ts })
    ∧ (∀ id ∈ ids, ∀ k i, pend s.now ((queryAll s ids).1.timers id) k i = 0)
    ∧ (∀ id ∈ ids, ((queryAll s ids).1.timers id).last = s.now)
    ∧ (∀ id, id ∉ ids → (queryAll s ids).1.timers id = s.timers id)
    ∧ (∀ id k, (((queryAll s ids).1.timers id).sets k).active = ((s.timers id).sets k).active
        ∧ (((queryAll s ids).1.timers id).sets k).start = ((s.timers id).sets k).start) := by
  intro ids
  induction ids with
  | nil =>
    intro s h _
    exact ⟨rfl, h, ⟨s.hist, s.timers, rfl⟩, fun _ hi => (by cases hi), fun _ hi => (by cases hi),
      fun _ _ => rfl, fun _ _ => ⟨rfl, rfl⟩⟩
  | cons id ids ih =>
    intro s h ha
    obtain ⟨h1, h2, ⟨hs, ts, h3⟩, h4, h5, h6, h7⟩ := h.queryTimer id (ha id List.mem_cons_self)
    have e : STimer.queryAll s (id :: ids) = STimer.queryAll (STimer.queryTimer s id).1 ids := by
      show (match STimer.queryTimer s id with
        | (s', none) => STimer.queryAll s' ids
        | (s', some e) => (s', some e)) = _
      have : STimer.queryTimer s id = ((STimer.queryTimer s id).1, none) := by rw [← h1]
      rw [this]
    rw [e]
    have hact : (STimer.queryTimer s id).1.active = s.active := by rw [h3]
    have hnow : (STimer.queryTimer s id).1.now = s.now := by rw [h3]
    obtain ⟨g1, g2, ⟨hs', ts', g3⟩, g4, g5, g6, g7⟩ := ih (STimer.queryTimer s id).1 h2
      (fun x hx => by rw [hact]; exact ha x (List.mem_cons_of_mem _ hx))
    rw [hnow] at g4 g5
    refine ⟨g1, g2, ⟨hs', ts', by rw [g3, h3]⟩, ?_, ?_, ?_, ?_⟩
    · intro x hx k i
      by_cases hxi : x ∈ ids
      · exact g4 x hxi k i
      · rcases List.mem_cons.mp hx with rfl | hx'
        · rw [g6 x hxi]; exact h4 k i
        · exact absurd hx' hxi
    · intro x hx
      by_cases hxi : x ∈ ids
      · exact g5 x hxi
      · rcases List.mem_cons.mp hx with rfl | hx'
        · rw [g6 x hxi]; exact h5
        · exact absurd hx' hxi
    · intro x hx
      rw [g6 x (fun hm => hx (List.mem_cons_of_mem _ hm)),
        h6 x (fun he => hx (by rw [he]; exact List.mem_cons_self))]
    · intro x k
      obtain ⟨a1, a2⟩ := g7 x k
      rw [a1, a2]
      by_cases hxi : x = id
      · subst hxi; exact h7 k
      · rw [h6 x hxi]; exact ⟨rfl, rfl⟩

theorem Ok.releaseAll {T : Nat → Nat → Nat} : ∀ (ids : List Nat) (s : Sys), Ok s T → s.active = ids →
    (releaseAll s ids).2 = none ∧ Ok (releaseAll s ids).1 T ∧ (releaseAll s ids).1.active = []
    ∧ (∃ hs ts av, (releaseAll s ids).1 = { s with hist := hs, timers := ts, avail := av, active := [] }) := by
  intro ids
  induction ids with
  | nil =>
    intro s h ha
    refine ⟨rfl, h, ha, s.hist, s.timers, s.avail, ?_⟩
    show s = _
    cases s; simp only at ha; subst ha; rfl
  | cons id ids ih =>
    intro s h ha
    obtain ⟨h1, h2⟩ := h.releaseTimer id (by rw [ha]; exact List.mem_cons_self)
    have e : STimer.releaseAll s (id :: ids) = STimer.releaseAll (STimer.releaseTimer s id).1 ids := by
      show (match STimer.releaseTimer s id with
        | (s', none) => STimer.releaseAll s' ids
        | (s', some e) => (s', some e)) = _
      rw [h1]
    rw [e]
    have hact : (STimer.releaseTimer s id).1.active = ids := by
      rw [h1]; show s.active.erase id = ids; rw [ha]; simp
    obtain ⟨g1, g2, g3, hs, ts, av, g4⟩ := ih _ h2 hact
    exact ⟨g1, g2, g3, hs, ts, av, by rw [g4, h1]⟩

end Sparta.STimer
