import Verif.STimer.Steps
/-! # The books agree with the unit -/
namespace Sparta.STimer

structure Rel (s : Sys) (b : Book) : Prop where
  alive : s.alive = true
  ok : Ok s b.all
  now : b.now = s.now
  count : b.count = s.handles.length
  perm : s.active.Perm (s.handles.filterMap id)
  cur : ∀ h x, s.handles[h]? = some (some x) → ∀ k,
    ((s.timers x).sets k).active = (b.cur h k).map (·.1)
    ∧ ∀ p, b.cur h k = some p → ((s.timers x).sets k).start = p.2
  dead : ∀ h, (∀ x, s.handles[h]? ≠ some (some x)) → ∀ k, b.cur h k = none
  later : ∀ h, s.handles.length ≤ h → ∀ k i, b.spent h k i = 0 ∧ b.since h k i = 0
  since : ∀ h x, s.handles[h]? = some (some x) → ∀ k i, b.since h k i = pend s.now (s.timers x) k i
  live : ∀ h, b.live h = true ↔ ∃ x, s.handles[h]? = some (some x)
  gone : b.gone = false
  cap : s.total < maxTimers + s.init

structure Done (s : Sys) (b : Book) : Prop where
  alive : s.alive = false
  now : b.now = s.now
  count : b.count = s.handles.length
  cur : ∀ h k, b.cur h k = none
  sum : ∀ k i, tally s.hist k i = b.all k i
  live : ∀ h, b.live h = true ↔ ∃ x, s.handles[h]? = some (some x)
  gone : b.gone = true

def Inv (s : Sys) (b : Book) : Prop := Rel s b ∨ Done s b

theorem Rel.mem {s : Sys} {b : Book} (r : Rel s b) {h x : Nat} (hh : s.handles[h]? = some (some x)) :
    x ∈ s.active := by
  rw [r.perm.mem_iff, List.mem_filterMap]
  exact ⟨some x, List.mem_of_getElem? hh, rfl⟩

theorem count_filterMap_ge (l : List (Option Nat)) (a b x : Nat) (hab : a ≠ b)
    (ha : l[a]? = some (some x)) (hb : l[b]? = some (some x)) : ¬ (l.filterMap id).Nodup := by
  induction l generalizing a b with
  | nil => simp at ha
  | cons y l ih =>
    cases a with
    | zero =>
      cases b with
      | zero => exact absurd rfl hab
      | succ b =>
        simp at ha hb
        subst ha
        simp only [List.filterMap_cons, id]
        rw [List.nodup_cons]
        intro hn
        exact hn.1 (List.mem_filterMap.mpr ⟨some x, List.mem_of_getElem? hb, rfl⟩)
    | succ a =>
      cases b with
      | zero =>
        simp at ha hb
        subst hb
        simp only [List.filterMap_cons, id]
        rw [List.nodup_cons]
        intro hn
        exact hn.1 (List.mem_filterMap.mpr ⟨some x, List.mem_of_getElem? ha, rfl⟩)
      | succ b =>
        simp at ha hb
        have := ih a b (by omega) ha hb
        cases y with
        | none => simpa using this
        | some y =>
          simp only [List.filterMap_cons, id]
          rw [List.nodup_cons]
          exact fun hn => this hn.2

/-- Two live handles are two timers. -/
theorem Rel.inj {s : Sys} {b : Book} (r : Rel s b) {h g x : Nat} (hh : s.handles[h]? = some (some x))
    (hg : s.handles[g]? = some (some x)) : h = g := by
  by_cases he : h = g
  · exact he
  · exact absurd (r.perm.nodup_iff.mp (List.nodup_append.mp r.ok.nodup).1)
      (count_filterMap_ge _ h g x he hh hg)

theorem Ok.congrT {s : Sys} {T U : Nat → Nat → Nat} (h : Ok s T) (e : ∀ k i, T k i = U k i) : Ok s U :=
  ⟨h.len, h.nodup, h.bound, h.keys, h.timer, h.idle, fun k i => by rw [← e]; exact h.sum k i⟩

/-! ## Time passes -/

theorem Rel.tick {s : Sys} {b : Book} (r : Rel s b) (n : Nat) :
    Rel { s with now := s.now + n } (b.step (.tick n) none) := by
  refine ⟨r.alive, ⟨r.ok.len, r.ok.nodup, r.ok.bound, r.ok.keys, fun id => (r.ok.timer id).tick n,
    r.ok.idle, fun k i => ?_⟩, ?_, r.count, r.perm, r.cur, r.dead, fun h hh k i => ?_, fun h x hh k i => ?_,
    r.live, r.gone, r.cap⟩
  · show tally s.hist k i + (s.active.map fun id => pend (s.now + n) (s.timers id) k i).sum
      = ((List.range b.count).map fun h => b.accrue n b.spent h k i).sum
    rw [sum_map_congr _ _ _ (fun id _ => (r.ok.timer id).pend_tick n k i), sum_map_add, ← Nat.add_assoc,
      r.ok.sum k i]
    show b.all k i + _ = ((List.range b.count).map fun h => b.spent h k i
      + (if (b.cur h k).map (·.1) = some i then n else 0)).sum
    rw [sum_map_add]
    show b.all k i + _ = b.all k i + _
    congr 1
    rw [sum_perm (r.perm.map _), sum_live, r.count]
    apply sum_map_congr
    intro h _
    by_cases hx : ∃ x, s.handles[h]? = some (some x)
    · obtain ⟨x, hx⟩ := hx
      rw [hx]
      simp only
      rw [(r.cur h x hx k).1]
    · have hd := r.dead h (fun x hx' => hx ⟨x, hx'⟩) k
      rw [hd]
      split
      · rename_i x hx'; exact absurd ⟨x, hx'⟩ hx
      · simp
  · show b.now + n = s.now + n
    rw [r.now]
  · show b.spent h k i + (if (b.cur h k).map (·.1) = some i then n else 0) = 0
      ∧ b.since h k i + (if (b.cur h k).map (·.1) = some i then n else 0) = 0
    rw [(r.later h hh k i).1, (r.later h hh k i).2, r.dead h (fun x hx => by
      rw [List.getElem?_eq_none hh] at hx; cases hx) k]
    simp
  · show b.since h k i + (if (b.cur h k).map (·.1) = some i then n else 0) = pend (s.now + n) (s.timers x) k i
    rw [(r.ok.timer x).pend_tick n k i, r.since h x hh, (r.cur h x hh k).1]

theorem Done.tick {s : Sys} {b : Book} (r : Done s b) (n : Nat) :
    Done { s with now := s.now + n } (b.step (.tick n) none) := by
  refine ⟨r.alive, ?_, r.count, r.cur, fun k i => ?_, r.live, r.gone⟩
  · show b.now + n = s.now + n
    rw [r.now]
  · show tally s.hist k i = ((List.range b.count).map fun h => b.spent h k i
      + (if (b.cur h k).map (·.1) = some i then n else 0)).sum
    rw [r.sum k i]
    apply sum_map_congr
    intro h _
    rw [r.cur h k]; simp

/-! ## A part of a timer is replaced -/

theorem Rel.put {s : Sys} {b : Book} (r : Rel s b) {h x k : Nat} (hh : s.handles[h]? = some (some x))
    (ss : SSet) (c : Option (Nat × Nat))
    (hd : ∀ i, ss.delta i = pend s.now (s.timers x) k i)
    (hp : ∀ i, pendS s.now (s.timers x).last ss i = pend s.now (s.timers x) k i)
    (ha : ss.active = c.map (·.1)) (hs : ∀ p, c = some p → ss.start = p.2 ∧ p.2 ≤ s.now)
    (hr : ∀ a, ss.active = some a → inClass s.classes k a) :
    Rel { s with timers := upd s.timers x ((s.timers x).put k ss) }
      { b with cur := upd b.cur h (upd (b.cur h) k c) } := by
  have hpp := fun k' i => put_pend (now := s.now) (t := s.timers x) k ss hp k' i
  have hok := r.ok.change x ((s.timers x).put k ss) (r.mem hh)
    ((r.ok.timer x).put k ss hd (by
      intro h1
      rw [ha] at h1
      cases c with
      | none => cases h1
      | some p => rw [(hs p rfl).1]; exact (hs p rfl).2) hr) hpp
  refine ⟨r.alive, hok, r.now, r.count, r.perm, fun g y hg j => ?_, fun g hg j => ?_, r.later,
    fun g y hg k' i => ?_, r.live, r.gone, r.cap⟩
  · show ((upd s.timers x ((s.timers x).put k ss) y).sets j).active
        = ((upd b.cur h (upd (b.cur h) k c) g j)).map (·.1)
      ∧ ∀ p, upd b.cur h (upd (b.cur h) k c) g j = some p →
          ((upd s.timers x ((s.timers x).put k ss) y).sets j).start = p.2
    by_cases hgh : g = h
    · subst hgh
      have hg' : s.handles[g]? = some (some y) := hg
      rw [hh] at hg'
      cases hg'
      rw [upd_same, upd_same]
      show (upd (s.timers x).sets k ss j).active = (upd (b.cur g) k c j).map (·.1)
        ∧ ∀ p, upd (b.cur g) k c j = some p → (upd (s.timers x).sets k ss j).start = p.2
      by_cases hj : j = k
      · subst hj; rw [upd_same, upd_same]; exact ⟨ha, fun p hp => (hs p hp).1⟩
      · rw [upd_other _ _ hj, upd_other _ _ hj]; exact r.cur g x hh j
    · have hyx : y ≠ x := fun e => hgh (r.inj hg (by rw [e]; exact hh))
      rw [upd_other _ _ hgh, upd_other _ _ hyx]
      exact r.cur g y hg j
  · have hgh : g ≠ h := fun e => hg x (by rw [e]; exact hh)
    show upd b.cur h (upd (b.cur h) k c) g j = none
    rw [upd_other _ _ hgh]; exact r.dead g hg j
  · show b.since g k' i = pend s.now (upd s.timers x ((s.timers x).put k ss) y) k' i
    by_cases hyx : y = x
    · subst hyx; rw [upd_same, hpp]; exact r.since g y hg k' i
    · rw [upd_other _ _ hyx]; exact r.since g y hg k' i

theorem put_self (s : Sys) (x k : Nat) :
    ({ s with timers := upd s.timers x ((s.timers x).put k ((s.timers x).sets k)) } : Sys) = s := by
  have e1 : upd (s.timers x).sets k ((s.timers x).sets k) = (s.timers x).sets := by
    funext j
    by_cases hj : j = k
    · subst hj; exact upd_same _ _ _
    · exact upd_other _ _ hj
  have e2 : (s.timers x).put k ((s.timers x).sets k) = s.timers x := by
    unfold Timer.put; rw [e1]
  rw [e2]
  have e3 : upd s.timers x (s.timers x) = s.timers := by
    funext j
    by_cases hj : j = x
    · subst hj; exact upd_same _ _ _
    · exact upd_other _ _ hj
  rw [e3]

/-- When `startState` succeeds, in terms of the books. -/
theorem Rel.start_iff {s : Sys} {b : Book} (r : Rel s b) {h x : Nat} (hh : s.handles[h]? = some (some x))
    (code i : Nat) :
    (startState s x code i).2 = none ↔
      (∃ n, s.classes.lookup (key code) = some n ∧ i < n)
      ∧ (∀ t, b.cur h (key code) ≠ some (i, t)) ∧ (∀ j, b.cur h (key code) ≠ some (j, 0)) := by
  obtain ⟨c1, c2⟩ := r.cur h x hh (key code)
  unfold startState
  match hl : s.classes.lookup (key code) with
  | none => simp
  | some n =>
    simp only
    rw [startSet_iff, c1]
    cases hc : b.cur h (key code) with
    | none => simp
    | some p =>
      have := c2 p hc
      rw [this]
      obtain ⟨j, t⟩ := p
      simp only [Option.map_some, Option.isSome_some, ne_eq, Option.some.injEq, Prod.mk.injEq, not_and,
        true_implies]
      constructor
      · rintro ⟨h1, h2, h3⟩
        exact ⟨⟨n, rfl, h1⟩, fun t' he => absurd he h2, fun j' _ => h3⟩
      · rintro ⟨⟨m, hm, h1⟩, h2, h3⟩
        cases hm
        exact ⟨h1, fun he => h2 t he rfl, h3 j rfl⟩

theorem Rel.stop_iff {s : Sys} {b : Book} (r : Rel s b) {h x : Nat} (hh : s.handles[h]? = some (some x))
    (code i : Nat) :
    (endState s x code i).2 = none ↔
      (s.classes.lookup (key code)).isSome ∧ ∃ t, b.cur h (key code) = some (i, t) := by
  obtain ⟨c1, c2⟩ := r.cur h x hh (key code)
  unfold endState
  match hl : s.classes.lookup (key code) with
  | none => simp
  | some n =>
    simp only
    rw [endSet_iff, c1]
    cases hc : b.cur h (key code) with
    | none => simp
    | some p =>
      obtain ⟨j, t⟩ := p
      simp

/-- A call on a state of the class that fails changes nothing. -/
theorem start_fail {s : Sys} {x code i : Nat}
    (hi : ∀ n, s.classes.lookup (key code) = some n → i < n) (hf : (startState s x code i).2 ≠ none) :
    (startState s x code i).1 = s := by
  unfold startState at *
  match hl : s.classes.lookup (key code) with
  | none => rfl
  | some n =>
    rw [hl] at hf
    simp only at *
    rw [startSet_fail (hi n hl) hf]
    exact put_self s x (key code)

theorem stop_fail {s : Sys} {x code i : Nat} (hf : (endState s x code i).2 ≠ none) :
    (endState s x code i).1 = s := by
  unfold endState at *
  match hl : s.classes.lookup (key code) with
  | none => rfl
  | some n =>
    rw [hl] at hf
    simp only at *
    rw [endSet_fail hf]
    exact put_self s x (key code)

theorem Rel.start {s : Sys} {b : Book} (r : Rel s b) {h x : Nat} (hh : s.handles[h]? = some (some x))
    (code i : Nat) (hi : ∀ n, s.classes.lookup (key code) = some n → i < n) :
    Rel (startState s x code i).1 (b.step (.start h code i) (startState s x code i).2) := by
  match hr : (startState s x code i).2 with
  | some e => rw [start_fail hi (by rw [hr]; simp)]; exact r
  | none =>
    unfold startState at *
    match hl : s.classes.lookup (key code) with
    | none => rw [hl] at hr; cases hr
    | some n =>
      rw [hl] at hr
      simp only at *
      have e := (startSet_ok (r := (startSet s.now (s.timers x).last n i ((s.timers x).sets (key code))).1)
        (by rw [← hr])).1
      rw [e]
      show Rel _ { b with cur := upd b.cur h (upd (b.cur h) (key code) (some (i, b.now))) }
      exact r.put hh _ (some (i, b.now)) (begun_delta _ _ _ _)
        (begun_pend (r.ok.timer x).last _ _) rfl
        (fun p hp => by cases hp; rw [r.now]; exact ⟨rfl, Nat.le_refl _⟩)
        (fun a ha => by cases ha; exact ⟨n, hl, hi n hl⟩)

theorem Rel.stop {s : Sys} {b : Book} (r : Rel s b) {h x : Nat} (hh : s.handles[h]? = some (some x))
    (code i : Nat) :
    Rel (endState s x code i).1 (b.step (.stop h code i) (endState s x code i).2) := by
  match hr : (endState s x code i).2 with
  | some e => rw [stop_fail (by rw [hr]; simp)]; exact r
  | none =>
    unfold endState at *
    match hl : s.classes.lookup (key code) with
    | none => rw [hl] at hr; cases hr
    | some n =>
      rw [hl] at hr
      simp only at *
      rw [endSet_ok ((endSet_iff _ _ _ _).mp hr)]
      show Rel _ { b with cur := upd b.cur h (upd (b.cur h) (key code) none) }
      exact r.put hh _ none (ended_delta _ _ _) (ended_pend _) rfl (fun p hp => by cases hp)
        (fun a ha => by cases ha)

/-! ## Handles come and go -/

theorem Ok.grow {s : Sys} {T : Nat → Nat → Nat} (h : Ok s T) : Ok (grow s).1 T := by
  unfold STimer.grow
  by_cases ha : s.avail = []
  · rw [if_pos ha]
    by_cases hm : s.total < maxTimers
    · rw [if_pos hm]
      have hb : ∀ id ∈ s.active, id < s.total := fun id hi => h.bound id (List.mem_append_left _ hi)
      have ht : ∀ id, id < s.total → (if s.total ≤ id ∧ id < s.total + s.init then {} else s.timers id)
          = s.timers id := fun id hi => if_neg (by omega)
      refine ⟨?_, ?_, fun id hi => ?_, h.keys, fun id => ?_, fun id hi => ?_, fun k i => ?_⟩
      · have := h.len
        rw [ha] at this
        show s.active.length + (((List.range s.init).map (s.total + ·)).reverse).length = s.total + s.init
        simp at *
        omega
      · show (s.active ++ ((List.range s.init).map (s.total + ·)).reverse).Nodup
        rw [List.nodup_append]
        refine ⟨(List.nodup_append.mp h.nodup).1, ?_, ?_⟩
        · apply nodup_reverse
          apply List.Pairwise.map _ _ List.nodup_range
          intro a b hab he
          exact hab (by omega)
        · intro a ha' c hc he
          rw [List.mem_reverse, List.mem_map] at hc
          obtain ⟨j, _, hj⟩ := hc
          have := hb a ha'
          omega
      · show id < s.total + s.init
        rcases List.mem_append.mp hi with h1 | h1
        · have := hb id h1; omega
        · rw [List.mem_reverse, List.mem_map] at h1
          obtain ⟨j, hj, hj'⟩ := h1
          have := List.mem_range.mp hj
          omega
      · show TOk s.classes s.now (if s.total ≤ id ∧ id < s.total + s.init then {} else s.timers id)
        split
        · exact TOk.new _ _
        · exact h.timer id
      · show Idle (if s.total ≤ id ∧ id < s.total + s.init then {} else s.timers id)
        split
        · exact Idle.new
        · exact h.idle id hi
      · show tally s.hist k i + (s.active.map fun id => pend s.now
          (if s.total ≤ id ∧ id < s.total + s.init then {} else s.timers id) k i).sum = T k i
        rw [sum_map_congr _ _ (fun id => pend s.now (s.timers id) k i)
          (fun id hi => by rw [ht id (hb id hi)])]
        exact h.sum k i
    · rw [if_neg hm]; exact h
  · rw [if_neg ha]; exact h

theorem Rel.grow {s : Sys} {b : Book} (r : Rel s b) : Rel (grow s).1 b := by
  have hok := r.ok.grow
  unfold STimer.grow at *
  by_cases ha : s.avail = []
  · rw [if_pos ha] at *
    by_cases hm : s.total < maxTimers
    · rw [if_pos hm] at *
      have ht : ∀ h x, s.handles[h]? = some (some x) →
          (if s.total ≤ x ∧ x < s.total + s.init then {} else s.timers x) = s.timers x := fun h x hh =>
        if_neg (by have := r.ok.bound x (List.mem_append_left _ (r.mem hh)); omega)
      refine ⟨r.alive, hok, r.now, r.count, r.perm, fun h x hh k => ?_, r.dead, r.later,
        fun h x hh k i => ?_, r.live, r.gone, ?_⟩
      · have := r.cur h x hh k
        rw [← ht h x hh] at this
        exact this
      · have := r.since h x hh k i
        rw [← ht h x hh] at this
        exact this
      · show s.total + s.init < maxTimers + s.init
        omega
    · rw [if_neg hm] at *; exact r
  · rw [if_neg ha]; exact r

theorem take_ok {s : Sys} {T : Nat → Nat → Nat} (h : Ok s T) {id : Nat} {rest : List Nat}
    (ha : s.avail = id :: rest) :
    take s = ({ s with avail := rest, active := id :: s.active, handles := s.handles ++ [some id] }, none) := by
  have hl : (id :: s.active).length + rest.length = s.total := by
    have := h.len
    rw [ha] at this
    simp only [List.length_cons] at *
    omega
  unfold take
  rw [ha]
  simp only
  rw [if_pos hl]

theorem Rel.take {s : Sys} {b : Book} (r : Rel s b) :
    Rel (take s).1 (b.step .allocate (take s).2) := by
  match ha : s.avail with
  | [] => unfold STimer.take; rw [ha]; exact r
  | id :: rest =>
    rw [take_ok r.ok ha]
    have hperm : (id :: s.active ++ rest).Perm (s.active ++ s.avail) := by
      rw [ha]; exact (List.perm_middle).symm
    have hnm : id ∉ s.active := fun hm =>
      (List.nodup_append.mp r.ok.nodup).2.2 id hm id (by rw [ha]; exact List.mem_cons_self) rfl
    have hidle := r.ok.idle id hnm
    have hget : ∀ h x, (s.handles ++ [some id])[h]? = some (some x) →
        (s.handles[h]? = some (some x)) ∨ (h = s.handles.length ∧ x = id) := by
      intro h x hh
      by_cases hl : h < s.handles.length
      · rw [List.getElem?_append_left hl] at hh; exact .inl hh
      · rw [List.getElem?_append_right (by omega)] at hh
        by_cases he : h - s.handles.length = 0
        · rw [he] at hh; simp at hh; exact .inr ⟨by omega, hh.symm⟩
        · rw [List.getElem?_eq_none (by simp; omega)] at hh; cases hh
    have hdead : ∀ k, b.cur s.handles.length k = none := r.dead _ (fun x hx => by
      rw [List.getElem?_eq_none (Nat.le_refl _)] at hx; cases hx)
    refine ⟨r.alive, ⟨?_, hperm.nodup_iff.mpr r.ok.nodup, fun x hx => r.ok.bound x (hperm.mem_iff.mp hx),
      r.ok.keys, r.ok.timer, fun x hx => r.ok.idle x (fun hm => hx (List.mem_cons_of_mem _ hm)),
      fun k i => ?_⟩, r.now, ?_, ?_, fun h x hh k => ?_, fun h hh k => ?_, fun h hh k i => ?_,
      fun h x hh k i => ?_, fun h => ?_, r.gone, r.cap⟩
    · have := r.ok.len
      rw [ha] at this
      show (id :: s.active).length + rest.length = s.total
      simp only [List.length_cons] at *
      omega
    · show tally s.hist k i + ((id :: s.active).map fun x => pend s.now (s.timers x) k i).sum
        = ((List.range (b.count + 1)).map fun h => b.spent h k i).sum
      rw [List.map_cons, List.sum_cons, hidle.pend, Nat.zero_add, r.ok.sum k i, List.range_succ,
        List.map_append, List.sum_append]
      show b.all k i = b.all k i + (b.spent b.count k i + 0)
      rw [(r.later b.count (by rw [r.count]; exact Nat.le_refl _) k i).1]
      rfl
    · show b.count + 1 = (s.handles ++ [some id]).length
      rw [r.count]; simp
    · show (id :: s.active).Perm ((s.handles ++ [some id]).filterMap _root_.id)
      rw [List.filterMap_append]
      exact (List.Perm.cons id r.perm).trans (List.perm_append_singleton _ _).symm
    · rcases hget h x hh with h1 | ⟨rfl, rfl⟩
      · exact r.cur h x h1 k
      · show ((s.timers x).sets k).active = (b.cur s.handles.length k).map (·.1)
          ∧ ∀ p, b.cur s.handles.length k = some p → ((s.timers x).sets k).start = p.2
        rw [hdead k, (hidle k).1]
        exact ⟨rfl, fun p hp => by cases hp⟩
    · exact r.dead h (fun x hx => hh x (by
        have hl := (List.getElem?_eq_some_iff.mp hx).1
        show (s.handles ++ [some id])[h]? = _
        rw [List.getElem?_append_left hl]; exact hx)) k
    · exact r.later h (by
        have : (s.handles ++ [some id]).length ≤ h := hh
        simp at this; omega) k i
    · rcases hget h x hh with h1 | ⟨rfl, rfl⟩
      · exact r.since h x h1 k i
      · show b.since s.handles.length k i = pend s.now (s.timers x) k i
        rw [(r.later _ (Nat.le_refl _) k i).2, hidle.pend]
    · show upd b.live b.count true h = true ↔ ∃ x, (s.handles ++ [some id])[h]? = some (some x)
      by_cases hc : h = b.count
      · subst hc
        rw [upd_same, r.count]
        exact ⟨fun _ => ⟨id, by simp⟩, fun _ => rfl⟩
      · rw [upd_other _ _ hc, r.live h]
        constructor
        · rintro ⟨x, hx⟩
          exact ⟨x, by rw [List.getElem?_append_left (List.getElem?_eq_some_iff.mp hx).1]; exact hx⟩
        · rintro ⟨x, hx⟩
          rcases hget h x hx with h1 | ⟨h1, _⟩
          · exact ⟨x, h1⟩
          · exact absurd (h1.trans r.count.symm) hc

theorem filterMap_set_perm (l : List (Option Nat)) (h x : Nat) (hh : l[h]? = some (some x)) :
    (l.filterMap id).Perm (x :: (l.set h none).filterMap id) := by
  induction l generalizing h with
  | nil => simp at hh
  | cons y l ih =>
    cases h with
    | zero => simp at hh; subst hh; simp
    | succ h =>
      simp at hh
      have := ih h hh
      cases y with
      | none => simpa using this
      | some y =>
        simp only [List.set_cons_succ, List.filterMap_cons, id]
        exact (List.Perm.cons y this).trans (List.Perm.swap x y _)

theorem live_set {l : List (Option Nat)} {f : Nat → Bool}
    (hl : ∀ h, f h = true ↔ ∃ x, l[h]? = some (some x)) (h g : Nat) :
    upd f h false g = true ↔ ∃ x, (l.set h none)[g]? = some (some x) := by
  by_cases hg : g = h
  · subst hg
    rw [upd_same]
    constructor
    · intro hc; cases hc
    · rintro ⟨x, hx⟩
      by_cases hlen : g < l.length
      · rw [List.getElem?_set_self hlen] at hx; cases hx
      · rw [List.getElem?_eq_none (by rw [List.length_set]; omega)] at hx; cases hx
  · rw [upd_other _ _ hg, hl g, List.getElem?_set_ne (Ne.symm hg)]

theorem Rel.drop {s : Sys} {b : Book} (r : Rel s b) {h x : Nat} (hh : s.handles[h]? = some (some x)) :
    Rel (releaseTimer { s with handles := s.handles.set h none } x).1
      (b.step (.drop h) (releaseTimer { s with handles := s.handles.set h none } x).2) := by
  have hok : Ok { s with handles := s.handles.set h none } b.all :=
    ⟨r.ok.len, r.ok.nodup, r.ok.bound, r.ok.keys, r.ok.timer, r.ok.idle, r.ok.sum⟩
  obtain ⟨e, hok'⟩ := hok.releaseTimer x (r.mem hh)
  rw [e] at hok' ⊢
  have hother : ∀ g y, (s.handles.set h none)[g]? = some (some y) →
      g ≠ h ∧ s.handles[g]? = some (some y) ∧ y ≠ x := by
    intro g y hg
    have hgh : g ≠ h := by
      intro he
      subst he
      rw [List.getElem?_set_self (List.getElem?_eq_some_iff.mp hh).1] at hg
      cases hg
    rw [List.getElem?_set_ne (Ne.symm hgh)] at hg
    exact ⟨hgh, hg, fun he => hgh (r.inj hg (by rw [he]; exact hh))⟩
  refine ⟨r.alive, hok', r.now, ?_, ?_, fun g y hg k => ?_, fun g hg k => ?_, fun g hg k i => ?_,
    fun g y hg k i => ?_, live_set r.live h, r.gone, r.cap⟩
  · show b.count = (s.handles.set h none).length
    rw [List.length_set]; exact r.count
  · show (s.active.erase x).Perm ((s.handles.set h none).filterMap _root_.id)
    have h1 := r.perm.trans (filterMap_set_perm s.handles h x hh)
    have h2 := h1.erase x
    simpa using h2
  · obtain ⟨h1, h2, h3⟩ := hother g y hg
    show ((upd s.timers x (released s.classes s.now (s.timers x)) y).sets k).active
        = (upd b.cur h (fun _ => none) g k).map (·.1)
      ∧ ∀ p, upd b.cur h (fun _ => none) g k = some p →
        ((upd s.timers x (released s.classes s.now (s.timers x)) y).sets k).start = p.2
    rw [upd_other _ _ h1, upd_other _ _ h3]
    exact r.cur g y h2 k
  · show upd b.cur h (fun _ => none) g k = none
    by_cases hgh : g = h
    · subst hgh; rw [upd_same]
    · rw [upd_other _ _ hgh]
      exact r.dead g (fun y hy => hg y (by
        show (s.handles.set h none)[g]? = _
        rw [List.getElem?_set_ne (Ne.symm hgh)]; exact hy)) k
  · exact r.later g (by
      have : (s.handles.set h none).length ≤ g := hg
      rw [List.length_set] at this; exact this) k i
  · obtain ⟨h1, h2, h3⟩ := hother g y hg
    show b.since g k i = pend s.now (upd s.timers x (released s.classes s.now (s.timers x)) y) k i
    rw [upd_other _ _ h3]
    exact r.since g y h2 k i

/-! ## Queries and the end -/

theorem Rel.query {s : Sys} {b : Book} (r : Rel s b) :
    (queryAll s s.active).2 = none ∧ Rel (queryAll s s.active).1 (b.step .query none)
    ∧ ∀ k i, tally (queryAll s s.active).1.hist k i = b.all k i := by
  obtain ⟨h1, h2, ⟨hs, ts, h3⟩, h4, h5, h6, h7⟩ := Ok.queryAll s.active s r.ok (fun _ h => h)
  refine ⟨h1, ?_, fun k i => ?_⟩
  · have hnow : (queryAll s s.active).1.now = s.now := by rw [h3]
    have hhan : (queryAll s s.active).1.handles = s.handles := by rw [h3]
    refine ⟨by rw [h3]; exact r.alive, h2, by rw [h3]; exact r.now, by rw [h3]; exact r.count,
      by rw [h3]; exact r.perm, fun h x hh k => ?_, fun h hh k => ?_, fun h hh k i => ?_,
      fun h x hh k i => ?_, by rw [h3]; exact r.live, r.gone, by rw [h3]; exact r.cap⟩
    · rw [hhan] at hh
      rw [(h7 x k).1, (h7 x k).2]
      exact r.cur h x hh k
    · rw [hhan] at hh; exact r.dead h hh k
    · rw [hhan] at hh; exact ⟨(r.later h hh k i).1, rfl⟩
    · rw [hhan] at hh
      rw [hnow, h4 x (r.mem hh)]; rfl
  · have := h2.sum k i
    have hact : (queryAll s s.active).1.active = s.active := by rw [h3]
    have hnow : (queryAll s s.active).1.now = s.now := by rw [h3]
    rw [hact, hnow, sum_map_zero _ _ (fun id hid => h4 id hid k i)] at this
    exact this

theorem Rel.destroy {s : Sys} {b : Book} (r : Rel s b) :
    (releaseAll s s.active).2 = none
    ∧ Done { (releaseAll s s.active).1 with alive := false } (b.step .destroy none) := by
  obtain ⟨h1, h2, h3, hs, ts, av, h4⟩ := Ok.releaseAll s.active s r.ok rfl
  refine ⟨h1, rfl, ?_, ?_, fun _ _ => rfl, fun k i => ?_, by rw [h4]; exact r.live, rfl⟩
  · show b.now = (releaseAll s s.active).1.now
    rw [h4]; exact r.now
  · show b.count = (releaseAll s s.active).1.handles.length
    rw [h4]; exact r.count
  · have := h2.sum k i
    rw [h3] at this
    exact this

/-! ## Every call -/

theorem Rel.step {s : Sys} {b : Book} (r : Rel s b) (op : Op) (hl : Legal s.classes op)
    (hd : op ≠ .destroy) : Rel (step s op).1 (b.step op (step s op).2) := by
    cases op with
    | tick n => exact r.tick n
    | allocate =>
      show Rel (if s.alive then allocate s else (s, some .undefined)).1 _
      simp only [STimer.step, r.alive, if_true]
      have hg := r.grow
      unfold allocate
      revert hg
      generalize STimer.grow s = x
      intro hg
      match x, hg with
      | (s', none), hg => exact hg.take
      | (s', some e), hg => exact hg
    | start h code i =>
      simp only [STimer.step, r.alive]
      match hh : s.handles[h]? with
      | none => exact r
      | some none => exact r
      | some (some x) => exact r.start hh code i hl
    | stop h code i =>
      simp only [STimer.step, r.alive]
      match hh : s.handles[h]? with
      | none => exact r
      | some none => exact r
      | some (some x) => exact r.stop hh code i
    | drop h =>
      simp only [STimer.step]
      match hh : s.handles[h]? with
      | none => exact r
      | some none => exact r
      | some (some x) => simp only; rw [if_pos r.alive]; exact r.drop hh
    | query =>
      simp only [STimer.step, r.alive, if_true]
      rw [r.query.1]; exact r.query.2.1
    | destroy => exact absurd rfl hd

theorem Inv.step {s : Sys} {b : Book} (r : Inv s b) (op : Op) (hl : Legal s.classes op) :
    Inv (step s op).1 (b.step op (step s op).2) := by
  rcases r with r | r
  · by_cases hd : op = .destroy
    · subst hd
      right
      simp only [STimer.step, r.alive, if_true]
      have hd := r.destroy
      revert hd
      generalize releaseAll s s.active = x
      intro hd
      match x, hd with
      | (s', none), hd => exact hd.2
      | (s', some e), hd => exact absurd hd.1 (by simp)
    · exact .inl (r.step op hl hd)
  · right
    cases op with
    | tick n => exact r.tick n
    | allocate => simp only [STimer.step, r.alive]; exact r
    | start h code i => simp only [STimer.step, r.alive]; exact r
    | stop h code i => simp only [STimer.step, r.alive]; exact r
    | drop h =>
      simp only [STimer.step]
      match hh : s.handles[h]? with
      | none => exact r
      | some none => exact r
      | some (some x) =>
        simp only
        rw [if_neg (by rw [r.alive]; simp)]
        refine ⟨r.alive, r.now, ?_, fun g k => ?_, r.sum, live_set r.live h, r.gone⟩
        · show b.count = (s.handles.set h none).length
          rw [List.length_set]; exact r.count
        · show upd b.cur h (fun _ => none) g k = none
          by_cases hgh : g = h
          · subst hgh; rw [upd_same]
          · rw [upd_other _ _ hgh]; exact r.cur g k
    | query => simp only [STimer.step, r.alive]; exact r
    | destroy => simp only [STimer.step, r.alive]; exact r

theorem queryAll_classes : ∀ (ids : List Nat) (s : Sys),
    (queryAll s ids).1.classes = s.classes ∧ (queryAll s ids).1.init = s.init := by
  intro ids
  induction ids with
  | nil => intro s; exact ⟨rfl, rfl⟩
  | cons id ids ih =>
    intro s
    have hq : (queryTimer s id).1.classes = s.classes ∧ (queryTimer s id).1.init = s.init := by
      unfold queryTimer; split
      · exact ⟨rfl, rfl⟩
      · split <;> exact ⟨rfl, rfl⟩
    revert hq
    show _ → (match queryTimer s id with
      | (s', none) => queryAll s' ids
      | (s', some e) => (s', some e)).1.classes = _ ∧ (match queryTimer s id with
      | (s', none) => queryAll s' ids
      | (s', some e) => (s', some e)).1.init = _
    generalize queryTimer s id = x
    intro hq
    match x, hq with
    | (s', none), hq => exact ⟨(ih s').1.trans hq.1, (ih s').2.trans hq.2⟩
    | (s', some e), hq => exact hq

theorem releaseTimer_classes (s : Sys) (id : Nat) :
    (releaseTimer s id).1.classes = s.classes ∧ (releaseTimer s id).1.init = s.init := by
  unfold releaseTimer
  split
  · exact ⟨rfl, rfl⟩
  · unfold releaseToPool
    simp only
    split
    · split <;> exact ⟨rfl, rfl⟩
    · exact ⟨rfl, rfl⟩

theorem releaseAll_classes : ∀ (ids : List Nat) (s : Sys),
    (releaseAll s ids).1.classes = s.classes ∧ (releaseAll s ids).1.init = s.init := by
  intro ids
  induction ids with
  | nil => intro s; exact ⟨rfl, rfl⟩
  | cons id ids ih =>
    intro s
    have hq := releaseTimer_classes s id
    revert hq
    show _ → (match releaseTimer s id with
      | (s', none) => releaseAll s' ids
      | (s', some e) => (s', some e)).1.classes = _ ∧ (match releaseTimer s id with
      | (s', none) => releaseAll s' ids
      | (s', some e) => (s', some e)).1.init = _
    generalize releaseTimer s id = x
    intro hq
    match x, hq with
    | (s', none), hq => exact ⟨(ih s').1.trans hq.1, (ih s').2.trans hq.2⟩
    | (s', some e), hq => exact hq

/-- The enum classes and the number of timers in the beginning never change. -/
theorem step_classes (s : Sys) (op : Op) :
    (step s op).1.classes = s.classes ∧ (step s op).1.init = s.init := by
  cases op with
  | tick n => exact ⟨rfl, rfl⟩
  | allocate =>
    simp only [step]
    split
    · unfold allocate
      have hg : (grow s).1.classes = s.classes ∧ (grow s).1.init = s.init := by
        unfold grow; split
        · split <;> exact ⟨rfl, rfl⟩
        · exact ⟨rfl, rfl⟩
      revert hg
      generalize grow s = x
      intro hg
      match x, hg with
      | (s', none), hg =>
        simp only
        unfold take
        split
        · exact hg
        · simp only; split <;> exact hg
      | (s', some e), hg => exact hg
    · exact ⟨rfl, rfl⟩
  | start h code i =>
    simp only [step]
    split
    · unfold startState; split <;> exact ⟨rfl, rfl⟩
    · exact ⟨rfl, rfl⟩
  | stop h code i =>
    simp only [step]
    split
    · unfold endState; split <;> exact ⟨rfl, rfl⟩
    · exact ⟨rfl, rfl⟩
  | drop h =>
    simp only [step]
    split
    · split
      · exact releaseTimer_classes _ _
      · exact ⟨rfl, rfl⟩
    · exact ⟨rfl, rfl⟩
  | query =>
    simp only [step]
    split
    · exact queryAll_classes _ _
    · exact ⟨rfl, rfl⟩
  | destroy =>
    simp only [step]
    split
    · have hd := releaseAll_classes s.active s
      revert hd
      generalize releaseAll s s.active = x
      intro hd
      match x, hd with
      | (s', none), hd => exact hd
      | (s', some e), hd => exact hd
    · exact ⟨rfl, rfl⟩

theorem Inv.run : ∀ (ops : List Op) (s : Sys) (b : Book), Inv s b → (∀ op ∈ ops, Legal s.classes op) →
    Inv (run s ops).1 (b.run ops (run s ops).2) := by
  intro ops
  induction ops with
  | nil => intro s b h _; exact h
  | cons op ops ih =>
    intro s b h hl
    have := ih (STimer.step s op).1 (b.step op (STimer.step s op).2) (h.step op (hl op List.mem_cons_self))
      (fun o ho => by rw [(step_classes s op).1]; exact hl o (List.mem_cons_of_mem _ ho))
    exact this

theorem Rel.run : ∀ (ops : List Op) (s : Sys) (b : Book), Rel s b → (∀ op ∈ ops, Legal s.classes op) →
    .destroy ∉ ops → Rel (run s ops).1 (b.run ops (run s ops).2) := by
  intro ops
  induction ops with
  | nil => intro s b h _ _; exact h
  | cons op ops ih =>
    intro s b h hl hd
    have := ih (STimer.step s op).1 (b.step op (STimer.step s op).2)
      (h.step op (hl op List.mem_cons_self) (fun e => hd (by rw [e]; exact List.mem_cons_self)))
      (fun o ho => by rw [(step_classes s op).1]; exact hl o (List.mem_cons_of_mem _ ho))
      (fun hm => hd (List.mem_cons_of_mem _ hm))
    exact this

theorem run_classes : ∀ (ops : List Op) (s : Sys),
    (run s ops).1.classes = s.classes ∧ (run s ops).1.init = s.init := by
  intro ops
  induction ops with
  | nil => intro s; exact ⟨rfl, rfl⟩
  | cons op ops ih =>
    intro s
    have := ih (step s op).1
    exact ⟨this.1.trans (step_classes s op).1, this.2.trans (step_classes s op).2⟩

/-- A new unit. -/
theorem make_rel {now init : Nat} {cs : List (Nat × Nat)} {s : Sys} (h : make now init cs = .ok s) :
    Rel s { now := now } ∧ s.classes = cs.map (fun c => (key c.1, c.2)) ∧ s.init = init
    ∧ s.hist = [] ∧ s.now = now := by
  unfold make at h
  match ha : addSets [] cs, h with
  | .ok out, h =>
    cases h
    obtain ⟨hn, he⟩ := addSets_spec cs [] out ha List.nodup_nil
    refine ⟨⟨rfl, ⟨?_, ?_, fun id hi => ?_, hn, fun _ => TOk.new _ _, fun _ _ => Idle.new,
      fun _ _ => rfl⟩, rfl, rfl, List.Perm.refl _, fun h x hh => ?_, fun _ _ _ => rfl,
      fun _ _ _ _ => ⟨rfl, rfl⟩, fun h x hh => ?_, fun h => ⟨fun hc => (by cases hc), fun ⟨x, hx⟩ => (by cases hx)⟩,
      rfl, ?_⟩, by rw [he]; rfl, rfl, rfl, rfl⟩
    · show 0 + ((List.range init).reverse).length = init
      simp
    · exact nodup_reverse List.nodup_range
    · have : id ∈ (List.range init).reverse := hi
      rw [List.mem_reverse] at this
      exact List.mem_range.mp this
    · cases hh
    · cases hh
    · show init < maxTimers + init
      unfold maxTimers; omega

end Sparta.STimer
