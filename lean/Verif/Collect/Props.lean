import Verif.Collect.Views
/-!
C190-C199: pipeline collection.
-/
namespace Sparta.Collect

deriving instance DecidableEq for Except

/-- the system after some calls, beginning with a new collector -/
abbrev run (H : Nat) (pair auto : Nat → Bool) (ops : List Op) : Sys := (runOps step (Sys.new H pair auto) ops).1

/-- no pairs, nothing automatic, an interval of 10 -/
def plain : Nat → Bool := fun _ => false

theorem run_inv {H : Nat} {pair auto : Nat → Bool} {ops : List Op} {w : View} (hH : 1 < H) (hl : Legal (View.new H pair auto) ops w) :
    Inv (run H pair auto ops) w := ((Inv.new H hH pair auto).run hl).1

theorem framed_at {H : Nat} {pre post : List Item} {r : Rec} (h : framed H 0 (pre ++ .record r :: post)) :
    1 ≤ marks pre ∧ (marks pre - 1) * H ≤ r.start ∧ r.stop ≤ marks pre * H := by
  have := ((framed_append H pre _ 0).1 h).2
  rw [Nat.zero_add] at this
  exact this.1

theorem pending_cases (s : Sys) (p i t : Nat) : pending s p i t = [] ∨
    (p = s.path ∧ (s.objs i).closed = false ∧ (s.objs i).start ≤ t) := by
  simp only [pending]
  split
  · rename_i h; exact .inr ⟨h.1, h.2.1, h.2.2.1⟩
  · exact .inl rfl

/-- what is in the file of a collectable that has no value now -/
theorem shown_closed {s : Sys} {v : View} (I : Inv s v) (p i t : Nat) (h : v.path ≠ p ∨ v.cur i = []) : shown (s.disk p) i t = only (v.pic p i t) := by
  obtain ⟨r, R, _⟩ := I
  rw [← R.shows p i t]
  rcases pending_cases s p i t with h1 | ⟨h1, h2, _⟩
  · rw [h1, List.append_nil]
  · exfalso
    rcases h with h | h
    · rw [h1, R.path] at h; exact h rfl
    · obtain ⟨_, h3, h4, _⟩ := (R.obj i).opened h2
      rw [← h3] at h4
      exact h4 h

theorem shown_old {s : Sys} {v : View} (I : Inv s v) (p i t : Nat) (h : t < (v.now - 1) / v.H * v.H) : shown (s.disk p) i t = only (v.pic p i t) := by
  obtain ⟨r, R, _⟩ := I
  rw [← R.shows p i t]
  rcases pending_cases s p i t with h1 | ⟨h1, h2, h3⟩
  · rw [h1, List.append_nil]
  · exfalso
    obtain ⟨h4, _, _, h5, _⟩ := (R.obj i).opened h2
    have ha := R.act (by rw [R.active]; exact R.onact i h4)
    have hd := R.dvd
    have h1 := R.h1
    rw [R.hH] at ha hd h1
    rw [R.now] at ha
    have hdm := Nat.div_add_mod s.last v.H
    rw [hd] at hdm
    rcases Nat.eq_zero_or_pos v.now with hz | hz
    · rw [hz] at h; simp at h
    · have : (v.now - 1) / v.H ≤ s.last / v.H := by
        rw [← Nat.lt_succ_iff, Nat.div_lt_iff_lt_mul (by omega), Nat.succ_mul, Nat.mul_comm]
        omega
      have h6 := Nat.mul_le_mul_right v.H this
      rw [Nat.mul_comm (s.last / v.H)] at h6
      omega

theorem shown_some {s : Sys} {v : View} (I : Inv s v) (p i t : Nat) : shown (s.disk p) i t = [] ∨ shown (s.disk p) i t = only (v.pic p i t) := by
  obtain ⟨r, R, _⟩ := I
  have h := R.shows p i t
  cases hs : shown (s.disk p) i t with
  | nil => exact .inl rfl
  | cons a l =>
    right
    rw [hs] at h
    have hl : (only (v.pic p i t)).length ≤ 1 := by simp only [only]; split <;> simp
    rw [← h] at hl ⊢
    simp at hl
    rw [hl.2, List.append_nil]

/-! ### C190 -/

/-- C190: whatever is called, in every file the ids of the records grow, no id is in two files, and each record begins before it ends,
and ends at the latest with the current tick. -/
theorem C190_ids (H : Nat) (pair auto : Nat → Bool) (ops : List Op) :
    (∀ p, (records ((run H pair auto ops).disk p)).Pairwise (fun a b => a.id < b.id)) ∧
    (∀ p q, p ≠ q → ∀ a ∈ records ((run H pair auto ops).disk p), ∀ b ∈ records ((run H pair auto ops).disk q), a.id ≠ b.id) ∧
    (∀ p, ∀ r ∈ records ((run H pair auto ops).disk p), 0 < r.id ∧ r.start < r.stop ∧ r.stop ≤ (run H pair auto ops).now + 1) := by
  have I : Ids (run H pair auto ops) :=
    runOps_invariant step Ids (fun s o hp => Ids.steady.step s o (fun _ _ => ⟨hp.inc, hp.le, hp.apart, hp.pos⟩) hp) _ (Ids.new H pair auto) ops
  exact ⟨I.inc, I.apart, fun p r hr => ⟨(I.le p r hr).1, I.pos p r hr⟩⟩

example : (records ((run 10 plain plain [.start [0, 1], .collect 0 ['a'], .next, .collect 1 ['b'], .collect 0 ['c'], .next, .stop [0, 1]]).disk 0)).map
    (fun r => (r.id, r.loc, r.start, r.stop, r.val)) = [(1, 0, 0, 1, ['a']), (2, 0, 1, 2, ['c']), (3, 1, 1, 2, ['b'])] := by decide +kernel

/-! ### C191 -/

/-- C191: the value that a collectable has at the end of a tick, while collection is on, is what the file shows for it in that tick, from
when the collectable has no value, or another file is written; it is shown once, and nothing if it has no value. -/
theorem C191_shown (H : Nat) (hH : 1 < H) (pair auto : Nat → Bool) (a b : List Op) (u w : View) (hu : Legal (View.new H pair auto) a u)
    (ha : u.active = true) (hw : Legal u (.next :: b) w) (hk : Kept u.path (u.step .next) b) (i : Nat) (hc : w.path ≠ u.path ∨ w.cur i = []) :
    shown ((run H pair auto (a ++ .next :: b)).disk u.path) i u.now = only (u.autos.cur i) := by
  rw [shown_closed (run_inv hH (hu.join hw)) _ _ _ hc]
  cases hw with
  | cons h1 h2 =>
    rw [past_run u.path h2 hk i u.now (by rw [(next_same u).2.2.2.1]; exact Nat.lt_succ_self _), next_pic, if_pos ⟨ha, rfl, rfl⟩]

/-- C191: even if the collectable still has its value, all that lies before the last heartbeat is in the file. -/
theorem C191_flushed (H : Nat) (hH : 1 < H) (pair auto : Nat → Bool) (a b : List Op) (u w : View) (hu : Legal (View.new H pair auto) a u)
    (ha : u.active = true) (hw : Legal u (.next :: b) w) (hk : Kept u.path (u.step .next) b) (i : Nat) (hc : u.now < (w.now - 1) / H * H) :
    shown ((run H pair auto (a ++ .next :: b)).disk u.path) i u.now = only (u.autos.cur i) := by
  have I := run_inv hH (hu.join hw)
  have e : w.H = H := (hu.join hw).params.2.2
  rw [shown_old I _ _ _ (by rw [e]; exact hc)]
  cases hw with
  | cons h1 h2 =>
    rw [past_run u.path h2 hk i u.now (by rw [(next_same u).2.2.2.1]; exact Nat.lt_succ_self _), next_pic, if_pos ⟨ha, rfl, rfl⟩]

/-- C191: at no time does the file show something else, or something twice. -/
theorem C191_never_wrong (H : Nat) (hH : 1 < H) (pair auto : Nat → Bool) (a b : List Op) (u w : View) (hu : Legal (View.new H pair auto) a u)
    (ha : u.active = true) (hw : Legal u (.next :: b) w) (hk : Kept u.path (u.step .next) b) (i : Nat) :
    shown ((run H pair auto (a ++ .next :: b)).disk u.path) i u.now = [] ∨
    shown ((run H pair auto (a ++ .next :: b)).disk u.path) i u.now = only (u.autos.cur i) := by
  have e : w.pic u.path i u.now = u.autos.cur i := by
    cases hw with
    | cons h1 h2 =>
      rw [past_run u.path h2 hk i u.now (by rw [(next_same u).2.2.2.1]; exact Nat.lt_succ_self _), next_pic, if_pos ⟨ha, rfl, rfl⟩]
  rw [← e]
  exact shown_some (run_inv hH (hu.join hw)) u.path i u.now

/-- C191: without automatic collection the value at the end of a tick is the one that was collected last. -/
theorem C191_value (v : View) (i : Nat) (h : v.auto i = false ∨ i ∉ v.on) : v.autos.cur i = v.cur i := by
  rw [autos_cur, if_neg]
  rintro ⟨_, h1, h2⟩
  rcases h with h | h
  · rw [h] at h2; cases h2
  · exact h h1

example : ∃ u w, Legal (View.new 10 plain plain) [.start [0], .collect 0 ['a']] u ∧ u.active = true ∧
    Legal u [.next, .collect 0 ['b'], .next, .close 0] w ∧ Kept u.path (u.step .next) [.collect 0 ['b'], .next, .close 0] ∧ w.cur 0 = [] ∧
    u.cur 0 = ['a'] := by
  refine ⟨_, _, .cons (by simp [View.legal, View.new]) (.cons (by simp [View.legal, View.fits, View.ready, View.step]) (.nil _)), rfl,
    .cons (by simp [View.legal, View.step, View.new, View.begin, View.update]) (.cons (by
      simp [View.legal, View.fits, View.ready, View.step, View.new, View.begin, View.update, View.autos, View.keep, View.ends])
      (.cons (by simp [View.legal, View.step, View.new, View.begin, View.update, View.autos, View.keep, View.ends]) (.cons trivial (.nil _)))), ?_, by decide +kernel,
    by decide +kernel⟩
  intro a is b h
  have : Op.start is ∈ [Op.collect 0 ['b'], .next, .close 0] := by rw [h]; simp
  simp at this

example : shown ((run 10 plain plain [.start [0], .collect 0 ['a'], .next, .collect 0 ['b'], .next, .close 0]).disk 0) 0 0 = [['a']] := by decide +kernel
example : shown ((run 10 plain plain [.start [0], .collect 0 ['a'], .next, .collect 0 ['b'], .next, .close 0]).disk 0) 0 1 = [['b']] := by decide +kernel

/-- C191, without the conditions on the calls: starting again loses what was collected before. -/
theorem C191_started_twice_violated :
    shown ((run 10 plain plain [.start [0], .collect 0 ['a'], .next, .start [0], .next, .close 0]).disk 0) 0 0 = [] := by decide +kernel

/-- C191, without the conditions on the calls: a value that is set by `initialize` is shown for ticks before it was set. -/
theorem C191_initialize_open_violated :
    shown ((run 10 plain plain [.start [0], .collect 0 ['a'], .next, .initialize 0 ['b'], .next, .close 0]).disk 0) 0 0 = [['b']] := by decide +kernel

/-- C191, without the conditions on the calls: a value that is set by `initialize` before collection starts is not shown. -/
theorem C191_initialize_lost_violated :
    shown ((run 10 plain plain [.initialize 0 ['a'], .start [0], .next, .close 0]).disk 0) 0 0 = [] := by decide +kernel

/-- C191, without the conditions on the calls: of an annotation with 65536 characters none is shown. -/
theorem C191_long_violated (w : Val) (h : w.length = 65536) :
    shown ((run 10 plain plain [.start [0], .collect 0 w, .next, .close 0]).disk 0) 0 0 = [[]] := by
  have hne : w ≠ [] := by intro e; rw [e] at h; cases h
  have hc : cut w = [] := by simp [cut, h]
  simp [run, runOps, step, Sys.new, plain, Sys.start, Sys.activate, Sys.startOne, Obj.new, Sys.set, Sys.collect, hne, Sys.openRecord, Sys.next,
    Sys.endTick, insertNew, Sys.beginTick, each, Sys.closeRecord, Sys.writeRecord, Sys.write, Sys.put, shown, hc, List.replicate]

/-! ### C192 -/

/-- C192: a record that comes after `k` entries of the index lies within the interval from `(k - 1) * H` to `k * H`, if collection begins
only at ticks that are not multiples of the interval (the first time excepted). -/
theorem C192_intervals_partial (H : Nat) (hH : 0 < H) (pair auto : Nat → Bool) (ops : List Op) (h : Apart (Sys.new H pair auto) ops) (p : Nat)
    (pre post : List Item) (r : Rec) (hd : (run H pair auto ops).disk p = pre ++ .record r :: post) :
    1 ≤ pre.count .index ∧ (pre.count .index - 1) * H ≤ r.start ∧ r.stop ≤ pre.count .index * H := by
  have F := (Frames.run H hH pair auto ops h).fr p
  rw [runOps_invariant step _ (fun s o hp => (keepsH H).step s o (fun _ _ => hp) hp) (Sys.new H pair auto) rfl ops] at F
  have hd : (runOps step (Sys.new H pair auto) ops).1.disk p = pre ++ .record r :: post := hd
  rw [hd] at F
  exact framed_at F

/-- C192: while collection is on, the index has an entry for each interval up to the current one. -/
theorem C192_count (H : Nat) (hH : 1 < H) (pair auto : Nat → Bool) (ops : List Op) (h : Apart (Sys.new H pair auto) ops) (w : View)
    (hl : Legal (View.new H pair auto) ops w) (ha : w.active = true) :
    let n := ((run H pair auto ops).disk w.path).count .index
    1 ≤ n ∧ (n - 1) * H ≤ w.now ∧ w.now ≤ n * H := by
  have F := Frames.run H (by omega) pair auto ops h
  obtain ⟨r, R, _⟩ := run_inv hH hl
  have hact : (run H pair auto ops).active = true := by rw [R.active]; exact ha
  have hm := (F.act hact).1
  have hHH : (run H pair auto ops).H = H :=
    runOps_invariant step _ (fun s o hp => (keepsH H).step s o (fun _ _ => hp) hp) (Sys.new H pair auto) rfl ops
  have h1 := R.act hact
  have h2 := R.le
  have h3 := R.dvd
  rw [R.path] at hm
  rw [hHH] at h1 h3
  have hm : ((run H pair auto ops).disk w.path).count .index = (run H pair auto ops).last / H + 1 := by
    have e := hHH
    simp only [run] at e
    rw [e] at hm
    exact hm
  show 1 ≤ ((run H pair auto ops).disk w.path).count .index ∧ (((run H pair auto ops).disk w.path).count .index - 1) * H ≤ w.now ∧
    w.now ≤ ((run H pair auto ops).disk w.path).count .index * H
  have hdm := Nat.div_add_mod (run H pair auto ops).last H
  rw [h3] at hdm
  have hmul : (run H pair auto ops).last / H * H = (run H pair auto ops).last := by rw [Nat.mul_comm]; exact hdm
  rw [hm, Nat.add_sub_cancel, Nat.succ_mul, hmul, ← R.now]
  exact ⟨Nat.le_add_left _ _, h2, h1⟩

example : Apart (Sys.new 10 plain plain) [.start [0], .collect 0 ['a'], .next, .stop [0], .start [0]] := by
  intro a is b h
  match a, h with
  | [], h => right; right; simp
  | [_], h => simp at h
  | [_, _], h => simp at h
  | [_, _, _], h => simp at h
  | [a1, a2, a3, a4], h =>
    simp at h
    obtain ⟨h1, h2, h3, h4, h5, h6⟩ := h
    subst h1 h2 h3 h4
    right; left; decide +kernel
  | a1 :: a2 :: a3 :: a4 :: a5 :: l, h => simp at h

/-- C192, without the condition: collection that stops and begins again at a multiple of the interval has one entry too many in the index;
the records of ticks 10 to 12 come after three entries. -/
theorem C192_restart_violated :
    let ops : List Op := [.start [0]] ++ List.replicate 7 .next ++ [.stop [0]] ++ List.replicate 3 .next ++
      [.start [0], .next, .collect 0 ['a'], .next, .stop [0]]
    (run 10 plain plain ops).disk 0 = [.index, .index, .index, .record ⟨0, 11, 12, 1, false, ['a']⟩] := by decide +kernel

/-! ### C193 -/

/-- C193: calls within the conditions do not throw. -/
theorem C193_no_exception (H : Nat) (hH : 1 < H) (pair auto : Nat → Bool) (ops : List Op) (w : View) (hl : Legal (View.new H pair auto) ops w) :
    ∀ x ∈ (runOps step (Sys.new H pair auto) ops).2, x = none := ((Inv.new H hH pair auto).run hl).2

example : ∃ w, Legal (View.new 10 plain plain) [.start [0], .collectFor 0 ['a'] 3, .next, .destroy, .reactivate 1, .start [0]] w := by
  refine ⟨_, .cons (by simp [View.legal, View.new]) (.cons (by simp [View.legal, View.fits, View.new, View.step, View.begin]) (.cons (by
    simp [View.legal, View.step, View.new, View.begin, View.update]) (.cons ?_ (.cons ?_ (.cons ?_ (.nil _))))))⟩
  · simp [View.legal, View.step, View.new, View.begin, View.update, View.autos, View.keep, View.ends, single, empties]
  · simp [View.legal, View.step]
  · simp [View.legal, View.step, View.new, View.begin, View.update, View.autos, View.keep, View.ends, single, empties]

/-! ### C194 -/

/-- C194: a record with the mark "continued" ends at a multiple of the interval, and the file shows its value from there on, at least for
one tick. -/
theorem C194_continued (H : Nat) (hH : 1 < H) (pair auto : Nat → Bool) (ops : List Op) (w : View) (hl : Legal (View.new H pair auto) ops w)
    (p : Nat) (x : Rec) (hx : x ∈ records ((run H pair auto ops).disk p)) (hc : x.cont = true) :
    x.stop % H = 0 ∧ x.stop < w.now ∧ x.val ≠ [] ∧
    (w.path ≠ p ∨ w.cur x.loc = [] → shown ((run H pair auto ops).disk p) x.loc x.stop = [x.val]) := by
  have I := run_inv hH hl
  have C : Conts (run H pair auto ops) w := Conts.run (Inv.new H hH pair auto) (by
    intro p x hx; simp [Sys.new, records] at hx) hl
  obtain ⟨c1, c2, c3⟩ := C p x hx hc
  have hne : x.val ≠ [] := by
    have hs := ((C190_ids H pair auto ops).2.2 p x hx).2.1
    have hm : x.val ∈ shown ((run H pair auto ops).disk p) x.loc x.start := by
      simp only [shown, records, List.mem_filterMap] at hx ⊢
      obtain ⟨y, hy, e⟩ := hx
      refine ⟨y, hy, ?_⟩
      cases y with
      | index => cases e
      | record r =>
        injection e with e
        subst e
        simp [hs]
    rcases shown_some I p x.loc x.start with h | h
    · rw [h] at hm; cases hm
    · rw [h] at hm
      simp only [only] at hm
      split at hm
      · cases hm
      · rename_i hq
        simp at hm
        rw [hm]; exact hq
  refine ⟨by rw [← show w.H = H from hl.params.2.2]; exact c2, c1, hne, fun h => ?_⟩
  rw [shown_closed I p x.loc x.stop h, c3, only, if_neg hne]

example : (run 3 plain plain [.start [0], .next, .collect 0 ['a'], .next, .next, .next, .next, .close 0]).disk 0 =
    [.index, .record ⟨0, 1, 3, 1, true, ['a']⟩, .index, .record ⟨0, 3, 5, 2, false, ['a']⟩] := by decide +kernel

/-! ### C195 -/

/-- C195: a value that is collected for `d` ticks is shown in these ticks and not after them, if nothing else is done to the collectable, and
nothing was left to do for it. -/
theorem C195_duration_partial (H : Nat) (hH : 1 < H) (pair auto : Nat → Bool) (a b : List Op) (u w : View) (i : Nat) (x : Val) (d : Nat)
    (hu : Legal (View.new H pair auto) a u) (hw : Legal u (.collectFor i x d :: b) w) (hon : i ∈ u.on) (hd : 0 < d)
    (ha : auto i = false) (hq : ∀ e ∈ u.closes, e.1 ≠ i) (hs : ∀ op ∈ b, spares i op) (hend : u.now + d ≤ w.now) (t : Nat) (h1 : u.now ≤ t)
    (h2 : t < w.now) :
    shown ((run H pair auto (a ++ .collectFor i x d :: b)).disk u.path) i t = if t < u.now + d then only x else [] := by
  have I0 := run_inv hH hu
  have hauto : u.auto i = false := by rw [hu.params.1]; exact ha
  have hq' : u.closes.filter (fun e => e.1 = i) = [] := by
    rw [List.filter_eq_nil_iff]; intro e he; simpa using hq e he
  have hact : u.active = true := by obtain ⟨r, R, _⟩ := I0; exact R.onact i hon
  cases hw with
  | cons g1 g2 =>
    have T : Timed i u.path x u.now (u.now + d) (u.step (.collectFor i x d)) := by
      simp only [View.step, hon, if_true]
      refine ⟨⟨hon, hact, rfl⟩, hauto, Nat.le_refl _, .inl ⟨?_, ?_, ?_⟩, ?_⟩
      · show u.now < u.now + d; omega
      · simp [View.update, single]
      · show (u.closes ++ _).filter _ = _
        rw [List.filter_append, hq', if_neg (by omega)]; simp
      · intro t h3 h4
        have h4 : t < u.now := h4
        omega
    have T2 := T.run g2 hs
    have hcur : w.cur i = [] := by
      rcases T2.now with ⟨h3, _⟩ | ⟨_, h3, _⟩
      · omega
      · exact h3
    rw [shown_closed (run_inv hH (hu.join (.cons g1 g2))) _ _ _ (.inr hcur), T2.pic t h1 h2]
    split
    · rfl
    · rfl

/-- C195, without the condition: the end of an earlier collection with a duration ends a later value early: the value for ticks 1 to 5 is not
shown at tick 3. -/
theorem C195_overlap_violated :
    let s := run 10 plain plain [.start [0], .collectFor 0 ['a'] 3, .next, .collectFor 0 ['b'] 5, .next, .next, .next, .next, .next]
    shown (s.disk 0) 0 2 = [['b']] ∧ shown (s.disk 0) 0 3 = [] := by decide +kernel

example : ∃ u w, Legal (View.new 10 plain plain) [.start [0, 1]] u ∧ Legal u [.collectFor 0 ['a'] 2, .next, .collect 1 ['b'], .next, .next] w ∧
    0 ∈ u.on ∧ (∀ e ∈ u.closes, e.1 ≠ 0) ∧ (∀ op ∈ [.next, .collect 1 ['b'], .next, .next], spares 0 op) ∧ u.now + 2 ≤ w.now := by
  refine ⟨_, _, .cons (by simp [View.legal, View.new]) (.nil _), .cons (by simp [View.legal, View.fits, View.new, View.step, View.begin, plain])
    (.cons (by simp [View.legal, View.step, View.new, View.begin, View.update]) (.cons (by
      simp [View.legal, View.fits, View.ready, View.step, View.new, View.begin, View.update, View.autos, View.keep, View.ends])
      (.cons (by simp [View.legal, View.step, View.new, View.begin, View.update, View.autos, View.keep, View.ends, plain])
      (.cons (by simp [View.legal, View.step, View.new, View.begin, View.update, View.autos, View.keep, View.ends, plain]) (.nil _))))), ?_, ?_, ?_, ?_⟩
  · simp [View.step]
  · simp [View.step, View.new, View.begin]
  · simp [spares]
  · decide +kernel

example : let s := run 10 plain plain [.start [0, 1], .collectFor 0 ['a'] 2, .next, .collect 1 ['b'], .next, .next]
    [0, 1, 2].map (shown (s.disk 0) 0) = [[['a']], [['a']], []] := by decide +kernel

/-! ### C196 -/

/-- C196: when the collector is destroyed, what is collected has been written: the current tick shows the current values, and the ticks
before it what they showed.  Missing: a collectable whose value began in this very tick, and a tick that is a multiple of the interval. -/
theorem C196_destroy_partial (H : Nat) (hH : 1 < H) (pair auto : Nat → Bool) (ops : List Op) (w : View) (hl : Legal (View.new H pair auto) ops w)
    (hd : ∀ i ∈ w.on, w.cur i ≠ [] → w.began i < w.now ∧ w.now % H ≠ 0) :
    ∃ s', step (run H pair auto ops) .destroy = (s', none) ∧ s'.active = false ∧
      (∀ i ∈ w.on, shown (s'.disk w.path) i w.now = only (w.cur i)) ∧
      (∀ i t, t < w.now → shown (s'.disk w.path) i t = only (w.pic w.path i t)) := by
  obtain ⟨s', h1, I⟩ := (run_inv hH hl).step .destroy (by
    show ∀ i ∈ w.on, w.cur i ≠ [] → w.began i < w.now ∧ w.now % w.H ≠ 0
    rw [hl.params.2.2]; exact hd)
  have hsh : ∀ i t, shown (s'.disk w.path) i t = only ((w.step .destroy).pic w.path i t) := by
    intro i t
    have I' := I
    obtain ⟨r, R, _⟩ := I'
    apply shown_closed I
    right
    apply R.off_cur
    show i ∉ []
    simp
  refine ⟨s', h1, ?_, ?_, ?_⟩
  · obtain ⟨r, R, _⟩ := I; exact R.active
  · intro i hi
    rw [hsh]
    show only (upd w.pic w.path _ w.path i w.now) = _
    rw [upd_same, if_pos ⟨hi, rfl⟩]
  · intro i t ht
    rw [hsh]
    show only (upd w.pic w.path _ w.path i t) = _
    rw [upd_same, if_neg (by omega)]

example : ∃ w, Legal (View.new 10 plain plain) [.start [0], .collect 0 ['a'], .next] w ∧
    (∀ i ∈ w.on, w.cur i ≠ [] → w.began i < w.now ∧ w.now % 10 ≠ 0) ∧ w.cur 0 = ['a'] ∧ 0 ∈ w.on := by
  refine ⟨_, .cons (by simp [View.legal, View.new]) (.cons (by simp [View.legal, View.fits, View.ready, View.step]) (.cons (by
    simp [View.legal, View.step, View.new, View.begin, View.update]) (.nil _))), ?_, by decide +kernel, by decide +kernel⟩
  simp [View.step, View.new, View.begin, View.update, View.autos, View.keep, View.ends, single, empties]

/-- C196, without the condition: at the end of an interval the call throws, and the values are not written. -/
theorem C196_boundary_violated :
    let s := run 3 plain plain [.start [0], .collect 0 ['a'], .next, .next, .next]
    (step s .destroy).2 = some .window ∧ shown ((step s .destroy).1.disk 0) 0 2 = [] := by decide +kernel

/-- C196, without the condition: a value that began in the same tick is not written. -/
theorem C196_same_tick_violated :
    let s := run 10 plain plain [.start [0], .next, .collect 0 ['a'], .destroy]
    shown (s.disk 0) 0 1 = [] := by decide +kernel

/-- C196: after the call the collectables believe that they are collected: what they collect next throws later. -/
theorem C196_later_violated :
    (runOps step (Sys.new 10 plain plain) [.start [0], .next, .destroy, .collect 0 ['a'], .next, .collect 0 ['b']]).2 =
      [none, none, none, none, none, some .inactive] := by decide +kernel

/-! ### C197 -/

/-- C197: no call changes another file than the current one, and only `reactivate` changes which one that is. -/
theorem C197_other_files_partial (s : Sys) (op : Op) : (∀ q, q ≠ s.path → (step s op).1.disk q = s.disk q) ∧
    ((∀ p, op ≠ .reactivate p) → (step s op).1.path = s.path) := by
  by_cases h : ∃ p, op = .reactivate p
  · obtain ⟨p, e⟩ := h
    subst e
    refine ⟨?_, fun h => absurd rfl (h p)⟩
    intro q _
    simp only [step, Sys.reactivate]
    split <;> rfl
  · have hre : ∀ p, op ≠ .reactivate p := fun p e => h ⟨p, e⟩
    have := (Others.steady s.path s.disk).step s op (fun q e => absurd e (hre q)) ⟨rfl, fun _ _ => rfl⟩
    exact ⟨this.2, fun _ => this.1⟩

/-- C197: `reactivate` is refused while collection is on, and otherwise changes no file. -/
theorem C197_reactivate (s : Sys) (p : Nat) : (s.active = true → step s (.reactivate p) = (s, some .stillActive)) ∧
    (s.active = false → (step s (.reactivate p)).2 = none ∧ (step s (.reactivate p)).1.path = p ∧ (step s (.reactivate p)).1.disk = s.disk) := by
  constructor
  · intro h; simp [step, Sys.reactivate, h]
  · intro h; simp [step, Sys.reactivate, h]

example : let s := run 10 plain plain [.start [0], .collect 0 ['a'], .next, .destroy, .reactivate 1, .start [0], .next]
    shown (s.disk 0) 0 0 = [['a']] ∧ s.path = 1 := by decide +kernel

/-- C197, into the same file: what was collected before is lost. -/
theorem C197_restart_violated :
    let a : List Op := [.start [0], .collect 0 ['a'], .next, .stop [0]]
    shown ((run 10 plain plain a).disk 0) 0 0 = [['a']] ∧ shown ((run 10 plain plain (a ++ [.start [0]])).disk 0) 0 0 = [] := by decide +kernel

/-- C197: after `stopCollection()` collection still counts as active. -/
theorem C197_stop_all_violated : (run 10 plain plain [.start [0], .stopAll]).active = true ∧ (run 10 plain plain [.start [0], .stopAll]).reg = [] ∧
    (run 10 plain plain [.start [0], .stop [0]]).active = false := by decide +kernel

/-- C197: when collection of pairs stops, the open record is not written. -/
theorem C197_pairs_violated :
    shown ((run 10 (fun _ => true) plain [.start [0], .collect 0 ['a'], .next, .stop [0], .next]).disk 0) 0 0 = [] ∧
    shown ((run 10 plain plain [.start [0], .collect 0 ['a'], .next, .stop [0], .next]).disk 0) 0 0 = [['a']] := by decide +kernel

/-- C197: a pair that is collected before collection starts: a null pointer is followed. -/
theorem C197_before_start_violated : (step (Sys.new 10 (fun _ => true) plain) (.collect 0 ['a'])).2 = some .ub ∧
    (step (Sys.new 10 plain plain) (.collect 0 ['a'])).2 = none := by decide +kernel

/-! ### C198 -/

/-- C198: when a container is collected at the end of a tick, each position that it has shows the element there in that tick, or nothing if
there is none, and the other collectables show what they had. -/
theorem C198_container (H : Nat) (hH : 1 < H) (pair auto : Nat → Bool) (a b : List Op) (v w : View) (base n : Nat) (xs : List (Option Val))
    (hv : Legal (View.new H pair auto) a v) (ha : v.active = true) (hw : Legal v (.collectAll base n xs :: .next :: b) w)
    (hk : Kept v.path ((v.step (.collectAll base n xs)).step .next) b) (i : Nat) (hi : auto i = false) (hc : w.path ≠ v.path ∨ w.cur i = []) :
    shown ((run H pair auto (a ++ .collectAll base n xs :: .next :: b)).disk v.path) i v.now =
      if i ∈ v.on ∧ base ≤ i ∧ i < base + n then
        match xs[i - base]? with
        | some (some x) => only x
        | _ => []
      else only (v.cur i) := by
  cases hw with
  | cons h1 h2 =>
    have hu : Legal (View.new H pair auto) (a ++ [.collectAll base n xs]) (v.step (.collectAll base n xs)) := hv.join (.cons h1 (.nil _))
    have := C191_shown H hH pair auto _ b _ w hu ha h2 hk i hc
    rw [List.append_assoc] at this
    refine Eq.trans this ?_
    rw [C191_value _ _ (.inl (by rw [hu.params.1]; exact hi))]
    show only ((if i ∈ v.on ∧ base ≤ i ∧ i < base + n then some ((xs[i - base]?.join).getD []) else none : Option Val).getD (v.cur i)) = _
    split
    · rcases xs[i - base]? with _ | _ | x <;> rfl
    · rfl

example : let s := run 10 plain plain [.start [0, 1, 2, 3], .collectAll 0 3 [some ['a'], none, some ['c']], .collect 3 ['d'], .next,
      .collectAll 0 3 [some ['b']], .next, .stop [0, 1, 2, 3]]
    [0, 1, 2, 3].map (fun i => shown (s.disk 0) i 0) = [[['a']], [], [['c']], [['d']]] ∧
    [0, 1, 2, 3].map (fun i => shown (s.disk 0) i 1) = [[['b']], [], [], [['d']]] := by decide +kernel

/-! ### C199 -/

/-- C199: a collectable that collects a variable automatically shows in every tick after the one in which it was started the value that the
variable has at the end of the tick. -/
theorem C199_automatic (H : Nat) (hH : 1 < H) (pair auto : Nat → Bool) (a b c : List Op) (is : List Nat) (u w : View) (i : Nat)
    (hu : Legal (View.new H pair auto) (a ++ .start is :: b) u) (hi : i ∈ is) (ha : auto i = true) (hs : ∀ op ∈ b, spares i op)
    (hn : Op.next ∈ b) (hw : Legal u (.next :: c) w) (hk : Kept u.path (u.step .next) c) (hc : w.path ≠ u.path ∨ w.cur i = []) :
    shown ((run H pair auto ((a ++ .start is :: b) ++ .next :: c)).disk u.path) i u.now = only ((u.var i).getD []) := by
  obtain ⟨h1, h2⟩ := hu.split
  cases h2 with
  | cons h3 h4 =>
    have hp : (a.foldl View.step (View.new H pair auto)).auto = auto := h1.params.1
    generalize hv : a.foldl View.step (View.new H pair auto) = v at h1 h3 h4 hp
    have hb : v.begin.active = true := by
      simp only [View.begin]; split
      · assumption
      · rfl
    have hh : Held i (v.step (.start is)).path (v.step (.start is)) := ⟨List.mem_append_left _ hi, hb, rfl⟩
    have hnow : (v.step (.start is)).now = v.now := by simp only [View.step, View.begin]; split <;> rfl
    have hpend : (v.step (.start is)).now + 1 ∈ (v.step (.start is)).pend := by
      rw [hnow]
      show v.now + 1 ∈ (if is.any v.auto then [v.now + 1] else []) ++ v.pend
      rw [if_pos (by rw [List.any_eq_true]; exact ⟨i, hi, by rw [hp]; exact ha⟩)]
      simp
    have hau : (v.step (.start is)).auto i = true := by rw [(step_params v (.start is)).1, hp]; exact ha
    obtain ⟨g1, g2, g3⟩ := ready_run h4 hs hh hau (.inr ⟨hpend, hn⟩)
    rw [C191_shown H hH pair auto _ c u w hu g1.act hw hk i hc, autos_cur, if_pos ⟨g3, g1.on, g2⟩]

example : let s := run 10 plain (fun _ => true) [.assign 0 (some ['a']), .start [0], .next, .assign 0 (some ['b']), .next, .assign 0 (some ['c']), .next,
      .assign 0 none, .next]
    [0, 1, 2, 3].map (shown (s.disk 0) 0) = [[], [['b']], [['c']], []] := by decide +kernel

example : ∃ u, Legal (View.new 10 plain (fun _ => true)) ([] ++ .start [0] :: [.next, .assign 0 (some ['b'])]) u ∧ u.var 0 = some ['b'] := by
  refine ⟨_, .cons (by simp [View.legal, View.new]) (.cons (by simp [View.legal, View.new, View.step, View.begin]) (.cons (by
    simp [View.legal, View.fits]) (.nil _))), by decide +kernel⟩

/-- C199: once the variable is assigned, that is its value until the next assignment. -/
theorem C199_variable (v : View) (op : Op) (i : Nat) : (v.step op).var i = (match op with
    | .assign j x => if j = i then x else v.var i
    | _ => v.var i) := by
  cases op with
  | collect j w => simp only [View.step]; split <;> rfl
  | collectFor j w d => simp only [View.step]; split <;> rfl
  | «initialize» j w => simp only [View.step]; split <;> rfl
  | start is => simp only [View.step, View.begin]; split <;> rfl
  | next => rw [(next_same v).2.2.2.2.2.2.1]
  | assign j x =>
    simp only [View.step]
    by_cases h : j = i
    · subst h; simp
    · rw [upd_other _ _ (Ne.symm h), if_neg h]
  | _ => rfl

end Sparta.Collect
