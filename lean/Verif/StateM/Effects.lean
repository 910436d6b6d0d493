import Verif.StateM.Track
/-! # What a call does to marks, to `isSet` and to the observers -/
namespace Sparta.StateM

theorem upd_self {α : Type} (f : Nat → α) (i : Nat) : upd f i (f i) = f := by
  funext j
  by_cases h : j = i
  · subst h; exact upd_same _ _ _
  · exact upd_other _ _ h

theorem marked_iff (s : Sys) (x v k : Nat) (hk : k < s.numMarkers x v) :
    ((s.objs x).sets v).marks[k]? = some (s.marked x v k) := by
  unfold Sys.marked
  unfold Sys.numMarkers at hk
  simp [List.getD_eq_getElem?_getD, List.getElem?_eq_getElem hk]

theorem step_set (s : Sys) {x v k : Nat} (h : s.has x v = true) (hk : k < s.numMarkers x v) :
    step s (.set x v k) = (s.out x ((s.objs x).setMarker s.isBool s.n s.now v k), none) := by
  simp only [step, Op.on, h, if_true, onValue]
  exact if_pos hk

theorem step_clear (s : Sys) {x v k : Nat} (h : s.has x v = true) (hk : k < s.numMarkers x v) :
    step s (.clear x v k) = (s.put x ((s.objs x).clearMarker v k).1, ((s.objs x).clearMarker v k).2) := by
  simp only [step, Op.on, h, if_true, onValue]
  exact if_pos hk

/-- The marks after a marker is set. -/
theorem setMarker_sets {o : Obj} (hO : OOk o) (isBool : Bool) (n now v m : Nat)
    (hm : (o.sets v).marks[m]? = some false) :
    ((o.setMarker isBool n now v m).1.sets v).marks = (o.sets v).marks.set m true
    ∧ ((o.setMarker isBool n now v m).1.sets v).thresh = (o.sets v).thresh
    ∧ ∀ w, w ≠ v → ((o.setMarker isBool n now v m).1.sets w).marks = (o.sets w).marks := by
  have k := Keep.jointSet o isBool n now v (hO v).tame
  unfold Obj.setMarker
  rw [if_pos hm]
  refine ⟨?_, ?_, fun w hw => ?_⟩
  · show (((o.jointSet isBool n now v).1.mark v m true).sets v).marks = _
    rw [mark_same]
    show ((o.jointSet isBool n now v).1.sets v).marks.set m true = _
    rw [(k v).2.1, bumped_same]
  · show (((o.jointSet isBool n now v).1.mark v m true).sets v).thresh = _
    rw [mark_same]
    show ((o.jointSet isBool n now v).1.sets v).thresh = _
    rw [(k v).2.2.1, bumped_same]
  · show (((o.jointSet isBool n now v).1.mark v m true).sets w).marks = _
    rw [mark_other _ _ _ hw, (k w).2.1, bumped_other _ hw]

/-- Setting a marker of a value without monitors. -/
theorem setMarker_plain {o : Obj} (isBool : Bool) (n now v m : Nat)
    (hm : (o.sets v).marks[m]? = some false) (hmon : (o.sets v).monitors = []) :
    (o.setMarker isBool n now v m).1.value
      = (if (o.sets v).marks.length - ((o.sets v).count + 1) ≤ (o.sets v).thresh then v else o.value)
    ∧ (o.setMarker isBool n now v m).2
      = (if (o.sets v).marks.length - ((o.sets v).count + 1) ≤ (o.sets v).thresh
          then (o.sets v).audience.map .sched else [])
    ∧ ((o.setMarker isBool n now v m).1.sets v).audience
      = (if (o.sets v).marks.length - ((o.sets v).count + 1) ≤ (o.sets v).thresh
          then [] else (o.sets v).audience)
    ∧ ((o.setMarker isBool n now v m).1.sets v).isSet
      = (decide ((o.sets v).marks.length - ((o.sets v).count + 1) ≤ (o.sets v).thresh) || (o.sets v).isSet)
    ∧ ∀ w, w ≠ v → (o.setMarker isBool n now v m).1.sets w = o.sets w := by
  unfold Obj.setMarker
  rw [if_pos hm, jointSet_eq, if_neg (fun k => k hmon)]
  by_cases hc : (o.sets v).marks.length - ((o.sets v).count + 1) ≤ (o.sets v).thresh
  · simp only [if_pos hc]
    refine ⟨rfl, ?_, ?_, ?_, fun w hw => ?_⟩
    · show ((bumped o v).sets v).audience.map Ev.sched = _
      rw [bumped_same]
    · show ((Obj.mark _ v m true).sets v).audience = _
      rw [mark_same, notify_sets_same]
    · show ((Obj.mark _ v m true).sets v).isSet = _
      rw [mark_same, notify_sets_same, decide_eq_true hc]; rfl
    · show (Obj.mark _ v m true).sets w = _
      rw [mark_other _ _ _ hw, notify_sets_other _ hw]
      exact bumped_other o hw
  · simp only [if_neg hc]
    refine ⟨rfl, trivial, ?_, ?_, fun w hw => ?_⟩
    · show ((Obj.mark _ v m true).sets v).audience = _
      rw [mark_same, bumped_same]
    · show ((Obj.mark _ v m true).sets v).isSet = _
      rw [mark_same, bumped_same, decide_eq_false hc]; rfl
    · show (Obj.mark _ v m true).sets w = _
      rw [mark_other _ _ _ hw]
      exact bumped_other o hw

/-! ## Which values were taken -/

/-- A value that was taken stays so, and a new value counts as taken. -/
def Taken (o o' : Obj) : Prop := (∀ w, (o.sets w).isSet = true → (o'.sets w).isSet = true)
  ∧ (o'.value ≠ o.value → (o'.sets o'.value).isSet = true)

theorem Taken.refl (o : Obj) : Taken o o := ⟨fun _ h => h, fun h => absurd rfl h⟩

theorem Taken.trans {a b c : Obj} (h : Taken a b) (k : Taken b c) : Taken a c := by
  refine ⟨fun w hw => k.1 w (h.1 w hw), fun hne => ?_⟩
  by_cases hcb : c.value = b.value
  · rw [hcb] at hne ⊢
    exact k.1 _ (h.2 hne)
  · exact k.2 hcb

theorem Taken.notify (o : Obj) (v : Nat) (val : Nat) (t : Option Tracker) (hv : val = v) :
    Taken o (Obj.notify { o with tracker := t, value := val } v).1 := by
  subst hv
  refine ⟨fun w hw => ?_, fun _ => ?_⟩
  · by_cases h : w = val
    · subst h; rw [notify_sets_same]
    · rw [notify_sets_other _ h]; exact hw
  · show ((Obj.notify _ val).1.sets val).isSet = true
    rw [notify_sets_same]

theorem Taken.act (o : Obj) (isBool : Bool) (n now : Nat) (a : Act) (h : a ≠ .reset) :
    Taken o (o.act isBool n now a).1 := by
  cases a with
  | note => exact Taken.refl _
  | force v =>
    simp only [Obj.act]
    split
    · exact Taken.notify o v v _ rfl
    · exact Taken.refl _
  | reset => exact absurd rfl h

theorem Taken.signalAll (isBool : Bool) (n now v : Nat) : ∀ (ms : List (Nat × Act)) (o : Obj),
    (∀ p ∈ ms, p.2 ≠ .reset) → Taken o (o.signalAll isBool n now v ms).1 := by
  intro ms
  induction ms with
  | nil => intro o _; exact Taken.refl _
  | cons p ms ih =>
    intro o h
    obtain ⟨m, a⟩ := p
    exact (Taken.act o isBool n now a (h (m, a) List.mem_cons_self)).trans
      (ih _ (fun q hq => h q (List.mem_cons_of_mem _ hq)))

theorem Taken.bumped (o : Obj) (v : Nat) : Taken o (bumped o v) := by
  refine ⟨fun w hw => ?_, fun h => absurd rfl h⟩
  by_cases h : w = v
  · subst h; rw [bumped_same]; exact hw
  · rw [bumped_other _ h]; exact hw

theorem Taken.mark (o : Obj) (v m : Nat) (b : Bool) : Taken o (o.mark v m b) := by
  refine ⟨fun w hw => ?_, fun h => absurd rfl h⟩
  by_cases h : w = v
  · subst h; rw [mark_same]; exact hw
  · rw [mark_other _ _ _ h]; exact hw

theorem Taken.setMarker {o : Obj} (hO : OOk o) (isBool : Bool) (n now v m : Nat) :
    Taken o (o.setMarker isBool n now v m).1 := by
  unfold Obj.setMarker
  split
  · refine Taken.trans ?_ (Taken.mark _ v m true)
    rw [jointSet_eq]
    refine (Taken.bumped o v).trans ?_
    split
    · exact Taken.signalAll _ _ _ _ _ _ (hO v).tame
    · split
      · exact Taken.notify (StateM.bumped o v) v v _ rfl
      · exact Taken.refl _
  · exact Taken.refl _

theorem Taken.clearMarker (o : Obj) (v m : Nat) : Taken o (o.clearMarker v m).1 := by
  unfold Obj.clearMarker
  split
  · split
    · exact Taken.refl _
    · refine Taken.trans (b := { o with sets := upd o.sets v { o.sets v with count := (o.sets v).count - 1 } }) ?_
        (Taken.mark _ v m false)
      refine ⟨fun w hw => ?_, fun h => absurd rfl h⟩
      by_cases h : w = v
      · subst h; simp only [upd_same]; exact hw
      · simp only [upd_other _ _ h]; exact hw
  · exact Taken.refl _

/-- A value counts as newly taken only when the state has it. -/
def Only (o o' : Obj) : Prop := ∀ w, (o'.sets w).isSet = true → (o.sets w).isSet = true ∨ o'.value = w

theorem Only.notify (o : Obj) (v : Nat) (val : Nat) (t : Option Tracker) (hv : val = v) :
    Only o (Obj.notify { o with tracker := t, value := val } v).1 := by
  subst hv
  intro w hw
  by_cases h : w = val
  · exact Or.inr h.symm
  · rw [notify_sets_other _ h] at hw; exact Or.inl hw

/-! ## The enrolled events -/

/-- How often an event is enrolled on the values of a state. -/
def tot (o : Obj) (n e : Nat) : Nat := ((List.range n).map fun w => (o.sets w).audience.count e).sum

/-- What is scheduled was enrolled. -/
def Spends (n : Nat) (o : Obj) (r : Obj × List Ev) : Prop :=
  ∀ e, r.2.count (.sched e) + tot r.1 n e = tot o n e

theorem count_sched (l : List Nat) (e : Nat) : (l.map Ev.sched).count (.sched e) = l.count e := by
  induction l with
  | nil => rfl
  | cons a l ih =>
    simp only [List.map_cons, List.count_cons, ih]
    congr 1
    by_cases h : a = e
    · subst h; simp
    · simp [h]

theorem Spends.notify {n v : Nat} (o : Obj) (val : Nat) (t : Option Tracker) (hv : v < n) :
    Spends n o (Obj.notify { o with tracker := t, value := val } v) := by
  intro e
  show ((o.sets v).audience.map Ev.sched).count (.sched e) + _ = _
  rw [count_sched]
  have := sum_one (n := n) (x := v)
    (f := fun w => ((Obj.notify { o with tracker := t, value := val } v).1.sets w).audience.count e)
    (g := fun w => (o.sets w).audience.count e) hv (fun w hw => by simp only [notify_sets_other _ hw])
  simp only [notify_sets_same, List.count_nil, Nat.add_zero] at this
  unfold tot
  omega

theorem Spends.act {n : Nat} (o : Obj) (isBool : Bool) (now : Nat) (a : Act) (hb : isBool = true → 0 < n) :
    Spends n o (o.act isBool n now a) := by
  cases a with
  | note => intro e; simp [Obj.act]
  | force v =>
    simp only [Obj.act]
    split
    · exact Spends.notify o v _ (by assumption)
    · intro e; simp
  | reset =>
    simp only [Obj.act, Obj.reset]
    split
    · exact Spends.notify { o with value := o.initial, sets := fun v => (o.sets v).reset } 0 _ (hb (by assumption))
    · intro e; simp; rfl

theorem Spends.signalAll {n : Nat} (isBool : Bool) (now v : Nat) (hb : isBool = true → 0 < n) :
    ∀ (ms : List (Nat × Act)) (o : Obj), Spends n o (o.signalAll isBool n now v ms) := by
  intro ms
  induction ms with
  | nil => intro o e; simp [Obj.signalAll]
  | cons p ms ih =>
    intro o e
    obtain ⟨m, a⟩ := p
    have h1 := Spends.act o isBool now a hb e
    have h2 := ih (o.act isBool n now a).1 e
    show (Ev.signal m v :: (o.act isBool n now a).2 ++ ((o.act isBool n now a).1.signalAll isBool n now v ms).2).count (.sched e)
      + tot ((o.act isBool n now a).1.signalAll isBool n now v ms).1 n e = _
    rw [List.cons_append, List.count_cons, List.count_append]
    have h3 : (if (Ev.signal m v == Ev.sched e) = true then 1 else 0) = 0 := rfl
    rw [h3]
    omega

theorem tot_congr {o o' : Obj} {n e : Nat} (h : ∀ w, (o'.sets w).audience = (o.sets w).audience) :
    tot o' n e = tot o n e := sum_congr (fun w _ => by simp only [h w])

theorem tot_mark (o : Obj) (v m n e : Nat) (b : Bool) : tot (o.mark v m b) n e = tot o n e :=
  tot_congr (fun w => by
    by_cases h : w = v
    · subst h; rw [mark_same]
    · rw [mark_other _ _ _ h])

theorem tot_bumped (o : Obj) (v n e : Nat) : tot (bumped o v) n e = tot o n e :=
  tot_congr (fun w => by
    by_cases h : w = v
    · subst h; rw [bumped_same]
    · rw [bumped_other _ h])

theorem Spends.setMarker {n : Nat} (o : Obj) (isBool : Bool) (now v m : Nat) (hb : isBool = true → 0 < n)
    (hv : v < n) : Spends n o (o.setMarker isBool n now v m) := by
  intro e
  unfold Obj.setMarker
  split
  · show (o.jointSet isBool n now v).2.count (.sched e) + tot ((o.jointSet isBool n now v).1.mark v m true) n e = _
    rw [tot_mark, ← tot_bumped o v n e, jointSet_eq]
    split
    · exact Spends.signalAll isBool now v hb _ _ e
    · split
      · exact Spends.notify (bumped o v) v _ hv e
      · simp
  · simp

theorem kill_frame (s : Sys) (y : Nat) :
    (kill s y).objs = upd s.objs y { s.objs y with alive := false, tracker := none }
    ∧ (kill s y).log = s.log ∧ (kill s y).n = s.n ∧ (kill s y).count = s.count
    ∧ (kill s y).isBool = s.isBool := by
  cases ht : (s.objs y).tracker with
  | none => simp only [kill, ht]; exact ⟨rfl, rfl, rfl, rfl, rfl⟩
  | some t =>
    simp only [kill, ht]
    split <;> exact ⟨rfl, rfl, rfl, rfl, rfl⟩

end Sparta.StateM
