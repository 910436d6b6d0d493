import Verif.StateM.Effects
/-! # States: the claims -/
namespace Sparta.StateM

/-- The values IDLE = 0, READY = 1, BUSY = 2; one state, two markers of READY. -/
def demo : List Op := [.create 0, .newMarker 0 1, .newMarker 0 1]

/-! ## C207: joint transitions -/

/-- Setting a marker of a value without monitors marks it; the state takes the value exactly when no more
markers of the value are then missing than its threshold says. -/
theorem C207_joint_transition (n : Nat) (b : Bool) (mx : Nat) (ops : List Op) (ht : ∀ op ∈ ops, op.tame)
    (s : Sys) (hs : s = (run (init n b mx) ops).1) (x v k : Nat) (h : s.has x v = true)
    (hk : k < s.numMarkers x v) (hm : s.marked x v k = false) (hmon : s.monitors x v = []) :
    (step s (.set x v k)).2 = none
    ∧ (step s (.set x v k)).1.value x
      = (if (step s (.set x v k)).1.missing x v ≤ s.threshold x v then v else s.value x)
    ∧ (step s (.set x v k)).1.missing x v + 1 = s.missing x v
    ∧ (∀ j, j < s.numMarkers x v → (step s (.set x v k)).1.marked x v j = (decide (j = k) || s.marked x v j)) := by
  subst hs
  generalize hgs : (run (init n b mx) ops).1 = s at *
  have hO : SOk s := hgs ▸ SOk.run ops _ (SOk.init n b mx) ht
  have hf := marked_iff s x v k hk
  rw [hm] at hf
  rw [step_set s h hk]
  have p := setMarker_plain s.isBool s.n s.now v k hf hmon
  have q := setMarker_sets (hO x) s.isBool s.n s.now v k hf
  have hcs := count_set _ _ hf
  have hlen := List.count_le_length (a := true) (l := ((s.objs x).sets v).marks.set k true)
  rw [List.length_set] at hlen
  have hmiss : (s.out x ((s.objs x).setMarker s.isBool s.n s.now v k)).missing x v
      = ((s.objs x).sets v).marks.length - (((s.objs x).sets v).count + 1) := by
    rw [missing_eq]
    show ((upd s.objs x _ x).sets v).marks.length - ((upd s.objs x _ x).sets v).marks.count true = _
    rw [upd_same, q.1, List.length_set, hcs, (hO x v).count]
  refine ⟨rfl, ?_, ?_, ?_⟩
  · rw [hmiss]
    show (upd s.objs x _ x).value = _
    rw [upd_same]
    exact p.1
  · rw [hmiss, missing_eq, (hO x v).count]
    omega
  · intro j hj
    show ((upd s.objs x _ x).sets v).marks.getD j false = (decide (j = k) || ((s.objs x).sets v).marks.getD j false)
    rw [upd_same, q.1]
    have hkl : k < ((s.objs x).sets v).marks.length := hk
    simp only [List.getD_eq_getElem?_getD]
    by_cases hjk : j = k
    · subst hjk; simp [List.getElem?_set_self hkl]
    · rw [List.getElem?_set_ne (fun e => hjk e.symm)]; simp [hjk]

/-- A marker that is set already does nothing when it is set again. -/
theorem C207_set_twice (s : Sys) (x v k : Nat) (h : s.has x v = true) (hk : k < s.numMarkers x v)
    (hm : s.marked x v k = true) : step s (.set x v k) = (s, none) := by
  have hf := marked_iff s x v k hk
  rw [hm] at hf
  rw [step_set s h hk]
  unfold Obj.setMarker
  rw [if_neg (by rw [hf]; decide)]
  unfold Sys.out
  simp only [upd_self, List.map_nil, List.append_nil]

/-- A call on one state does nothing to another. -/
theorem C207_others (s : Sys) (op : Op) (x v y : Nat) (hop : op.on = some (x, v) ∨ op = .reset x) (hy : y ≠ x) :
    (step s op).1.value y = s.value y ∧ (step s op).1.timeInState y = s.timeInState y
    ∧ (∀ w, (step s op).1.isSet y w = s.isSet y w ∧ (step s op).1.numMarks y w = s.numMarks y w
      ∧ (step s op).1.enrolled y w = s.enrolled y w ∧ ∀ k, (step s op).1.marked y w k = s.marked y w k) := by
  have key : (step s op).1.objs y = s.objs y ∧ (step s op).1.now = s.now := by
    have hput : ∀ o, upd s.objs x o y = s.objs y := fun o => upd_other _ _ hy
    rcases hop with hop | hop
    · simp only [step, hop]
      split
      · cases op <;> first
          | (cases hop; done)
          | (cases hop
             first
               | exact ⟨hput _, rfl⟩
               | (simp only [onValue]
                  split
                  · first | exact ⟨rfl, rfl⟩ | exact ⟨hput _, rfl⟩
                  · first | exact ⟨rfl, rfl⟩ | exact ⟨hput _, rfl⟩))
      · exact ⟨rfl, rfl⟩
    · subst hop
      simp only [step, Op.on]
      split
      · exact ⟨hput _, rfl⟩
      · exact ⟨rfl, rfl⟩
  unfold Sys.value Sys.timeInState Sys.isSet Sys.numMarks Sys.enrolled Sys.marked
  rw [key.1, key.2]
  exact ⟨rfl, rfl, fun w => ⟨rfl, rfl, rfl, fun k => rfl⟩⟩

/-- The second of two markers makes the transition, the first does not. -/
example : (run (init 3 false 15) (demo ++ [.set 0 1 1])).1.value 0 = 0
    ∧ (run (init 3 false 15) (demo ++ [.set 0 1 1])).1.missing 0 1 = 1
    ∧ (run (init 3 false 15) (demo ++ [.set 0 1 1])).1.has 0 1 = true
    ∧ (run (init 3 false 15) (demo ++ [.set 0 1 1])).1.marked 0 1 0 = false
    ∧ (run (init 3 false 15) (demo ++ [.set 0 1 1, .set 0 1 0])).1.value 0 = 1 := by decide +kernel

/-- The threshold is documented as the minimum number of markers that must call in.  With three markers
and threshold 3 one marker is enough; with threshold 1 one is not. -/
theorem C207_threshold_doc_violated :
    (run (init 3 false 15) [.create 0, .newMarker 0 1, .newMarker 0 1, .newMarker 0 1, .threshold 0 1 3,
      .set 0 1 0]).1.value 0 = 1
    ∧ (run (init 3 false 15) [.create 0, .newMarker 0 1, .newMarker 0 1, .newMarker 0 1, .threshold 0 1 1,
      .set 0 1 0]).1.value 0 = 0 := by decide +kernel

/-! ## C208: the count of marks -/

/-- The number of marks is the number of markers that are set, and a value is complete when none is
missing. -/
theorem C208_marks (n : Nat) (b : Bool) (mx : Nat) (ops : List Op) (ht : ∀ op ∈ ops, op.tame) (x v : Nat) :
    (run (init n b mx) ops).1.numMarks x v = (run (init n b mx) ops).1.set? x v
    ∧ ((run (init n b mx) ops).1.complete x v = true ↔ (run (init n b mx) ops).1.missing x v = 0) := by
  have hO : SOk (run (init n b mx) ops).1 := SOk.run ops _ (SOk.init n b mx) ht
  generalize (run (init n b mx) ops).1 = s at *
  refine ⟨?_, ?_⟩
  · rw [set?_eq]; exact (hO x v).count
  · rw [missing_eq]
    unfold Sys.complete Sys.numMarks Sys.numMarkers
    rw [(hO x v).count]
    have := List.count_le_length (a := true) (l := ((s.objs x).sets v).marks)
    simp only [beq_iff_eq]
    omega

/-- Clearing a marker never fails; only this marker is cleared, and the state keeps its value. -/
theorem C208_clear (n : Nat) (b : Bool) (mx : Nat) (ops : List Op) (ht : ∀ op ∈ ops, op.tame)
    (s : Sys) (hs : s = (run (init n b mx) ops).1) (x v k : Nat) (h : s.has x v = true)
    (hk : k < s.numMarkers x v) :
    (step s (.clear x v k)).2 = none ∧ (step s (.clear x v k)).1.value x = s.value x
    ∧ (step s (.clear x v k)).1.log = s.log
    ∧ ∀ j, j < s.numMarkers x v → (step s (.clear x v k)).1.marked x v j = (decide (j ≠ k) && s.marked x v j) := by
  have hO : SOk s := hs ▸ SOk.run ops _ (SOk.init n b mx) ht
  rw [step_clear s h hk]
  refine ⟨(clearMarker_ok (hO x) v k).1, ?_, rfl, ?_⟩
  · show (upd s.objs x _ x).value = _
    rw [upd_same]
    exact (clearMarker_frame _ _ _).2.1
  · intro j hj
    show ((upd s.objs x _ x).sets v).marks.getD j false = (decide (j ≠ k) && ((s.objs x).sets v).marks.getD j false)
    rw [upd_same]
    have hkl : k < ((s.objs x).sets v).marks.length := hk
    have hf := marked_iff s x v k hk
    unfold Obj.clearMarker
    by_cases hm : ((s.objs x).sets v).marks[k]? = some true
    · have hpos : ((s.objs x).sets v).count ≠ 0 := by
        rw [(hO x v).count]
        have := count_unset _ _ hm
        omega
      rw [if_pos hm, if_neg hpos]
      show ((Obj.mark _ v k false).sets v).marks.getD j false = _
      rw [mark_same]
      show ((upd (s.objs x).sets v _ v).marks.set k false).getD j false = _
      rw [upd_same]
      show (((s.objs x).sets v).marks.set k false).getD j false = _
      simp only [List.getD_eq_getElem?_getD]
      by_cases hjk : j = k
      · subst hjk; simp [List.getElem?_set_self hkl]
      · rw [List.getElem?_set_ne (fun e => hjk e.symm)]; simp [hjk]
    · rw [if_neg hm]
      show ((s.objs x).sets v).marks.getD j false = _
      by_cases hjk : j = k
      · subst hjk
        have : s.marked x v j = false := by
          cases hc : s.marked x v j with
          | false => rfl
          | true => rw [hc] at hf; exact absurd hf hm
        have h2 : ((s.objs x).sets v).marks.getD j false = false := this
        rw [h2]; simp
      · simp [hjk]

/-- A new marker is one more, unset, unless the number allowed is reached; then it is refused. -/
theorem C208_new_marker (s : Sys) (x v : Nat) (h : s.has x v = true) :
    (s.numMarkers x v ≠ s.maxMarkers → (step s (.newMarker x v)).2 = none
      ∧ (step s (.newMarker x v)).1.numMarkers x v = s.numMarkers x v + 1
      ∧ (step s (.newMarker x v)).1.marked x v (s.numMarkers x v) = false
      ∧ (step s (.newMarker x v)).1.numMarks x v = s.numMarks x v)
    ∧ (s.numMarkers x v = s.maxMarkers → step s (.newMarker x v) = (s, some .tooMany)) := by
  simp only [step, Op.on, h, if_true, onValue]
  refine ⟨fun hm => ?_, fun hm => if_pos hm⟩
  have hm' : ¬ ((s.objs x).sets v).marks.length = s.maxMarkers := hm
  rw [if_neg hm']
  refine ⟨rfl, ?_, ?_, ?_⟩
  · show ((upd s.objs x _ x).sets v).marks.length = ((s.objs x).sets v).marks.length + 1
    rw [upd_same]
    show (upd (s.objs x).sets v _ v).marks.length = _
    rw [upd_same]
    simp
  · show ((upd s.objs x _ x).sets v).marks.getD ((s.objs x).sets v).marks.length false = false
    rw [upd_same]
    show (upd (s.objs x).sets v _ v).marks.getD ((s.objs x).sets v).marks.length false = false
    rw [upd_same]
    simp
  · show ((upd s.objs x _ x).sets v).count = ((s.objs x).sets v).count
    rw [upd_same]
    show (upd (s.objs x).sets v _ v).count = _
    rw [upd_same]

example : (run (init 3 false 15) (demo ++ [.set 0 1 1, .clear 0 1 1, .set 0 1 0])).1.numMarks 0 1 = 1
    ∧ (run (init 3 false 2) (demo ++ [.newMarker 0 1])).2 = [none, none, none, some .tooMany] := by
  decide +kernel

/-- When a monitor resets the state on being signalled, the marker is set after the reset: it is then set
though no mark is counted, and clearing it fails. -/
theorem C208_reset_in_monitor_violated :
    ∃ s, s = (run (init 3 false 15) (demo ++ [.attach 0 1 7 .reset, .set 0 1 0])).1
      ∧ s.marked 0 1 0 = true ∧ s.numMarks 0 1 = 0 ∧ (step s (.clear 0 1 0)).2 = some .noMarks :=
  ⟨_, rfl, by decide +kernel⟩

/-! ## C209: which values were taken -/

/-- Unless the state is reset, a value that was taken stays so, and whenever the state changes its value,
the new value counts as taken. -/
theorem C209_taken (n : Nat) (b : Bool) (mx : Nat) (ops : List Op) (ht : ∀ op ∈ ops, op.tame)
    (s : Sys) (hs : s = (run (init n b mx) ops).1) (op : Op) (x : Nat) (hx : x < s.count)
    (hop : op ≠ .reset x ∧ ∀ v, op ≠ .resetTo x v) :
    (∀ w, s.isSet x w = true → (step s op).1.isSet x w = true)
    ∧ ((step s op).1.value x ≠ s.value x → (step s op).1.isSet x ((step s op).1.value x) = true) := by
  have hO : SOk s := hs ▸ SOk.run ops _ (SOk.init n b mx) ht
  suffices h : Taken (s.objs x) ((step s op).1.objs x) from h
  have hput : ∀ y o, (y = x → Taken (s.objs x) o) → Taken (s.objs x) (upd s.objs y o x) := by
    intro y o h
    by_cases hy : x = y
    · subst hy; rw [upd_same]; exact h rfl
    · rw [upd_other _ _ hy]; exact Taken.refl _
  have hedit : ∀ y v f, (∀ ms : MSet, (f ms).isSet = ms.isSet) → Taken (s.objs x) ((s.edit y v f).objs x) := by
    intro y v f hf
    refine hput y _ (fun hy => ?_)
    subst hy
    refine ⟨fun w hw => ?_, fun h => absurd rfl h⟩
    show (upd (s.objs y).sets v _ w).isSet = true
    by_cases hwv : w = v
    · subst hwv; rw [upd_same, hf]; exact hw
    · rw [upd_other _ _ hwv]; exact hw
  cases op with
  | tick n => exact Taken.refl _
  | enable => exact Taken.refl _
  | create i =>
    simp only [StateM.step, Op.on]
    split
    · show Taken _ (upd (dispatch s).1.objs s.count _ x)
      rw [upd_other _ _ (by omega), (dispatch_objs s).1]
      exact Taken.refl _
    · exact Taken.refl _
  | kill y =>
    simp only [StateM.step, Op.on]
    split
    · have : (kill s y).objs = upd s.objs y { s.objs y with alive := false, tracker := none } := by
        exact (kill_frame s y).1
      rw [this]
      exact hput y _ (fun hy => by subst hy; exact ⟨fun w hw => hw, fun h => absurd rfl h⟩)
    · exact Taken.refl _
  | reset y =>
    simp only [StateM.step, Op.on]
    split
    · exact hput y _ (fun hy => absurd (by rw [hy]) hop.1)
    · exact Taken.refl _
  | flush =>
    simp only [StateM.step, Op.on]
    unfold StateM.flush
    split <;> exact Taken.refl _
  | setValue y v =>
    simp only [StateM.step, Op.on]
    split
    · exact hput y _ (fun hy => by subst hy; exact Taken.notify _ v v _ rfl)
    · exact Taken.refl _
  | resetTo y v =>
    simp only [StateM.step, Op.on]
    split
    · exact hput y _ (fun hy => absurd (by rw [hy]) (hop.2 v))
    · exact Taken.refl _
  | newMarker y v =>
    simp only [StateM.step, Op.on]
    split
    · simp only [onValue]
      split
      · exact Taken.refl _
      · exact hedit y v (fun ms => { ms with marks := ms.marks ++ [false] }) (fun _ => rfl)
    · exact Taken.refl _
  | set y v m =>
    simp only [StateM.step, Op.on]
    split
    · simp only [onValue]
      split
      · exact hput y _ (fun hy => by subst hy; exact Taken.setMarker (hO y) _ _ _ _ _)
      · exact Taken.refl _
    · exact Taken.refl _
  | clear y v m =>
    simp only [StateM.step, Op.on]
    split
    · simp only [onValue]
      split
      · exact hput y _ (fun hy => by subst hy; exact Taken.clearMarker _ _ _)
      · exact Taken.refl _
    · exact Taken.refl _
  | threshold y v t =>
    simp only [StateM.step, Op.on]
    split
    · exact hedit y v (fun ms => { ms with thresh := t }) (fun _ => rfl)
    · exact Taken.refl _
  | observe y v e =>
    simp only [StateM.step, Op.on]
    split
    · exact hedit y v (fun ms => { ms with audience := ms.audience ++ [e] }) (fun _ => rfl)
    · exact Taken.refl _
  | withdraw y v e =>
    simp only [StateM.step, Op.on]
    split
    · exact hedit y v (fun ms => { ms with audience := ms.audience.erase e }) (fun _ => rfl)
    · exact Taken.refl _
  | release y v =>
    simp only [StateM.step, Op.on]
    split
    · exact hedit y v (fun ms => { ms with audience := [] }) (fun _ => rfl)
    · exact Taken.refl _
  | attach y v mon a =>
    simp only [StateM.step, Op.on]
    split
    · exact hedit y v (fun ms => { ms with monitors := ms.monitors ++ [(mon, a)] }) (fun _ => rfl)
    · exact Taken.refl _
  | detach y v mon =>
    simp only [StateM.step, Op.on]
    split
    · exact hedit y v (fun ms => { ms with monitors := ms.monitors.eraseP fun p => p.1 == mon }) (fun _ => rfl)
    · exact Taken.refl _

/-- A value newly counts as taken only when the state has it: by setting the value, or by a marker of a
value without monitors. -/
theorem C209_only (s : Sys) (x v w : Nat) (h : s.has x v = true) :
    ((step s (.setValue x v)).1.isSet x w = (decide (w = v) || s.isSet x w))
    ∧ ((step s (.setValue x v)).1.value x = v)
    ∧ (∀ k, s.monitors x v = [] → (step s (.set x v k)).1.isSet x w = true →
        s.isSet x w = true ∨ (step s (.set x v k)).1.value x = w)
    ∧ (∀ k, (step s (.clear x v k)).1.isSet x w = s.isSet x w) := by
  refine ⟨?_, ?_, ?_, ?_⟩
  · simp only [step, Op.on, h, if_true, onValue]
    show ((upd s.objs x _ x).sets w).isSet = _
    rw [upd_same]
    show ((Obj.notify _ v).1.sets w).isSet = _
    by_cases hw : w = v
    · subst hw; rw [notify_sets_same]; simp
    · rw [notify_sets_other _ hw]; simp only [hw, decide_false, Bool.false_or]; rfl
  · simp only [step, Op.on, h, if_true, onValue]
    show (upd s.objs x _ x).value = _
    rw [upd_same]; rfl
  · intro k hmon hset
    by_cases hk : k < s.numMarkers x v
    · cases hm : s.marked x v k with
      | true => rw [C207_set_twice s x v k h hk hm] at hset ⊢; exact Or.inl hset
      | false =>
        have hf := marked_iff s x v k hk
        rw [hm] at hf
        rw [step_set s h hk] at hset ⊢
        have p := setMarker_plain s.isBool s.n s.now v k hf hmon
        have hset' : ((upd s.objs x ((s.objs x).setMarker s.isBool s.n s.now v k).1 x).sets w).isSet = true := hset
        show s.isSet x w = true ∨ (upd s.objs x _ x).value = w
        rw [upd_same] at hset' ⊢
        by_cases hw : w = v
        · subst hw
          rw [p.2.2.2.1] at hset'
          rw [p.1]
          by_cases hc : ((s.objs x).sets w).marks.length - (((s.objs x).sets w).count + 1) ≤ ((s.objs x).sets w).thresh
          · right; rw [if_pos hc]
          · left
            rw [decide_eq_false hc] at hset'
            exact hset'
        · rw [p.2.2.2.2 w hw] at hset'
          exact Or.inl hset'
    · left
      have : (step s (.set x v k)).1 = s := by
        simp only [step, Op.on, h, if_true, onValue]
        rw [if_neg (show ¬ k < ((s.objs x).sets v).marks.length from hk)]
      rw [this] at hset; exact hset
  · intro k
    simp only [step, Op.on, h, if_true, onValue]
    split
    · show ((upd s.objs x _ x).sets w).isSet = _
      rw [upd_same]
      unfold Obj.clearMarker
      split
      · split
        · rfl
        · show ((Obj.mark _ v k false).sets w).isSet = _
          by_cases hw : w = v
          · subst hw; rw [mark_same]
            show (upd (s.objs x).sets w _ w).isSet = _
            rw [upd_same]; rfl
          · rw [mark_other _ _ _ hw]
            show (upd (s.objs x).sets v _ w).isSet = _
            rw [upd_other _ _ hw]; rfl
      · rfl
    · rfl

example : (run (init 3 false 15) (demo ++ [.set 0 1 0, .set 0 1 1, .setValue 0 2])).1.isSet 0 1 = true
    ∧ (run (init 3 false 15) (demo ++ [.set 0 1 0])).1.isSet 0 1 = false := by decide +kernel

/-- The value a state starts with, or is reset to, does not count as taken although the state has it. -/
theorem C209_initial_violated :
    ∃ s, s = (run (init 3 false 15) [.create 0, .setValue 0 1, .resetTo 0 2]).1
      ∧ s.value 0 = 2 ∧ s.isSet 0 2 = false ∧ s.isSet 0 1 = false
      ∧ (run (init 3 false 15) [.create 0]).1.isSet 0 0 = false :=
  ⟨_, rfl, by decide +kernel⟩

/-! ## C210: observers -/

/-- Setting a value schedules every event enrolled on it, in the order of enrolling, and empties the list;
other values keep theirs. -/
theorem C210_set_value (s : Sys) (x v : Nat) (h : s.has x v = true) :
    (step s (.setValue x v)).1.log = s.log ++ (s.enrolled x v).map (fun e => (x, .sched e))
    ∧ (step s (.setValue x v)).1.enrolled x v = []
    ∧ ∀ w, w ≠ v → (step s (.setValue x v)).1.enrolled x w = s.enrolled x w := by
  simp only [step, Op.on, h, if_true, onValue]
  refine ⟨?_, ?_, fun w hw => ?_⟩
  · show s.log ++ (((s.objs x).sets v).audience.map Ev.sched).map (fun e => (x, e)) = _
    rw [List.map_map]; rfl
  · show ((upd s.objs x _ x).sets v).audience = []
    rw [upd_same]
    show ((Obj.notify _ v).1.sets v).audience = []
    rw [notify_sets_same]
  · show ((upd s.objs x _ x).sets w).audience = _
    rw [upd_same]
    show ((Obj.notify _ v).1.sets w).audience = _
    rw [notify_sets_other _ hw]; rfl

/-- A marker schedules the enrolled events when it makes the state take the value, and only then. -/
theorem C210_joint (n : Nat) (b : Bool) (mx : Nat) (ops : List Op) (ht : ∀ op ∈ ops, op.tame)
    (s : Sys) (hs : s = (run (init n b mx) ops).1) (x v k : Nat) (h : s.has x v = true)
    (hk : k < s.numMarkers x v) (hm : s.marked x v k = false) (hmon : s.monitors x v = []) :
    ((step s (.set x v k)).1.missing x v ≤ s.threshold x v →
      (step s (.set x v k)).1.log = s.log ++ (s.enrolled x v).map (fun e => (x, .sched e))
      ∧ (step s (.set x v k)).1.enrolled x v = [])
    ∧ (¬ (step s (.set x v k)).1.missing x v ≤ s.threshold x v →
      (step s (.set x v k)).1.log = s.log ∧ (step s (.set x v k)).1.enrolled x v = s.enrolled x v)
    ∧ ∀ w, w ≠ v → (step s (.set x v k)).1.enrolled x w = s.enrolled x w := by
  have hO : SOk s := hs ▸ SOk.run ops _ (SOk.init n b mx) ht
  have hf := marked_iff s x v k hk
  rw [hm] at hf
  rw [step_set s h hk]
  have p := setMarker_plain s.isBool s.n s.now v k hf hmon
  have q := setMarker_sets (hO x) s.isBool s.n s.now v k hf
  have hmiss : (s.out x ((s.objs x).setMarker s.isBool s.n s.now v k)).missing x v
      = ((s.objs x).sets v).marks.length - (((s.objs x).sets v).count + 1) := by
    rw [missing_eq]
    show ((upd s.objs x _ x).sets v).marks.length - ((upd s.objs x _ x).sets v).marks.count true = _
    rw [upd_same, q.1, List.length_set, count_set _ _ hf, (hO x v).count]
  show ((s.out x _).missing x v ≤ ((s.objs x).sets v).thresh → _) ∧ (¬ (s.out x _).missing x v ≤ ((s.objs x).sets v).thresh → _) ∧ _
  rw [hmiss]
  refine ⟨fun hc => ⟨?_, ?_⟩, fun hc => ⟨?_, ?_⟩, fun w hw => ?_⟩
  · show s.log ++ ((s.objs x).setMarker s.isBool s.n s.now v k).2.map (fun e => (x, e)) = _
    rw [p.2.1, if_pos hc, List.map_map]; rfl
  · show ((upd s.objs x _ x).sets v).audience = []
    rw [upd_same, p.2.2.1, if_pos hc]
  · show s.log ++ ((s.objs x).setMarker s.isBool s.n s.now v k).2.map (fun e => (x, e)) = _
    rw [p.2.1, if_neg hc, List.map_nil, List.append_nil]
  · show ((upd s.objs x _ x).sets v).audience = _
    rw [upd_same, p.2.2.1, if_neg hc]; rfl
  · show ((upd s.objs x _ x).sets w).audience = _
    rw [upd_same, p.2.2.2.2 w hw]; rfl

/-- Enrolling, withdrawing and releasing change the list of the value alone; releasing cancels every
enrolled event. -/
theorem C210_enrol (s : Sys) (x v e : Nat) (h : s.has x v = true) :
    (step s (.observe x v e)).1.enrolled x v = s.enrolled x v ++ [e]
    ∧ (step s (.withdraw x v e)).1.enrolled x v = (s.enrolled x v).erase e
    ∧ (step s (.release x v)).1.enrolled x v = []
    ∧ (step s (.observe x v e)).1.log = s.log ∧ (step s (.withdraw x v e)).1.log = s.log
    ∧ (step s (.release x v)).1.log = s.log ++ (s.enrolled x v).map (fun e => (x, .cancel e))
    ∧ ∀ w, w ≠ v → (step s (.observe x v e)).1.enrolled x w = s.enrolled x w
      ∧ (step s (.withdraw x v e)).1.enrolled x w = s.enrolled x w
      ∧ (step s (.release x v)).1.enrolled x w = s.enrolled x w := by
  simp only [step, Op.on, h, if_true, onValue, Sys.enrolled, Sys.edit, Sys.put, upd_same]
  refine ⟨trivial, trivial, trivial, trivial, trivial, trivial, fun w hw => ?_⟩
  simp only [upd_other _ _ hw]
  exact ⟨trivial, trivial, trivial⟩

/-- How often the calls enrol an event on a state. -/
def observed (x e : Nat) (ops : List Op) : Nat :=
  ops.countP fun op => match op with
    | .observe y _ f => y == x && f == e
    | _ => false

theorem erase_count_le (l : List Nat) (e f : Nat) : (l.erase f).count e ≤ l.count e :=
  (List.erase_sublist).count_le e

/-- What every call keeps up: what was scheduled and what is enrolled. -/
theorem budget_step (s : Sys) (hb : s.isBool = true → 0 < s.n) (x e : Nat)
    (hnew : ∀ y, s.count ≤ y → tot (s.objs y) s.n e = 0) (op : Op) :
    ((step s op).1.isBool = true → 0 < (step s op).1.n)
    ∧ (∀ y, (step s op).1.count ≤ y → tot ((step s op).1.objs y) (step s op).1.n e = 0)
    ∧ (step s op).1.log.count (x, .sched e) + tot ((step s op).1.objs x) (step s op).1.n e
      ≤ s.log.count (x, .sched e) + tot (s.objs x) s.n e + observed x e [op] := by
  have hsame : (s.isBool = true → 0 < s.n) ∧ (∀ y, s.count ≤ y → tot (s.objs y) s.n e = 0)
      ∧ s.log.count (x, .sched e) + tot (s.objs x) s.n e
        ≤ s.log.count (x, .sched e) + tot (s.objs x) s.n e + observed x e [op] :=
    ⟨hb, hnew, Nat.le_add_right _ _⟩
  have hcm : ∀ (y : Nat) (l : List Ev), (l.map fun e => (y, e)).count (x, .sched e)
      = if y = x then l.count (.sched e) else 0 := by
    intro y l
    induction l with
    | nil => simp
    | cons a l ih =>
      simp only [List.map_cons, List.count_cons, ih]
      by_cases hy : y = x
      · subst hy
        simp only [if_true]
        congr 1
        by_cases ha : a = .sched e
        · subst ha; simp
        · simp [ha]
      · simp [hy]
  -- a change of one living state
  have hout : ∀ y r, y < s.count → Spends s.n (s.objs y) r →
      (s.isBool = true → 0 < s.n) ∧ (∀ z, s.count ≤ z → tot (upd s.objs y r.1 z) s.n e = 0)
      ∧ (s.log ++ r.2.map fun e => (y, e)).count (x, .sched e) + tot (upd s.objs y r.1 x) s.n e
        ≤ s.log.count (x, .sched e) + tot (s.objs x) s.n e + observed x e [op] := by
    intro y r hy hr
    refine ⟨hb, fun z hz => ?_, ?_⟩
    · rw [upd_other _ _ (by omega)]; exact hnew z hz
    · rw [List.count_append, hcm]
      by_cases hyx : y = x
      · subst hyx
        rw [upd_same, if_pos rfl]
        have := hr e
        omega
      · rw [upd_other _ _ (fun k => hyx k.symm), if_neg hyx]
        omega
  -- a change of the list of one value
  have hedit : ∀ y v f extra, y < s.count → v < s.n →
      (f ((s.objs y).sets v)).audience.count e ≤ ((s.objs y).sets v).audience.count e + extra →
      (y = x → extra ≤ observed x e [op]) →
      (s.isBool = true → 0 < s.n) ∧ (∀ z, s.count ≤ z → tot ((s.edit y v f).objs z) s.n e = 0)
      ∧ s.log.count (x, .sched e) + tot ((s.edit y v f).objs x) s.n e
        ≤ s.log.count (x, .sched e) + tot (s.objs x) s.n e + observed x e [op] := by
    intro y v f extra hy hv hf hext
    refine ⟨hb, fun z hz => ?_, ?_⟩
    · show tot (upd s.objs y _ z) s.n e = 0
      rw [upd_other _ _ (by omega)]; exact hnew z hz
    · show _ + tot (upd s.objs y _ x) s.n e ≤ _
      by_cases hyx : y = x
      · subst hyx
        rw [upd_same]
        have := sum_one (n := s.n) (x := v)
          (f := fun w => (upd (s.objs y).sets v (f ((s.objs y).sets v)) w).audience.count e)
          (g := fun w => ((s.objs y).sets w).audience.count e) hv (fun w hw => by simp only [upd_other _ _ hw])
        simp only [upd_same] at this
        have h2 := hext rfl
        unfold tot
        show _ + ((List.range s.n).map fun w => (upd (s.objs y).sets v (f ((s.objs y).sets v)) w).audience.count e).sum ≤ _
        omega
      · rw [upd_other _ _ (fun k => hyx k.symm)]
        omega
  cases op with
  | tick n => exact hsame
  | enable => exact hsame
  | create i =>
    simp only [StateM.step, Op.on]
    split
    · rename_i hi
      obtain ⟨d1, d2, d3, d4, d5, d6, d7, d8, d9⟩ := dispatch_objs s
      have hz : ∀ o : Obj, (∀ w, o.sets w = {}) → tot o s.n e = 0 := by
        intro o ho
        unfold tot
        simp only [ho]
        show ((List.range s.n).map fun _ => 0).sum = 0
        generalize List.range s.n = l
        induction l with
        | nil => rfl
        | cons a l ih => simpa using ih
      obtain ⟨p, hcr, hp2, hp1⟩ : ∃ p : Obj × List Ev, StateM.create s i
          = { (dispatch s).1.out s.count p with count := s.count + 1 } ∧ p.2 = []
          ∧ ∀ w, (p.1.sets w).audience = [] := by
        cases hbb : s.isBool with
        | false =>
          refine ⟨({ initial := i, value := i, tracker := (dispatch s).2.map (·.startState s.now i) }, []), ?_, rfl, fun _ => rfl⟩
          unfold StateM.create; simp only [hbb]; rfl
        | true =>
          refine ⟨Obj.setValue { initial := i, value := i, tracker := (dispatch s).2.map (·.startState s.now i) } s.now 0, ?_, rfl, fun w => ?_⟩
          · unfold StateM.create; simp only [hbb]; rfl
          · show ((Obj.notify _ 0).1.sets w).audience = []
            by_cases hw : w = 0
            · subst hw; rw [notify_sets_same]
            · rw [notify_sets_other _ hw]
      have hp0 : tot p.1 s.n e = 0 := by
        rw [← hz {} (fun _ => rfl)]
        exact tot_congr (fun w => hp1 w)
      rw [hcr]
      refine ⟨?_, fun y hy => ?_, ?_⟩
      · show (dispatch s).1.isBool = true → 0 < (dispatch s).1.n
        rw [d4, d5]; exact hb
      · have hy' : s.count + 1 ≤ y := hy
        show tot (upd (dispatch s).1.objs s.count p.1 y) (dispatch s).1.n e = 0
        rw [upd_other _ _ (by omega), d1, d4]
        exact hnew y (by omega)
      · show ((dispatch s).1.log ++ p.2.map fun e => (s.count, e)).count (x, .sched e)
          + tot (upd (dispatch s).1.objs s.count p.1 x) (dispatch s).1.n e ≤ _
        rw [hp2, List.map_nil, List.append_nil, d7, d1, d4]
        by_cases hx : x = s.count
        · subst hx; rw [upd_same, hp0]; omega
        · rw [upd_other _ _ hx]; omega
    · exact hsame
  | kill y =>
    simp only [StateM.step, Op.on]
    split
    · rename_i hy
      obtain ⟨a1, a2, a3, a4, a5⟩ := kill_frame s y
      rw [a1, a2, a3, a4, a5]
      have := hout y ({ s.objs y with alive := false, tracker := none }, []) hy.1
        (fun e => by simp only [List.count_nil, Nat.zero_add]; rfl)
      simp only [List.map_nil, List.append_nil] at this
      exact this
    · exact hsame
  | reset y =>
    simp only [StateM.step, Op.on]
    split
    · rename_i hy
      exact hout y _ hy.1 (Spends.act (s.objs y) s.isBool s.now .reset hb)
    · exact hsame
  | flush =>
    simp only [StateM.step, Op.on]
    unfold StateM.flush
    split <;> exact hsame
  | setValue y v =>
    simp only [StateM.step, Op.on]
    split
    · obtain ⟨h1, h2, h3⟩ := has_iff (by assumption)
      exact hout y _ h1 (Spends.notify _ v _ h3)
    · exact hsame
  | resetTo y v =>
    simp only [StateM.step, Op.on]
    split
    · obtain ⟨h1, h2, h3⟩ := has_iff (by assumption)
      have := hout y ((s.objs y).resetTo v, []) h1 (fun e => by simp only [List.count_nil, Nat.zero_add]; rfl)
      simp only [List.map_nil, List.append_nil] at this
      exact this
    · exact hsame
  | newMarker y v =>
    simp only [StateM.step, Op.on]
    split
    · obtain ⟨h1, h2, h3⟩ := has_iff (by assumption)
      simp only [onValue]
      split
      · exact hsame
      · exact hedit y v (fun ms => { ms with marks := ms.marks ++ [false] }) 0 h1 h3 (Nat.le_refl _) (fun _ => Nat.zero_le _)
    · exact hsame
  | set y v m =>
    simp only [StateM.step, Op.on]
    split
    · obtain ⟨h1, h2, h3⟩ := has_iff (by assumption)
      simp only [onValue]
      split
      · exact hout y _ h1 (Spends.setMarker _ _ _ _ _ hb h3)
      · exact hsame
    · exact hsame
  | clear y v m =>
    simp only [StateM.step, Op.on]
    split
    · obtain ⟨h1, h2, h3⟩ := has_iff (by assumption)
      simp only [onValue]
      split
      · have := hout y (((s.objs y).clearMarker v m).1, []) h1 (fun f => by
          simp only [List.count_nil, Nat.zero_add]
          refine tot_congr (fun w => ?_)
          unfold Obj.clearMarker
          split
          · split
            · rfl
            · show ((Obj.mark _ v m false).sets w).audience = _
              by_cases hw : w = v
              · subst hw; rw [mark_same]
                show (upd (s.objs y).sets w _ w).audience = _
                rw [upd_same]
              · rw [mark_other _ _ _ hw]
                show (upd (s.objs y).sets v _ w).audience = _
                rw [upd_other _ _ hw]
          · rfl)
        simp only [List.map_nil, List.append_nil] at this
        exact this
      · exact hsame
    · exact hsame
  | threshold y v t =>
    simp only [StateM.step, Op.on]
    split
    · obtain ⟨h1, h2, h3⟩ := has_iff (by assumption)
      exact hedit y v (fun ms => { ms with thresh := t }) 0 h1 h3 (Nat.le_refl _) (fun _ => Nat.zero_le _)
    · exact hsame
  | observe y v f =>
    simp only [StateM.step, Op.on]
    split
    · obtain ⟨h1, h2, h3⟩ := has_iff (by assumption)
      refine hedit y v (fun ms => { ms with audience := ms.audience ++ [f] }) (if f = e then 1 else 0) h1 h3 ?_ ?_
      · show (((s.objs y).sets v).audience ++ [f]).count e ≤ _
        rw [List.count_append]
        by_cases hf : f = e <;> simp [hf]
      · intro hy
        subst hy
        unfold observed
        by_cases hf : f = e <;> simp [hf]
    · exact hsame
  | withdraw y v f =>
    simp only [StateM.step, Op.on]
    split
    · obtain ⟨h1, h2, h3⟩ := has_iff (by assumption)
      exact hedit y v (fun ms => { ms with audience := ms.audience.erase f }) 0 h1 h3 (erase_count_le _ _ _) (fun _ => Nat.zero_le _)
    · exact hsame
  | release y v =>
    simp only [StateM.step, Op.on]
    split
    · obtain ⟨h1, h2, h3⟩ := has_iff (by assumption)
      have k := hedit y v (fun ms => { ms with audience := [] }) 0 h1 h3 (Nat.zero_le _) (fun _ => Nat.zero_le _)
      refine ⟨k.1, k.2.1, ?_⟩
      have k3 := k.2.2
      show (s.log ++ ((s.objs y).sets v).audience.map fun e => (y, Ev.cancel e)).count (x, .sched e)
        + tot ((s.edit y v fun ms => { ms with audience := [] }).objs x) s.n e ≤ _
      rw [List.count_append]
      have : (((s.objs y).sets v).audience.map fun e => (y, Ev.cancel e)).count (x, .sched e) = 0 := by
        rw [List.count_eq_zero]
        intro hm
        obtain ⟨a, _, ha⟩ := List.mem_map.mp hm
        injection ha with _ h2
        cases h2
      rw [this]
      exact k3
    · exact hsame
  | attach y v mon a =>
    simp only [StateM.step, Op.on]
    split
    · obtain ⟨h1, h2, h3⟩ := has_iff (by assumption)
      exact hedit y v (fun ms => { ms with monitors := ms.monitors ++ [(mon, a)] }) 0 h1 h3 (Nat.le_refl _) (fun _ => Nat.zero_le _)
    · exact hsame
  | detach y v mon =>
    simp only [StateM.step, Op.on]
    split
    · obtain ⟨h1, h2, h3⟩ := has_iff (by assumption)
      exact hedit y v (fun ms => { ms with monitors := ms.monitors.eraseP fun p => p.1 == mon }) 0 h1 h3 (Nat.le_refl _) (fun _ => Nat.zero_le _)
    · exact hsame

theorem budget_run (x e : Nat) : ∀ (ops : List Op) (s : Sys), (s.isBool = true → 0 < s.n) →
    (∀ y, s.count ≤ y → tot (s.objs y) s.n e = 0) →
    (run s ops).1.log.count (x, .sched e) + tot ((run s ops).1.objs x) (run s ops).1.n e
      ≤ s.log.count (x, .sched e) + tot (s.objs x) s.n e + observed x e ops := by
  intro ops
  induction ops with
  | nil => intro s _ _; exact Nat.le_add_right _ _
  | cons op ops ih =>
    intro s hb hnew
    obtain ⟨h1, h2, h3⟩ := budget_step s hb x e hnew op
    have := ih (step s op).1 h1 h2
    have hsplit : observed x e (op :: ops) = observed x e [op] + observed x e ops := by
      unfold observed
      rw [List.countP_cons, List.countP_cons, List.countP_nil]
      omega
    show (run (step s op).1 ops).1.log.count _ + tot ((run (step s op).1 ops).1.objs x) (run (step s op).1 ops).1.n e ≤ _
    omega

/-- In any run at all an event is not scheduled by a state more often than it was enrolled on it. -/
theorem C210_once_per_enrolment (n : Nat) (b : Bool) (mx : Nat) (ops : List Op) (x e : Nat) :
    (run (init n b mx) ops).1.log.count (x, .sched e) ≤ observed x e ops := by
  have h0 : ∀ y, tot ((init n b mx).objs y) (init n b mx).n e = 0 := by
    intro y
    unfold tot
    show ((List.range (init n b mx).n).map fun _ => 0).sum = 0
    generalize List.range (init n b mx).n = l
    induction l with
    | nil => rfl
    | cons a l ih => simpa using ih
  have := budget_run x e ops (init n b mx) (fun hb => by
    have hb' : b = true := hb
    subst hb'; exact (by decide : 0 < 2)) (fun y _ => h0 y)
  rw [h0] at this
  have hl : (init n b mx).log.count (x, .sched e) = 0 := rfl
  omega

example : (run (init 3 false 15) (demo ++ [.observe 0 1 7, .observe 0 1 8, .set 0 1 0, .set 0 1 1, .setValue 0 1])).1.log
    = [(0, .sched 7), (0, .sched 8)] := by decide +kernel

/-! ## C211: the residency report -/

/-- Tracking is enabled first and states are only changed in ways their trackers are told.  When all states
have gone by the time of the report, it gives for every value the ticks all states together were in it,
and the number of states. -/
theorem C211_report (n : Nat) (b : Bool) (mx : Nat) (ops : List Op)
    (hr : ToldRun (step (init n b mx) .enable).1 ops) (s : Sys)
    (hs : s = (run (step (init n b mx) .enable).1 ops).1) (hc : 0 < s.count)
    (hdead : ∀ x, x < s.count → (s.objs x).alive = false) :
    (step s .flush).1.report = some ((List.range s.n).map fun v =>
        (Ghost.run {} (step (init n b mx) .enable).1 ops).all s.count v, s.count) := by
  have r := Rel.run ops _ {} (Rel.init n b mx) (SOk.step (SOk.init n b mx) .enable trivial) hr
  rw [← hs] at r
  generalize Ghost.run {} (step (init n b mx) .enable).1 ops = g at *
  have hfl : (step s .flush).1 = flush s := rfl
  rw [hfl]
  unfold flush
  rw [if_neg (by rw [r.made, r.open_]; intro h; rcases h with h | h; · omega
                 · cases h)]
  show some (_, s.made) = _
  rw [r.made]
  congr 2
  refine List.map_congr_left (fun v _ => ?_)
  rw [← r.sum v]
  have : ((List.range s.count).map fun x => tk (s.objs x) s.now v).sum = 0 := by
    rw [sum_congr (g := fun _ => 0) (fun x hx => by unfold tk; rw [r.dead x hx (hdead x hx)])]
    generalize List.range s.count = l
    induction l with
    | nil => rfl
    | cons a l ih => simpa using ih
  rw [this, Nat.add_zero]

/-- A run in which two states, one after the other, use one tracker. -/
def demoTrack : List Op :=
  [.create 0, .tick 3, .setValue 0 1, .tick 4, .kill 0, .create 2, .tick 5, .kill 1]

example : ToldRun (step (init 3 false 15) .enable).1 demoTrack
    ∧ (step (run (step (init 3 false 15) .enable).1 demoTrack).1 .flush).1.report = some ([3, 4, 5], 2) := by
  decide +kernel

/-- A joint transition is not told to the tracker: the ticks go to the value before it. -/
theorem C211_joint_violated :
    (run (init 3 false 15) (.enable :: demo ++ [.set 0 1 0, .set 0 1 1, .tick 5, .kill 0, .flush])).1.report
      = some ([5, 0, 0], 1)
    ∧ (run (init 3 false 15) (.enable :: demo ++ [.set 0 1 0, .set 0 1 1])).1.value 0 = 1 := by decide +kernel

/-- Nor is a reset. -/
theorem C211_reset_violated :
    (run (init 3 false 15) [.enable, .create 0, .setValue 0 1, .reset 0, .tick 5, .kill 0, .flush]).1.report
      = some ([0, 5, 0], 1) := by decide +kernel

/-- States that live at the time of the report are counted but their ticks are missing, also those of an
earlier state whose tracker they took over. -/
theorem C211_living_violated :
    (run (init 3 false 15) [.enable, .create 0, .tick 5, .kill 0, .create 1, .tick 2, .flush]).1.report
      = some ([0, 0, 0], 2) := by decide +kernel

/-- A state cannot be made after the report. -/
theorem C211_after_report_violated :
    (run (init 3 false 15) [.enable, .create 0, .kill 0, .flush, .create 0]).2.getLast? = some (some .undefined) := by
  decide +kernel

/-! ## C212: the time in the state -/

/-- Under the same conditions the time in the state is the time since its value last changed (or since it was
made). -/
theorem C212_time_in_state (n : Nat) (b : Bool) (mx : Nat) (ops : List Op)
    (hr : ToldRun (step (init n b mx) .enable).1 ops) (s : Sys)
    (hs : s = (run (step (init n b mx) .enable).1 ops).1) (x : Nat) (hx : x < s.count)
    (ha : (s.objs x).alive = true) :
    s.timeInState x = .ok (s.now - (Ghost.run {} (step (init n b mx) .enable).1 ops).entered x)
    ∧ (Ghost.run {} (step (init n b mx) .enable).1 ops).entered x ≤ s.now := by
  have r := Rel.run ops _ {} (Rel.init n b mx) (SOk.step (SOk.init n b mx) .enable trivial) hr
  rw [← hs] at r
  obtain ⟨t, h1, h2, h3, h4, h5⟩ := r.alive x hx ha
  unfold Sys.timeInState
  rw [h1, ← h3]
  exact ⟨rfl, h3 ▸ h4⟩

deriving instance DecidableEq for Except

example : (run (step (init 3 false 15) .enable).1 (demoTrack.take 4)).1.timeInState 0 = .ok 4 := by
  decide +kernel

/-- Without tracking it cannot be asked. -/
theorem C212_off (s : Sys) (hs : s.tracking = false) (i : Nat) (hi : i < s.n) :
    (step s (.create i)).2 = none
    ∧ (step s (.create i)).1.timeInState s.count = .error .noTracker := by
  have hd : dispatch s = (s, none) := by unfold dispatch; rw [hs]; rfl
  simp only [step, Op.on]
  rw [if_pos ⟨hi, fun h => by rw [hs] at h; cases h.1⟩]
  refine ⟨rfl, ?_⟩
  unfold create Sys.timeInState
  rw [hd]
  cases hb : s.isBool
  · show (match (upd s.objs s.count _ s.count).tracker with | none => _ | some t => _) = _
    rw [upd_same]; rfl
  · show (match (upd s.objs s.count _ s.count).tracker with | none => _ | some t => _) = _
    rw [upd_same]; rfl

/-- The time in the state goes on through a joint transition. -/
theorem C212_joint_violated :
    ∃ s, s = (run (init 3 false 15) (.enable :: demo ++ [.tick 5, .set 0 1 0, .set 0 1 1])).1
      ∧ s.value 0 = 1 ∧ s.timeInState 0 = .ok 5 := ⟨_, rfl, by decide +kernel⟩

/-- The accumulated ticks of a state include those of an earlier state with the same tracker. -/
theorem C212_raw_time_violated :
    (run (init 3 false 15) [.enable, .create 0, .tick 5, .kill 0, .create 1]).1.rawTime 1 0 = .ok 5 := by
  decide +kernel

/-! ## C213: monitors -/

/-- The signals of an output. -/
def signals (l : List Ev) : List Ev := l.filter fun e => match e with | .signal _ _ => true | _ => false

theorem signals_setValue (o : Obj) (now v : Nat) : signals (o.setValue now v).2 = [] := by
  show signals ((o.sets v).audience.map Ev.sched) = []
  generalize (o.sets v).audience = l
  induction l with
  | nil => rfl
  | cons a l ih => exact ih

theorem signals_act (o : Obj) (isBool : Bool) (n now : Nat) (a : Act) :
    signals (o.act isBool n now a).2 = [] := by
  cases a with
  | note => rfl
  | force v =>
    simp only [Obj.act]
    split
    · exact signals_setValue o now v
    · rfl
  | reset =>
    simp only [Obj.act, Obj.reset]
    split
    · exact signals_setValue _ now 0
    · rfl

theorem signals_all (isBool : Bool) (n now v : Nat) : ∀ (ms : List (Nat × Act)) (o : Obj),
    signals (o.signalAll isBool n now v ms).2 = ms.map fun p => .signal p.1 v := by
  intro ms
  induction ms with
  | nil => intro o; rfl
  | cons p ms ih =>
    intro o
    obtain ⟨m, a⟩ := p
    show signals (Ev.signal m v :: ((o.act isBool n now a).2 ++ ((o.act isBool n now a).1.signalAll isBool n now v ms).2)) = _
    have h1 := signals_act o isBool n now a
    have h2 := ih (o.act isBool n now a).1
    unfold signals at h1 h2 ⊢
    rw [List.filter_cons_of_pos rfl, List.filter_append, h1, h2]
    rfl

theorem notes_all (isBool : Bool) (n now v : Nat) : ∀ (ms : List (Nat × Act)) (o : Obj),
    (∀ p ∈ ms, p.2 = .note) → (o.signalAll isBool n now v ms).1 = o := by
  intro ms
  induction ms with
  | nil => intro o _; rfl
  | cons p ms ih =>
    intro o h
    obtain ⟨m, a⟩ := p
    have ha : a = .note := h (m, a) List.mem_cons_self
    subst ha
    exact ih o (fun q hq => h q (List.mem_cons_of_mem _ hq))

/-- When a marker of a value with monitors is newly set, every monitor is signalled once, in the order of
attaching.  When the monitors do nothing the state keeps its value and no event is scheduled. -/
theorem C213_monitors (s : Sys) (x v k : Nat) (h : s.has x v = true) (hk : k < s.numMarkers x v)
    (hm : s.marked x v k = false) (hmon : s.monitors x v ≠ []) :
    (∃ out : List Ev, (step s (.set x v k)).1.log = s.log ++ out.map (fun e => (x, e))
      ∧ signals out = (s.monitors x v).map fun p => .signal p.1 v)
    ∧ ((∀ p ∈ s.monitors x v, p.2 = .note) → (step s (.set x v k)).1.value x = s.value x
      ∧ (step s (.set x v k)).1.isSet x v = s.isSet x v
      ∧ (step s (.set x v k)).1.enrolled x v = s.enrolled x v) := by
  have hf := marked_iff s x v k hk
  rw [hm] at hf
  rw [step_set s h hk]
  have hj : (s.objs x).setMarker s.isBool s.n s.now v k
      = (((bumped (s.objs x) v).signalAll s.isBool s.n s.now v (s.monitors x v)).1.mark v k true,
         ((bumped (s.objs x) v).signalAll s.isBool s.n s.now v (s.monitors x v)).2) := by
    unfold Obj.setMarker
    rw [if_pos hf, jointSet_eq, if_pos (show ((s.objs x).sets v).monitors ≠ [] from hmon)]
    rfl
  rw [hj]
  refine ⟨⟨_, rfl, signals_all _ _ _ _ _ _⟩, fun hn => ?_⟩
  rw [notes_all _ _ _ _ _ _ hn]
  unfold Sys.value Sys.isSet Sys.enrolled Sys.out
  simp only [upd_same]
  refine ⟨rfl, ?_, ?_⟩
  · rw [mark_same, bumped_same]
  · rw [mark_same, bumped_same]

/-- A single monitor that sets a value when it is signalled decides what the state becomes. -/
theorem C213_monitor_decides (s : Sys) (x v k mon w : Nat) (h : s.has x v = true) (hk : k < s.numMarkers x v)
    (hm : s.marked x v k = false) (hmon : s.monitors x v = [(mon, .force w)]) (hw : w < s.n) :
    (step s (.set x v k)).1.value x = w
    ∧ (step s (.set x v k)).1.log = s.log ++ (x, .signal mon v) :: (s.enrolled x w).map (fun e => (x, .sched e)) := by
  have hf := marked_iff s x v k hk
  rw [hm] at hf
  rw [step_set s h hk]
  have hmon' : ((s.objs x).sets v).monitors = [(mon, .force w)] := hmon
  have hj : (s.objs x).setMarker s.isBool s.n s.now v k
      = (((bumped (s.objs x) v).setValue s.now w).1.mark v k true,
         .signal mon v :: (((bumped (s.objs x) v).setValue s.now w).2)) := by
    unfold Obj.setMarker
    rw [if_pos hf, jointSet_eq, hmon', if_pos (by simp)]
    simp only [Obj.signalAll, Obj.act, if_pos hw, List.append_nil]
  rw [hj]
  unfold Sys.value Sys.out Sys.enrolled
  simp only [upd_same]
  refine ⟨rfl, ?_⟩
  have ha : ((bumped (s.objs x) v).sets w).audience = ((s.objs x).sets w).audience := by
    by_cases h : w = v
    · subst h; rw [bumped_same]
    · rw [bumped_other _ h]
  show s.log ++ (Ev.signal mon v :: ((bumped (s.objs x) v).sets w).audience.map Ev.sched).map (fun e => (x, e)) = _
  rw [ha, List.map_cons, List.map_map]
  rfl

/-- Monitors are detached one at a time, the first of that number; others stay. -/
theorem C213_attach_detach (s : Sys) (x v mon : Nat) (a : Act) (h : s.has x v = true) :
    (step s (.attach x v mon a)).1.monitors x v = s.monitors x v ++ [(mon, a)]
    ∧ (step s (.detach x v mon)).1.monitors x v = (s.monitors x v).eraseP (fun p => p.1 == mon)
    ∧ ∀ w, w ≠ v → (step s (.attach x v mon a)).1.monitors x w = s.monitors x w
      ∧ (step s (.detach x v mon)).1.monitors x w = s.monitors x w := by
  simp only [step, Op.on, h, if_true, onValue, Sys.monitors, Sys.edit, Sys.put, upd_same]
  refine ⟨trivial, trivial, fun w hw => ?_⟩
  simp only [upd_other _ _ hw]
  exact ⟨trivial, trivial⟩

example : (run (init 3 false 15) (demo ++ [.attach 0 1 7 (.force 2), .set 0 1 0])).1.value 0 = 2
    ∧ (run (init 3 false 15) (demo ++ [.attach 0 1 7 (.force 2), .set 0 1 0])).1.log = [(0, .signal 7 1)]
    ∧ (run (init 3 false 15) (demo ++ [.attach 0 1 7 .note, .set 0 1 0, .set 0 1 1])).1.value 0 = 0 := by
  decide +kernel

/-- A monitor is signalled for every marker, also while others are missing and no transition is due; and
it is not signalled when the value is set directly. -/
theorem C213_not_due_violated :
    (run (init 3 false 15) (demo ++ [.attach 0 1 7 .note, .set 0 1 0])).1.log = [(0, .signal 7 1)]
    ∧ (run (init 3 false 15) (demo ++ [.attach 0 1 7 .note, .set 0 1 0])).1.missing 0 1 = 1
    ∧ (run (init 3 false 15) (demo ++ [.attach 0 1 7 .note, .setValue 0 1])).1.log = [] := by decide +kernel

/-! ## C214: making and resetting -/

/-- A new state of an enum has its initial value and nothing set, marked or enrolled. -/
theorem C214_create (s : Sys) (i : Nat) (hi : i < s.n) (hf : ¬ (s.tracking = true ∧ s.flushed = true))
    (hb : s.isBool = false) :
    (step s (.create i)).2 = none ∧ (step s (.create i)).1.count = s.count + 1
    ∧ (step s (.create i)).1.value s.count = i
    ∧ (∀ v, (step s (.create i)).1.isSet s.count v = false ∧ (step s (.create i)).1.numMarkers s.count v = 0
      ∧ (step s (.create i)).1.enrolled s.count v = [] ∧ (step s (.create i)).1.monitors s.count v = [])
    ∧ (step s (.create i)).1.log = s.log := by
  simp only [step, Op.on]
  rw [if_pos ⟨hi, hf⟩]
  unfold create Sys.value Sys.isSet Sys.numMarkers Sys.enrolled Sys.monitors Sys.out
  simp only [hb, upd_same]
  refine ⟨trivial, trivial, rfl, fun v => ⟨rfl, rfl, rfl, rfl⟩, ?_⟩
  show (dispatch s).1.log ++ [] = _
  rw [List.append_nil, (dispatch_objs s).2.2.2.2.2.2.1]

/-- A reset of a state of an enum gives it back its initial value, clears all marks and forgets which values
were taken; markers, observers, thresholds and monitors stay and nothing is scheduled. -/
theorem C214_reset (s : Sys) (x : Nat) (hx : x < s.count) (ha : (s.objs x).alive = true)
    (hb : s.isBool = false) :
    (step s (.reset x)).2 = none ∧ (step s (.reset x)).1.value x = (s.objs x).initial
    ∧ (∀ v, (step s (.reset x)).1.isSet x v = false ∧ (step s (.reset x)).1.numMarks x v = 0
      ∧ (step s (.reset x)).1.set? x v = 0
      ∧ (step s (.reset x)).1.numMarkers x v = s.numMarkers x v
      ∧ (step s (.reset x)).1.enrolled x v = s.enrolled x v
      ∧ (step s (.reset x)).1.threshold x v = s.threshold x v
      ∧ (step s (.reset x)).1.monitors x v = s.monitors x v)
    ∧ (step s (.reset x)).1.log = s.log := by
  have he : step s (.reset x) = (s.out x ((s.objs x).reset s.isBool s.now), none) := by
    simp only [step, Op.on]
    rw [if_pos ⟨hx, ha⟩]
  rw [he]
  have hr : (s.objs x).reset s.isBool s.now
      = ({ s.objs x with value := (s.objs x).initial, sets := fun v => ((s.objs x).sets v).reset }, []) := by
    unfold Obj.reset
    rw [hb]
    rfl
  rw [hr]
  refine ⟨rfl, ?_, fun v => ⟨?_, ?_, ?_, ?_, ?_, ?_, ?_⟩, ?_⟩
  · show (upd s.objs x _ x).value = _
    rw [upd_same]
  · show ((upd s.objs x _ x).sets v).isSet = _
    rw [upd_same]; rfl
  · show ((upd s.objs x _ x).sets v).count = _
    rw [upd_same]; rfl
  · rw [set?_eq]
    show ((upd s.objs x _ x).sets v).marks.count true = _
    rw [upd_same, List.count_eq_zero]
    intro hm
    obtain ⟨_, _, hc⟩ := List.mem_map.mp hm
    cases hc
  · show ((upd s.objs x _ x).sets v).marks.length = _
    rw [upd_same]
    show (((s.objs x).sets v).marks.map fun _ => false).length = _
    rw [List.length_map]; rfl
  · show ((upd s.objs x _ x).sets v).audience = _
    rw [upd_same]; rfl
  · show ((upd s.objs x _ x).sets v).thresh = _
    rw [upd_same]; rfl
  · show ((upd s.objs x _ x).sets v).monitors = _
    rw [upd_same]; rfl
  · show s.log ++ [] = s.log
    rw [List.append_nil]

/-- A reset to a value does the same with that value, for every type. -/
theorem C214_reset_to (s : Sys) (x v : Nat) (h : s.has x v = true) :
    (step s (.resetTo x v)).2 = none ∧ (step s (.resetTo x v)).1.value x = v
    ∧ (∀ w, (step s (.resetTo x v)).1.isSet x w = false ∧ (step s (.resetTo x v)).1.numMarks x w = 0
      ∧ (step s (.resetTo x v)).1.set? x w = 0
      ∧ (step s (.resetTo x v)).1.numMarkers x w = s.numMarkers x w
      ∧ (step s (.resetTo x v)).1.enrolled x w = s.enrolled x w)
    ∧ (step s (.resetTo x v)).1.log = s.log := by
  have he : step s (.resetTo x v) = (s.put x ((s.objs x).resetTo v), none) := by
    simp only [step, Op.on, h, if_true, onValue]
  rw [he]
  refine ⟨rfl, ?_, fun w => ⟨?_, ?_, ?_, ?_, ?_⟩, rfl⟩
  · show (upd s.objs x _ x).value = _
    rw [upd_same]; rfl
  · show ((upd s.objs x _ x).sets w).isSet = _
    rw [upd_same]; rfl
  · show ((upd s.objs x _ x).sets w).count = _
    rw [upd_same]; rfl
  · rw [set?_eq]
    show ((upd s.objs x _ x).sets w).marks.count true = _
    rw [upd_same, List.count_eq_zero]
    intro hm
    obtain ⟨_, _, hc⟩ := List.mem_map.mp hm
    cases hc
  · show ((upd s.objs x _ x).sets w).marks.length = _
    rw [upd_same]
    show (((s.objs x).sets w).marks.map fun _ => false).length = _
    rw [List.length_map]; rfl
  · show ((upd s.objs x _ x).sets w).audience = _
    rw [upd_same]; rfl

theorem act_initial (o : Obj) (isBool : Bool) (n now : Nat) (a : Act) :
    (o.act isBool n now a).1.initial = o.initial := by
  cases a with
  | note => rfl
  | force v => simp only [Obj.act]; split <;> rfl
  | reset => simp only [Obj.act, Obj.reset]; split <;> rfl

theorem signalAll_initial (isBool : Bool) (n now v : Nat) : ∀ (ms : List (Nat × Act)) (o : Obj),
    (o.signalAll isBool n now v ms).1.initial = o.initial := by
  intro ms
  induction ms with
  | nil => intro o; rfl
  | cons p ms ih =>
    intro o
    exact (ih _).trans (act_initial o isBool n now p.2)

theorem setMarker_initial (o : Obj) (isBool : Bool) (n now v m : Nat) :
    (o.setMarker isBool n now v m).1.initial = o.initial := by
  unfold Obj.setMarker
  split
  · show (o.jointSet isBool n now v).1.initial = _
    rw [jointSet_eq]
    split
    · exact signalAll_initial _ _ _ _ _ _
    · split <;> rfl
  · rfl

/-- The value a reset goes back to is the one the state was made with: no later call changes it. -/
theorem C214_initial_kept (s : Sys) (i : Nat) (hi : i < s.n) (hf : ¬ (s.tracking = true ∧ s.flushed = true)) :
    ((step s (.create i)).1.objs s.count).initial = i
    ∧ ∀ (s' : Sys) (op : Op) (x : Nat), x < s'.count →
      ((step s' op).1.objs x).initial = (s'.objs x).initial ∧ x < (step s' op).1.count := by
  refine ⟨?_, ?_⟩
  · simp only [step, Op.on]
    rw [if_pos ⟨hi, hf⟩]
    unfold create Sys.out
    simp only [upd_same]
    split <;> rfl
  · intro s op x hx
    have hput : ∀ y o, (y = x → o.initial = (s.objs x).initial) →
        (upd s.objs y o x).initial = (s.objs x).initial := by
      intro y o h
      by_cases hy : x = y
      · subst hy; rw [upd_same]; exact h rfl
      · rw [upd_other _ _ hy]
    cases op with
    | tick n => exact ⟨rfl, hx⟩
    | enable => exact ⟨rfl, hx⟩
    | create i =>
      simp only [step, Op.on]
      split
      · refine ⟨?_, Nat.lt_succ_of_lt hx⟩
        show (upd (dispatch s).1.objs s.count _ x).initial = _
        rw [upd_other _ _ (by omega), (dispatch_objs s).1]
      · exact ⟨rfl, hx⟩
    | kill y =>
      simp only [step, Op.on]
      split
      · rw [(kill_frame s y).1, (kill_frame s y).2.2.2.1]
        exact ⟨hput y _ (fun h => by subst h; rfl), hx⟩
      · exact ⟨rfl, hx⟩
    | reset y =>
      simp only [step, Op.on]
      split
      · exact ⟨hput y _ (fun h => by subst h; exact act_initial _ s.isBool s.n s.now .reset), hx⟩
      · exact ⟨rfl, hx⟩
    | flush =>
      simp only [step, Op.on]
      unfold flush
      split <;> exact ⟨rfl, hx⟩
    | set y v m =>
      simp only [step, Op.on]
      split
      · simp only [onValue]
        split
        · exact ⟨hput y _ (fun h => by subst h; exact setMarker_initial _ _ _ _ _ _), hx⟩
        · exact ⟨rfl, hx⟩
      · exact ⟨rfl, hx⟩
    | clear y v m =>
      simp only [step, Op.on]
      split
      · simp only [onValue]
        split
        · exact ⟨hput y _ (fun h => by subst h; exact (clearMarker_frame _ _ _).2.2.2), hx⟩
        · exact ⟨rfl, hx⟩
      · exact ⟨rfl, hx⟩
    | newMarker y v =>
      simp only [step, Op.on]
      split
      · simp only [onValue]
        split
        · exact ⟨rfl, hx⟩
        · exact ⟨hput y _ (fun h => by subst h; rfl), hx⟩
      · exact ⟨rfl, hx⟩
    | setValue y v | resetTo y v | threshold y v t | observe y v e | withdraw y v e | release y v
    | attach y v mon a | detach y v mon =>
      simp only [step, Op.on]
      split
      · exact ⟨hput y _ (fun h => by subst h; rfl), hx⟩
      · exact ⟨rfl, hx⟩

example : (run (init 3 false 15) [.create 2, .setValue 0 1, .reset 0]).1.value 0 = 2 := by decide +kernel

/-- A state of `bool` made with the initial value true starts as false, and is reset to false. -/
theorem C214_bool_violated :
    (run (init 0 true 15) [.create 1]).1.value 0 = 0
    ∧ (run (init 0 true 15) [.create 1, .setValue 0 1, .reset 0]).1.value 0 = 0 := by decide +kernel

end Sparta.StateM
