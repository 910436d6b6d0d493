import Verif.StateM.Spec
/-! # Lemmas about one state -/
namespace Sparta.StateM

/-! ## Lists of marks -/

theorem count_set (l : List Bool) (m : Nat) (h : l[m]? = some false) :
    (l.set m true).count true = l.count true + 1 := by
  induction l generalizing m with
  | nil => simp at h
  | cons a l ih =>
    cases m with
    | zero => simp at h; subst h; simp
    | succ m =>
      simp at h
      have := ih m h
      simp only [List.set_cons_succ, List.count_cons, this]
      omega

theorem count_unset (l : List Bool) (m : Nat) (h : l[m]? = some true) :
    (l.set m false).count true + 1 = l.count true := by
  induction l generalizing m with
  | nil => simp at h
  | cons a l ih =>
    cases m with
    | zero => simp at h; subst h; simp
    | succ m =>
      simp at h
      have := ih m h
      simp only [List.set_cons_succ, List.count_cons]
      omega

theorem filter_range (l : List Bool) (p : Bool → Bool) :
    ((List.range l.length).filter fun m => p (l.getD m false)).length = (l.filter p).length := by
  induction l with
  | nil => rfl
  | cons a l ih =>
    rw [List.length_cons, List.range_succ_eq_map, List.filter_cons, List.filter_cons]
    have : ((List.map Nat.succ (List.range l.length)).filter fun m => p ((a :: l).getD m false)).length
        = ((List.range l.length).filter fun m => p (l.getD m false)).length := by
      rw [List.filter_map, List.length_map]
      congr 1
    simp only [List.getD_cons_zero]
    split
    · rw [List.length_cons, List.length_cons, this, ih]
    · rw [this, ih]

theorem set?_eq (s : Sys) (x v : Nat) : s.set? x v = ((s.objs x).sets v).marks.count true := by
  unfold Sys.set? Sys.numMarkers Sys.marked
  rw [filter_range _ (fun b => b), List.count_eq_length_filter]
  congr 2
  funext b; cases b <;> rfl

theorem missing_eq (s : Sys) (x v : Nat) :
    s.missing x v = ((s.objs x).sets v).marks.length - ((s.objs x).sets v).marks.count true := by
  unfold Sys.missing Sys.numMarkers Sys.marked
  rw [filter_range _ (fun b => !b)]
  induction ((s.objs x).sets v).marks with
  | nil => rfl
  | cons a l ih =>
    have : l.count true ≤ l.length := List.count_le_length
    cases a <;> simp [ih] <;> omega

/-! ## Setting a value keeps the markers -/

/-- The markers, thresholds and monitors are the same. -/
def Keep (f g : Nat → MSet) : Prop := ∀ w, (g w).count = (f w).count ∧ (g w).marks = (f w).marks
  ∧ (g w).thresh = (f w).thresh ∧ (g w).monitors = (f w).monitors

theorem Keep.refl (f : Nat → MSet) : Keep f f := fun _ => ⟨rfl, rfl, rfl, rfl⟩
theorem Keep.trans {f g h : Nat → MSet} (a : Keep f g) (b : Keep g h) : Keep f h := fun w =>
  ⟨(b w).1.trans (a w).1, (b w).2.1.trans (a w).2.1, (b w).2.2.1.trans (a w).2.2.1,
   (b w).2.2.2.trans (a w).2.2.2⟩

theorem notify_sets_same (o : Obj) (v : Nat) :
    (o.notify v).1.sets v = { o.sets v with audience := [], isSet := true } := upd_same _ _ _

theorem notify_sets_other (o : Obj) {v w : Nat} (h : w ≠ v) : (o.notify v).1.sets w = o.sets w :=
  upd_other _ _ h

theorem Keep.notify (o : Obj) (v : Nat) : Keep o.sets (o.notify v).1.sets := by
  intro w
  by_cases h : w = v
  · subst h; rw [notify_sets_same]; exact ⟨rfl, rfl, rfl, rfl⟩
  · rw [notify_sets_other o h]; exact ⟨rfl, rfl, rfl, rfl⟩

theorem Keep.setValue (o : Obj) (now v : Nat) : Keep o.sets (o.setValue now v).1.sets :=
  Keep.notify _ v

theorem Keep.act (o : Obj) (isBool : Bool) (n now : Nat) (a : Act) (h : a ≠ .reset) :
    Keep o.sets (o.act isBool n now a).1.sets := by
  cases a with
  | note => exact Keep.refl _
  | force v =>
    simp only [Obj.act]
    split
    · exact Keep.setValue o now v
    · exact Keep.refl _
  | reset => exact absurd rfl h

theorem Keep.signalAll (isBool : Bool) (n now v : Nat) : ∀ (ms : List (Nat × Act)) (o : Obj),
    (∀ p ∈ ms, p.2 ≠ .reset) → Keep o.sets (o.signalAll isBool n now v ms).1.sets := by
  intro ms
  induction ms with
  | nil => intro o _; exact Keep.refl _
  | cons p ms ih =>
    intro o h
    obtain ⟨m, a⟩ := p
    exact (Keep.act o isBool n now a (h (m, a) List.mem_cons_self)).trans
      (ih _ (fun q hq => h q (List.mem_cons_of_mem _ hq)))

/-! ## What every marker set keeps up -/

structure MOk (ms : MSet) : Prop where
  count : ms.count = ms.marks.count true
  tame : ∀ p ∈ ms.monitors, p.2 ≠ .reset

theorem MOk.new : MOk {} := ⟨rfl, fun p h => by cases h⟩

theorem MOk.keep {f g : Nat → MSet} (k : Keep f g) {w : Nat} (h : MOk (f w)) : MOk (g w) :=
  ⟨by rw [(k w).1, (k w).2.1]; exact h.count, by rw [(k w).2.2.2]; exact h.tame⟩

theorem MOk.reset {ms : MSet} (h : MOk ms) : MOk ms.reset := by
  refine ⟨?_, h.tame⟩
  show 0 = (ms.marks.map fun _ => false).count true
  symm
  rw [List.count_eq_zero]
  intro hm
  obtain ⟨_, _, hc⟩ := List.mem_map.mp hm
  cases hc

def OOk (o : Obj) : Prop := ∀ v, MOk (o.sets v)

theorem OOk.keep {o o' : Obj} (h : OOk o) (k : Keep o.sets o'.sets) : OOk o' := fun w => (h w).keep k

/-- The sets after one more mark is counted. -/
def bumped (o : Obj) (v : Nat) : Obj :=
  { o with sets := upd o.sets v { o.sets v with count := (o.sets v).count + 1 } }

theorem bumped_same (o : Obj) (v : Nat) :
    (bumped o v).sets v = { o.sets v with count := (o.sets v).count + 1 } := upd_same _ _ _
theorem bumped_other (o : Obj) {v w : Nat} (h : w ≠ v) : (bumped o v).sets w = o.sets w :=
  upd_other _ _ h

theorem jointSet_eq (o : Obj) (isBool : Bool) (n now v : Nat) :
    o.jointSet isBool n now v
      = if (o.sets v).monitors ≠ [] then (bumped o v).signalAll isBool n now v (o.sets v).monitors
        else if (o.sets v).marks.length - ((o.sets v).count + 1) ≤ (o.sets v).thresh then
          Obj.notify { bumped o v with value := v } v
        else (bumped o v, []) := rfl

theorem Keep.jointSet (o : Obj) (isBool : Bool) (n now v : Nat) (h : ∀ p ∈ (o.sets v).monitors, p.2 ≠ .reset) :
    Keep (bumped o v).sets (o.jointSet isBool n now v).1.sets := by
  rw [jointSet_eq]
  split
  · exact Keep.signalAll isBool n now v _ _ h
  · split
    · exact Keep.notify { bumped o v with value := v } v
    · exact Keep.refl _

theorem mark_same (o : Obj) (v m : Nat) (b : Bool) :
    (o.mark v m b).sets v = { o.sets v with marks := (o.sets v).marks.set m b } := upd_same _ _ _
theorem mark_other (o : Obj) {v w : Nat} (m : Nat) (b : Bool) (h : w ≠ v) :
    (o.mark v m b).sets w = o.sets w := upd_other _ _ h

theorem OOk.setMarker {o : Obj} (h : OOk o) (isBool : Bool) (n now v m : Nat) :
    OOk (o.setMarker isBool n now v m).1 := by
  unfold Obj.setMarker
  split
  · rename_i hm
    have k := Keep.jointSet o isBool n now v (h v).tame
    intro w
    by_cases hw : w = v
    · subst hw
      have kw := k w
      rw [bumped_same] at kw
      refine ⟨?_, ?_⟩
      · show (((o.jointSet isBool n now w).1.mark w m true).sets w).count
          = (((o.jointSet isBool n now w).1.mark w m true).sets w).marks.count true
        rw [mark_same]
        show ((o.jointSet isBool n now w).1.sets w).count
          = (((o.jointSet isBool n now w).1.sets w).marks.set m true).count true
        rw [kw.1, kw.2.1, count_set _ _ hm, ← (h w).count]
      · show ∀ p ∈ (((o.jointSet isBool n now w).1.mark w m true).sets w).monitors, _
        rw [mark_same]
        show ∀ p ∈ ((o.jointSet isBool n now w).1.sets w).monitors, _
        rw [kw.2.2.2]
        exact (h w).tame
    · show MOk (((o.jointSet isBool n now v).1.mark v m true).sets w)
      rw [mark_other _ _ _ hw]
      exact MOk.keep k (by rw [bumped_other o hw]; exact h w)
  · exact h

theorem clearMarker_ok {o : Obj} (h : OOk o) (v m : Nat) :
    (o.clearMarker v m).2 = none ∧ OOk (o.clearMarker v m).1 := by
  unfold Obj.clearMarker
  by_cases hm : (o.sets v).marks[m]? = some true
  · rw [if_pos hm]
    have hpos : (o.sets v).count ≠ 0 := by
      rw [(h v).count]
      have := count_unset _ _ hm
      omega
    rw [if_neg hpos]
    refine ⟨rfl, fun w => ?_⟩
    by_cases hw : w = v
    · subst hw
      show MOk ((Obj.mark _ w m false).sets w)
      rw [mark_same]
      refine ⟨?_, ?_⟩
      · show ((upd o.sets w { o.sets w with count := (o.sets w).count - 1 }) w).count
          = (((upd o.sets w { o.sets w with count := (o.sets w).count - 1 }) w).marks.set m false).count true
        rw [upd_same]
        show (o.sets w).count - 1 = ((o.sets w).marks.set m false).count true
        have := count_unset _ _ hm
        rw [(h w).count]; omega
      · show ∀ p ∈ ((upd o.sets w { o.sets w with count := (o.sets w).count - 1 }) w).monitors, _
        rw [upd_same]; exact (h w).tame
    · show MOk ((Obj.mark _ v m false).sets w)
      rw [mark_other _ _ _ hw]
      show MOk ((upd o.sets v { o.sets v with count := (o.sets v).count - 1 }) w)
      rw [upd_other _ _ hw]; exact h w
  · rw [if_neg hm]; exact ⟨rfl, h⟩

theorem OOk.reset {o : Obj} (h : OOk o) (isBool : Bool) (now : Nat) : OOk (o.reset isBool now).1 := by
  have h' : OOk { o with value := o.initial, sets := fun v => (o.sets v).reset } := fun v => (h v).reset
  unfold Obj.reset
  simp only
  split
  · exact h'.keep (Keep.setValue _ now 0)
  · exact h'

def SOk (s : Sys) : Prop := ∀ x, OOk (s.objs x)

theorem SOk.put {s : Sys} (h : SOk s) (x : Nat) (o : Obj) (ho : OOk o) : SOk (s.put x o) := by
  intro y
  show OOk (upd s.objs x o y)
  by_cases hy : y = x
  · subst hy; rw [upd_same]; exact ho
  · rw [upd_other _ _ hy]; exact h y

theorem SOk.out {s : Sys} (h : SOk s) (x : Nat) (r : Obj × List Ev) (ho : OOk r.1) : SOk (s.out x r) :=
  h.put x r.1 ho

theorem SOk.edit {s : Sys} (h : SOk s) (x v : Nat) (f : MSet → MSet) (hf : MOk (f ((s.objs x).sets v))) :
    SOk (s.edit x v f) := by
  refine h.put x _ (fun w => ?_)
  show MOk (upd (s.objs x).sets v (f ((s.objs x).sets v)) w)
  by_cases hw : w = v
  · subst hw; rw [upd_same]; exact hf
  · rw [upd_other _ _ hw]; exact h x w

theorem dispatch_objs (s : Sys) : (dispatch s).1.objs = s.objs ∧ (dispatch s).1.count = s.count
    ∧ (dispatch s).1.now = s.now ∧ (dispatch s).1.n = s.n ∧ (dispatch s).1.isBool = s.isBool
    ∧ (dispatch s).1.maxMarkers = s.maxMarkers ∧ (dispatch s).1.log = s.log
    ∧ (dispatch s).1.tracking = s.tracking ∧ (dispatch s).1.flushed = s.flushed := by
  unfold dispatch
  split
  · split <;> exact ⟨rfl, rfl, rfl, rfl, rfl, rfl, rfl, rfl, rfl⟩
  · exact ⟨rfl, rfl, rfl, rfl, rfl, rfl, rfl, rfl, rfl⟩

theorem SOk.step {s : Sys} (h : SOk s) (op : Op) (ht : op.tame) : SOk (step s op).1 := by
  have hO := fun x => h x
  cases op with
  | tick n => exact h
  | enable => exact h
  | create i =>
    simp only [StateM.step, Op.on]
    split
    · unfold StateM.create
      have hd : SOk (dispatch s).1 := by intro y; rw [(dispatch_objs s).1]; exact h y
      have hnew : ∀ t : Option Tracker, OOk { initial := i, value := i, tracker := t } := fun _ _ => MOk.new
      apply SOk.out hd
      split
      · exact (hnew _).keep (Keep.setValue _ _ _)
      · exact hnew _
    · exact h
  | kill x =>
    simp only [StateM.step, Op.on]
    split
    · unfold kill
      simp only
      split
      · exact h.put x _ (fun w => h x w)
      · split
        · exact h.put x _ (fun w => h x w)
        · exact h.put x _ (fun w => h x w)
    · exact h
  | reset x =>
    simp only [StateM.step, Op.on]
    split
    · exact h.out x _ ((h x).reset _ _)
    · exact h
  | flush =>
    simp only [StateM.step, Op.on]
    unfold StateM.flush
    split <;> exact h
  | setValue x v =>
    simp only [StateM.step, Op.on]
    split
    · exact h.out x _ ((h x).keep (Keep.setValue _ _ _))
    · exact h
  | resetTo x v =>
    simp only [StateM.step, Op.on]
    split
    · exact h.put x _ (fun w => (h x w).reset)
    · exact h
  | newMarker x v =>
    simp only [StateM.step, Op.on]
    split
    · simp only [onValue]
      split
      · exact h
      · refine h.edit x v (fun ms => { ms with marks := ms.marks ++ [false] }) ?_
        exact ⟨by simp [(h x v).count], (h x v).tame⟩
    · exact h
  | set x v m =>
    simp only [StateM.step, Op.on]
    split
    · simp only [onValue]
      split
      · exact h.out x _ ((h x).setMarker _ _ _ _ _)
      · exact h
    · exact h
  | clear x v m =>
    simp only [StateM.step, Op.on]
    split
    · simp only [onValue]
      split
      · exact h.put x _ (clearMarker_ok (h x) v m).2
      · exact h
    · exact h
  | threshold x v t =>
    simp only [StateM.step, Op.on]
    split
    · exact h.edit x v (fun ms => { ms with thresh := t }) ⟨(h x v).count, (h x v).tame⟩
    · exact h
  | observe x v e =>
    simp only [StateM.step, Op.on]
    split
    · exact h.edit x v (fun ms => { ms with audience := ms.audience ++ [e] }) ⟨(h x v).count, (h x v).tame⟩
    · exact h
  | withdraw x v e =>
    simp only [StateM.step, Op.on]
    split
    · exact h.edit x v (fun ms => { ms with audience := ms.audience.erase e }) ⟨(h x v).count, (h x v).tame⟩
    · exact h
  | release x v =>
    simp only [StateM.step, Op.on]
    split
    · exact h.edit x v (fun ms => { ms with audience := [] }) ⟨(h x v).count, (h x v).tame⟩
    · exact h
  | attach x v mon a =>
    simp only [StateM.step, Op.on]
    split
    · refine h.edit x v (fun ms => { ms with monitors := ms.monitors ++ [(mon, a)] }) ⟨(h x v).count, ?_⟩
      intro p hp
      rcases List.mem_append.mp hp with h1 | h1
      · exact (h x v).tame p h1
      · cases List.mem_singleton.mp h1; exact ht
    · exact h
  | detach x v mon =>
    simp only [StateM.step, Op.on]
    split
    · exact h.edit x v (fun ms => { ms with monitors := ms.monitors.eraseP fun p => p.1 == mon }) ⟨(h x v).count, fun p hp => (h x v).tame p (List.mem_of_mem_eraseP hp)⟩
    · exact h

theorem SOk.init (n : Nat) (b : Bool) (m : Nat) : SOk (init n b m) := fun _ _ => MOk.new

theorem SOk.run : ∀ (ops : List Op) (s : Sys), SOk s → (∀ op ∈ ops, op.tame) → SOk (run s ops).1 := by
  intro ops
  induction ops with
  | nil => intro s h _; exact h
  | cons op ops ih =>
    intro s h ht
    exact ih _ (h.step op (ht op List.mem_cons_self)) (fun o ho => ht o (List.mem_cons_of_mem _ ho))

end Sparta.StateM
