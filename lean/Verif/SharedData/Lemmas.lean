import Verif.SharedData.Spec
/-! Simulation between SharedData and the latch. -/
namespace Sparta.SharedData
variable {α : Type}

structure RepO (manual : Bool) (o : Obj α) (l : Latch α) : Prop where
  cur : o.current < 2
  vis : o.get o.pstate = l.visible
  com : o.get o.nstate = l.coming
  pend : o.pending = if l.due then 1 else 0
  man : manual = true → l.due = false
  trk : o.tracker = .live ∨ l.assigned = true
  asg : l.assigned = true → l.due = false
  brk : o.broken = false

structure Rep (w : World α) (s : Spec α) : Prop where
  man : w.manual = s.manual
  objs : ∀ i, RepO s.manual (w.objs i) (s.objs i)

theorem new_rep (m : Bool) (v : α) : RepO m (Obj.new v) ⟨some v, none, false, false⟩ :=
  ⟨by simp [Obj.new, Obj.writePS, Obj.put, Obj.pstate], by simp [Obj.new, Obj.writePS, Obj.put, Obj.pstate, Obj.get],
   by simp [Obj.new, Obj.writePS, Obj.put, Obj.pstate, Obj.get, Obj.nstate], rfl, fun _ => rfl, Or.inl rfl,
   fun _ => rfl, rfl⟩

theorem rep_init (m : Bool) (v : Nat → α) : Rep (World.init m v) (Spec.init m v) :=
  ⟨rfl, fun i => new_rep m (v i)⟩

theorem put_other (o : Obj α) (i : Nat) (v : Option α) :
    (o.put i v).current = o.current ∧ (o.put i v).pending = o.pending ∧ (o.put i v).tracker = o.tracker ∧
    (o.put i v).broken = o.broken := by
  unfold Obj.put; split <;> exact ⟨rfl, rfl, rfl, rfl⟩

theorem cur_cases {o : Obj α} (h : o.current < 2) : (o.pstate = 0 ∧ o.nstate = 1) ∨ (o.pstate = 1 ∧ o.nstate = 0) := by
  unfold Obj.pstate Obj.nstate; omega

theorem put_ps {m : Bool} {o : Obj α} {l : Latch α} (h : RepO m o l) (v : Option α) :
    RepO m (o.put o.pstate v) { l with visible := v } := by
  obtain ⟨h1, h2, h3, h4, h5, h6, h7, h8⟩ := h
  obtain ⟨e1, e2, e3, e4⟩ := put_other o o.pstate v
  have c := cur_cases h1
  have hp : (o.put o.pstate v).pstate = o.pstate := e1
  have hn : (o.put o.pstate v).nstate = o.nstate := by unfold Obj.nstate; rw [e1]
  refine ⟨by rw [e1]; exact h1, ?_, ?_, by rw [e2]; exact h4, h5, by rw [e3]; exact h6, h7, by rw [e4]; exact h8⟩
  · rw [hp]; rcases c with ⟨a, _⟩ | ⟨a, _⟩ <;> rw [a] <;> rfl
  · rw [hn]; rcases c with ⟨a, b⟩ | ⟨a, b⟩ <;> rw [a, b] <;> rw [b] at h3 <;> exact h3

theorem put_ns {m : Bool} {o : Obj α} {l : Latch α} (h : RepO m o l) (v : Option α) :
    RepO m (o.put o.nstate v) { l with coming := v } := by
  obtain ⟨h1, h2, h3, h4, h5, h6, h7, h8⟩ := h
  obtain ⟨e1, e2, e3, e4⟩ := put_other o o.nstate v
  have c := cur_cases h1
  have hp : (o.put o.nstate v).pstate = o.pstate := e1
  have hn : (o.put o.nstate v).nstate = o.nstate := congrArg (fun c => (c + 1) % 2) e1
  refine ⟨by rw [e1]; exact h1, ?_, ?_, by rw [e2]; exact h4, h5, by rw [e3]; exact h6, h7, by rw [e4]; exact h8⟩
  · rw [hp]; rcases c with ⟨a, b⟩ | ⟨a, b⟩ <;> rw [a, b] <;> rw [a] at h2 <;> exact h2
  · rw [hn]; rcases c with ⟨_, a⟩ | ⟨_, a⟩ <;> rw [a] <;> rfl

theorem update_obj (o : Obj α) (h : o.current < 2) :
    o.update.current < 2 ∧ o.update.get o.update.pstate = o.get o.nstate ∧ o.update.get o.update.nstate = none ∧
    o.update.pending = o.pending ∧ o.update.tracker = o.tracker ∧ o.update.broken = o.broken := by
  have : o.current = 0 ∨ o.current = 1 := by omega
  rcases this with e | e <;>
    simp [Obj.update, Obj.clearNS, Obj.put, Obj.nstate, Obj.pstate, Obj.get, e]

theorem tick_rep {m : Bool} {o : Obj α} {l : Latch α} (h : RepO m o l) : RepO m o.tick l.advance := by
  unfold Obj.tick Latch.advance
  by_cases hd : l.due = true
  · have hp : o.pending = 1 := by rw [h.pend, if_pos hd]
    have ht : o.tracker = .live := by
      rcases h.trk with e | e
      · exact e
      · rw [h.asg e] at hd; cases hd
    obtain ⟨u1, u2, u3, u4, u5, u6⟩ := update_obj o h.cur
    rw [if_neg (by omega), ht, if_pos hd]
    simp only [hp, Obj.updates]
    exact ⟨u1, u2.trans h.com, u3, rfl, fun _ => rfl, Or.inl (u5.trans ht), fun _ => rfl, u6.trans h.brk⟩
  · have hp : o.pending = 0 := by rw [h.pend, if_neg hd]
    rw [if_pos hp, if_neg hd]; exact h

theorem set_rep {w : World α} {s : Spec α} (h : Rep w s) (i : Nat) {o : Obj α} {l : Latch α}
    (hr : RepO s.manual o l) : Rep (w.set i o) (s.set i l) := by
  refine ⟨h.man, fun j => ?_⟩
  simp only [World.set, Spec.set]
  by_cases e : j = i
  · subst e; rw [upd_same, upd_same]; exact hr
  · rw [upd_other _ _ e, upd_other _ _ e]; exact h.objs j

theorem rep_step (w : World α) (s : Spec α) (o : Op α) (h : Rep w s) (hl : s.legal o) :
    Rep (step w o).1 (s.step o).1 ∧ (step w o).2 = (s.step o).2 := by
  have hb : ∀ i, ¬ (w.objs i).broken = true := fun i => by rw [(h.objs i).brk]; simp
  cases o with
  | write i v =>
    simp only [step, Spec.step, if_neg (hb i), and_true]
    refine set_rep h i ?_
    have h1 := put_ns (h.objs i) (some v)
    unfold Obj.write
    dsimp only
    cases hm : s.manual with
    | true =>
      have hd := (h.objs i).man hm
      rw [h.man, hm, if_pos rfl]
      rw [hm] at h1
      have : ({ s.objs i with coming := some v, due := !true } : Latch α) = { s.objs i with coming := some v } := by
        simp [hd]
      rw [this]; exact h1
    | false =>
      rw [h.man, hm, if_neg (by simp)]
      have hl : (s.objs i).due = false ∧ (s.objs i).assigned = false := by
        rcases hl with e | e
        · rw [hm] at e; cases e
        · exact e
      rw [hm] at h1
      exact ⟨h1.cur, h1.vis, h1.com, by dsimp only; rw [h1.pend]; simp [hl.1], fun e => (by cases e),
        h1.trk, fun e => absurd (show (s.objs i).assigned = true from e) (by rw [hl.2]; simp), h1.brk⟩
  | writePS i v =>
    simp only [step, Spec.step, if_neg (hb i), and_true]
    exact set_rep h i (put_ps (h.objs i) _)
  | clear i =>
    simp only [step, Spec.step, if_neg (hb i), and_true]
    refine set_rep h i ?_
    have h1 := put_ps (h.objs i) none
    have h2 := put_ns h1 none
    have : ((w.objs i).put (w.objs i).pstate none).nstate = (w.objs i).nstate := by
      unfold Obj.nstate; rw [(put_other (w.objs i) _ _).1]
    rw [this] at h2
    exact h2
  | clearNS i =>
    simp only [step, Spec.step, if_neg (hb i), and_true]
    exact set_rep h i (put_ns (h.objs i) _)
  | clearPS i =>
    simp only [step, Spec.step, if_neg (hb i), and_true]
    exact set_rep h i (put_ps (h.objs i) _)
  | isValid i => simp only [step, Spec.step, if_neg (hb i), (h.objs i).vis, and_true]; exact h
  | isValidNS i => simp only [step, Spec.step, if_neg (hb i), (h.objs i).com, and_true]; exact h
  | read i => simp only [step, Spec.step, if_neg (hb i), (h.objs i).vis, and_true]; exact h
  | readNS i => simp only [step, Spec.step, if_neg (hb i), (h.objs i).com, and_true]; exact h
  | access i v =>
    simp only [step, Spec.step, if_neg (hb i), (h.objs i).vis]
    split
    · exact ⟨set_rep h i (put_ps (h.objs i) _), rfl⟩
    · exact ⟨h, rfl⟩
  | accessNS i v =>
    simp only [step, Spec.step, if_neg (hb i), (h.objs i).com]
    split
    · exact ⟨set_rep h i (put_ns (h.objs i) _), rfl⟩
    · exact ⟨h, rfl⟩
  | update i =>
    simp only [step, Spec.step, if_neg (hb i), h.man]
    cases hm : s.manual with
    | false => exact ⟨h, rfl⟩
    | true =>
      refine ⟨set_rep h i ?_, rfl⟩
      obtain ⟨u1, u2, u3, u4, u5, u6⟩ := update_obj (w.objs i) (h.objs i).cur
      have r := h.objs i
      exact ⟨u1, u2.trans r.com, u3, u4.trans r.pend, r.man, by rw [u5]; exact r.trk, r.asg, u6.trans r.brk⟩
  | construct i v => exact ⟨set_rep h i (new_rep _ v), rfl⟩
  | copyNew i j =>
    simp only [step, Spec.step, if_neg (hb j), and_true]
    have r := h.objs j
    refine set_rep h i ⟨r.cur, r.vis, r.com, ?_, r.man, Or.inl rfl, fun e => (by cases e), rfl⟩
    have : (s.objs j).due = false := hl
    simp [Obj.copy, this]
  | assign i j =>
    have hn : ¬ ((w.objs i).broken = true ∨ (w.objs j).broken = true) := by
      rintro (e | e)
      · exact hb i e
      · exact hb j e
    simp only [step, Spec.step, if_neg hn, and_true]
    have r := h.objs j
    have : (s.objs j).due = false := hl
    exact set_rep h i ⟨r.cur, r.vis, r.com, by simp [Obj.assign, this], r.man, Or.inr rfl, fun _ => this, rfl⟩
  | tick => exact ⟨⟨h.man, fun i => tick_rep (h.objs i)⟩, rfl⟩

end Sparta.SharedData
