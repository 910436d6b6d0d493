import Verif.DataPort.Trace
import Verif.DataPort.Lemmas2
/-! What the observer of a history knows agrees with the specification. -/
namespace Sparta.DataPort

variable {α : Type}

def sview (q : SIn α) : View α := ⟨q.pending, q.cur, q.data⟩

theorem takeDue_find (u : Nat) (l : List (Nat × α)) :
    takeDue u l = (l.find? fun e => e.1 == u).map fun e => (e.2, l.eraseP fun e => e.1 == u) := by
  induction l with
  | nil => rfl
  | cons e l ih =>
    unfold takeDue
    by_cases h : e.1 = u
    · rw [if_pos h, List.find?_cons_of_pos (by simpa using h), List.eraseP_cons_of_pos (by simpa using h)]; rfl
    · rw [if_neg h, ih, List.find?_cons_of_neg (by simpa using h), List.eraseP_cons_of_neg (by simpa using h)]
      cases l.find? fun e => e.1 == u <;> rfl

theorem upd_view {ins : Nat → SIn α} {i j : Nat} {q : SIn α} (v : View α) (h1 : j = i → v = sview q) (h2 : j ≠ i → v = sview (ins j)) :
    sview (upd ins i q j) = v := by
  by_cases h : j = i
  · subst h; rw [upd_same]; exact (h1 rfl).symm
  · rw [upd_other _ _ h]; exact (h2 h).symm

theorem send_view (t : Spec α) (j : Nat) :
    sview (t.send.1.ins j) = (evOf t.now t.cfg t.outs t.stack .cont t.send.2).foldl (View.ev j) (sview (t.ins j)) ∧ t.send.1.outs = t.outs := by
  cases hst : t.stack with
  | nil =>
    have h2 : t.send = (t, .busy) := by unfold Spec.send; rw [hst]
    rw [h2]; exact ⟨rfl, rfl⟩
  | cons f st =>
    cases f with
    | direct i =>
      have h2 : t.send = (t, .busy) := by unfold Spec.send; rw [hst]
      rw [h2]; exact ⟨rfl, rfl⟩
    | event i =>
      have h2 : t.send = (t, .busy) := by unfold Spec.send; rw [hst]
      rw [h2]; exact ⟨rfl, rfl⟩
    | sending x d rest =>
      cases rest with
      | nil =>
        have h2 : t.send = ({ t with stack := st }, .done) := by unfold Spec.send; rw [hst]
        rw [h2]; exact ⟨rfl, rfl⟩
      | cons i rest =>
        have h2 : t.send = match t.sendTo x d i with
            | (s', _, false) => ({ s' with stack := st }, .threw)
            | (s', true, true) => ({ s' with stack := .direct i :: .sending x d rest :: st }, .deliver i x)
            | (s', false, true) => ({ s' with stack := .sending x d rest :: st }, .done) := by
          unfold Spec.send; rw [hst]
          dsimp only
          rcases t.sendTo x d i with ⟨_, _ | _, _ | _⟩ <;> rfl
        rw [h2]
        have hs : t.sendTo x d i = if d + t.cfg.delay i = 0 ∧ t.cfg.phase i < t.phase then (t, false, false)
            else if d + t.cfg.delay i = 0 ∧ t.cfg.phase i = t.phase then (t.setIn i { t.ins i with data := some (x, t.now) }, true, true)
            else if (t.ins i).count + 1 < t.cfg.cap then
              (t.setIn i { t.ins i with pending := (t.ins i).pending ++ [(t.now + (d + t.cfg.delay i), x)] }, false, true)
            else (t, false, false) := rfl
        by_cases c1 : d + t.cfg.delay i = 0 ∧ t.cfg.phase i < t.phase
        · rw [hs, if_pos c1]; exact ⟨rfl, rfl⟩
        rw [if_neg c1] at hs
        by_cases c2 : d + t.cfg.delay i = 0 ∧ t.cfg.phase i = t.phase
        · rw [hs, if_pos c2]
          refine ⟨upd_view _ ?_ ?_, rfl⟩
          · rintro rfl; simp [evOf, View.ev, sview]
          · intro h
            have h : ¬ i = j := fun h' => h h'.symm
            simp [evOf, View.ev, h]
        rw [if_neg c2] at hs
        by_cases c3 : (t.ins i).count + 1 < t.cfg.cap
        · rw [hs, if_pos c3]
          refine ⟨upd_view _ ?_ ?_, rfl⟩
          · rintro rfl; simp [evOf, View.ev, sview]
          · intro h
            have h : ¬ i = j := fun h' => h h'.symm
            simp [evOf, View.ev, h]
        · rw [hs, if_neg c3]; exact ⟨rfl, rfl⟩

theorem fire_view (t : Spec α) (i j : Nat) :
    sview ((t.fire i).1.ins j) = (evOf t.now t.cfg t.outs t.stack (.fire i) (t.fire i).2).foldl (View.ev j) (sview (t.ins j)) ∧
      (t.fire i).1.outs = t.outs := by
  unfold Spec.fire
  split
  · rw [takeDue_find]
    cases hf : (t.ins i).pending.find? fun e => e.1 == t.now with
    | none => exact ⟨rfl, rfl⟩
    | some e =>
      refine ⟨upd_view _ ?_ ?_, rfl⟩
      · rintro rfl; simp [evOf, View.ev, sview]
      · intro h
        have h : ¬ i = j := fun h' => h h'.symm
        simp [evOf, View.ev, h]
  · exact ⟨rfl, rfl⟩

theorem ret_view (t : Spec α) (j : Nat) :
    sview (t.ret.1.ins j) = (evOf t.now t.cfg t.outs t.stack .ret t.ret.2).foldl (View.ev j) (sview (t.ins j)) ∧ t.ret.1.outs = t.outs := by
  cases hst : t.stack with
  | nil =>
    have h2 : t.ret = (t, .busy) := by unfold Spec.ret; rw [hst]
    rw [h2]; exact ⟨rfl, rfl⟩
  | cons f st =>
    cases f with
    | direct i =>
      have h2 : t.ret = ({ t with stack := st }, .done) := by unfold Spec.ret; rw [hst]
      rw [h2]; exact ⟨rfl, rfl⟩
    | sending x d rest =>
      have h2 : t.ret = (t, .busy) := by unfold Spec.ret; rw [hst]
      rw [h2]; exact ⟨rfl, rfl⟩
    | event i =>
      have h2 : t.ret = ({ t.setIn i { t.ins i with cur := none } with stack := st }, .done) := by unfold Spec.ret; rw [hst]
      rw [h2]
      refine ⟨upd_view _ ?_ ?_, rfl⟩
      · rintro rfl; simp [evOf, View.ev, sview]
      · intro h
        have h : ¬ i = j := fun h' => h h'.symm
        simp [evOf, View.ev, h]

/-- one more call, as the observer sees it -/
theorem step_view (t : Spec α) (o : Op α) (j : Nat) :
    sview ((t.step o).1.ins j) = (evOf t.now t.cfg t.outs t.stack o (t.step o).2).foldl (View.ev j) (sview (t.ins j)) := by
  have busy : ∀ o : Op α, evOf t.now t.cfg t.outs t.stack o .busy = [] := by intro o; cases o <;> rfl
  cases o with
  | cont => exact (send_view t j).1
  | ret => exact (ret_view t j).1
  | fire i =>
    show sview ((if t.stack.isEmpty then t.fire i else (t, .busy)).1.ins j) = (evOf t.now t.cfg t.outs t.stack (.fire i) (if t.stack.isEmpty then t.fire i else (t, .busy)).2).foldl _ _
    split
    · exact (fire_view t i j).1
    · rfl
  | toPhase k =>
    show sview ((if t.stack.isEmpty then t.toPhase k else (t, .busy)).1.ins j) = (evOf t.now t.cfg t.outs t.stack (.toPhase k) (if t.stack.isEmpty then t.toPhase k else (t, .busy)).2).foldl _ _
    split
    · unfold Spec.toPhase
      split
      · show sview (if t.cfg.phase j < k then { t.ins j with past := true } else t.ins j) = sview (t.ins j)
        split <;> rfl
      · rfl
    · rfl
  | pass i =>
    show sview ((if t.stack.isEmpty then t.pass i else (t, .busy)).1.ins j) = (evOf t.now t.cfg t.outs t.stack (.pass i) (if t.stack.isEmpty then t.pass i else (t, .busy)).2).foldl _ _
    split
    · unfold Spec.pass
      split
      · refine upd_view _ ?_ ?_
        · rintro rfl; rfl
        · intro _; rfl
      · rfl
    · rfl
  | next =>
    show sview ((if t.stack.isEmpty then t.next else (t, .busy)).1.ins j) = (evOf t.now t.cfg t.outs t.stack .next (if t.stack.isEmpty then t.next else (t, .busy)).2).foldl _ _
    split
    · unfold Spec.next
      split <;> rfl
    · rfl
  | bind o i =>
    show sview ((if sending t.stack then (t, .busy) else t.user (.bind o i)).1.ins j) = (evOf t.now t.cfg t.outs t.stack (.bind o i) (if sending t.stack then (t, .busy) else t.user (.bind o i)).2).foldl _ _
    split
    · rfl
    unfold Spec.user
    dsimp only
    split
    · rfl
    split
    · rfl
    · refine upd_view _ ?_ ?_
      · rintro rfl; rfl
      · intro _; rfl
  | send o x d =>
    show sview ((if sending t.stack then (t, .busy) else t.user (.send o x d)).1.ins j) = (evOf t.now t.cfg t.outs t.stack (.send o x d) (if sending t.stack then (t, .busy) else t.user (.send o x d)).2).foldl _ _
    split
    · rfl
    unfold Spec.user
    dsimp only
    split <;> rfl
  | pull i =>
    show sview ((if sending t.stack then (t, .busy) else t.user (.pull i)).1.ins j) = (evOf t.now t.cfg t.outs t.stack (.pull i) (if sending t.stack then (t, .busy) else t.user (.pull i)).2).foldl _ _
    split
    · rfl
    unfold Spec.user
    dsimp only
    cases hd : (t.ins i).data with
    | none =>
      refine upd_view _ ?_ ?_
      · rintro rfl; simp [dataOf, evOf, sview, hd]
      · intro _; rfl
    | some e =>
      refine upd_view _ ?_ ?_
      · rintro rfl; simp [dataOf, evOf, sview, View.ev]
      · intro h
        have h : ¬ i = j := fun h' => h h'.symm
        simp [dataOf, evOf, View.ev, h]
  | clear i =>
    show sview ((if sending t.stack then (t, .busy) else t.user (.clear i)).1.ins j) = (evOf t.now t.cfg t.outs t.stack (.clear i) (if sending t.stack then (t, .busy) else t.user (.clear i)).2).foldl _ _
    split
    · rfl
    refine upd_view _ ?_ ?_
    · rintro rfl; simp [evOf, View.ev, sview, Spec.user]
    · intro h
      have h : ¬ i = j := fun h' => h h'.symm
      simp [evOf, View.ev, h, Spec.user]
  | setContIn i b =>
    show sview ((if sending t.stack then (t, .busy) else t.user (.setContIn i b)).1.ins j) = (evOf t.now t.cfg t.outs t.stack (.setContIn i b) (if sending t.stack then (t, .busy) else t.user (.setContIn i b)).2).foldl _ _
    split
    · rfl
    refine upd_view _ ?_ ?_
    · rintro rfl; rfl
    · intro _; rfl
  | cancelIn i =>
    show sview ((if sending t.stack then (t, .busy) else t.user (.cancelIn i)).1.ins j) = (evOf t.now t.cfg t.outs t.stack (.cancelIn i) (if sending t.stack then (t, .busy) else t.user (.cancelIn i)).2).foldl _ _
    split
    · rfl
    refine upd_view _ ?_ ?_
    · rintro rfl; simp [evOf, View.ev, sview, Spec.user, SIn.cancel]
    · intro h
      simp [evOf, View.ev, h, Spec.user]
  | cancelIfIn i f =>
    show sview ((if sending t.stack then (t, .busy) else t.user (.cancelIfIn i f)).1.ins j) = (evOf t.now t.cfg t.outs t.stack (.cancelIfIn i f) (if sending t.stack then (t, .busy) else t.user (.cancelIfIn i f)).2).foldl _ _
    split
    · rfl
    refine upd_view _ ?_ ?_
    · rintro rfl; simp [evOf, View.ev, sview, Spec.user, SIn.cancel]
    · intro h
      simp [evOf, View.ev, h, Spec.user]
  | cancelOut o =>
    show sview ((if sending t.stack then (t, .busy) else t.user (.cancelOut o)).1.ins j) = (evOf t.now t.cfg t.outs t.stack (.cancelOut o) (if sending t.stack then (t, .busy) else t.user (.cancelOut o)).2).foldl _ _
    split
    · rfl
    show sview (if j ∈ t.outs o then (t.ins j).cancel (fun _ => true) else t.ins j) = View.ev j (sview (t.ins j)) (.cancel (t.outs o) fun _ => true)
    by_cases h : j ∈ t.outs o <;> simp [View.ev, sview, SIn.cancel, h]
  | cancelIfOut o f =>
    show sview ((if sending t.stack then (t, .busy) else t.user (.cancelIfOut o f)).1.ins j) = (evOf t.now t.cfg t.outs t.stack (.cancelIfOut o f) (if sending t.stack then (t, .busy) else t.user (.cancelIfOut o f)).2).foldl _ _
    split
    · rfl
    show sview (if j ∈ t.outs o then (t.ins j).cancel f else t.ins j) = View.ev j (sview (t.ins j)) (.cancel (t.outs o) f)
    by_cases h : j ∈ t.outs o <;> simp [View.ev, sview, SIn.cancel, h]
  | setContOut o b =>
    show sview ((if sending t.stack then (t, .busy) else t.user (.setContOut o b)).1.ins j) = (evOf t.now t.cfg t.outs t.stack (.setContOut o b) (if sending t.stack then (t, .busy) else t.user (.setContOut o b)).2).foldl _ _
    split <;> rfl
  | drivenIn i =>
    show sview ((if sending t.stack then (t, .busy) else t.user (.drivenIn i)).1.ins j) = sview (t.ins j)
    split <;> rfl
  | drivenInAt i r =>
    show sview ((if sending t.stack then (t, .busy) else t.user (.drivenInAt i r)).1.ins j) = sview (t.ins j)
    split <;> rfl
  | drivenOut i =>
    show sview ((if sending t.stack then (t, .busy) else t.user (.drivenOut i)).1.ins j) = sview (t.ins j)
    split <;> rfl
  | drivenOutAt i r =>
    show sview ((if sending t.stack then (t, .busy) else t.user (.drivenOutAt i r)).1.ins j) = sview (t.ins j)
    split <;> rfl
  | received i =>
    show sview ((if sending t.stack then (t, .busy) else t.user (.received i)).1.ins j) = sview (t.ins j)
    split <;> rfl
  | receivedNow i =>
    show sview ((if sending t.stack then (t, .busy) else t.user (.receivedNow i)).1.ins j) = sview (t.ins j)
    split <;> rfl
  | peek i =>
    show sview ((if sending t.stack then (t, .busy) else t.user (.peek i)).1.ins j) = sview (t.ins j)
    split <;> rfl
  | stamp i =>
    show sview ((if sending t.stack then (t, .busy) else t.user (.stamp i)).1.ins j) = sview (t.ins j)
    split <;> rfl
  | isCont i =>
    show sview ((if sending t.stack then (t, .busy) else t.user (.isCont i)).1.ins j) = sview (t.ins j)
    split <;> rfl
  | numBound i =>
    show sview ((if sending t.stack then (t, .busy) else t.user (.numBound i)).1.ins j) = sview (t.ins j)
    split <;> rfl

theorem step_outs (t : Spec α) (o : Op α) (p : Nat) :
    (t.step o).1.outs p = t.outs p ++ boundTo p (evOf t.now t.cfg t.outs t.stack o (t.step o).2) := by
  have key : ∀ (u : Spec α) (r : Res α), t.step o = (u, r) → (∀ a b, o ≠ .bind a b) → u.outs = t.outs →
      (t.step o).1.outs p = t.outs p ++ boundTo p (evOf t.now t.cfg t.outs t.stack o (t.step o).2) := by
    intro u r h hb hu
    rw [h]
    show u.outs p = _
    rw [hu]
    have : boundTo p (evOf t.now t.cfg t.outs t.stack o r) = [] := by
      cases o <;> cases r <;> first | rfl | exact absurd rfl (hb _ _) | skip
      · show boundTo p (match t.stack with | .sending x d (i :: _) :: _ => [.sent i (t.now + (d + t.cfg.delay i)) x] | _ => []) = []
        split <;> rfl
      · show boundTo p (match t.stack with | .event i :: _ => [Ev.ended i] | _ => [] : List (Ev α)) = []
        split <;> rfl
    rw [this, List.append_nil]
  have hk : ∀ a : Spec α × Res α, a.1.outs = t.outs → (if t.stack.isEmpty then a else (t, .busy)).1.outs = t.outs := by
    intro a h; split
    · exact h
    · rfl
  have hu : ∀ a : Spec α × Res α, a.1.outs = t.outs → (if sending t.stack then (t, .busy) else a).1.outs = t.outs := by
    intro a h; split
    · rfl
    · exact h
  cases o with
  | bind o i =>
    show (if sending t.stack then (t, .busy) else t.user (.bind o i)).1.outs p = t.outs p ++ boundTo p (evOf t.now t.cfg t.outs t.stack (.bind o i) (if sending t.stack then (t, .busy) else t.user (.bind o i)).2)
    split
    · exact (List.append_nil _).symm
    unfold Spec.user
    dsimp only
    split
    · exact (List.append_nil _).symm
    split
    · exact (List.append_nil _).symm
    · show upd t.outs o (t.outs o ++ [i]) p = t.outs p ++ boundTo p [.bound o i]
      by_cases h : p = o
      · subst h; simp [boundTo]
      · have h' : ¬ o = p := fun e => h e.symm
        rw [upd_other _ _ h]; simp [boundTo, h']
  | cont => exact key _ _ rfl (fun _ _ h => by cases h) (send_view t 0).2
  | ret => exact key _ _ rfl (fun _ _ h => by cases h) (ret_view t 0).2
  | fire i => exact key _ _ rfl (fun _ _ h => by cases h) (hk _ (fire_view t i 0).2)
  | toPhase k =>
    refine key _ _ rfl (fun _ _ h => by cases h) (hk _ ?_)
    unfold Spec.toPhase; split <;> rfl
  | pass k =>
    refine key _ _ rfl (fun _ _ h => by cases h) (hk _ ?_)
    unfold Spec.pass; split <;> rfl
  | next =>
    refine key _ _ rfl (fun _ _ h => by cases h) (hk _ ?_)
    unfold Spec.next; split <;> rfl
  | send o x d =>
    refine key _ _ rfl (fun _ _ h => by cases h) (hu _ ?_)
    unfold Spec.user; dsimp only; split <;> rfl
  | _ => exact key _ _ rfl (fun _ _ h => by cases h) (hu _ rfl)

/-- states reached by a legal history -/
structure Reach (cfg : Config) (os : List (Op α)) (s : Sys α) (t : Spec α) : Prop where
  rep : Rep s t
  cfgEq : t.cfg = cfg
  seen : ∀ i, sview (t.ins i) = view i (hist (Sys.init α cfg) os)
  outs : ∀ o, t.outs o = boundTo o (hist (Sys.init α cfg) os)
  due : ∀ i, ∀ e ∈ (t.ins i).pending, t.now ≤ e.1
  over : ∀ i, t.cfg.phase i < t.phase → ∀ e ∈ (t.ins i).pending, t.now < e.1

theorem hist_append (s : Sys α) (a b : List (Op α)) : hist s (a ++ b) = hist s a ++ hist (runOps Sys.step s a).1 b := by
  induction a generalizing s with
  | nil => rfl
  | cons o os ih =>
    show evOf _ _ _ _ o _ ++ hist (s.step o).1 (os ++ b) = _
    rw [ih]
    exact (List.append_assoc _ _ _).symm

theorem evOf_eq {s : Sys α} {t : Spec α} (r : Rep s t) (o : Op α) (h : (s.step o).2 = (t.step o).2) :
    evOf s.now s.cfg s.outs s.stack o (s.step o).2 = evOf t.now t.cfg t.outs t.stack o (t.step o).2 := by
  rw [r.now, r.cfg, r.outs, r.stack, h]

theorem send_frame (t : Spec α) : t.send.1.cfg = t.cfg ∧ t.send.1.now = t.now ∧ t.send.1.phase = t.phase := by
  unfold Spec.send
  split
  · rename_i x d i rest st _
    have h : (t.sendTo x d i).1.cfg = t.cfg ∧ (t.sendTo x d i).1.now = t.now ∧ (t.sendTo x d i).1.phase = t.phase := by
      unfold Spec.sendTo
      dsimp only
      split
      · exact ⟨rfl, rfl, rfl⟩
      split
      · exact ⟨rfl, rfl, rfl⟩
      split <;> exact ⟨rfl, rfl, rfl⟩
    generalize t.sendTo x d i = a at h
    rcases a with ⟨_, _ | _, _ | _⟩ <;> exact h
  · exact ⟨rfl, rfl, rfl⟩
  · exact ⟨rfl, rfl, rfl⟩

/-- the configuration never changes; the cycle and the phase do only when the scheduler goes on -/
theorem step_frame (t : Spec α) (o : Op α) : (t.step o).1.cfg = t.cfg ∧
    ((∀ k, o ≠ .toPhase k) → o ≠ .next → (t.step o).1.now = t.now ∧ (t.step o).1.phase = t.phase) := by
  have hk : ∀ a : Spec α × Res α, a.1.cfg = t.cfg ∧ a.1.now = t.now ∧ a.1.phase = t.phase →
      (if t.stack.isEmpty then a else (t, .busy)).1.cfg = t.cfg ∧ (if t.stack.isEmpty then a else (t, .busy)).1.now = t.now ∧
        (if t.stack.isEmpty then a else (t, .busy)).1.phase = t.phase := by
    intro a h; split
    · exact h
    · exact ⟨rfl, rfl, rfl⟩
  have hu : ∀ a : Spec α × Res α, a.1.cfg = t.cfg ∧ a.1.now = t.now ∧ a.1.phase = t.phase →
      (if sending t.stack then (t, .busy) else a).1.cfg = t.cfg ∧ (if sending t.stack then (t, .busy) else a).1.now = t.now ∧
        (if sending t.stack then (t, .busy) else a).1.phase = t.phase := by
    intro a h; split
    · exact ⟨rfl, rfl, rfl⟩
    · exact h
  have fin : (t.step o).1.cfg = t.cfg ∧ (t.step o).1.now = t.now ∧ (t.step o).1.phase = t.phase →
      (t.step o).1.cfg = t.cfg ∧ ((∀ k, o ≠ .toPhase k) → o ≠ .next → (t.step o).1.now = t.now ∧ (t.step o).1.phase = t.phase) :=
    fun h => ⟨h.1, fun _ _ => h.2⟩
  cases o with
  | cont => exact fin (send_frame t)
  | ret =>
    refine fin ?_
    show t.ret.1.cfg = _ ∧ t.ret.1.now = _ ∧ t.ret.1.phase = _
    unfold Spec.ret
    split <;> exact ⟨rfl, rfl, rfl⟩
  | fire i =>
    refine fin (hk _ ?_)
    unfold Spec.fire
    split
    · split <;> exact ⟨rfl, rfl, rfl⟩
    · exact ⟨rfl, rfl, rfl⟩
  | pass i =>
    refine fin (hk _ ?_)
    unfold Spec.pass
    split <;> exact ⟨rfl, rfl, rfl⟩
  | toPhase k =>
    refine ⟨?_, fun h => absurd rfl (h k)⟩
    show (if t.stack.isEmpty then t.toPhase k else (t, .busy)).1.cfg = t.cfg
    split
    · unfold Spec.toPhase; split <;> rfl
    · rfl
  | next =>
    refine ⟨?_, fun _ h => absurd rfl h⟩
    show (if t.stack.isEmpty then t.next else (t, .busy)).1.cfg = t.cfg
    split
    · unfold Spec.next; split <;> rfl
    · rfl
  | bind o i =>
    refine fin (hu _ ?_)
    unfold Spec.user
    dsimp only
    split
    · exact ⟨rfl, rfl, rfl⟩
    split <;> exact ⟨rfl, rfl, rfl⟩
  | send o x d =>
    refine fin (hu _ ?_)
    unfold Spec.user
    dsimp only
    split <;> exact ⟨rfl, rfl, rfl⟩
  | _ => exact fin (hu _ ⟨rfl, rfl, rfl⟩)

theorem way_mem (j : Nat) (l : List (Ev α)) (v : View α) (e : Nat × α) (h0 : e ∈ (l.foldl (View.ev j) v).way) :
    e ∈ v.way ∨ Ev.sent j e.1 e.2 ∈ l := by
  induction l generalizing v with
  | nil => exact .inl h0
  | cons a l ih =>
    rcases ih _ h0 with h | h
    · cases a with
      | sent i u x =>
        unfold View.ev at h
        dsimp only at h
        split at h
        · rename_i hij
          subst hij
          rw [List.mem_append, List.mem_singleton] at h
          rcases h with h | rfl
          · exact .inl h
          · exact .inr List.mem_cons_self
        · exact .inl h
      | got i u x =>
        unfold View.ev at h
        dsimp only at h
        split at h
        · exact .inl (List.mem_of_mem_eraseP h)
        · exact .inl h
      | cancel is f =>
        unfold View.ev at h
        dsimp only at h
        split at h
        · exact .inl (List.mem_filter.1 h).1
        · exact .inl h
      | bound => exact .inl h
      | direct =>
        unfold View.ev at h
        dsimp only at h
        split at h <;> exact .inl h
      | ended =>
        unfold View.ev at h
        dsimp only at h
        split at h <;> exact .inl h
      | taken =>
        unfold View.ev at h
        dsimp only at h
        split at h <;> exact .inl h
    · exact .inr (List.mem_cons_of_mem _ h)

/-- data is accepted by `send` only for a cycle and phase that are not over -/
theorem sent_late (t : Spec α) (o : Op α) (j u : Nat) (x : α) (h : Ev.sent j u x ∈ evOf t.now t.cfg t.outs t.stack o (t.step o).2) :
    o = .cont ∧ t.now ≤ u ∧ (t.cfg.phase j ≤ t.phase → t.now < u) := by
  cases o with
  | cont =>
    refine ⟨rfl, ?_⟩
    have h : Ev.sent j u x ∈ evOf t.now t.cfg t.outs t.stack .cont t.send.2 := h
    cases hst : t.stack with
    | nil =>
      have h2 : t.send = (t, .busy) := by unfold Spec.send; rw [hst]
      rw [h2] at h; cases h
    | cons f st =>
      cases f with
      | direct i =>
        have h2 : t.send = (t, .busy) := by unfold Spec.send; rw [hst]
        rw [h2] at h; cases h
      | event i =>
        have h2 : t.send = (t, .busy) := by unfold Spec.send; rw [hst]
        rw [h2] at h; cases h
      | sending y d rest =>
        cases rest with
        | nil =>
          have h2 : t.send = ({ t with stack := st }, .done) := by unfold Spec.send; rw [hst]
          rw [h2, hst] at h; cases h
        | cons i rest =>
          have h2 : t.send = match t.sendTo y d i with
              | (s', _, false) => ({ s' with stack := st }, .threw)
              | (s', true, true) => ({ s' with stack := .direct i :: .sending y d rest :: st }, .deliver i y)
              | (s', false, true) => ({ s' with stack := .sending y d rest :: st }, .done) := by
            unfold Spec.send; rw [hst]
            dsimp only
            rcases t.sendTo y d i with ⟨_, _ | _, _ | _⟩ <;> rfl
          have hs : t.sendTo y d i = if d + t.cfg.delay i = 0 ∧ t.cfg.phase i < t.phase then (t, false, false)
              else if d + t.cfg.delay i = 0 ∧ t.cfg.phase i = t.phase then (t.setIn i { t.ins i with data := some (y, t.now) }, true, true)
              else if (t.ins i).count + 1 < t.cfg.cap then
                (t.setIn i { t.ins i with pending := (t.ins i).pending ++ [(t.now + (d + t.cfg.delay i), y)] }, false, true)
              else (t, false, false) := rfl
          by_cases c1 : d + t.cfg.delay i = 0 ∧ t.cfg.phase i < t.phase
          · rw [h2, hs, if_pos c1] at h; cases h
          rw [if_neg c1] at hs
          by_cases c2 : d + t.cfg.delay i = 0 ∧ t.cfg.phase i = t.phase
          · rw [h2, hs, if_pos c2] at h
            have h : Ev.sent j u x ∈ [Ev.direct i t.now y] := h
            rw [List.mem_singleton] at h; cases h
          rw [if_neg c2] at hs
          by_cases c3 : (t.ins i).count + 1 < t.cfg.cap
          · rw [h2, hs, if_pos c3, hst] at h
            have h : Ev.sent j u x ∈ [Ev.sent i (t.now + (d + t.cfg.delay i)) y] := h
            rw [List.mem_singleton] at h
            cases h
            refine ⟨by omega, fun hp => ?_⟩
            rcases Nat.lt_or_eq_of_le hp with hp | hp
            · have : ¬ (d + t.cfg.delay j = 0) := fun h0 => c1 ⟨h0, hp⟩
              omega
            · have : ¬ (d + t.cfg.delay j = 0) := fun h0 => c2 ⟨h0, hp⟩
              omega
          · rw [h2, hs, if_neg c3] at h; cases h
  | ret =>
    exfalso
    generalize (t.step .ret).2 = r at h
    cases r with
    | done =>
      have h : Ev.sent j u x ∈ (match t.stack with | .event i :: _ => [Ev.ended i] | _ => [] : List (Ev α)) := h
      split at h
      · rw [List.mem_singleton] at h; cases h
      · cases h
    | _ => cases h
  | _ =>
    exfalso
    generalize (t.step _).2 = r at h
    cases r <;> first | cases h; done | (unfold evOf at h; rw [List.mem_singleton] at h; cases h)

theorem due_step {s : Sys α} {t : Spec α} (r : Rep s t) (h1 : ∀ i, ∀ e ∈ (t.ins i).pending, t.now ≤ e.1)
    (h2 : ∀ i, t.cfg.phase i < t.phase → ∀ e ∈ (t.ins i).pending, t.now < e.1) (o : Op α) :
    (∀ i, ∀ e ∈ ((t.step o).1.ins i).pending, (t.step o).1.now ≤ e.1) ∧
      (∀ i, (t.step o).1.cfg.phase i < (t.step o).1.phase → ∀ e ∈ ((t.step o).1.ins i).pending, (t.step o).1.now < e.1) := by
  have gen : (∀ k, o ≠ .toPhase k) → o ≠ .next → (∀ i, ∀ e ∈ ((t.step o).1.ins i).pending, (t.step o).1.now ≤ e.1) ∧
      (∀ i, (t.step o).1.cfg.phase i < (t.step o).1.phase → ∀ e ∈ ((t.step o).1.ins i).pending, (t.step o).1.now < e.1) := by
    intro ho1 ho2
    obtain ⟨f1, f2⟩ := step_frame t o
    obtain ⟨f2, f3⟩ := f2 ho1 ho2
    rw [f1, f2, f3]
    have hm : ∀ i, ∀ e ∈ ((t.step o).1.ins i).pending, e ∈ (t.ins i).pending ∨ (t.now ≤ e.1 ∧ (t.cfg.phase i ≤ t.phase → t.now < e.1)) := by
      intro i e he
      have hv := step_view t o i
      have he : e ∈ (sview ((t.step o).1.ins i)).way := he
      rw [hv] at he
      rcases way_mem i _ _ e he with h | h
      · exact .inl h
      · exact .inr (sent_late t o i e.1 e.2 h).2
    constructor
    · intro i e he
      rcases hm i e he with h | h
      · exact h1 i e h
      · exact h.1
    · intro i hp e he
      rcases hm i e he with h | h
      · exact h2 i hp e h
      · exact h.2 (Nat.le_of_lt hp)
  cases o with
  | toPhase k =>
    show (∀ i, ∀ e ∈ ((if t.stack.isEmpty then t.toPhase k else (t, .busy)).1.ins i).pending, (if t.stack.isEmpty then t.toPhase k else (t, .busy)).1.now ≤ e.1) ∧
      (∀ i, (if t.stack.isEmpty then t.toPhase k else (t, .busy)).1.cfg.phase i < (if t.stack.isEmpty then t.toPhase k else (t, .busy)).1.phase →
        ∀ e ∈ ((if t.stack.isEmpty then t.toPhase k else (t, .busy)).1.ins i).pending, (if t.stack.isEmpty then t.toPhase k else (t, .busy)).1.now < e.1)
    split
    · unfold Spec.toPhase
      split
      · rename_i _ hc
        have hpe : ∀ i, (if t.cfg.phase i < k then { t.ins i with past := true } else t.ins i).pending = (t.ins i).pending := by
          intro i; split <;> rfl
        refine ⟨fun i e he => h1 i e (by rw [← hpe i]; exact he), fun i hp e he => ?_⟩
        have he : e ∈ (t.ins i).pending := by rw [← hpe i]; exact he
        have hp : t.cfg.phase i < k := hp
        have := over_all r hc.2 i (decide_eq_true hp)
        unfold SIn.over at this
        rw [List.all_eq_true] at this
        have := this e he
        have h3 := h1 i e he
        show t.now < e.1
        simp only [bne_iff_ne, ne_eq] at this
        omega
      · exact ⟨h1, h2⟩
    · exact ⟨h1, h2⟩
  | next =>
    show (∀ i, ∀ e ∈ ((if t.stack.isEmpty then t.next else (t, .busy)).1.ins i).pending, (if t.stack.isEmpty then t.next else (t, .busy)).1.now ≤ e.1) ∧
      (∀ i, (if t.stack.isEmpty then t.next else (t, .busy)).1.cfg.phase i < (if t.stack.isEmpty then t.next else (t, .busy)).1.phase →
        ∀ e ∈ ((if t.stack.isEmpty then t.next else (t, .busy)).1.ins i).pending, (if t.stack.isEmpty then t.next else (t, .busy)).1.now < e.1)
    split
    · unfold Spec.next
      split
      · rename_i _ hc
        refine ⟨fun i e he => ?_, fun i hp => absurd hp (Nat.not_lt_zero _)⟩
        have he : e ∈ (t.ins i).pending := he
        have := over_all r hc i rfl
        unfold SIn.over at this
        rw [List.all_eq_true] at this
        have := this e he
        have h3 := h1 i e he
        show t.now + 1 ≤ e.1
        simp only [bne_iff_ne, ne_eq] at this
        omega
      · exact ⟨h1, h2⟩
    · exact ⟨h1, h2⟩
  | _ => exact gen (fun _ h => by cases h) (fun h => by cases h)

theorem foldl_append_view (i : Nat) (a b : List (Ev α)) : view i (a ++ b) = b.foldl (View.ev i) (view i a) := List.foldl_append

theorem reach_snoc {cfg : Config} {os : List (Op α)} {s : Sys α} {t : Spec α} (h : Reach cfg os s t)
    (hs : s = (runOps Sys.step (Sys.init α cfg) os).1) (o : Op α) (hl : t.legal o) :
    Reach cfg (os ++ [o]) (s.step o).1 (t.step o).1 := by
  obtain ⟨r', hr⟩ := rep_step s t o h.rep hl
  have hh : hist (Sys.init α cfg) (os ++ [o]) = hist (Sys.init α cfg) os ++ evOf t.now t.cfg t.outs t.stack o (t.step o).2 := by
    rw [hist_append, ← hs, ← evOf_eq h.rep o hr]
    show _ ++ (_ ++ []) = _
    rw [List.append_nil]
  obtain ⟨d1, d2⟩ := due_step h.rep h.due h.over o
  refine ⟨r', (step_frame t o).1.trans h.cfgEq, fun i => ?_, fun p => ?_, d1, d2⟩
  · rw [hh, foldl_append_view, ← h.seen i]
    exact step_view t o i
  · rw [hh, step_outs, h.outs p]
    unfold boundTo
    rw [List.filterMap_append]

theorem reach_init (cfg : Config) : Reach cfg ([] : List (Op α)) (Sys.init α cfg) (Spec.init α cfg) :=
  ⟨rep_init cfg, rfl, fun _ => rfl, fun _ => rfl, fun _ _ h => (by cases h), fun _ _ _ h => (by cases h)⟩

theorem legalOps_append {os os' : List (Op α)} (t : Spec α) (h : legalOps Spec.step Spec.legal t (os ++ os')) :
    legalOps Spec.step Spec.legal t os ∧ legalOps Spec.step Spec.legal (runOps Spec.step t os).1 os' := by
  induction os generalizing t with
  | nil => exact ⟨trivial, h⟩
  | cons o os ih =>
    obtain ⟨h1, h2⟩ := h
    obtain ⟨h3, h4⟩ := ih _ h2
    exact ⟨⟨h1, h3⟩, h4⟩

theorem reach (cfg : Config) (os : List (Op α)) : legalOps Spec.step Spec.legal (Spec.init α cfg) os →
    Reach cfg os (runOps Sys.step (Sys.init α cfg) os).1 (runOps Spec.step (Spec.init α cfg) os).1 := by
  have key : ∀ k, ∀ os : List (Op α), os.length = k → legalOps Spec.step Spec.legal (Spec.init α cfg) os →
      Reach cfg os (runOps Sys.step (Sys.init α cfg) os).1 (runOps Spec.step (Spec.init α cfg) os).1 := by
    intro k
    induction k with
    | zero =>
      intro os hk _
      obtain rfl := List.length_eq_zero_iff.1 hk
      exact reach_init cfg
    | succ k ih =>
      intro os hk hl
      have hne : os ≠ [] := by rintro rfl; cases hk
      have he := List.dropLast_concat_getLast hne
      rw [← he] at hl ⊢
      obtain ⟨hl1, hl2⟩ := legalOps_append _ hl
      have := reach_snoc (ih os.dropLast (by rw [List.length_dropLast]; omega) hl1) rfl (os.getLast hne) hl2.1
      rw [runOps_append, runOps_append]
      exact this
  exact fun h => key os.length os rfl h

end Sparta.DataPort
