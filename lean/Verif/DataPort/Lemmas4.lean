import Verif.DataPort.Lemmas3
/-! Sending to all bound in ports, and accounting of what was sent and delivered. -/
namespace Sparta.DataPort

variable {α : Type}

def due (u : Nat) (l : List (Nat × α)) : List α := (l.filter fun e => e.1 == u).map (·.2)

/-- an event of the delivery of data takes the first of those due -/
theorem got_first (t : Spec α) (o : Op α) (i u : Nat) (x : α) (h : Ev.got i u x ∈ evOf t.now t.cfg t.outs t.stack o (t.step o).2) :
    (t.ins i).pending.find? (fun e => e.1 == u) = some (u, x) := by
  cases o with
  | fire j =>
    have hs : t.step (.fire j) = if t.stack.isEmpty then t.fire j else (t, .busy) := rfl
    rw [hs] at h
    split at h
    · unfold Spec.fire at h
      split at h
      · rw [takeDue_find] at h
        cases hf : (t.ins j).pending.find? fun e => e.1 == t.now with
        | none => rw [hf] at h; cases h
        | some e =>
          rw [hf] at h
          have h : Ev.got i u x ∈ [Ev.got j t.now e.2] := h
          rw [List.mem_singleton] at h
          cases h
          have := List.find?_some hf
          have : e.1 = t.now := by simpa using this
          rw [hf, ← this]
      · cases h
    · cases h
  | ret =>
    exfalso
    generalize (t.step .ret).2 = r at h
    cases r with
    | done =>
      have h : Ev.got i u x ∈ (match t.stack with | .event i :: _ => [Ev.ended i] | _ => [] : List (Ev α)) := h
      split at h
      · rw [List.mem_singleton] at h; cases h
      · cases h
    | _ => cases h
  | cont =>
    exfalso
    generalize (t.step .cont).2 = r at h
    cases r with
    | done =>
      have h : Ev.got i u x ∈ (match t.stack with | .sending x d (i :: _) :: _ => [Ev.sent i (t.now + (d + t.cfg.delay i)) x] | _ => [] : List (Ev α)) := h
      split at h
      · rw [List.mem_singleton] at h; cases h
      · cases h
    | deliver => unfold evOf at h; rw [List.mem_singleton] at h; cases h
    | _ => cases h
  | _ =>
    exfalso
    generalize (t.step _).2 = r at h
    cases r <;> first | cases h; done | (unfold evOf at h; rw [List.mem_singleton] at h; cases h)

theorem due_erase {u : Nat} {x : α} : ∀ {l : List (Nat × α)}, l.find? (fun e => e.1 == u) = some (u, x) →
    due u l = x :: due u (l.eraseP fun e => e.1 == u)
  | [], h => by cases h
  | e :: l, h => by
    by_cases he : e.1 = u
    · rw [List.find?_cons_of_pos (by simpa using he)] at h
      obtain rfl := Option.some.inj h
      rw [List.eraseP_cons_of_pos (by simp)]
      simp [due]
    · rw [List.find?_cons_of_neg (by simpa using he)] at h
      rw [List.eraseP_cons_of_neg (by simpa using he)]
      have := due_erase h
      simpa [due, he] using this

theorem due_erase_ne {u w : Nat} (h : w ≠ u) : ∀ l : List (Nat × α), due u (l.eraseP fun e => e.1 == w) = due u l
  | [] => rfl
  | e :: l => by
    by_cases he : e.1 = w
    · rw [List.eraseP_cons_of_pos (by simpa using he)]
      simp [due, he, h]
    · rw [List.eraseP_cons_of_neg (by simpa using he)]
      have := due_erase_ne h l
      by_cases hu : e.1 = u
      · simpa [due, hu] using this
      · simpa [due, hu] using this

theorem due_filter (u : Nat) (f P : α → Bool) (hf : ∀ x, P x = true → f x = false) (l : List (Nat × α)) :
    (due u (l.filter fun e => !f e.2)).filter P = (due u l).filter P := by
  induction l with
  | nil => rfl
  | cons e l ih =>
    by_cases he : f e.2 = true
    · have hP : P e.2 = false := by
        cases hp : P e.2 with
        | false => rfl
        | true => rw [hf _ hp] at he; cases he
      rw [List.filter_cons_of_neg (by simp [he]), ih]
      by_cases hu : e.1 = u
      · simp [due, hu, hP]
      · simp [due, hu]
    · rw [List.filter_cons_of_pos (by simpa using he)]
      by_cases hu : e.1 = u
      · simp only [due, hu, beq_self_eq_true, List.filter_cons_of_pos, List.map_cons] at ih ⊢
        rw [List.filter_cons, List.filter_cons, ih]
      · simpa [due, hu] using ih

/-- what one event changes of the account of cycle `u` -/
theorem account_ev (i u : Nat) (P : α → Bool) (v : View α) (e : Ev α)
    (hg : ∀ w x, e = .got i w x → v.way.find? (fun e => e.1 == w) = some (w, x))
    (hc : ∀ is f, e = .cancel is f → i ∈ is → ∀ x, P x = true → f x = false) :
    ((gotAt i u [e]) ++ due u (v.ev i e).way).filter P = (due u v.way ++ sentAt i u [e]).filter P := by
  cases e with
  | bound => simp [gotAt, sentAt, View.ev]
  | ended => simp only [gotAt, sentAt, View.ev]; split <;> simp
  | taken => simp only [gotAt, sentAt, View.ev]; split <;> simp
  | direct => simp only [gotAt, sentAt, View.ev]; split <;> simp
  | sent j w x =>
    by_cases hj : j = i
    · subst hj
      by_cases hw : w = u
      · subst hw; simp [gotAt, sentAt, View.ev, due]
      · simp [gotAt, sentAt, View.ev, due, hw]
    · simp [gotAt, sentAt, View.ev, hj]
  | got j w x =>
    by_cases hj : j = i
    · subst hj
      have hf := hg w x rfl
      by_cases hw : w = u
      · subst hw
        rw [due_erase hf]
        simp [gotAt, sentAt, View.ev]
      · simp [gotAt, sentAt, View.ev, hw, due_erase_ne hw]
    · simp [gotAt, sentAt, View.ev, hj]
  | cancel is f =>
    by_cases hi : i ∈ is
    · have := due_filter u f P (hc is f rfl hi) v.way
      simp [gotAt, sentAt, View.ev, hi, this]
    · simp [gotAt, sentAt, View.ev, hi]

theorem evOf_short (now : Nat) (cfg : Config) (outs : Nat → List Nat) (stack : List (Frame α)) (o : Op α) (r : Res α) :
    evOf now cfg outs stack o r = [] ∨ ∃ e, evOf now cfg outs stack o r = [e] := by
  cases o <;> cases r <;> first | exact .inl rfl | exact .inr ⟨_, rfl⟩ | skip
  · show (match stack with | .sending x d (i :: _) :: _ => [Ev.sent i (now + (d + cfg.delay i)) x] | _ => [] : List (Ev α)) = [] ∨
      ∃ e, (match stack with | .sending x d (i :: _) :: _ => [Ev.sent i (now + (d + cfg.delay i)) x] | _ => [] : List (Ev α)) = [e]
    split
    · exact .inr ⟨_, rfl⟩
    · exact .inl rfl
  · show (match stack with | .event i :: _ => [Ev.ended i] | _ => [] : List (Ev α)) = [] ∨
      ∃ e, (match stack with | .event i :: _ => [Ev.ended i] | _ => [] : List (Ev α)) = [e]
    split
    · exact .inr ⟨_, rfl⟩
    · exact .inl rfl

/-- the account of a whole history -/
theorem account (i u : Nat) (P : α → Bool) (os : List (Op α)) (s : Sys α) (t : Spec α) (r : Rep s t)
    (hl : legalOps Spec.step Spec.legal t os)
    (hc : ∀ is f, Ev.cancel is f ∈ hist s os → i ∈ is → ∀ x, P x = true → f x = false) :
    (gotAt i u (hist s os) ++ due u ((runOps Spec.step t os).1.ins i).pending).filter P =
      (due u (t.ins i).pending ++ sentAt i u (hist s os)).filter P := by
  induction os generalizing s t with
  | nil => simp [hist, gotAt, sentAt, runOps]
  | cons o os ih =>
    obtain ⟨r', hr⟩ := rep_step s t o r hl.1
    have hh : hist s (o :: os) = evOf t.now t.cfg t.outs t.stack o (t.step o).2 ++ hist (s.step o).1 os := by
      show evOf _ _ _ _ o _ ++ _ = _
      rw [evOf_eq r o hr]
    have ih' := ih (s.step o).1 (t.step o).1 r' hl.2 (fun is f hm => hc is f (by rw [hh]; exact List.mem_append_right _ hm))
    have hrun : (runOps Spec.step t (o :: os)).1 = (runOps Spec.step (t.step o).1 os).1 := rfl
    rw [hrun, hh]
    have hv := step_view t o i
    have hg := got_first t o i
    have hc' : ∀ is f, Ev.cancel is f ∈ evOf t.now t.cfg t.outs t.stack o (t.step o).2 → i ∈ is → ∀ x, P x = true → f x = false :=
      fun is f hm => hc is f (by rw [hh]; exact List.mem_append_left _ hm)
    generalize hist (s.step o).1 os = H at ih' ⊢
    generalize ((runOps Spec.step (t.step o).1 os).1.ins i).pending = L at ih' ⊢
    have e1 : ∀ a b : List (Ev α), gotAt i u (a ++ b) = gotAt i u a ++ gotAt i u b := fun a b => List.filterMap_append
    have e2 : ∀ a b : List (Ev α), sentAt i u (a ++ b) = sentAt i u a ++ sentAt i u b := fun a b => List.filterMap_append
    rcases evOf_short t.now t.cfg t.outs t.stack o (t.step o).2 with he | ⟨e, he⟩
    · rw [he] at hv ⊢
      have : ((t.step o).1.ins i).pending = (t.ins i).pending := congrArg View.way hv
      rw [this] at ih'
      exact ih'
    · rw [he] at hv hg hc' ⊢
      have hw : ((t.step o).1.ins i).pending = ((sview (t.ins i)).ev i e).way := congrArg View.way hv
      have ha := account_ev i u P (sview (t.ins i)) e (fun w x h => hg w x (by rw [h]; exact List.mem_singleton_self _))
        (fun is f h => hc' is f (by rw [h]; exact List.mem_singleton_self _))
      rw [← hw] at ha
      rw [e1, e2, List.append_assoc, List.filter_append, ih', ← List.filter_append, ← List.append_assoc, List.filter_append, ha,
        ← List.filter_append, List.append_assoc]
      rfl

/-- cancelled data is not delivered later -/
theorem never (i : Nat) (P : α → Bool) (os : List (Op α)) (s : Sys α) (t : Spec α) (r : Rep s t)
    (hl : legalOps Spec.step Spec.legal t os) (h0 : ∀ e ∈ (t.ins i).pending, P e.2 = false)
    (hs : ∀ u x, Ev.sent i u x ∈ hist s os → P x = false) : ∀ u x, Ev.got i u x ∈ hist s os → P x = false := by
  induction os generalizing s t with
  | nil => intro u x h; cases h
  | cons o os ih =>
    obtain ⟨r', hr⟩ := rep_step s t o r hl.1
    have hh : hist s (o :: os) = evOf t.now t.cfg t.outs t.stack o (t.step o).2 ++ hist (s.step o).1 os := by
      show evOf _ _ _ _ o _ ++ _ = _
      rw [evOf_eq r o hr]
    rw [hh] at hs
    have ih' := ih (s.step o).1 (t.step o).1 r' hl.2 (fun e he => by
      have he : e ∈ (sview ((t.step o).1.ins i)).way := he
      rw [step_view] at he
      rcases way_mem i _ _ e he with h | h
      · exact h0 e h
      · exact hs e.1 e.2 (List.mem_append_left _ h)) (fun u x h => hs u x (List.mem_append_right _ h))
    intro u x h
    rw [hh, List.mem_append] at h
    rcases h with h | h
    · exact h0 _ (List.mem_of_find?_eq_some (got_first t o i u x h))
    · exact ih' u x h

/-- one round of `send` -/
theorem cont_spec (t : Spec α) (x : α) (d i : Nat) (rest : List Nat) (st : List (Frame α)) (hst : t.stack = .sending x d (i :: rest) :: st) :
    t.send = if d + t.cfg.delay i = 0 ∧ t.cfg.phase i < t.phase then ({ t with stack := st }, .threw)
      else if d + t.cfg.delay i = 0 ∧ t.cfg.phase i = t.phase then
        ({ t.setIn i { t.ins i with data := some (x, t.now) } with stack := .direct i :: .sending x d rest :: st }, .deliver i x)
      else if (t.ins i).count + 1 < t.cfg.cap then
        ({ t.setIn i { t.ins i with pending := (t.ins i).pending ++ [(t.now + (d + t.cfg.delay i), x)] } with stack := .sending x d rest :: st }, .done)
      else ({ t with stack := st }, .threw) := by
  have h2 : t.send = match t.sendTo x d i with
      | (s', _, false) => ({ s' with stack := st }, .threw)
      | (s', true, true) => ({ s' with stack := .direct i :: .sending x d rest :: st }, .deliver i x)
      | (s', false, true) => ({ s' with stack := .sending x d rest :: st }, .done) := by
    unfold Spec.send; rw [hst]
    dsimp only
    rcases t.sendTo x d i with ⟨_, _ | _, _ | _⟩ <;> rfl
  have hs : t.sendTo x d i = if d + t.cfg.delay i = 0 ∧ t.cfg.phase i < t.phase then (t, false, false)
      else if d + t.cfg.delay i = 0 ∧ t.cfg.phase i = t.phase then (t.setIn i { t.ins i with data := some (x, t.now) }, true, true)
      else if (t.ins i).count + 1 < t.cfg.cap then
        (t.setIn i { t.ins i with pending := (t.ins i).pending ++ [(t.now + (d + t.cfg.delay i), x)] }, false, true)
      else (t, false, false) := rfl
  by_cases c1 : d + t.cfg.delay i = 0 ∧ t.cfg.phase i < t.phase
  · rw [h2, hs, if_pos c1, if_pos c1]
  rw [if_neg c1] at hs
  by_cases c2 : d + t.cfg.delay i = 0 ∧ t.cfg.phase i = t.phase
  · rw [h2, hs, if_pos c2, if_neg c1, if_pos c2]
  rw [if_neg c2] at hs
  by_cases c3 : (t.ins i).count + 1 < t.cfg.cap
  · rw [h2, hs, if_pos c3, if_neg c1, if_neg c2, if_pos c3]
  · rw [h2, hs, if_neg c3, if_neg c1, if_neg c2, if_neg c3]

/-- the loop of `send` over in ports that take the data later -/
theorem loop (x : α) (d : Nat) (st : List (Frame α)) : ∀ (rest : List Nat) (s : Sys α) (t : Spec α), Rep s t →
    t.stack = .sending x d rest :: st → rest.Nodup → (∀ i ∈ rest, 0 < d + t.cfg.delay i ∧ (t.ins i).count + 1 < t.cfg.cap) →
    hist s (List.replicate (rest.length + 1) .cont) = rest.map (fun i => .sent i (t.now + (d + t.cfg.delay i)) x) ∧
      (runOps Sys.step s (List.replicate (rest.length + 1) .cont)).2 = List.replicate (rest.length + 1) .done ∧
      (runOps Sys.step s (List.replicate (rest.length + 1) .cont)).1.stack = st
  | [], s, t, r, hst, _, _ => by
    obtain ⟨r', hr⟩ := rep_step s t .cont r trivial
    have h2 : t.step .cont = ({ t with stack := st }, .done) := by show t.send = _; unfold Spec.send; rw [hst]
    rw [h2] at r' hr
    refine ⟨?_, ?_, r'.stack⟩
    · show evOf _ _ _ _ .cont _ ++ [] = []
      rw [hr, r.stack, hst]; rfl
    · show [(s.step .cont).2] = [.done]
      rw [hr]
  | i :: rest, s, t, r, hst, hn, hok => by
    obtain ⟨r', hr⟩ := rep_step s t .cont r trivial
    have hi := hok i List.mem_cons_self
    have h2 : t.step .cont = ({ t.setIn i { t.ins i with pending := (t.ins i).pending ++ [(t.now + (d + t.cfg.delay i), x)] } with stack := .sending x d rest :: st }, .done) := by
      show t.send = _
      rw [cont_spec t x d i rest st hst, if_neg (by omega), if_neg (by omega), if_pos hi.2]
    rw [h2] at r' hr
    rw [List.nodup_cons] at hn
    obtain ⟨a, b, c⟩ := loop x d st rest _ _ r' rfl hn.2 (fun j hj => by
      have hne : j ≠ i := fun hc => hn.1 (hc ▸ hj)
      have := hok j (List.mem_cons_of_mem _ hj)
      refine ⟨this.1, ?_⟩
      show (upd t.ins i _ j).count + 1 < _
      rw [upd_other _ _ hne]
      exact this.2)
    refine ⟨?_, ?_, ?_⟩
    · show evOf _ _ _ _ .cont (s.step .cont).2 ++ hist (s.step .cont).1 (List.replicate (rest.length + 1) .cont) = _
      rw [a, hr, r.stack, hst, r.now, r.cfg]
      rfl
    · show (s.step .cont).2 :: (runOps Sys.step (s.step .cont).1 (List.replicate (rest.length + 1) .cont)).2 = _
      rw [b, hr]
      rfl
    · exact c

/-- without a handler called by its event, no data of the in port is being handled -/
theorem cur_none {s : Sys α} {t : Spec α} (r : Rep s t) (i : Nat) (h : .event i ∉ s.stack) : (t.ins i).cur = none := by
  rw [r.stack] at h
  obtain ⟨ps, _, ir⟩ := r.pe i
  have hc : (evs t.stack).contains i = false := by
    cases hc : (evs t.stack).contains i with
    | false => rfl
    | true =>
      rw [List.contains_iff_mem] at hc
      unfold evs at hc
      rw [List.mem_filterMap] at hc
      obtain ⟨f, hf, he⟩ := hc
      cases f with
      | event j => obtain rfl := Option.some.inj he; exact absurd hf h
      | _ => cases he
  rw [hc] at ir
  have hr : ps.running = none := by
    have := ir.run
    cases h : ps.running with
    | none => rfl
    | some k => rw [h] at this; cases this
  rw [ir.cur, hr]; rfl

end Sparta.DataPort
