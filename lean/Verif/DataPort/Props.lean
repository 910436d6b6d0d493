import Verif.DataPort.Lemmas4
/-!
Properties of data ports (C119-C123): any number of out ports, in ports and bindings, any history of calls by the user, by handlers and by the
scheduler. `events` is what an observer of the history sees, `view i` what follows from it for in port `i` (Trace.lean).
-/
namespace Sparta.DataPort

variable {α : Type}

abbrev Legal (cfg : Config) (os : List (Op α)) : Prop := legalOps Spec.step Spec.legal (Spec.init α cfg) os
abbrev after (cfg : Config) (os : List (Op α)) : Sys α := (runOps Sys.step (Sys.init α cfg) os).1
abbrev results (cfg : Config) (os : List (Op α)) : List (Res α) := (runOps Sys.step (Sys.init α cfg) os).2
abbrev events (cfg : Config) (os : List (Op α)) : List (Ev α) := hist (Sys.init α cfg) os

/-- the results of every history are those of the specification -/
theorem C119_refines_partial (cfg : Config) (os : List (Op α)) (hl : Legal cfg os) :
    results cfg os = (runOps Spec.step (Spec.init α cfg) os).2 :=
  (runOps_simulation_legal Sys.step Spec.step Spec.legal Rep rep_step _ _ (rep_init cfg) os hl).2

/-- C119: when the scheduler runs the delivery event of an in port, the handler is called with the first of the data due in this cycle, in the order
of the sends; it is not called when none is due. -/
theorem C119_delivered_partial (cfg : Config) (os : List (Op α)) (hl : Legal cfg os) (i : Nat)
    (h : ((after cfg os).step (.fire i)).2 ≠ .busy) :
    ((after cfg os).step (.fire i)).2 =
      ((view i (events cfg os)).way.find? fun e => e.1 == (after cfg os).now).elim .idle fun e => .deliver i e.2 := by
  have R := reach cfg os hl
  obtain ⟨_, hr⟩ := rep_step _ _ (.fire i) R.rep trivial
  rw [← R.seen i, R.rep.now]
  rw [hr] at h ⊢
  have hs : ∀ t : Spec α, t.step (.fire i) = if t.stack.isEmpty then t.fire i else (t, .busy) := fun _ => rfl
  generalize (runOps Spec.step (Spec.init α cfg) os).1 = t at h ⊢
  rw [hs] at h ⊢
  split at h
  · rename_i he
    rw [if_pos he]
    unfold Spec.fire at h ⊢
    split at h
    · rename_i hc
      rw [if_pos hc, takeDue_find]
      show _ = ((t.ins i).pending.find? _).elim _ _
      cases (t.ins i).pending.find? fun e => e.1 == t.now with
      | none => rfl
      | some e => rfl
    · exact absurd rfl h
  · exact absurd rfl h

/-- C119: the cycle does not end, nor the phase of the in port, before the data due in it is delivered. -/
theorem C119_in_time_partial (cfg : Config) (os : List (Op α)) (hl : Legal cfg os) (i : Nat) (e : Nat × α)
    (he : e ∈ (view i (events cfg os)).way) :
    (after cfg os).now ≤ e.1 ∧ (cfg.phase i < (after cfg os).phase → (after cfg os).now < e.1) := by
  have R := reach cfg os hl
  rw [← R.seen i] at he
  rw [R.rep.now, R.rep.phase]
  refine ⟨R.due i e he, fun hp => R.over i ?_ e he⟩
  rw [R.cfgEq]; exact hp

/-- C119: without cancels of the in port, what its event has delivered in a cycle followed by what is still on its way for it is what was sent for
that cycle, in the order of the sends; after the cycle all of it was delivered. Nothing is lost, doubled, changed, or delivered in another cycle. -/
theorem C119_exactly_once_partial (cfg : Config) (os : List (Op α)) (hl : Legal cfg os) (i u : Nat)
    (hc : ∀ is f, Ev.cancel is f ∈ events cfg os → i ∉ is) :
    gotAt i u (events cfg os) ++ ((view i (events cfg os)).way.filter fun e => e.1 == u).map (·.2) = sentAt i u (events cfg os) ∧
      (u < (after cfg os).now → gotAt i u (events cfg os) = sentAt i u (events cfg os)) := by
  have R := reach cfg os hl
  have h := account i u (fun _ => true) os _ _ (rep_init (α := α) cfg) hl (fun is f hm hi => absurd hi (hc is f hm))
  have hf : ∀ l : List α, l.filter (fun _ => true) = l := fun l => List.filter_eq_self.2 fun _ _ => rfl
  rw [hf, hf] at h
  have h1 : gotAt i u (events cfg os) ++ ((view i (events cfg os)).way.filter fun e => e.1 == u).map (·.2) = sentAt i u (events cfg os) := by
    rw [← R.seen i]; exact h
  refine ⟨h1, fun hu => ?_⟩
  have : (view i (events cfg os)).way.filter (fun e => e.1 == u) = [] := by
    rw [List.filter_eq_nil_iff]
    intro e he hc
    have := (C119_in_time_partial cfg os hl i e he).1
    have hc : e.1 = u := by simpa using hc
    omega
  rw [this, List.map_nil, List.append_nil] at h1
  exact h1

/-- C119: what `send` does with each bound in port: refused when the data should arrive in this cycle and the phase of the in port is over; handed to
its handler at once when it should arrive in this phase; else it is accepted, if fewer than the capacity less two are on their way. -/
theorem C119_each_port_partial (cfg : Config) (os : List (Op α)) (hl : Legal cfg os) (x : α) (d i : Nat) (rest : List Nat) (st : List (Frame α))
    (hst : (after cfg os).stack = .sending x d (i :: rest) :: st) :
    (d + cfg.delay i = 0 ∧ cfg.phase i < (after cfg os).phase → ((after cfg os).step .cont).2 = .threw) ∧
    (d + cfg.delay i = 0 ∧ cfg.phase i = (after cfg os).phase →
      ((after cfg os).step .cont).2 = .deliver i x ∧ events cfg (os ++ [.cont]) = events cfg os ++ [.direct i (after cfg os).now x]) ∧
    (0 < d + cfg.delay i ∨ (after cfg os).phase < cfg.phase i → (view i (events cfg os)).way.length + 2 < cfg.cap →
      ((after cfg os).step .cont).2 = .done ∧
        events cfg (os ++ [.cont]) = events cfg os ++ [.sent i ((after cfg os).now + (d + cfg.delay i)) x]) := by
  have R := reach cfg os hl
  obtain ⟨_, hr⟩ := rep_step _ _ .cont R.rep trivial
  have he : events cfg (os ++ [.cont]) = events cfg os ++ evOf (after cfg os).now (after cfg os).cfg (after cfg os).outs (after cfg os).stack .cont ((after cfg os).step .cont).2 := by
    show hist _ _ = _
    rw [hist_append]
    show _ ++ (_ ++ []) = _
    rw [List.append_nil]
  have hcfg : (after cfg os).cfg = cfg := R.rep.cfg.trans R.cfgEq
  rw [he, hcfg, hst]
  have hst' := R.rep.stack.symm.trans hst
  have hsp := cont_spec _ x d i rest st hst'
  have hr : ((after cfg os).step .cont).2 = ((runOps Spec.step (Spec.init α cfg) os).1.send).2 := hr
  rw [hsp] at hr
  have hph : (after cfg os).phase = (runOps Spec.step (Spec.init α cfg) os).1.phase := R.rep.phase
  have hcnt : (((runOps Spec.step (Spec.init α cfg) os).1).ins i).count ≤ (view i (events cfg os)).way.length + 1 := by
    rw [← R.seen i]
    unfold SIn.count
    show _ ≤ ((runOps Spec.step (Spec.init α cfg) os).1.ins i).pending.length + 1
    cases ((runOps Spec.step (Spec.init α cfg) os).1.ins i).cur <;> simp
  rw [R.cfgEq, ← hph] at hr
  clear hsp hst' hph
  generalize (after cfg os).phase = k at hr ⊢
  generalize (view i (events cfg os)).way.length = l at hcnt ⊢
  generalize (((runOps Spec.step (Spec.init α cfg) os).1).ins i).count = c at hcnt hr
  refine ⟨fun h => ?_, fun h => ?_, fun h hc => ?_⟩
  · rw [if_pos h] at hr; exact hr
  · rw [if_neg (by omega), if_pos h] at hr
    rw [hr]; exact ⟨rfl, rfl⟩
  · rw [if_neg (by omega), if_neg (by omega), if_pos (by omega)] at hr
    rw [hr]; exact ⟨rfl, rfl⟩

/-- C119: `send` with a delay passes the data on to every in port the out port is bound to, exactly once, in the order of the bindings. -/
theorem C119_all_ports_partial (cfg : Config) (os : List (Op α)) (o : Nat) (x : α) (d : Nat) (hl : Legal cfg (os ++ [.send o x d]))
    (hs : sending (after cfg os).stack = false) (hb : boundTo o (events cfg os) ≠ [])
    (hok : ∀ i ∈ boundTo o (events cfg os), 0 < d + cfg.delay i ∧ (view i (events cfg os)).way.length + 2 < cfg.cap) :
    let cs := Op.send o x d :: List.replicate ((boundTo o (events cfg os)).length + 1) .cont
    events cfg (os ++ cs) = events cfg os ++ (boundTo o (events cfg os)).map (fun i => .sent i ((after cfg os).now + (d + cfg.delay i)) x) ∧
      results cfg (os ++ cs) = results cfg os ++ List.replicate ((boundTo o (events cfg os)).length + 2) .done ∧
      (after cfg (os ++ cs)).stack = (after cfg os).stack := by
  intro cs
  obtain ⟨hl1, hl2⟩ := legalOps_append _ hl
  have R := reach cfg os hl1
  obtain ⟨r', hr⟩ := rep_step _ _ (.send o x d) R.rep hl2.1
  have hcnt : ∀ i, (((runOps Spec.step (Spec.init α cfg) os).1).ins i).count ≤ (view i (events cfg os)).way.length + 1 := by
    intro i
    rw [← R.seen i]
    unfold SIn.count
    show _ ≤ ((runOps Spec.step (Spec.init α cfg) os).1.ins i).pending.length + 1
    cases ((runOps Spec.step (Spec.init α cfg) os).1.ins i).cur <;> simp
  have hap : (after cfg (os ++ cs)) = (runOps Sys.step (after cfg os) cs).1 := runOps_append _ _ _ _
  have hap2 : results cfg (os ++ cs) = results cfg os ++ (runOps Sys.step (after cfg os) cs).2 := runOps_append_snd _ _ _ _
  have hap3 : events cfg (os ++ cs) = events cfg os ++ hist (after cfg os) cs := hist_append _ _ _
  rw [hap, hap2, hap3]
  have ho := R.outs o
  have hnd := R.rep.outsNd o
  have hnow := R.rep.now
  have hcf := R.cfgEq
  have hstk := R.rep.stack
  have hst : (runOps Spec.step (Spec.init α cfg) os).1.step (.send o x d) =
      ({ (runOps Spec.step (Spec.init α cfg) os).1 with stack := .sending x d (boundTo o (events cfg os)) :: (after cfg os).stack }, .done) := by
    show (if sending (runOps Spec.step (Spec.init α cfg) os).1.stack then _ else Spec.user _ _) = _
    rw [← hstk, hs]
    show (if (runOps Spec.step (Spec.init α cfg) os).1.outs o = [] then _ else _) = _
    rw [ho, if_neg hb, ← hstk]
  rw [hst] at r' hr
  rw [ho] at hnd
  obtain ⟨a, b, c⟩ := loop x d _ _ _ _ r' rfl hnd (fun i hi => by
    have h1 := hok i hi
    have h2 := hcnt i
    show 0 < d + (runOps Spec.step (Spec.init α cfg) os).1.cfg.delay i ∧ (((runOps Spec.step (Spec.init α cfg) os).1).ins i).count + 1 < (runOps Spec.step (Spec.init α cfg) os).1.cfg.cap
    rw [hcf]
    exact ⟨h1.1, by omega⟩)
  refine ⟨?_, ?_, c⟩
  · congr 1
    show evOf _ _ _ _ (.send o x d) ((after cfg os).step (.send o x d)).2 ++ hist _ (List.replicate _ .cont) = _
    rw [a, hr]
    show List.map (fun i => Ev.sent i ((runOps Spec.step (Spec.init α cfg) os).1.now + (d + (runOps Spec.step (Spec.init α cfg) os).1.cfg.delay i)) x) _ = _
    rw [hcf, ← hnow]
  · congr 1
    have hc : (runOps Sys.step (after cfg os) cs).2 = ((after cfg os).step (.send o x d)).2 ::
      (runOps Sys.step ((after cfg os).step (.send o x d)).1 (List.replicate ((boundTo o (events cfg os)).length + 1) .cont)).2 := rfl
    rw [hc, b, hr]
    rfl

/-- two in ports: the first with delay 1 and the default phase, the second with delay 0 in the tick phase -/
def demo : Config := ⟨2, fun i => if i = 0 then 1 else 0, fun i => defaultPhase (if i = 0 then 1 else 0), fun _ => 1, fun _ => 1, 1100⟩

def demoOps : List (Op Nat) :=
  [.bind 0 0, .bind 0 1, .send 0 7 1, .cont, .cont, .cont, .send 0 8 1, .cont, .cont, .cont, .next, .toPhase 5, .fire 1, .ret, .fire 1, .ret,
    .next, .toPhase 2, .fire 0, .ret]

example : Legal demo demoOps ∧
    results demo demoOps = [.done, .done, .done, .done, .done, .done, .done, .done, .done, .done, .done, .done, .deliver 1 7, .done, .deliver 1 8, .done,
      .done, .done, .deliver 0 7, .done] ∧
    ((after demo demoOps).step (.fire 0)).2 = .deliver 0 8 ∧ (view 0 (events demo demoOps)).way = [(2, 8)] ∧ (after demo demoOps).now = 2 ∧
    gotAt 0 2 (events demo demoOps) = [7] ∧ sentAt 0 2 (events demo demoOps) = [7, 8] ∧ gotAt 1 1 (events demo demoOps) = [7, 8] := by
  decide +kernel

example : Legal demo ([.bind 0 0, .bind 0 1, .send 0 7 1, .cont, .cont, .cont, .toPhase 5] ++ [.send 0 9 3] : List (Op Nat)) ∧
    boundTo 0 (events demo ([.bind 0 0, .bind 0 1, .send 0 7 1, .cont, .cont, .cont, .toPhase 5] : List (Op Nat))) = [0, 1] := by
  decide +kernel

/-- C119: a send without delay in the phase of the in port calls the handler at once; in a later phase it is refused. -/
example : results demo [.bind 0 1, .toPhase 5, .send 0 7 0, .cont, .ret, .cont, .toPhase 6, .send 0 8 0, .cont] =
    [.done, .done, .done, .deliver 1 7, .done, .done, .done, .done, .threw] ∧
    (after demo [.bind 0 1, .toPhase 5, .send 0 7 0] : Sys Nat).stack = [.sending 7 0 [1]] := by
  refine ⟨by decide +kernel, rfl⟩

/-- C119 fails for delays of 2^32 cycles and more: the total delay is kept in 32 bits. Sent with a delay of 2^32, the data arrives at once. -/
theorem C119_long_delay_violated :
    results demo [.bind 0 1, .toPhase 5, .send 0 7 (2 ^ 32), .cont] = [.done, .done, .done, .deliver 1 7] := by
  decide +kernel

/-- C119 fails: data sent without delay overtakes data sent earlier for the same cycle: 8, sent in the phase of the in port, is handed over before 7. -/
theorem C119_overtaking_violated :
    results demo [.bind 0 1, .send 0 7 0, .cont, .cont, .toPhase 5, .send 0 8 0, .cont, .ret, .cont, .fire 1] =
      [.done, .done, .done, .done, .done, .done, .deliver 1 8, .done, .done, .deliver 1 7] := by
  decide +kernel

/-- C119 fails for `send` to several in ports when one of them refuses: those bound earlier get the data, those bound later do not. -/
theorem C119_refused_midway_violated :
    results ⟨3, fun i => if i = 0 then 1 else 0, fun i => if i = 1 then 3 else 5, fun _ => 1, fun _ => 1, 1100⟩
      [.bind 0 0, .bind 0 1, .bind 0 2, .toPhase 5, .send 0 7 0, .cont, .cont, .cont, .drivenIn 0, .drivenIn 1, .drivenIn 2, .received 2] =
      [.done, .done, .done, .done, .done, .done, .threw, .busy, .yes true, .yes false, .yes false, .yes false] := by
  decide +kernel

/-! C120 -/

/-- C120: outside of the handler called by the event of the in port, `cancel` and `cancelIf` return the number of data taken away. -/
theorem C120_count_partial (cfg : Config) (os : List (Op α)) (hl : Legal cfg os) (i : Nat) (f : α → Bool)
    (hs : sending (after cfg os).stack = false) (hh : .event i ∉ (after cfg os).stack) :
    ((after cfg os).step (.cancelIn i)).2 = .num (view i (events cfg os)).way.length ∧
      ((after cfg os).step (.cancelIfIn i f)).2 = .num ((view i (events cfg os)).way.countP fun e => f e.2) := by
  have R := reach cfg os hl
  obtain ⟨_, hr1⟩ := rep_step _ _ (.cancelIn i) R.rep trivial
  obtain ⟨_, hr2⟩ := rep_step _ _ (.cancelIfIn i f) R.rep trivial
  have hcur := cur_none R.rep i hh
  rw [← R.seen i, hr1, hr2]
  rw [R.rep.stack] at hs
  generalize (runOps Spec.step (Spec.init α cfg) os).1 = t at hs hcur ⊢
  constructor
  · show (if sending t.stack then (t, .busy) else t.user (.cancelIn i)).2 = _
    rw [hs]
    show Res.num ((t.ins i).pending.countP (fun _ => true) + (t.ins i).cur.toList.countP fun _ => true) = .num (t.ins i).pending.length
    rw [hcur, List.countP_true]; rfl
  · show (if sending t.stack then (t, .busy) else t.user (.cancelIfIn i f)).2 = _
    rw [hs]
    show Res.num ((t.ins i).pending.countP (fun e => f e.2) + (t.ins i).cur.toList.countP f) = .num ((t.ins i).pending.countP fun e => f e.2)
    rw [hcur]; rfl

/-- C120: on an out port they return the sum over the in ports it is bound to, modulo 2^32. -/
theorem C120_count_out_partial (cfg : Config) (os : List (Op α)) (hl : Legal cfg os) (o : Nat) (f : α → Bool)
    (hs : sending (after cfg os).stack = false) (hh : ∀ i, .event i ∉ (after cfg os).stack) :
    ((after cfg os).step (.cancelOut o)).2 = .num (((boundTo o (events cfg os)).map fun i => (view i (events cfg os)).way.length).sum % 2 ^ 32) ∧
      ((after cfg os).step (.cancelIfOut o f)).2 =
        .num (((boundTo o (events cfg os)).map fun i => (view i (events cfg os)).way.countP fun e => f e.2).sum % 2 ^ 32) := by
  have R := reach cfg os hl
  obtain ⟨_, hr1⟩ := rep_step _ _ (.cancelOut o) R.rep trivial
  obtain ⟨_, hr2⟩ := rep_step _ _ (.cancelIfOut o f) R.rep trivial
  have hcur := fun i => cur_none R.rep i (hh i)
  have hse := R.seen
  have hou := R.outs o
  rw [hr1, hr2]
  rw [R.rep.stack] at hs
  rw [← hou]
  generalize (runOps Spec.step (Spec.init α cfg) os).1 = t at hs hcur hse ⊢
  constructor
  · show (if sending t.stack then (t, .busy) else t.user (.cancelOut o)).2 = _
    rw [hs]
    show Res.num (((t.outs o).map fun i => (t.ins i).cancelCount fun _ => true).sum % half) = _
    have : (fun i => (t.ins i).cancelCount fun _ => true) = fun i => (view i (events cfg os)).way.length := by
      funext i
      rw [← hse i]
      show (t.ins i).pending.countP (fun _ => true) + (t.ins i).cur.toList.countP (fun _ => true) = (t.ins i).pending.length
      rw [hcur, List.countP_true]; rfl
    rw [this]; rfl
  · show (if sending t.stack then (t, .busy) else t.user (.cancelIfOut o f)).2 = _
    rw [hs]
    show Res.num (((t.outs o).map fun i => (t.ins i).cancelCount f).sum % half) = _
    have : (fun i => (t.ins i).cancelCount f) = fun i => (view i (events cfg os)).way.countP fun e => f e.2 := by
      funext i
      rw [← hse i]
      show (t.ins i).pending.countP (fun e => f e.2) + (t.ins i).cur.toList.countP f = (t.ins i).pending.countP fun e => f e.2
      rw [hcur]; rfl
    rw [this]; rfl

/-- C120: data cancelled for in port `i` is never delivered by its event: after `cancelIf` no data that satisfies the predicate arrives unless
such data is sent again. -/
theorem C120_never_delivered (cfg : Config) (os more : List (Op α)) (i : Nat) (f : α → Bool)
    (hl : Legal cfg (os ++ .cancelIfIn i f :: more)) (hs : sending (after cfg os).stack = false)
    (hm : ∀ u x, Ev.sent i u x ∈ hist (after cfg (os ++ [.cancelIfIn i f])) more → f x = false) (u : Nat) (x : α)
    (hg : Ev.got i u x ∈ hist (after cfg (os ++ [.cancelIfIn i f])) more) : f x = false := by
  have hl' : Legal cfg ((os ++ [.cancelIfIn i f]) ++ more) := by rw [List.append_assoc]; exact hl
  obtain ⟨hl1, hl2⟩ := legalOps_append _ hl'
  have R := reach cfg _ hl1
  refine never i f more _ _ R.rep hl2 (fun e he => ?_) hm u x hg
  obtain ⟨hl3, _⟩ := legalOps_append _ hl1
  have R0 := reach cfg _ hl3
  rw [runOps_append] at he
  rw [R0.rep.stack] at hs
  generalize (runOps Spec.step (Spec.init α cfg) os).1 = t at hs he
  have he : e ∈ ((if sending t.stack then (t, .busy) else t.user (.cancelIfIn i f)).1.ins i).pending := he
  rw [hs] at he
  have he : e ∈ (upd t.ins i ((t.ins i).cancel f) i).pending := he
  rw [upd_same] at he
  have := (List.mem_filter.1 he).2
  simpa using this

/-- C120: data that no cancel picks is delivered: for every `P` such that no cancel of the in port picks data satisfying `P`, the data satisfying
`P` sent for a cycle is delivered in it, in order, exactly once. -/
theorem C120_others_delivered_partial (cfg : Config) (os : List (Op α)) (hl : Legal cfg os) (i u : Nat) (P : α → Bool)
    (hc : ∀ is f, Ev.cancel is f ∈ events cfg os → i ∈ is → ∀ x, P x = true → f x = false) (hu : u < (after cfg os).now) :
    (gotAt i u (events cfg os)).filter P = (sentAt i u (events cfg os)).filter P := by
  have R := reach cfg os hl
  have h := account i u P os _ _ (rep_init (α := α) cfg) hl hc
  have hd : due u ((runOps Spec.step (Spec.init α cfg) os).1.ins i).pending = [] := by
    unfold due
    rw [List.map_eq_nil_iff, List.filter_eq_nil_iff]
    intro e he hc
    have := R.due i e he
    have hc : e.1 = u := by simpa using hc
    rw [R.rep.now] at hu
    omega
  rw [hd, List.append_nil] at h
  exact h

def demo2Ops : List (Op Nat) :=
  [.bind 0 0, .send 0 7 1, .cont, .cont, .send 0 8 1, .cont, .cont, .cancelIfIn 0 (· == 7), .next, .next, .toPhase 2, .fire 0, .ret, .next]

example : Legal demo demo2Ops ∧ results demo (demo2Ops.take 12) =
      [.done, .done, .done, .done, .done, .done, .done, .num 1, .done, .done, .done, .deliver 0 8] ∧
    gotAt 0 2 (events demo demo2Ops) = [8] ∧ sentAt 0 2 (events demo demo2Ops) = [7, 8] ∧ (after demo demo2Ops).now = 3 ∧
    sending (after demo (demo2Ops.take 7)).stack = false ∧ Legal demo (demo2Ops.take 7) := by
  decide +kernel

example : Frame.event 0 ∉ (after demo (demo2Ops.take 7)).stack := by
  have : (after demo (demo2Ops.take 7)).stack = [] := rfl
  rw [this]; exact List.not_mem_nil

/-- C120 fails: `cancel` on an out port also cancels what was sent through another out port bound to the same in port. -/
theorem C120_other_out_port_violated :
    results demo [.bind 0 0, .bind 1 0, .send 1 7 0, .cont, .cont, .cancelOut 0, .next, .toPhase 2, .fire 0] =
      [.done, .done, .done, .done, .done, .num 1, .done, .done, .idle] := by
  decide +kernel

/-- C120 fails inside the handler called by the event: the data it was called with is counted as cancelled, though it was delivered. -/
theorem C120_count_in_handler_violated :
    results demo [.bind 0 0, .send 0 7 0, .cont, .cont, .next, .toPhase 2, .fire 0, .cancelIn 0] =
      [.done, .done, .done, .done, .done, .done, .deliver 0 7, .num 1] := by
  decide +kernel

/-! C121 -/

/-- C121: `isDriven()` outside of handlers says whether data is on its way to the in port, or to any in port the out port is bound to. -/
theorem C121_driven_partial (cfg : Config) (os : List (Op α)) (hl : Legal cfg os) (i o : Nat)
    (hs : sending (after cfg os).stack = false) (hh : ∀ i, .event i ∉ (after cfg os).stack) :
    ((after cfg os).step (.drivenIn i)).2 = .yes !(view i (events cfg os)).way.isEmpty ∧
      ((after cfg os).step (.drivenOut o)).2 = .yes ((boundTo o (events cfg os)).any fun i => !(view i (events cfg os)).way.isEmpty) := by
  have R := reach cfg os hl
  obtain ⟨_, hr1⟩ := rep_step _ _ (.drivenIn i) R.rep trivial
  obtain ⟨_, hr2⟩ := rep_step _ _ (.drivenOut o) R.rep trivial
  have hcur := fun i => cur_none R.rep i (hh i)
  have hse := R.seen
  have hou := R.outs o
  rw [hr1, hr2]
  rw [R.rep.stack] at hs
  rw [← hou, ← hse i]
  generalize (runOps Spec.step (Spec.init α cfg) os).1 = t at hs hcur hse ⊢
  have hd : ∀ i, (t.ins i).driven = !(view i (events cfg os)).way.isEmpty := by
    intro i
    rw [← hse i]
    unfold SIn.driven
    rw [hcur]
    exact Bool.or_false _
  constructor
  · show (if sending t.stack then (t, .busy) else t.user (.drivenIn i)).2 = _
    rw [hs, hse i]
    show Res.yes (t.ins i).driven = _
    rw [hd]
  · show (if sending t.stack then (t, .busy) else t.user (.drivenOut o)).2 = _
    rw [hs]
    show Res.yes ((t.outs o).any fun i => (t.ins i).driven) = _
    congr 2
    funext i
    exact hd i

/-- C121: `isDriven(n)` says whether data arrives `n` cycles from now; for the current cycle when the event has not delivered in it yet. -/
theorem C121_driven_at_partial (cfg : Config) (os : List (Op α)) (i o rel : Nat) (hs : sending (after cfg os).stack = false) :
    (Legal cfg (os ++ [.drivenInAt i rel]) →
      ((after cfg os).step (.drivenInAt i rel)).2 = .yes ((view i (events cfg os)).way.any fun e => e.1 == (after cfg os).now + rel)) ∧
    (Legal cfg (os ++ [.drivenOutAt o rel]) →
      ((after cfg os).step (.drivenOutAt o rel)).2 =
        .yes ((boundTo o (events cfg os)).any fun i => (view i (events cfg os)).way.any fun e => e.1 == (after cfg os).now + rel)) := by
  constructor
  · intro hl
    obtain ⟨hl1, hl2⟩ := legalOps_append _ hl
    have R := reach cfg os hl1
    obtain ⟨_, hr⟩ := rep_step _ _ (.drivenInAt i rel) R.rep hl2.1
    rw [hr, ← R.seen i, R.rep.now]
    rw [R.rep.stack] at hs
    generalize (runOps Spec.step (Spec.init α cfg) os).1 = t at hs ⊢
    show (if sending t.stack then (t, .busy) else t.user (.drivenInAt i rel)).2 = _
    rw [hs]; rfl
  · intro hl
    obtain ⟨hl1, hl2⟩ := legalOps_append _ hl
    have R := reach cfg os hl1
    obtain ⟨_, hr⟩ := rep_step _ _ (.drivenOutAt o rel) R.rep hl2.1
    have hse := R.seen
    rw [hr, ← R.outs o, R.rep.now]
    rw [R.rep.stack] at hs
    generalize (runOps Spec.step (Spec.init α cfg) os).1 = t at hs hse ⊢
    show (if sending t.stack then (t, .busy) else t.user (.drivenOutAt o rel)).2 = _
    rw [hs]
    show Res.yes ((t.outs o).any fun i => (t.ins i).pending.any fun e => e.1 == t.now + rel) = _
    congr 2
    funext i
    rw [← hse i]; rfl

example : Legal demo ([.bind 0 0, .send 0 7 1, .cont, .cont] ++ [.drivenInAt 0 2] : List (Op Nat)) ∧
    results demo [.bind 0 0, .send 0 7 1, .cont, .cont, .drivenInAt 0 2, .drivenInAt 0 1, .drivenOutAt 0 2, .drivenOut 0, .next, .next, .toPhase 2, .fire 0,
      .ret, .drivenIn 0] =
      [.done, .done, .done, .done, .yes true, .yes false, .yes true, .yes true, .done, .done, .done, .deliver 0 7, .done, .yes false] := by
  decide +kernel

/-- C121 fails for the current cycle after a delivery in it: `isDriven(0)` still says yes when the next data, due later, was sent since. -/
theorem C121_current_cycle_violated :
    results demo [.bind 0 0, .send 0 7 0, .cont, .cont, .next, .toPhase 2, .fire 0, .ret, .drivenInAt 0 0, .send 0 8 3, .cont, .cont, .drivenInAt 0 0, .drivenInAt 0 4] =
      [.done, .done, .done, .done, .done, .done, .deliver 0 7, .done, .yes false, .done, .done, .done, .yes true, .yes true] := by
  decide +kernel

/-! C122 -/

/-- C122: a binding is made exactly when the two ports run at the same frequency and are not bound yet; a refused one changes nothing; the number of in
ports an out port is bound to is the number of its bindings, and no in port is bound twice to it. Sending through an out port without binding is refused. -/
theorem C122_bind (cfg : Config) (os : List (Op α)) (hl : Legal cfg os) (o i : Nat) (x : α)
    (hs : sending (after cfg os).stack = false) :
    ((after cfg os).step (.bind o i)).2 = (if cfg.ifreq i = cfg.ofreq o ∧ i ∉ boundTo o (events cfg os) then .done else .threw) ∧
      (((after cfg os).step (.bind o i)).2 = .threw → ((after cfg os).step (.bind o i)).1 = after cfg os) ∧
      ((after cfg os).step (.numBound o)).2 = .num (boundTo o (events cfg os)).length ∧ (boundTo o (events cfg os)).Nodup ∧
      (boundTo o (events cfg os) = [] → ∀ d, ((after cfg os).step (.send o x d)).2 = .threw) := by
  have R := reach cfg os hl
  have ho := R.outs o
  have hnd := R.rep.outsNd o
  rw [ho] at hnd
  have hos : (after cfg os).outs o = boundTo o (events cfg os) := by rw [R.rep.outs]; exact ho
  have hcf : (after cfg os).cfg = cfg := R.rep.cfg.trans R.cfgEq
  generalize after cfg os = s at hs hos hcf ⊢
  have hb : s.step (.bind o i) = s.bind o i := by
    show (if sending s.stack then (s, .busy) else s.bind o i) = _
    rw [hs]; rfl
  rw [hb]
  unfold Sys.bind
  rw [hcf, hos]
  refine ⟨?_, ?_, ?_, hnd, ?_⟩
  · by_cases h1 : cfg.ifreq i = cfg.ofreq o
    · by_cases h2 : i ∈ boundTo o (events cfg os)
      · rw [if_neg (by simpa using h1), if_pos (by simpa using h2), if_neg (fun h => h.2 h2)]
      · rw [if_neg (by simpa using h1), if_neg (by simpa using h2), if_pos ⟨h1, h2⟩]
    · rw [if_pos h1, if_neg (fun h => h1 h.1)]
  · intro h
    by_cases h1 : cfg.ifreq i = cfg.ofreq o
    · by_cases h2 : i ∈ boundTo o (events cfg os)
      · rw [if_neg (by simpa using h1), if_pos (by simpa using h2)]
      · rw [if_neg (by simpa using h1), if_neg (by simpa using h2)] at h
        cases h
    · rw [if_pos h1]
  · show (if sending s.stack then (s, .busy) else s.user (.numBound o)).2 = _
    rw [hs]
    show Res.num (s.outs o).length = _
    rw [hos]
  · intro h d
    show (if sending s.stack then (s, .busy) else s.user (.send o x d)).2 = _
    rw [hs]
    show (if (s.outs o).isEmpty then (s, Res.threw) else _).2 = _
    rw [hos, h]; rfl

example : Legal demo ([.bind 0 0, .bind 0 1] : List (Op Nat)) ∧
    results demo ([.bind 0 0, .bind 0 1, .bind 0 1, .numBound 0, .bind 1 1, .numBound 1, .send 2 7 0] : List (Op Nat)) =
      [.done, .done, .threw, .num 2, .done, .num 1, .threw] ∧
    results ⟨1, fun _ => 0, fun _ => 5, fun _ => 1, fun _ => 2, 1100⟩ ([.bind 0 0, .numBound 0] : List (Op Nat)) = [.threw, .num 0] := by
  decide +kernel

/-- Binding sets whether the in port keeps the simulation going to what the out port was set to: `setContinuing(false)` of the in port made
before the binding is forgotten. -/
theorem C122_continuing_overwritten_violated :
    results demo ([.setContIn 0 false, .isCont 0, .bind 0 0, .isCont 0] : List (Op Nat)) = [.done, .yes false, .done, .yes true] := by
  decide +kernel

/-! C123 -/

/-- C123: the data held by an in port is the one last handed to its handler, until it is pulled or cleared: `dataReceived`, `dataReceivedThisCycle`,
`peekData`, `pullData` and `getDataTimeStamp` agree with that, and the last three are refused when none is held. -/
theorem C123_held (cfg : Config) (os : List (Op α)) (hl : Legal cfg os) (i : Nat) (hs : sending (after cfg os).stack = false) :
    ((after cfg os).step (.received i)).2 = .yes (view i (events cfg os)).held.isSome ∧
    ((after cfg os).step (.receivedNow i)).2 = .yes ((view i (events cfg os)).held.any fun e => e.2 == (after cfg os).now) ∧
    ((after cfg os).step (.peek i)).2 = (view i (events cfg os)).held.elim .threw (fun e => .data e.1) ∧
    ((after cfg os).step (.pull i)).2 = (view i (events cfg os)).held.elim .threw (fun e => .data e.1) ∧
    ((after cfg os).step (.stamp i)).2 = (view i (events cfg os)).held.elim .threw (fun e => .num e.2) := by
  have R := reach cfg os hl
  obtain ⟨_, hr1⟩ := rep_step _ _ (.received i) R.rep trivial
  obtain ⟨_, hr2⟩ := rep_step _ _ (.receivedNow i) R.rep trivial
  obtain ⟨_, hr3⟩ := rep_step _ _ (.peek i) R.rep trivial
  obtain ⟨_, hr4⟩ := rep_step _ _ (.pull i) R.rep trivial
  obtain ⟨_, hr5⟩ := rep_step _ _ (.stamp i) R.rep trivial
  rw [hr1, hr2, hr3, hr4, hr5, ← R.seen i, R.rep.now]
  rw [R.rep.stack] at hs
  generalize (runOps Spec.step (Spec.init α cfg) os).1 = t at hs ⊢
  have hd : ∀ o : Op α, t.step o = (if sending t.stack then (t, .busy) else t.user o) → t.step o = t.user o := by
    intro o h; rw [h, hs]; rfl
  rw [hd (.received i) rfl, hd (.receivedNow i) rfl, hd (.peek i) rfl, hd (.pull i) rfl, hd (.stamp i) rfl]
  refine ⟨rfl, rfl, ?_, ?_, ?_⟩
  · show dataOf (t.ins i).data = (t.ins i).data.elim _ _
    cases (t.ins i).data <;> rfl
  · show dataOf (t.ins i).data = (t.ins i).data.elim _ _
    cases (t.ins i).data <;> rfl
  · show (match (t.ins i).data with | some e => Res.num e.2 | none => .threw) = (t.ins i).data.elim _ _
    cases (t.ins i).data <;> rfl

example : Legal demo demoOps ∧ (view 0 (events demo demoOps)).held = some (7, 2) ∧ (view 1 (events demo demoOps)).held = some (8, 1) ∧
    results demo (demoOps ++ [.receivedNow 0, .receivedNow 1, .received 1, .stamp 1, .pull 1, .received 1, .peek 1]) =
      results demo demoOps ++ [.yes true, .yes false, .yes true, .num 1, .data 8, .yes false, .threw] := by
  decide +kernel

end Sparta.DataPort
