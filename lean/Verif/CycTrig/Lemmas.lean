import Verif.CycTrig.Spec
namespace Sparta.CycTrig

/-- coupling; `k`: in a callback -/
structure Inv (s : St) (r : Ref) (k : Bool) : Prop where
  now : s.now = r.now
  fin : s.fin = r.fin
  started : s.started = r.started
  log : s.log = r.log
  alive : s.dead = false
  fired : s.hasFired = r.fired
  set : s.ct.set = r.active
  relP : s.ct.relP = (r.mode == some .rel)
  absP : s.ct.absP = (r.mode == some .abs)
  align : s.ct.align = r.align
  clk : r.mode.isSome = true → s.ct.clk = r.clk
  rel : r.mode = some .rel → s.ct.delay = r.val
  abs : r.mode = some .abs → s.ct.at_ = r.val
  startups : s.startups = if r.waiting then 1 else 0
  pend : s.pend = r.armed.toList ++ r.stale.toList
  one : r.armed.isSome = true → r.stale = none ∧ r.waiting = false
  wait : r.waiting = true → r.stale = none ∧ r.started = false
  moded : r.active = true → r.mode.isSome = true
  sf : r.started = true → r.fin = true
  sched : k = false → s.ct.sched = true → r.armed.isSome = true ∨ r.stale.isSome = true

theorem inv_init : Inv init rinit false := by
  constructor <;> simp [init, rinit, newCT, Ref.active]

theorem mult_dist (a b : Nat) (h : 0 < b) : (a / b + 1) * b - a = b - a % b := by
  have h1 := Nat.div_add_mod a b
  have h2 := Nat.mod_lt a h
  have h3 : (a / b + 1) * b = b * (a / b) + b := by rw [Nat.add_mul, Nat.one_mul, Nat.mul_comm]
  omega

/-- the time the code computes is the promised one -/
theorem delay_ok {per : Nat → Nat} {s : St} {r : Ref} {m : Mode} {c : CT} (h1 : s.now = r.now) (hm : r.mode = some m)
    (hr : c.relP = (r.mode == some .rel)) (ha : c.absP = (r.mode == some .abs)) (hal : c.align = r.align) (hc : c.clk = r.clk)
    (hrv : r.mode = some .rel → c.delay = r.val) (hav : r.mode = some .abs → c.at_ = r.val) (hok : r.reachable per m = true) :
    ∃ d, delayOf per s.now c = .ok d ∧ s.now + d * per c.clk = r.due per m := by
  unfold delayOf
  cases m with
  | rel =>
    rw [hr, hm]
    simp only [beq_self_eq_true, if_true]
    unfold relDelay
    rw [hal, hrv hm, hc, h1]
    unfold Ref.due Ref.cycle targetCycle
    cases hb : r.align with
    | true =>
      simp [Ref.reachable, hb] at hok
      rw [if_pos rfl, if_neg (by omega)]
      refine ⟨_, rfl, ?_⟩
      simp only [if_true]
      rw [mult_dist _ _ hok]
    | false =>
      rw [if_neg (by simp)]
      refine ⟨_, rfl, ?_⟩
      simp
  | abs =>
    rw [hr, ha, hm]
    simp only [beq_self_eq_true, if_true]
    rw [if_neg (by decide)]
    unfold absDelay
    rw [hav hm, hc, h1]
    have hok : decide (r.now / per r.clk ≤ r.val) = true := hok
    have hok := of_decide_eq_true hok
    rw [if_neg (by omega)]
    exact ⟨_, rfl, rfl⟩

theorem set_ok {per : Nat → Nat} {s : St} {r : Ref} {k : Bool} (h : Inv s r k) (hact : r.active = false) (hst : r.stale = none)
    (hm : r.mode.isSome = true) (hok : r.armOk per = true) :
    ∃ s1, s.asking (s.ct.set_ per s.fin s.now) = .ok s1 ∧ Inv s1 (r.arm per) k := by
  obtain ⟨m, hm'⟩ := Option.isSome_iff_exists.1 hm
  have ha : r.armed = none := by
    unfold Ref.active at hact
    cases e : r.armed with
    | none => rfl
    | some d => rw [e] at hact; simp at hact
  have hw : r.waiting = false := by
    unfold Ref.active at hact
    rw [ha] at hact
    simpa using hact
  unfold CT.set_ Ref.arm
  rw [h.fin]
  cases hf : r.fin with
  | true =>
    simp only [if_true, hm']
    unfold Ref.armOk at hok
    rw [hf, hm'] at hok
    obtain ⟨d, e1, e2⟩ := delay_ok (per := per) (c := s.ct) h.now hm' h.relP h.absP h.align (h.clk hm) h.rel h.abs
      (by simpa using hok)
    rw [e1]
    refine ⟨_, rfl, ?_⟩
    simp only [St.request]
    rw [e2]
    refine ⟨h.now, h.fin.trans hf, h.started, h.log, h.alive, h.fired, ?_, by rw [h.relP, hm'], by rw [h.absP, hm'], h.align,
      fun _ => h.clk hm, fun hh => h.rel (hm'.trans hh), fun hh => h.abs (hm'.trans hh), h.startups, ?_, ?_, ?_, ?_, ?_, ?_⟩
    · show true = (true || _); rfl
    · show s.pend ++ [_] = _
      rw [h.pend, ha, hst]; rfl
    · intro _; exact ⟨hst, hw⟩
    · intro hh; rw [hw] at hh; simp at hh
    · intro _; rfl
    · intro _; rfl
    · intro _ _; exact .inl rfl
  | false =>
    simp only [Bool.false_eq_true, if_false]
    refine ⟨_, rfl, ?_⟩
    simp only [St.request]
    refine ⟨h.now, h.fin.trans hf, h.started, h.log, h.alive, h.fired, ?_, h.relP, h.absP, h.align,
      h.clk, h.rel, h.abs, ?_, h.pend, ?_, ?_, fun _ => hm, fun e => absurd (h.sf e) (by rw [hf]; simp), h.sched⟩
    · show true = (_ || true); simp
    · show s.startups + 1 = 1
      rw [h.startups, hw]; rfl
    · intro hh
      have hh : r.armed.isSome = true := hh
      rw [ha] at hh; simp at hh
    · intro _
      refine ⟨hst, ?_⟩
      show r.started = false
      cases e : r.started with
      | false => rfl
      | true => rw [h.sf e] at hf; simp at hf

theorem idle_facts {s : St} {r : Ref} (h : Inv s r false) (hact : r.active = false) (hst : r.stale = none) :
    s.ct.checkSafe = .ok s.ct := by
  unfold CT.checkSafe
  rw [h.set, hact]
  have hs : s.ct.sched = false := by
    cases e : s.ct.sched with
    | false => rfl
    | true =>
      rcases h.sched rfl e with hh | hh
      · unfold Ref.active at hact; rw [hh] at hact; simp at hact
      · rw [hst] at hh; simp at hh
  rw [hs]
  rfl

theorem prepAbs_ok {s : St} {r : Ref} (h : Inv s r false) (hact : r.active = false) (hst : r.stale = none)
    (hm : r.mode ≠ some .rel) (c n : Nat) :
    s.ct.prepAbs c n = .ok { s.ct with clk := c, at_ := n, absP := true } ∧
      Inv { s with ct := { s.ct with clk := c, at_ := n, absP := true } } (r.prep .abs c n) false := by
  refine ⟨by unfold CT.prepAbs; rw [idle_facts h hact hst], ?_⟩
  refine ⟨h.now, h.fin, h.started, h.log, h.alive, h.fired, h.set, ?_, rfl, h.align, fun _ => rfl, ?_, fun _ => rfl, h.startups,
    h.pend, h.one, h.wait, fun _ => rfl, h.sf, h.sched⟩
  · show s.ct.relP = false
    rw [h.relP]
    simpa using hm
  · intro hh
    exact absurd hh (by simp [Ref.prep])

theorem prepRel_ok {s : St} {r : Ref} (h : Inv s r false) (hact : r.active = false) (hst : r.stale = none)
    (hm : r.mode ≠ some .abs) (c n : Nat) :
    s.ct.prepRel c n = .ok { s.ct with clk := c, delay := n, relP := true } ∧
      Inv { s with ct := { s.ct with clk := c, delay := n, relP := true } } (r.prep .rel c n) false := by
  refine ⟨by unfold CT.prepRel; rw [idle_facts h hact hst], ?_⟩
  refine ⟨h.now, h.fin, h.started, h.log, h.alive, h.fired, h.set, rfl, ?_, h.align, fun _ => rfl, fun _ => rfl, ?_, h.startups,
    h.pend, h.one, h.wait, fun _ => rfl, h.sf, h.sched⟩
  · show s.ct.absP = false
    rw [h.absP]
    simpa using hm
  · intro hh
    exact absurd hh (by simp [Ref.prep])

theorem act_ok {per : Nat → Nat} {s : St} {r : Ref} {k : Bool} (h : Inv s r k) (a : Act) (hp : r.properAct a = true)
    (hs : r.safeAct per k a = true) : ∃ s1, doAct per s a = .ok s1 ∧ Inv s1 (r.doAct per a) k := by
  have hnr : r.refuse a = false := by
    unfold Ref.properAct at hp
    rw [Bool.and_eq_true] at hp
    simpa using hp.1
  have hstale : a ≠ .deactivate → r.stale = none := by
    intro hd
    unfold Ref.properAct at hp
    rw [Bool.and_eq_true] at hp
    cases a <;> first | exact absurd rfl hd | simpa using hp.2
  cases a with
  | prepAbs c n =>
    simp only [Ref.safeAct, Bool.and_eq_true, Bool.not_eq_true'] at hs
    obtain ⟨hk, hm⟩ := hs
    subst hk
    obtain ⟨e, hi⟩ := prepAbs_ok h hnr (hstale (by simp)) (by simpa using hm) c n
    refine ⟨_, ?_, hi⟩
    show s.plain (s.ct.prepAbs c n) = _
    rw [e]; rfl
  | prepRel c n =>
    simp only [Ref.safeAct, Bool.and_eq_true, Bool.not_eq_true'] at hs
    obtain ⟨hk, hm⟩ := hs
    subst hk
    obtain ⟨e, hi⟩ := prepRel_ok h hnr (hstale (by simp)) (by simpa using hm) c n
    refine ⟨_, ?_, hi⟩
    show s.plain (s.ct.prepRel c n) = _
    rw [e]; rfl
  | align b =>
    simp only [Ref.safeAct, Bool.not_eq_true'] at hs
    subst hs
    refine ⟨{ s with ct := { s.ct with align := b } }, ?_, ?_⟩
    · show s.plain (s.ct.doAlign b) = _
      unfold CT.doAlign
      rw [idle_facts h hnr (hstale (by simp))]
      rfl
    · exact ⟨h.now, h.fin, h.started, h.log, h.alive, h.fired, h.set, h.relP, h.absP, rfl, h.clk, h.rel, h.abs, h.startups,
        h.pend, h.one, h.wait, h.moded, h.sf, h.sched⟩
  | set =>
    have hnr' : (r.active || r.mode.isNone) = false := hnr
    rw [Bool.or_eq_false_iff] at hnr'
    have hm : r.mode.isSome = true := by
      cases e : r.mode with
      | none => rw [e] at hnr'; simp at hnr'
      | some m => rfl
    obtain ⟨s1, e1, h1⟩ := set_ok (per := per) h hnr'.1 (hstale (by simp)) hm hs
    refine ⟨s1, ?_, h1⟩
    show s.asking (s.ct.doSet per s.fin s.now) = _
    unfold CT.doSet
    rw [h.set, hnr'.1, h.relP, h.absP]
    obtain ⟨m, hm'⟩ := Option.isSome_iff_exists.1 hm
    rw [hm']
    cases m <;> simpa using e1
  | setAbs c n =>
    simp only [Ref.safeAct, Bool.and_eq_true, Bool.not_eq_true'] at hs
    obtain ⟨⟨hk, hm⟩, hok⟩ := hs
    subst hk
    have hst := hstale (by simp)
    obtain ⟨e, hi⟩ := prepAbs_ok h hnr hst (by simpa using hm) c n
    obtain ⟨s1, e1, h1⟩ := set_ok (per := per) hi hnr hst rfl hok
    refine ⟨s1, ?_, h1⟩
    show s.asking (s.ct.setAbs per s.fin s.now c n) = _
    unfold CT.setAbs
    rw [e]
    exact e1
  | setRel c n =>
    simp only [Ref.safeAct, Bool.and_eq_true, Bool.not_eq_true'] at hs
    obtain ⟨⟨hk, hm⟩, hok⟩ := hs
    subst hk
    have hst := hstale (by simp)
    obtain ⟨e, hi⟩ := prepRel_ok h hnr hst (by simpa using hm) c n
    obtain ⟨s1, e1, h1⟩ := set_ok (per := per) hi hnr hst rfl hok
    refine ⟨s1, ?_, h1⟩
    show s.asking (s.ct.setRel per s.fin s.now c n) = _
    unfold CT.setRel
    rw [e]
    exact e1
  | deactivate =>
    have hw : r.waiting = false := by simpa [Ref.safeAct] using hs
    refine ⟨_, rfl, ?_⟩
    refine ⟨h.now, h.fin, h.started, h.log, h.alive, h.fired, rfl, h.relP, h.absP, h.align, h.clk, h.rel, h.abs, ?_, ?_, ?_, ?_, ?_,
      h.sf, ?_⟩
    · show s.startups = 0
      rw [h.startups, hw]; rfl
    · show s.pend = [] ++ (if r.armed.isSome = true then r.armed else r.stale).toList
      rw [h.pend]
      cases e : r.armed with
      | none => rfl
      | some d => rw [(h.one (by rw [e]; rfl)).1]; rfl
    · intro hh
      exact absurd hh (by simp [Ref.doAct])
    · intro hh
      exact absurd hh (by simp [Ref.doAct])
    · intro hh
      exact absurd hh (by simp [Ref.doAct, Ref.active])
    · intro hk hsc
      right
      show (if r.armed.isSome = true then r.armed else r.stale).isSome = true
      rcases h.sched hk hsc with hh | hh
      · rw [if_pos hh]; exact hh
      · split
        · rename_i hh'; exact hh'
        · exact hh

theorem inv_log {s : St} {r : Ref} {k : Bool} (h : Inv s r k) {e e' : Ev} (he : e = e') (p q : Bool) :
    Inv { s with log := s.log ++ [e] } { r with log := r.log ++ [e'], proper := p, safe := q } k :=
  ⟨h.now, h.fin, h.started, by show s.log ++ [e] = r.log ++ [e']; rw [h.log, he], h.alive, h.fired, h.set, h.relP, h.absP, h.align, h.clk,
    h.rel, h.abs, h.startups, h.pend, h.one, h.wait, h.moded, h.sf, h.sched⟩

theorem arm_flags (per : Nat → Nat) (r : Ref) : (r.arm per).proper = r.proper ∧ (r.arm per).safe = r.safe := by
  unfold Ref.arm
  split
  · split <;> exact ⟨rfl, rfl⟩
  · exact ⟨rfl, rfl⟩

theorem doAct_flags (per : Nat → Nat) (r : Ref) (a : Act) :
    (r.doAct per a).proper = r.proper ∧ (r.doAct per a).safe = r.safe := by
  cases a with
  | set => exact arm_flags per r
  | setAbs c n => exact arm_flags per (r.prep .abs c n)
  | setRel c n => exact arm_flags per (r.prep .rel c n)
  | _ => exact ⟨rfl, rfl⟩

theorem call_flags {per : Nat → Nat} {r : Ref} {k : Bool} {a : Act} (h1 : (r.callAct per k a).proper = true)
    (h2 : (r.callAct per k a).safe = true) :
    r.proper = true ∧ r.safe = true ∧ r.properAct a = true ∧ r.safeAct per k a = true := by
  unfold Ref.callAct at h1 h2
  rw [(doAct_flags per _ a).1] at h1
  rw [(doAct_flags per _ a).2] at h2
  rw [Bool.and_eq_true] at h1 h2
  exact ⟨h1.1, h2.1, h1.2, h2.2⟩

theorem call_ok {per : Nat → Nat} {s : St} {r : Ref} {k : Bool} (h : Inv s r k) (a : Act)
    (h1 : (r.callAct per k a).proper = true) (h2 : (r.callAct per k a).safe = true) :
    ∃ s1, callAct per s a = .ok s1 ∧ Inv s1 (r.callAct per k a) k := by
  obtain ⟨_, _, hp, hs⟩ := call_flags h1 h2
  unfold callAct Ref.callAct
  exact act_ok (inv_log h (by rw [h.now]) (r.proper && r.properAct a) (r.safe && r.safeAct per k a)) a hp hs

theorem acts_flags {per : Nat → Nat} {r : Ref} {as : List Act} (h1 : (r.runActs per as).proper = true)
    (h2 : (r.runActs per as).safe = true) : r.proper = true ∧ r.safe = true := by
  induction as generalizing r with
  | nil => exact ⟨h1, h2⟩
  | cons a as ih =>
    obtain ⟨a1, a2⟩ := ih h1 h2
    obtain ⟨b1, b2, _⟩ := call_flags a1 a2
    exact ⟨b1, b2⟩

theorem acts_ok {per : Nat → Nat} {s : St} {r : Ref} (as : List Act) (h : Inv s r true)
    (h1 : (r.runActs per as).proper = true) (h2 : (r.runActs per as).safe = true) :
    ∃ s1, runActs per s as = .ok s1 ∧ Inv s1 (r.runActs per as) true := by
  induction as generalizing s r with
  | nil => exact ⟨s, rfl, h⟩
  | cons a as ih =>
    obtain ⟨a1, a2⟩ := acts_flags (r := r.callAct per true a) h1 h2
    obtain ⟨s', e', h'⟩ := call_ok h a a1 a2
    obtain ⟨s1, e1, hi⟩ := ih h' h1 h2
    refine ⟨s1, ?_, hi⟩
    unfold runActs
    rw [e']
    exact e1

theorem earliest_pend {s : St} {r : Ref} {k : Bool} (h : Inv s r k) : earliest s.pend = r.pending := by
  rw [h.pend]
  unfold Ref.pending
  cases ha : r.armed with
  | some d => rw [(h.one (by rw [ha]; rfl)).1]; rfl
  | none =>
    cases hs : r.stale with
    | some d => rfl
    | none => rfl

theorem fire_off {per : Nat → Nat} {prog : Prog} {r : Ref} (h : r.started ≠ true) : r.fire per prog = r := by
  unfold Ref.fire
  rw [if_neg h]

theorem fire_armed {per : Nat → Nat} {prog : Prog} {r : Ref} {d : Nat} (h : r.started = true) (ha : r.armed = some d) :
    r.fire per prog = { { r with now := d, armed := none, log := r.log ++ [Ev.fired d] }.runActs per
      (prog (r.log ++ [Ev.fired d])) with fired := true } := by
  unfold Ref.fire
  rw [if_pos h, ha]

theorem fire_stale {per : Nat → Nat} {prog : Prog} {r : Ref} {d : Nat} (h : r.started = true) (ha : r.armed = none)
    (hs : r.stale = some d) : r.fire per prog = { r with now := d, stale := none } := by
  unfold Ref.fire
  rw [if_pos h]
  split
  · rename_i e; rw [ha] at e; simp at e
  · split
    · rename_i e; rw [hs] at e; rw [← Option.some.inj e]
    · rename_i e; rw [hs] at e; simp at e

theorem fire_idle {per : Nat → Nat} {prog : Prog} {r : Ref} (h : r.started = true) (ha : r.armed = none)
    (hs : r.stale = none) : r.fire per prog = r := by
  unfold Ref.fire
  rw [if_pos h]
  split
  · rename_i e; rw [ha] at e; simp at e
  · split
    · rename_i e; rw [hs] at e; simp at e
    · rfl

theorem fire_flags {per : Nat → Nat} {prog : Prog} {r : Ref} (h1 : (r.fire per prog).proper = true)
    (h2 : (r.fire per prog).safe = true) : r.proper = true ∧ r.safe = true := by
  by_cases hst : r.started = true
  · cases ha : r.armed with
    | some d =>
      rw [fire_armed hst ha] at h1 h2
      have := acts_flags h1 h2
      exact ⟨this.1, this.2⟩
    | none =>
      cases hs : r.stale with
      | some d => rw [fire_stale hst ha hs] at h1 h2; exact ⟨h1, h2⟩
      | none => rw [fire_idle hst ha hs] at h1 h2; exact ⟨h1, h2⟩
  · rw [fire_off hst] at h1 h2
    exact ⟨h1, h2⟩

theorem fire_ok {per : Nat → Nat} {prog : Prog} {s : St} {r : Ref} (h : Inv s r false) (h1 : (r.fire per prog).proper = true)
    (h2 : (r.fire per prog).safe = true) : ∃ s1, fire per prog s = .ok s1 ∧ Inv s1 (r.fire per prog) false := by
  unfold fire
  rw [earliest_pend h]
  by_cases hst : r.started = true
  · rw [if_pos (h.started.trans hst)]
    cases ha : r.armed with
    | some d =>
      have hpe : r.pending = some d := by unfold Ref.pending; rw [ha]; rfl
      rw [fire_armed hst ha] at h1 h2 ⊢
      rw [hpe]
      obtain ⟨hsn, hwn⟩ := h.one (by rw [ha]; rfl)
      have hset : s.ct.set = true := by rw [h.set]; unfold Ref.active; rw [ha]; rfl
      show ∃ s1, invoke per prog _ = .ok s1 ∧ _
      unfold invoke
      rw [if_pos hset]
      unfold invokeCb
      have h0 : Inv { s with now := d, pend := s.pend.erase d, ct := { s.ct with set := false }, log := s.log ++ [Ev.fired d] }
          { r with now := d, armed := none, log := r.log ++ [Ev.fired d] } true := by
        refine ⟨rfl, h.fin, h.started, by show s.log ++ _ = r.log ++ _; rw [h.log], h.alive, h.fired, ?_, h.relP, h.absP, h.align, h.clk,
          h.rel, h.abs, h.startups, ?_, ?_, h.wait, ?_, h.sf, ?_⟩
        · show false = (false || r.waiting)
          rw [hwn]; rfl
        · show s.pend.erase d = [] ++ r.stale.toList
          rw [h.pend, ha, hsn]
          simp
        · intro hh; simp at hh
        · intro hh
          have hh : (false || r.waiting) = true := hh
          rw [hwn] at hh; simp at hh
        · intro hh; simp at hh
      obtain ⟨s1, e1, hi⟩ := acts_ok (per := per) (prog (r.log ++ [Ev.fired d])) h0 h1 h2
      rw [← h.log] at e1
      rw [show runActs per _ (prog _) = _ from e1]
      refine ⟨_, rfl, ?_⟩
      rw [← h.log]
      rw [← h.log] at hi
      exact ⟨hi.now, hi.fin, hi.started, hi.log, hi.alive, rfl, hi.set, hi.relP, hi.absP, hi.align, hi.clk, hi.rel, hi.abs, hi.startups,
        hi.pend, hi.one, hi.wait, hi.moded, hi.sf, fun _ hh => by simp at hh⟩
    | none =>
      cases hs : r.stale with
      | none =>
        have hpe : r.pending = none := by unfold Ref.pending; rw [ha, hs]; rfl
        rw [fire_idle hst ha hs, hpe]
        exact ⟨s, rfl, h⟩
      | some d =>
        have hpe : r.pending = some d := by unfold Ref.pending; rw [ha, hs]; rfl
        rw [fire_stale hst ha hs, hpe]
        have hw : r.waiting = false := by
          cases e : r.waiting with
          | false => rfl
          | true => rw [(h.wait e).1] at hs; simp at hs
        have hset : s.ct.set = false := by rw [h.set]; unfold Ref.active; rw [ha, hw]; rfl
        show ∃ s1, invoke per prog _ = .ok s1 ∧ _
        unfold invoke
        rw [if_neg (by rw [show CT.set _ = false from hset]; simp)]
        refine ⟨_, rfl, ?_⟩
        refine ⟨rfl, h.fin, h.started, h.log, h.alive, h.fired, ?_, h.relP, h.absP, h.align, h.clk, h.rel, h.abs, h.startups, ?_, ?_, ?_,
          ?_, h.sf, fun _ hh => by simp at hh⟩
        · show s.ct.set = (r.armed.isSome || r.waiting)
          rw [hset, ha, hw]; rfl
        · show s.pend.erase d = r.armed.toList ++ []
          rw [h.pend, ha, hs]
          simp
        · intro hh
          have hh : r.armed.isSome = true := hh
          rw [ha] at hh; simp at hh
        · intro hh
          have hh : r.waiting = true := hh
          rw [hw] at hh; simp at hh
        · intro hh
          have hh : (r.armed.isSome || r.waiting) = true := hh
          rw [ha, hw] at hh; simp at hh
  · rw [if_neg (by rw [h.started]; exact hst), fire_off hst]
    exact ⟨s, rfl, h⟩

theorem startup_flags {per : Nat → Nat} {r : Ref} (h1 : (r.startup per).proper = true) (h2 : (r.startup per).safe = true) :
    r.proper = true ∧ r.safe = true ∧ r.fin = true ∧ (r.waiting = true → r.armOk per = true) := by
  unfold Ref.startup at h1 h2
  cases hw : r.waiting with
  | false =>
    simp only [hw, Bool.false_eq_true, if_false, Bool.and_eq_true] at h1 h2
    exact ⟨h1.1, h2, h1.2, fun hh => by simp at hh⟩
  | true =>
    simp only [hw, if_true, Bool.and_eq_true] at h1 h2
    rw [(arm_flags per _).2] at h2
    rw [Bool.and_eq_true] at h2
    exact ⟨h1.1, h2.1, h1.2, fun _ => h2.2⟩

theorem startup_ok {per : Nat → Nat} {s : St} {r : Ref} (h : Inv s r false) (h1 : (r.startup per).proper = true)
    (h2 : (r.startup per).safe = true) : ∃ s1, startup per s = .ok s1 ∧ Inv s1 (r.startup per) false := by
  obtain ⟨_, _, hf, hok⟩ := startup_flags h1 h2
  have hsf : s.fin = true := h.fin.trans hf
  unfold startup
  rw [if_pos hsf, h.startups]
  by_cases hw : r.waiting = true
  · rw [if_pos hw]
    obtain ⟨hst, hns⟩ := h.wait hw
    have ha : r.armed = none := by
      cases e : r.armed with
      | none => rfl
      | some d => have := (h.one (by rw [e]; rfl)).2; rw [hw] at this; simp at this
    have hmd : r.mode.isSome = true := h.moded (by unfold Ref.active; rw [hw]; simp)
    obtain ⟨m, hm⟩ := Option.isSome_iff_exists.1 hmd
    have hok' := hok hw
    unfold Ref.armOk at hok'
    rw [hf, hm] at hok'
    obtain ⟨d, e1, e2⟩ := delay_ok (per := per) (c := s.ct) h.now hm h.relP h.absP h.align (h.clk hmd) h.rel h.abs
      (by simpa using hok')
    have hreq : s.ct.set_ per s.fin s.now = .ok ({ s.ct with set := true, sched := true }, .at_ (r.due per m)) := by
      unfold CT.set_
      rw [if_pos hsf, e1]
      simp only [e2]
    unfold runStartups
    rw [show St.asking _ (CT.set_ per _ _ _) = _ from by rw [hreq]]
    refine ⟨_, rfl, ?_⟩
    have hstart : r.startup per =
        { r with started := true, waiting := false, safe := r.safe && r.armOk per, armed := some (r.due per m), proper := r.proper && r.fin } := by
      unfold Ref.startup Ref.arm
      rw [if_pos hw]
      rw [if_pos (by exact hf)]
      simp only [hm]
      rfl
    rw [hstart]
    refine ⟨h.now, h.fin, rfl, h.log, h.alive, h.fired, rfl, h.relP, h.absP, h.align, h.clk, h.rel, h.abs, rfl,
      ?_, fun _ => ⟨hst, rfl⟩, fun hh => by simp at hh, fun _ => hmd, fun _ => hf, fun _ _ => .inl rfl⟩
    show s.pend ++ [_] = [_] ++ r.stale.toList
    rw [h.pend, ha, hst]
    rfl
  · rw [if_neg hw]
    refine ⟨_, rfl, ?_⟩
    unfold Ref.startup
    rw [if_neg hw]
    refine ⟨h.now, h.fin, rfl, h.log, h.alive, h.fired, h.set, h.relP, h.absP, h.align, h.clk, h.rel, h.abs,
      by show 0 = (if r.waiting = true then 1 else 0); rw [if_neg hw], h.pend, h.one, fun hh => absurd hh hw, h.moded, fun _ => hf, h.sched⟩

theorem wait_ok {s : St} {r : Ref} (h : Inv s r false) (n : Nat) : Inv (wait s n) (r.wait n) false := by
  unfold wait Ref.wait
  rw [earliest_pend h]
  by_cases hs : r.started = true
  · rw [if_pos (h.started.trans hs), if_pos hs]
    cases r.pending with
    | none =>
      exact ⟨by show s.now + n = r.now + n; rw [h.now], h.fin, h.started, h.log, h.alive, h.fired, h.set, h.relP, h.absP, h.align, h.clk, h.rel, h.abs,
        h.startups, h.pend, h.one, h.wait, h.moded, h.sf, h.sched⟩
    | some d =>
      exact ⟨by show min (s.now + n) d = min (r.now + n) d; rw [h.now], h.fin, h.started, h.log, h.alive, h.fired, h.set, h.relP, h.absP, h.align,
        h.clk, h.rel, h.abs, h.startups, h.pend, h.one, h.wait, h.moded, h.sf, h.sched⟩
  · rw [if_neg (by rw [h.started]; exact hs), if_neg hs]
    exact h

theorem refused {per : Nat → Nat} {s : St} {r : Ref} (h : Inv s r false) {a : Act} (hr : r.refuse a = true) :
    callAct per s a = .error .throw := by
  have hcs : r.active = true → s.ct.checkSafe = .error .throw := by
    intro ha
    unfold CT.checkSafe
    rw [h.set, ha]; rfl
  cases a with
  | prepAbs c n => show St.plain _ (CT.prepAbs _ _ _) = _; unfold CT.prepAbs; rw [hcs hr]; rfl
  | prepRel c n => show St.plain _ (CT.prepRel _ _ _) = _; unfold CT.prepRel; rw [hcs hr]; rfl
  | align b => show St.plain _ (CT.doAlign _ _) = _; unfold CT.doAlign; rw [hcs hr]; rfl
  | set =>
    show St.asking _ (CT.doSet per _ _ s.ct) = _
    unfold CT.doSet
    rw [h.set, h.relP, h.absP]
    have hr' : (r.active || r.mode.isNone) = true := hr
    cases ha : r.active with
    | true => rfl
    | false =>
      rw [ha] at hr'
      have hm : r.mode = none := by simpa using hr'
      rw [hm]; rfl
  | setAbs c n => show St.asking _ (CT.setAbs _ _ _ _ _ _) = _; unfold CT.setAbs CT.prepAbs; rw [hcs hr]; rfl
  | setRel c n => show St.asking _ (CT.setRel _ _ _ _ _ _) = _; unfold CT.setRel CT.prepRel; rw [hcs hr]; rfl
  | deactivate => exact absurd hr (by simp [Ref.refuse])

theorem outer_cases (per : Nat → Nat) (r : Ref) (a : Act) :
    (r.refuse a = true ∧ r.outer per a = (r, .fail .throw)) ∨ r.outer per a = (r.callAct per false a, .ok) := by
  unfold Ref.outer
  split
  · rename_i h; exact .inl ⟨h, rfl⟩
  · exact .inr rfl

theorem step_flags {per : Nat → Nat} {prog : Prog} {r : Ref} {o : Op} (h1 : (r.step per prog o).1.proper = true)
    (h2 : (r.step per prog o).1.safe = true) : r.proper = true ∧ r.safe = true := by
  cases o with
  | act a =>
    have h1 : (r.outer per a).1.proper = true := h1
    have h2 : (r.outer per a).1.safe = true := h2
    rcases outer_cases per r a with ⟨_, e⟩ | e <;> rw [e] at h1 h2
    · exact ⟨h1, h2⟩
    · exact ⟨(call_flags h1 h2).1, (call_flags h1 h2).2.1⟩
  | finalize => exact ⟨h1, h2⟩
  | startup => have := startup_flags h1 h2; exact ⟨this.1, this.2.1⟩
  | wait n =>
    have h1 : (r.wait n).proper = true := h1
    have h2 : (r.wait n).safe = true := h2
    unfold Ref.wait at h1 h2
    cases hs : r.started with
    | false => rw [hs] at h1 h2; exact ⟨h1, h2⟩
    | true =>
      rw [hs] at h1 h2
      cases hp : r.pending with
      | none => rw [hp] at h1 h2; exact ⟨h1, h2⟩
      | some d => rw [hp] at h1 h2; exact ⟨h1, h2⟩
  | fire => exact fire_flags h1 h2
  | isActive => exact ⟨h1, h2⟩
  | hasFired => exact ⟨h1, h2⟩

theorem run_flags {per : Nat → Nat} {prog : Prog} {r : Ref} {ops : List Op} (h1 : (runOps (Ref.step per prog) r ops).1.proper = true)
    (h2 : (runOps (Ref.step per prog) r ops).1.safe = true) : r.proper = true ∧ r.safe = true := by
  induction ops generalizing r with
  | nil => exact ⟨h1, h2⟩
  | cons o ops ih =>
    obtain ⟨a, b⟩ := ih h1 h2
    exact step_flags a b

theorem step_ok {per : Nat → Nat} {prog : Prog} {s : St} {r : Ref} (h : Inv s r false) (o : Op)
    (h1 : (r.step per prog o).1.proper = true) (h2 : (r.step per prog o).1.safe = true) :
    (step per prog s o).2 = (r.step per prog o).2 ∧ Inv (step per prog s o).1 (r.step per prog o).1 false := by
  unfold step
  rw [h.alive]
  simp only [Bool.false_eq_true, if_false]
  cases o with
  | act a =>
    have h1 : (r.outer per a).1.proper = true := h1
    have h2 : (r.outer per a).1.safe = true := h2
    show (finishAct s (callAct per s a)).2 = (r.outer per a).2 ∧ Inv (finishAct s (callAct per s a)).1 (r.outer per a).1 false
    rcases outer_cases per r a with ⟨hr, e⟩ | e <;> rw [e] at h1 h2 ⊢
    · rw [refused h hr]
      exact ⟨rfl, h⟩
    · obtain ⟨s1, e1, hi⟩ := call_ok h a h1 h2
      rw [e1]
      exact ⟨rfl, hi⟩
  | finalize =>
    exact ⟨rfl, ⟨h.now, rfl, h.started, h.log, h.alive, h.fired, h.set, h.relP, h.absP, h.align, h.clk, h.rel, h.abs, h.startups,
      h.pend, h.one, h.wait, h.moded, fun _ => rfl, h.sched⟩⟩
  | startup =>
    obtain ⟨s1, e1, hi⟩ := startup_ok h h1 h2
    show (finish s (startup per s)).2 = .ok ∧ Inv (finish s (startup per s)).1 (r.startup per) false
    rw [e1]
    exact ⟨rfl, hi⟩
  | wait n => exact ⟨rfl, wait_ok h n⟩
  | fire =>
    obtain ⟨s1, e1, hi⟩ := fire_ok (prog := prog) h h1 h2
    show (finish s (fire per prog s)).2 = .ok ∧ Inv (finish s (fire per prog s)).1 (r.fire per prog) false
    rw [e1]
    exact ⟨rfl, hi⟩
  | isActive => exact ⟨by show Ans.bool s.ct.set = .bool r.active; rw [h.set], h⟩
  | hasFired => exact ⟨by show Ans.bool s.hasFired = .bool r.fired; rw [h.fired], h⟩

theorem run_ok {per : Nat → Nat} {prog : Prog} {s : St} {r : Ref} (h : Inv s r false) (ops : List Op)
    (h1 : (runOps (Ref.step per prog) r ops).1.proper = true) (h2 : (runOps (Ref.step per prog) r ops).1.safe = true) :
    (runOps (step per prog) s ops).2 = (runOps (Ref.step per prog) r ops).2 ∧
    Inv (runOps (step per prog) s ops).1 (runOps (Ref.step per prog) r ops).1 false := by
  induction ops generalizing s r with
  | nil => exact ⟨rfl, h⟩
  | cons o ops ih =>
    obtain ⟨a, b⟩ := run_flags (r := (r.step per prog o).1) h1 h2
    obtain ⟨h3, h4⟩ := step_ok h o a b
    obtain ⟨h5, h6⟩ := ih h4 h1 h2
    refine ⟨?_, h6⟩
    show (step per prog s o).2 :: (runOps (step per prog) (step per prog s o).1 ops).2 =
      (r.step per prog o).2 :: (runOps (Ref.step per prog) (r.step per prog o).1 ops).2
    rw [h3, h5]

end Sparta.CycTrig
