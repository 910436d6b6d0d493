import Verif.CycTrig.Lemmas
namespace Sparta.CycTrig

theorem cfg_snoc (h : List Ev) (e : Ev) : cfg (h ++ [e]) = (cfg h).ev e := by
  unfold cfg
  rw [List.foldl_append]
  rfl

/-- every callback in the history satisfies `P` of what was before it -/
def Each (P : List Ev → Nat → Prop) (l : List Ev) : Prop :=
  ∀ before τ after, l = before ++ .fired τ :: after → P before τ

theorem each_nil (P : List Ev → Nat → Prop) : Each P [] := by
  intro b τ a h
  simp at h

theorem split_last {l b a : List Ev} {e : Ev} {τ : Nat} (h : l ++ [e] = b ++ .fired τ :: a) :
    (a = [] ∧ l = b ∧ e = .fired τ) ∨ ∃ a', l = b ++ .fired τ :: a' := by
  rcases List.eq_nil_or_concat a with ha | ⟨a', x, ha⟩
  · subst ha
    have := List.append_inj' h rfl
    exact .inl ⟨rfl, this.1, by simpa using this.2⟩
  · right
    subst ha
    have h' : l ++ [e] = (b ++ .fired τ :: a') ++ [x] := by rw [h]; simp
    exact ⟨a', (List.append_inj' h' rfl).1⟩

theorem each_act {P : List Ev → Nat → Prop} {l : List Ev} (h : Each P l) (τ : Nat) (a : Act) : Each P (l ++ [.act τ a]) := by
  intro b τ' a' he
  rcases split_last he with ⟨_, _, h3⟩ | ⟨a'', h2⟩
  · simp at h3
  · exact h b τ' a'' h2

theorem each_fired {P : List Ev → Nat → Prop} {l : List Ev} (h : Each P l) {τ : Nat} (hp : P l τ) : Each P (l ++ [.fired τ]) := by
  intro b τ' a' he
  rcases split_last he with ⟨_, h2, h3⟩ | ⟨a'', h2⟩
  · have : τ = τ' := by simpa using h3
    rw [← h2, ← this]; exact hp
  · exact h b τ' a'' h2

-- without conditions: a callback only if set

def Active (l : List Ev) (_ : Nat) : Prop := (cfg l).set.isSome = true

structure Fine (s : St) : Prop where
  set : s.ct.set = true → (cfg s.log).set.isSome = true
  good : Each Active s.log

structure Erl (s : St) : Prop extends Fine s where
  started : s.started = false
  startups : 0 < s.startups → (cfg s.log).set.isSome = true

structure Lat (s : St) : Prop extends Fine s where
  fin : s.fin = true
  startups : s.startups = 0

/-- what a call does: flag, startup requests, the rest -/
theorem req_facts {per : Nat → Nat} {s s1 : St} {c : CT} (h : s.asking (c.set_ per s.fin s.now) = .ok s1) :
    s1.log = s.log ∧ s1.fin = s.fin ∧ s1.started = s.started ∧ (s.fin = true → s1.startups = s.startups) := by
  unfold CT.set_ at h
  split at h
  · rename_i hf
    cases e : delayOf per s.now c with
    | error er => rw [e] at h; simp [St.asking] at h
    | ok d =>
      rw [e] at h
      have := Except.ok.inj h
      subst this
      exact ⟨rfl, rfl, rfl, fun _ => rfl⟩
  · rename_i hf
    have := Except.ok.inj h
    subst this
    exact ⟨rfl, rfl, rfl, fun hh => absurd hh hf⟩

theorem doSet_req {per : Nat → Nat} {s s1 : St} (h : s.asking (s.ct.doSet per s.fin s.now) = .ok s1) :
    s.asking (s.ct.set_ per s.fin s.now) = .ok s1 := by
  unfold CT.doSet at h
  split at h
  · simp [St.asking] at h
  · split at h
    · simp [St.asking] at h
    · split at h
      · simp [St.asking] at h
      · exact h

theorem setAbs_req {per : Nat → Nat} {s s1 : St} {k n : Nat} (h : s.asking (s.ct.setAbs per s.fin s.now k n) = .ok s1) :
    ∃ c, s.asking (CT.set_ per s.fin s.now c) = .ok s1 := by
  unfold CT.setAbs at h
  split at h
  · simp [St.asking] at h
  · exact ⟨_, h⟩

theorem setRel_req {per : Nat → Nat} {s s1 : St} {k n : Nat} (h : s.asking (s.ct.setRel per s.fin s.now k n) = .ok s1) :
    ∃ c, s.asking (CT.set_ per s.fin s.now c) = .ok s1 := by
  unfold CT.setRel at h
  split at h
  · simp [St.asking] at h
  · exact ⟨_, h⟩

theorem plain_facts {s s1 : St} {x : Except Err CT} (hx : ∀ c, x = .ok c → c.set = s.ct.set) (h : s.plain x = .ok s1) :
    s1.log = s.log ∧ s1.fin = s.fin ∧ s1.started = s.started ∧ s1.startups = s.startups ∧ s1.ct.set = s.ct.set := by
  cases e : x with
  | error er => rw [e] at h; simp [St.plain] at h
  | ok c =>
    have hc := hx c e
    rw [e] at h
    have := Except.ok.inj h
    subst this
    exact ⟨rfl, rfl, rfl, rfl, hc⟩

theorem prep_set (c : CT) :
    (∀ k n c', c.prepAbs k n = .ok c' → c'.set = c.set) ∧ (∀ k n c', c.prepRel k n = .ok c' → c'.set = c.set) ∧
      (∀ b c', c.doAlign b = .ok c' → c'.set = c.set) := by
  have hc : ∀ c', c.checkSafe = .ok c' → c' = c := by
    intro c' h
    unfold CT.checkSafe at h
    split at h
    · simp at h
    · exact (Except.ok.inj h).symm
  refine ⟨?_, ?_, ?_⟩
  · intro k n c' h
    unfold CT.prepAbs at h
    split at h
    · simp at h
    · rename_i c0 e
      have := Except.ok.inj h
      subst this
      rw [hc c0 e]
  · intro k n c' h
    unfold CT.prepRel at h
    split at h
    · simp at h
    · rename_i c0 e
      have := Except.ok.inj h
      subst this
      rw [hc c0 e]
  · intro b c' h
    unfold CT.doAlign at h
    split at h
    · simp at h
    · rename_i c0 e
      have := Except.ok.inj h
      subst this
      rw [hc c0 e]

/-- a call that does not fail -/
theorem call_facts {per : Nat → Nat} {s s1 : St} {a : Act} (h : callAct per s a = .ok s1) :
    s1.log = s.log ++ [.act s.now a] ∧ s1.fin = s.fin ∧ s1.started = s.started ∧ (s.fin = true → s1.startups = s.startups) ∧
      ((cfg s1.log).set.isSome = true ∨ (a = .deactivate ∧ s1.ct.set = false) ∨
        (a ≠ .deactivate ∧ s1.startups = s.startups ∧ s1.ct.set = s.ct.set ∧ (cfg s1.log).set = (cfg s.log).set)) := by
  unfold callAct at h
  obtain ⟨p1, p2, p3⟩ := prep_set s.ct
  cases a with
  | prepAbs k n =>
    obtain ⟨b1, b2, b3, b4, b5⟩ := plain_facts (s := { s with log := s.log ++ [.act s.now (.prepAbs k n)] }) (p1 k n) h
    exact ⟨b1, b2, b3, fun _ => b4, .inr (.inr ⟨by simp, b4, b5, by rw [b1, cfg_snoc]; rfl⟩)⟩
  | prepRel k n =>
    obtain ⟨b1, b2, b3, b4, b5⟩ := plain_facts (s := { s with log := s.log ++ [.act s.now (.prepRel k n)] }) (p2 k n) h
    exact ⟨b1, b2, b3, fun _ => b4, .inr (.inr ⟨by simp, b4, b5, by rw [b1, cfg_snoc]; rfl⟩)⟩
  | align b =>
    obtain ⟨b1, b2, b3, b4, b5⟩ := plain_facts (s := { s with log := s.log ++ [.act s.now (.align b)] }) (p3 b) h
    exact ⟨b1, b2, b3, fun _ => b4, .inr (.inr ⟨by simp, b4, b5, by rw [b1, cfg_snoc]; rfl⟩)⟩
  | set =>
    obtain ⟨b1, b2, b3, b4⟩ := req_facts (doSet_req (s := { s with log := s.log ++ [.act s.now .set] }) h)
    exact ⟨b1, b2, b3, b4, .inl (by rw [b1, cfg_snoc]; rfl)⟩
  | setAbs k n =>
    obtain ⟨c, h'⟩ := setAbs_req (s := { s with log := s.log ++ [.act s.now (.setAbs k n)] }) h
    obtain ⟨b1, b2, b3, b4⟩ := req_facts h'
    exact ⟨b1, b2, b3, b4, .inl (by rw [b1, cfg_snoc]; rfl)⟩
  | setRel k n =>
    obtain ⟨c, h'⟩ := setRel_req (s := { s with log := s.log ++ [.act s.now (.setRel k n)] }) h
    obtain ⟨b1, b2, b3, b4⟩ := req_facts h'
    exact ⟨b1, b2, b3, b4, .inl (by rw [b1, cfg_snoc]; rfl)⟩
  | deactivate =>
    have := Except.ok.inj h
    subst this
    exact ⟨rfl, rfl, rfl, fun _ => rfl, .inr (.inl ⟨rfl, rfl⟩)⟩

theorem lat_call {per : Nat → Nat} {s s1 : St} {a : Act} (h : Lat s) (he : callAct per s a = .ok s1) : Lat s1 := by
  obtain ⟨b1, b2, b3, b4, b5⟩ := call_facts he
  refine ⟨⟨?_, by rw [b1]; exact each_act h.good _ _⟩, b2.trans h.fin, (b4 h.fin).trans h.startups⟩
  intro hs
  rcases b5 with b | ⟨_, b⟩ | ⟨_, _, b, c⟩
  · exact b
  · rw [hs] at b; simp at b
  · rw [c]; exact h.set (b ▸ hs)

theorem lat_acts {per : Nat → Nat} {s s1 : St} {as : List Act} (h : Lat s) (he : runActs per s as = .ok s1) : Lat s1 := by
  induction as generalizing s with
  | nil => have := Except.ok.inj he; subst this; exact h
  | cons a as ih =>
    unfold runActs at he
    split at he
    · simp at he
    · rename_i s' e
      exact ih (lat_call h e) he

theorem lat_invoke {per : Nat → Nat} {prog : Prog} {s s1 : St} (h : Lat s) (he : invoke per prog s = .ok s1) : Lat s1 := by
  unfold invoke at he
  split at he
  · rename_i hs
    split at he
    · simp at he
    · rename_i s' e
      have := Except.ok.inj he
      subst this
      unfold invokeCb at e
      split at e
      · simp at e
      · rename_i s2 e2
        have := Except.ok.inj e
        subst this
        have h0 : Lat { s with ct := { s.ct with set := false }, log := s.log ++ [.fired s.now] } :=
          ⟨⟨fun hh => by simp at hh, each_fired h.good (h.set hs)⟩, h.fin, h.startups⟩
        have h2 := lat_acts h0 e2
        exact ⟨⟨h2.set, h2.good⟩, h2.fin, h2.startups⟩
  · have := Except.ok.inj he
    subst this
    exact ⟨⟨h.set, h.good⟩, h.fin, h.startups⟩

theorem lat_fire {per : Nat → Nat} {prog : Prog} {s s1 : St} (h : Lat s) (he : fire per prog s = .ok s1) : Lat s1 := by
  unfold fire at he
  split at he
  · split at he
    · have := Except.ok.inj he; subst this; exact h
    · exact lat_invoke ⟨⟨by exact h.set, by exact h.good⟩, by exact h.fin, by exact h.startups⟩ he
  · have := Except.ok.inj he; subst this; exact h

theorem runStartups_facts {per : Nat → Nat} {n : Nat} {s s1 : St} (hf : s.fin = true) (he : runStartups per n s = .ok s1) :
    s1.log = s.log ∧ s1.fin = true ∧ s1.startups = s.startups ∧ (n = 0 → s1 = s) := by
  induction n generalizing s with
  | zero => have := Except.ok.inj he; subst this; exact ⟨rfl, hf, rfl, fun _ => rfl⟩
  | succ n ih =>
    unfold runStartups at he
    split at he
    · simp at he
    · rename_i s' e
      obtain ⟨a1, a2, a3, a4⟩ := req_facts e
      obtain ⟨c1, c2, c3, _⟩ := ih (a2.trans hf) he
      exact ⟨c1.trans a1, c2, c3.trans (a4 hf), fun hh => by simp at hh⟩

theorem wait_facts (s : St) (n : Nat) : (wait s n).ct = s.ct ∧ (wait s n).log = s.log ∧ (wait s n).fin = s.fin ∧
    (wait s n).startups = s.startups ∧ (wait s n).started = s.started := by
  unfold wait
  split
  · split <;> exact ⟨rfl, rfl, rfl, rfl, rfl⟩
  · exact ⟨rfl, rfl, rfl, rfl, rfl⟩

theorem fine_startup {per : Nat → Nat} {s s1 : St} (hg : Fine s) (hst : 0 < s.startups → (cfg s.log).set.isSome = true)
    (he : startup per s = .ok s1) : Lat s1 := by
  unfold startup at he
  split at he
  · rename_i hf
    obtain ⟨a1, a2, a3, a4⟩ := runStartups_facts (by exact hf) he
    refine ⟨⟨?_, by rw [a1]; exact hg.good⟩, a2, a3⟩
    intro hs
    rw [a1]
    by_cases hz : s.startups = 0
    · rw [a4 hz] at hs
      exact hg.set hs
    · exact hst (by omega)
  · simp at he

theorem lat_step {per : Nat → Nat} {prog : Prog} {s : St} (h : Lat s) (o : Op) : Lat (step per prog s o).1 := by
  have hd : Lat { s with dead := true } := ⟨⟨h.set, h.good⟩, h.fin, h.startups⟩
  unfold step
  split
  · exact h
  · cases o with
    | act a =>
      show Lat (finishAct s (callAct per s a)).1
      cases e : callAct per s a with
      | ok s1 => exact lat_call h e
      | error er => cases er <;> first | exact h | exact hd
    | finalize => exact ⟨⟨h.set, h.good⟩, rfl, h.startups⟩
    | startup =>
      show Lat (finish s (startup per s)).1
      cases e : startup per s with
      | error er => exact hd
      | ok s1 => exact fine_startup h.toFine (by rw [h.startups]; intro hh; simp at hh) e
    | wait n =>
      show Lat (wait s n)
      obtain ⟨a1, a2, a3, a4, _⟩ := wait_facts s n
      exact ⟨⟨by rw [a1, a2]; exact h.set, by rw [a2]; exact h.good⟩, a3.trans h.fin, a4.trans h.startups⟩
    | fire =>
      show Lat (finish s (fire per prog s)).1
      cases e : fire per prog s with
      | error er => exact hd
      | ok s1 => exact lat_fire h e
    | isActive => exact h
    | hasFired => exact h

theorem erl_init : Erl init :=
  ⟨⟨fun h => by simp [init, newCT] at h, each_nil _⟩, rfl, fun h => by simp [init] at h⟩

theorem erl_step {per : Nat → Nat} {prog : Prog} {s : St} (h : Erl s) {o : Op} (ho : Early o) : Erl (step per prog s o).1 := by
  have hd : Erl { s with dead := true } := ⟨⟨h.set, h.good⟩, h.started, h.startups⟩
  unfold step
  split
  · exact h
  · cases o with
    | act a =>
      show Erl (finishAct s (callAct per s a)).1
      cases e : callAct per s a with
      | ok s1 =>
        obtain ⟨b1, b2, b3, b4, b5⟩ := call_facts e
        refine ⟨⟨?_, by show Each Active s1.log; rw [b1]; exact each_act h.good _ _⟩, b3.trans h.started, ?_⟩
        · intro hs
          rcases b5 with b | ⟨b, _⟩ | ⟨_, _, b, c⟩
          · exact b
          · rw [b] at ho; exact ho.elim
          · show (cfg s1.log).set.isSome = true
            rw [c]; exact h.set (b ▸ hs)
        · intro hs
          rcases b5 with b | ⟨b, _⟩ | ⟨_, b, _, c⟩
          · exact b
          · rw [b] at ho; exact ho.elim
          · show (cfg s1.log).set.isSome = true
            rw [c]; exact h.startups (b ▸ hs)
      | error er => cases er <;> first | exact h | exact hd
    | finalize => exact ⟨⟨h.set, h.good⟩, h.started, h.startups⟩
    | startup => exact ho.elim
    | wait n =>
      show Erl (wait s n)
      obtain ⟨a1, a2, a3, a4, a5⟩ := wait_facts s n
      exact ⟨⟨by rw [a1, a2]; exact h.set, by rw [a2]; exact h.good⟩, a5.trans h.started, by rw [a4, a2]; exact h.startups⟩
    | fire =>
      show Erl (finish s (fire per prog s)).1
      have : fire per prog s = .ok s := by unfold fire; rw [if_neg (by rw [h.started]; simp)]
      rw [this]
      exact h
    | isActive => exact h
    | hasFired => exact h

theorem good_run {per : Nat → Nat} {prog : Prog} (pre post : List Op) (hp : ∀ o ∈ pre, Early o) :
    Each Active (history per prog (pre ++ .startup :: post)) := by
  unfold history
  rw [runOps_append]
  have h1 : Erl (runOps (step per prog) init pre).1 := by
    have : ∀ (l : List Op) (s : St), (∀ o ∈ l, Early o) → Erl s → Erl (runOps (step per prog) s l).1 := by
      intro l
      induction l with
      | nil => intro s _ h; exact h
      | cons o l ih =>
        intro s hl h
        exact ih _ (fun x hx => hl x (List.mem_cons_of_mem _ hx)) (erl_step h (hl o (List.mem_cons_self ..)))
    exact this pre init hp erl_init
  have h2 : Lat (step per prog (runOps (step per prog) init pre).1 .startup).1 ∨
      ((step per prog (runOps (step per prog) init pre).1 .startup).1.dead = true ∧
        Each Active (step per prog (runOps (step per prog) init pre).1 .startup).1.log) := by
    generalize (runOps (step per prog) init pre).1 = s at h1 ⊢
    unfold step
    split
    · rename_i hd; exact .inr ⟨hd, h1.good⟩
    · show Lat (finish s (startup per s)).1 ∨ (finish s (startup per s)).1.dead = true ∧ Each Active (finish s (startup per s)).1.log
      cases e : startup per s with
      | error er => exact .inr ⟨rfl, h1.good⟩
      | ok s1 => exact .inl (fine_startup h1.toFine h1.startups e)
  have h3 := runOps_invariant (step per prog) (fun s => Lat s ∨ s.dead = true ∧ Each Active s.log)
    (fun s o h => by
      rcases h with h | ⟨h, g⟩
      · exact .inl (lat_step h o)
      · right
        unfold step
        rw [if_pos h]
        exact ⟨h, g⟩) _ h2 post
  show Each Active (runOps (step per prog) (step per prog (runOps (step per prog) init pre).1 .startup).1 post).1.log
  rcases h3 with h3 | h3
  · exact h3.good
  · exact h3.2

-- the time of a callback

/-- the time a setting is meant for -/
def dueAt (per : Nat → Nat) (c : Cfg) (τ : Nat) : Nat :=
  τ + (targetCycle c.mode c.align c.val (τ / per c.clk) - τ / per c.clk) * per c.clk

def okAt (per : Nat → Nat) (c : Cfg) (τ : Nat) : Prop :=
  match c.mode with
  | .abs => τ / per c.clk ≤ c.val
  | .rel => c.align = true → 0 < c.val

def Right (per : Nat → Nat) (l : List Ev) (τ : Nat) : Prop :=
  ∃ τ0, (cfg l).set = some τ0 ∧ okAt per (cfg l) τ0 ∧ τ = dueAt per (cfg l) τ0

structure TI (per : Nat → Nat) (r : Ref) : Prop where
  align : (cfg r.log).align = r.align
  prep : ∀ m, r.mode = some m → (cfg r.log).mode = m ∧ (cfg r.log).clk = r.clk ∧ (cfg r.log).val = r.val
  armed : ∀ d, r.armed = some d → ∃ τ0, (cfg r.log).set = some τ0 ∧ okAt per (cfg r.log) τ0 ∧ d = dueAt per (cfg r.log) τ0
  waiting : r.waiting = true → (cfg r.log).set = some 0 ∧ r.mode.isSome = true ∧ r.started = false
  early : r.started = false → r.now = 0
  good : Each (Right per) r.log
  back : (cfg r.log).set.isSome = true → r.active = true
  given : (cfg r.log).given = r.mode.isSome

theorem ti_init (per : Nat → Nat) : TI per rinit := by
  refine ⟨rfl, ?_, ?_, ?_, fun _ => rfl, each_nil _, fun h => by simp [rinit, cfg] at h, rfl⟩
  · intro m h; simp [rinit] at h
  · intro m h; simp [rinit] at h
  · intro h; simp [rinit] at h

/-- setting the trigger now, the call being in the history already -/
theorem ti_arm {per : Nat → Nat} {r : Ref} (ha : (cfg r.log).align = r.align)
    (hp : ∀ m, r.mode = some m → (cfg r.log).mode = m ∧ (cfg r.log).clk = r.clk ∧ (cfg r.log).val = r.val)
    (hset : (cfg r.log).set = some r.now) (hm : r.mode.isSome = true) (he : r.started = false → r.now = 0)
    (hsf : r.started = true → r.fin = true) (hw : r.waiting = false) (harm : r.armed = none)
    (hg : Each (Right per) r.log) (hgv : (cfg r.log).given = r.mode.isSome) (hok : r.armOk per = true) : TI per (r.arm per) := by
  obtain ⟨m, hm'⟩ := Option.isSome_iff_exists.1 hm
  obtain ⟨p1, p2, p3⟩ := hp m hm'
  unfold Ref.arm
  split
  · rename_i hf
    simp only [hm']
    refine ⟨ha, by intro m' e; have e : some m = some m' := e; rw [← Option.some.inj e]; exact hp m hm', ?_, fun hh => absurd (show r.waiting = true from hh) (by rw [hw]; simp), he, hg, fun _ => rfl, by show (cfg r.log).given = (some m).isSome; rw [hgv, hm']⟩
    intro d hd
    have hd : some (r.due per m) = some d := hd
    refine ⟨r.now, hset, ?_, ?_⟩
    · show okAt per (cfg r.log) r.now
      unfold okAt
      unfold Ref.armOk at hok
      rw [hf, hm'] at hok
      rw [p1, p2, p3, ha]
      cases m with
      | abs =>
        have hok : decide (r.cycle per ≤ r.val) = true := by simpa [Ref.reachable] using hok
        exact of_decide_eq_true hok
      | rel =>
        intro hal
        simpa [Ref.reachable, hal] using hok
    · rw [← Option.some.inj hd]
      show r.due per m = dueAt per (cfg r.log) r.now
      unfold dueAt Ref.due Ref.cycle
      rw [p1, p2, p3, ha]
  · rename_i hf
    have hns : r.started = false := by
      cases e : r.started with
      | false => rfl
      | true => exact absurd (hsf e) hf
    refine ⟨ha, hp, ?_, ?_, he, hg, fun _ => by simp [Ref.active], hgv⟩
    · intro d hd
      have hd : r.armed = some d := hd
      rw [harm] at hd; simp at hd
    · intro _
      exact ⟨by show (cfg r.log).set = some 0; rw [hset, he hns], hm, hns⟩

/-- what the coupling knows about the reference alone -/
structure RI (r : Ref) : Prop where
  sf : r.started = true → r.fin = true

theorem ti_call {per : Nat → Nat} {r : Ref} {k : Bool} {a : Act} (h : TI per r) (hsf : r.started = true → r.fin = true)
    (hp : r.properAct a = true) (hs : r.safeAct per k a = true) : TI per (r.callAct per k a) := by
  have hnr : r.refuse a = false := by
    unfold Ref.properAct at hp
    rw [Bool.and_eq_true] at hp
    simpa using hp.1
  have hidle : r.active = false → r.waiting = false ∧ r.armed = none := by
    intro hact
    unfold Ref.active at hact
    rw [Bool.or_eq_false_iff] at hact
    exact ⟨hact.2, by cases e : r.armed with | none => rfl | some d => rw [e] at hact; simp at hact⟩
  have hgood := fun a => each_act h.good r.now a
  unfold Ref.callAct
  cases a with
  | prepAbs c n =>
    obtain ⟨hw, ha⟩ := hidle hnr
    refine ⟨?_, ?_, ?_, ?_, h.early, hgood _, by show (cfg (r.log ++ [_])).set.isSome = true → _; rw [cfg_snoc]; exact h.back, by show (cfg (r.log ++ [_])).given = _; rw [cfg_snoc]; rfl⟩
    · show (cfg (r.log ++ [_])).align = _; rw [cfg_snoc]; exact h.align
    · intro m e
      have e : some Mode.abs = some m := e
      rw [← Option.some.inj e]
      show (cfg (r.log ++ [_])).mode = _ ∧ (cfg (r.log ++ [_])).clk = _ ∧ (cfg (r.log ++ [_])).val = _
      rw [cfg_snoc]
      exact ⟨rfl, rfl, rfl⟩
    · intro d e
      have e : r.armed = some d := e
      rw [ha] at e; simp at e
    · intro e
      have e : r.waiting = true := e
      rw [hw] at e; simp at e
  | prepRel c n =>
    obtain ⟨hw, ha⟩ := hidle hnr
    refine ⟨?_, ?_, ?_, ?_, h.early, hgood _, by show (cfg (r.log ++ [_])).set.isSome = true → _; rw [cfg_snoc]; exact h.back, by show (cfg (r.log ++ [_])).given = _; rw [cfg_snoc]; rfl⟩
    · show (cfg (r.log ++ [_])).align = _; rw [cfg_snoc]; exact h.align
    · intro m e
      have e : some Mode.rel = some m := e
      rw [← Option.some.inj e]
      show (cfg (r.log ++ [_])).mode = _ ∧ (cfg (r.log ++ [_])).clk = _ ∧ (cfg (r.log ++ [_])).val = _
      rw [cfg_snoc]
      exact ⟨rfl, rfl, rfl⟩
    · intro d e
      have e : r.armed = some d := e
      rw [ha] at e; simp at e
    · intro e
      have e : r.waiting = true := e
      rw [hw] at e; simp at e
  | align b =>
    obtain ⟨hw, ha⟩ := hidle hnr
    refine ⟨?_, ?_, ?_, ?_, h.early, hgood _, by show (cfg (r.log ++ [_])).set.isSome = true → _; rw [cfg_snoc]; exact h.back, by show (cfg (r.log ++ [_])).given = _; rw [cfg_snoc]; exact h.given⟩
    · show (cfg (r.log ++ [_])).align = _; rw [cfg_snoc]; rfl
    · intro m e
      show (cfg (r.log ++ [_])).mode = _ ∧ (cfg (r.log ++ [_])).clk = _ ∧ (cfg (r.log ++ [_])).val = _
      rw [cfg_snoc]
      exact h.prep m e
    · intro d e
      have e : r.armed = some d := e
      rw [ha] at e; simp at e
    · intro e
      have e : r.waiting = true := e
      rw [hw] at e; simp at e
  | set =>
    have hnr' : (r.active || r.mode.isNone) = false := hnr
    rw [Bool.or_eq_false_iff] at hnr'
    obtain ⟨hw, ha⟩ := hidle hnr'.1
    refine ti_arm ?_ ?_ ?_ ?_ h.early hsf hw ha (hgood _) (by show (cfg (r.log ++ [_])).given = _; rw [cfg_snoc]; exact h.given) hs
    · show (cfg (r.log ++ [_])).align = _; rw [cfg_snoc]; exact h.align
    · intro m e
      show (cfg (r.log ++ [_])).mode = _ ∧ (cfg (r.log ++ [_])).clk = _ ∧ (cfg (r.log ++ [_])).val = _
      rw [cfg_snoc]
      exact h.prep m e
    · show (cfg (r.log ++ [_])).set = _; rw [cfg_snoc]; rfl
    · show r.mode.isSome = true
      cases e : r.mode with
      | none => rw [e] at hnr'; simp at hnr'
      | some m => rfl
  | setAbs c n =>
    obtain ⟨hw, ha⟩ := hidle hnr
    simp only [Ref.safeAct, Bool.and_eq_true] at hs
    refine ti_arm ?_ ?_ ?_ rfl h.early hsf hw ha (hgood _) (by show (cfg (r.log ++ [_])).given = _; rw [cfg_snoc]; rfl) hs.2
    · show (cfg (r.log ++ [_])).align = _; rw [cfg_snoc]; exact h.align
    · intro m e
      have e : some Mode.abs = some m := e
      rw [← Option.some.inj e]
      show (cfg (r.log ++ [_])).mode = _ ∧ (cfg (r.log ++ [_])).clk = _ ∧ (cfg (r.log ++ [_])).val = _
      rw [cfg_snoc]
      exact ⟨rfl, rfl, rfl⟩
    · show (cfg (r.log ++ [_])).set = _; rw [cfg_snoc]; rfl
  | setRel c n =>
    obtain ⟨hw, ha⟩ := hidle hnr
    simp only [Ref.safeAct, Bool.and_eq_true] at hs
    refine ti_arm ?_ ?_ ?_ rfl h.early hsf hw ha (hgood _) (by show (cfg (r.log ++ [_])).given = _; rw [cfg_snoc]; rfl) hs.2
    · show (cfg (r.log ++ [_])).align = _; rw [cfg_snoc]; exact h.align
    · intro m e
      have e : some Mode.rel = some m := e
      rw [← Option.some.inj e]
      show (cfg (r.log ++ [_])).mode = _ ∧ (cfg (r.log ++ [_])).clk = _ ∧ (cfg (r.log ++ [_])).val = _
      rw [cfg_snoc]
      exact ⟨rfl, rfl, rfl⟩
    · show (cfg (r.log ++ [_])).set = _; rw [cfg_snoc]; rfl
  | deactivate =>
    refine ⟨?_, ?_, ?_, ?_, h.early, hgood _, by show (cfg (r.log ++ [_])).set.isSome = true → _; rw [cfg_snoc]; intro hh; simp [Cfg.ev] at hh, by show (cfg (r.log ++ [_])).given = _; rw [cfg_snoc]; exact h.given⟩
    · show (cfg (r.log ++ [_])).align = _; rw [cfg_snoc]; exact h.align
    · intro m e
      show (cfg (r.log ++ [_])).mode = _ ∧ (cfg (r.log ++ [_])).clk = _ ∧ (cfg (r.log ++ [_])).val = _
      rw [cfg_snoc]
      exact h.prep m e
    · intro d e
      have e : (none : Option Nat) = some d := e
      simp at e
    · intro e
      have e : false = true := e
      simp at e

theorem arm_keeps (per : Nat → Nat) (r : Ref) : (r.arm per).started = r.started ∧ (r.arm per).fin = r.fin := by
  unfold Ref.arm
  split
  · split <;> exact ⟨rfl, rfl⟩
  · exact ⟨rfl, rfl⟩

theorem call_keeps (per : Nat → Nat) (r : Ref) (k : Bool) (a : Act) :
    (r.callAct per k a).started = r.started ∧ (r.callAct per k a).fin = r.fin := by
  unfold Ref.callAct
  cases a with
  | set => exact arm_keeps per _
  | setAbs c n => exact arm_keeps per _
  | setRel c n => exact arm_keeps per _
  | _ => exact ⟨rfl, rfl⟩

theorem ti_acts {per : Nat → Nat} {r : Ref} {as : List Act} (h : TI per r) (hsf : r.started = true → r.fin = true)
    (h1 : (r.runActs per as).proper = true) (h2 : (r.runActs per as).safe = true) :
    TI per (r.runActs per as) ∧ ((r.runActs per as).started = true → (r.runActs per as).fin = true) := by
  induction as generalizing r with
  | nil => exact ⟨h, hsf⟩
  | cons a as ih =>
    obtain ⟨a1, a2⟩ := acts_flags (r := r.callAct per true a) h1 h2
    obtain ⟨_, _, b1, b2⟩ := call_flags a1 a2
    obtain ⟨k1, k2⟩ := call_keeps per r true a
    exact ih (ti_call h hsf b1 b2) (by rw [k1, k2]; exact hsf) h1 h2

theorem ti_step {per : Nat → Nat} {prog : Prog} {r : Ref} (h : TI per r) (hsf : r.started = true → r.fin = true) (o : Op)
    (h1 : (r.step per prog o).1.proper = true) (h2 : (r.step per prog o).1.safe = true) :
    TI per (r.step per prog o).1 ∧ ((r.step per prog o).1.started = true → (r.step per prog o).1.fin = true) := by
  cases o with
  | act a =>
    have h1 : (r.outer per a).1.proper = true := h1
    have h2 : (r.outer per a).1.safe = true := h2
    show TI per (r.outer per a).1 ∧ ((r.outer per a).1.started = true → (r.outer per a).1.fin = true)
    rcases outer_cases per r a with ⟨_, e⟩ | e <;> rw [e] at h1 h2 ⊢
    · exact ⟨h, hsf⟩
    · obtain ⟨_, _, b1, b2⟩ := call_flags h1 h2
      obtain ⟨k1, k2⟩ := call_keeps per r false a
      exact ⟨ti_call h hsf b1 b2, by show (r.callAct per false a).started = true → (r.callAct per false a).fin = true; rw [k1, k2]; exact hsf⟩
  | finalize => exact ⟨⟨h.align, h.prep, h.armed, h.waiting, h.early, h.good, h.back, h.given⟩, fun _ => rfl⟩
  | startup =>
    have h1 : (r.startup per).proper = true := h1
    have h2 : (r.startup per).safe = true := h2
    obtain ⟨_, _, hf, hok⟩ := startup_flags h1 h2
    show TI per (r.startup per) ∧ ((r.startup per).started = true → (r.startup per).fin = true)
    unfold Ref.startup
    by_cases hw : r.waiting = true
    · rw [if_pos hw]
      obtain ⟨w1, w2, w3⟩ := h.waiting hw
      have hok' := hok hw
      obtain ⟨m, hm'⟩ := Option.isSome_iff_exists.1 w2
      obtain ⟨p1, p2, p3⟩ := h.prep m hm'
      have harm : Ref.arm per { r with started := true, waiting := false, safe := r.safe && r.armOk per } =
        { r with started := true, waiting := false, safe := r.safe && r.armOk per, armed := some (r.due per m) } := by
        unfold Ref.arm
        rw [if_pos (by exact hf)]
        simp only [hm']
        rfl
      rw [harm]
      refine ⟨⟨h.align, h.prep, ?_, fun hh => by simp at hh, fun hh => by simp at hh, h.good, fun _ => rfl, by show (cfg r.log).given = r.mode.isSome; exact h.given⟩, fun _ => hf⟩
      intro d hd
      have hd : some (r.due per m) = some d := hd
      have hn := h.early w3
      refine ⟨0, w1, ?_, ?_⟩
      · show okAt per (cfg r.log) 0
        unfold okAt
        unfold Ref.armOk at hok'
        rw [hf, hm'] at hok'
        rw [p1, p2, p3, h.align]
        cases m with
        | abs =>
          have hok : decide (r.cycle per ≤ r.val) = true := by simpa [Ref.reachable] using hok'
          have := of_decide_eq_true hok
          unfold Ref.cycle at this
          rw [hn] at this
          exact this
        | rel =>
          intro hal
          simpa [Ref.reachable, hal] using hok'
      · rw [← Option.some.inj hd]
        show r.due per m = dueAt per (cfg r.log) 0
        unfold dueAt Ref.due Ref.cycle
        rw [p1, p2, p3, h.align, hn]
    · rw [if_neg hw]
      exact ⟨⟨h.align, h.prep, h.armed, fun hh => absurd hh hw, fun hh => by simp at hh, h.good, h.back, h.given⟩, fun _ => hf⟩
  | wait n =>
    show TI per (r.wait n) ∧ ((r.wait n).started = true → (r.wait n).fin = true)
    unfold Ref.wait
    by_cases hs : r.started = true
    · rw [if_pos hs]
      split
      · exact ⟨⟨h.align, h.prep, h.armed, h.waiting, fun hh => absurd hs (by rw [show r.started = false from hh]; simp), h.good, h.back, h.given⟩, hsf⟩
      · exact ⟨⟨h.align, h.prep, h.armed, h.waiting, fun hh => absurd hs (by rw [show r.started = false from hh]; simp), h.good, h.back, h.given⟩, hsf⟩
    · rw [if_neg hs]
      exact ⟨h, hsf⟩
  | fire =>
    have h1 : (r.fire per prog).proper = true := h1
    have h2 : (r.fire per prog).safe = true := h2
    show TI per (r.fire per prog) ∧ ((r.fire per prog).started = true → (r.fire per prog).fin = true)
    by_cases hst : r.started = true
    · have hns : ¬ r.started = false := by rw [hst]; simp
      cases ha : r.armed with
      | some d =>
        rw [fire_armed hst ha] at h1 h2 ⊢
        have hw : r.waiting = false := by
          cases e : r.waiting with
          | false => rfl
          | true => exact absurd (h.waiting e).2.2 hns
        have h0 : TI per { r with now := d, armed := none, log := r.log ++ [Ev.fired d] } := by
          refine ⟨?_, ?_, fun _ e => by simp at e, fun e => absurd (show r.waiting = true from e) (by rw [hw]; simp), fun e => absurd (show r.started = false from e) hns, ?_, by show (cfg (r.log ++ [_])).set.isSome = true → _; rw [cfg_snoc]; intro hh; simp [Cfg.ev] at hh, by show (cfg (r.log ++ [_])).given = _; rw [cfg_snoc]; exact h.given⟩
          · show (cfg (r.log ++ [_])).align = _; rw [cfg_snoc]; exact h.align
          · intro m e
            show (cfg (r.log ++ [_])).mode = _ ∧ (cfg (r.log ++ [_])).clk = _ ∧ (cfg (r.log ++ [_])).val = _
            rw [cfg_snoc]
            exact h.prep m e
          · exact each_fired h.good (h.armed d ha)
        obtain ⟨t1, t2⟩ := ti_acts h0 hsf h1 h2
        exact ⟨⟨t1.align, t1.prep, t1.armed, t1.waiting, t1.early, t1.good, t1.back, t1.given⟩, t2⟩
      | none =>
        cases hs : r.stale with
        | some d =>
          rw [fire_stale hst ha hs]
          exact ⟨⟨h.align, h.prep, h.armed, h.waiting, fun e => absurd (show r.started = false from e) hns, h.good, h.back, h.given⟩, hsf⟩
        | none =>
          rw [fire_idle hst ha hs]
          exact ⟨h, hsf⟩
    · rw [fire_off hst]
      exact ⟨h, hsf⟩
  | isActive => exact ⟨h, hsf⟩
  | hasFired => exact ⟨h, hsf⟩

theorem ti_run {per : Nat → Nat} {prog : Prog} {r : Ref} (h : TI per r) (hsf : r.started = true → r.fin = true) (ops : List Op)
    (h1 : (runOps (Ref.step per prog) r ops).1.proper = true) (h2 : (runOps (Ref.step per prog) r ops).1.safe = true) :
    TI per (runOps (Ref.step per prog) r ops).1 := by
  induction ops generalizing r with
  | nil => exact h
  | cons o ops ih =>
    obtain ⟨a, b⟩ := run_flags (r := (r.step per prog o).1) h1 h2
    obtain ⟨t1, t2⟩ := ti_step (prog := prog) h hsf o a b
    exact ih t1 t2 h1 h2

theorem ti_all {per : Nat → Nat} {prog : Prog} {ops : List Op} (h1 : Proper per prog ops) (h2 : Safe per prog ops) :
    TI per (runOps (Ref.step per prog) rinit ops).1 :=
  ti_run (ti_init per) (fun h => by simp [rinit] at h) ops h1 h2

theorem inv_all {per : Nat → Nat} {prog : Prog} {ops : List Op} (h1 : Proper per prog ops) (h2 : Safe per prog ops) :
    answers per prog ops = idealAnswers per prog ops ∧
      Inv (runOps (step per prog) init ops).1 (runOps (Ref.step per prog) rinit ops).1 false :=
  run_ok inv_init ops h1 h2

theorem acts_started (per : Nat → Nat) (r : Ref) (as : List Act) : (r.runActs per as).started = r.started := by
  induction as generalizing r with
  | nil => rfl
  | cons a as ih => exact (ih _).trans (call_keeps per r true a).1

theorem step_started {per : Nat → Nat} {prog : Prog} {r : Ref} {o : Op} (h : r.started = true ∨ o = .startup) :
    (r.step per prog o).1.started = true := by
  have hstart : (r.startup per).started = true := by
    unfold Ref.startup
    split
    · exact (arm_keeps per _).1
    · rfl
  rcases h with h | h
  · cases o with
    | act a =>
      show (r.outer per a).1.started = true
      rcases outer_cases per r a with ⟨_, e⟩ | e <;> rw [e]
      · exact h
      · exact (call_keeps per r false a).1.trans h
    | finalize => exact h
    | startup => exact hstart
    | wait n =>
      show (r.wait n).started = true
      unfold Ref.wait
      rw [if_pos h]
      split <;> exact h
    | fire =>
      show (r.fire per prog).started = true
      cases ha : r.armed with
      | some d => rw [fire_armed h ha]; exact (acts_started per _ _).trans h
      | none =>
        cases hs : r.stale with
        | some d => rw [fire_stale h ha hs]; exact h
        | none => rw [fire_idle h ha hs]; exact h
    | isActive => exact h
    | hasFired => exact h
  · subst h
    exact hstart

theorem run_started {per : Nat → Nat} {prog : Prog} {r : Ref} {ops : List Op} (h : r.started = true ∨ .startup ∈ ops) :
    (runOps (Ref.step per prog) r ops).1.started = true := by
  induction ops generalizing r with
  | nil => simpa [runOps] using h
  | cons o ops ih =>
    apply ih
    rcases h with h | h
    · exact .inl (step_started (.inl h))
    · rcases List.mem_cons.1 h with h | h
      · exact .inl (step_started (.inr h.symm))
      · exact .inr h

theorem acts_log (per : Nat → Nat) (r : Ref) (as : List Act) :
    ∃ l, (r.runActs per as).log = r.log ++ l ∧ l.length = as.length ∧ ∀ e ∈ l, ∃ τ a, e = Ev.act τ a := by
  induction as generalizing r with
  | nil => exact ⟨[], by simp [Ref.runActs], rfl, by simp⟩
  | cons a as ih =>
    obtain ⟨l, h1, h2, h3⟩ := ih (r.callAct per true a)
    have hl : (r.callAct per true a).log = r.log ++ [.act r.now a] := by
      unfold Ref.callAct
      have harm : ∀ q : Ref, (q.arm per).log = q.log := by
        intro q
        unfold Ref.arm
        split
        · split <;> rfl
        · rfl
      cases a with
      | set => exact harm _
      | setAbs c n => exact harm _
      | setRel c n => exact harm _
      | _ => rfl
    refine ⟨.act r.now a :: l, by show (Ref.runActs per _ as).log = _; rw [h1, hl]; simp, by simp [h2], ?_⟩
    intro e he
    rcases List.mem_cons.1 he with he | he
    · exact ⟨_, _, he⟩
    · exact h3 e he

end Sparta.CycTrig
