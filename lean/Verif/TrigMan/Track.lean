import Verif.TrigMan.Steps
import Verif.TrigMan.Safety
namespace Sparta.TrigMan

def strip (i : Info) : Info := { i with fired := false }

/-- the state of the promise and what the history says about it -/
structure Track (r q : Ref) : Prop where
  rfin : r.fin = true
  qfin : q.fin = true
  next : q.next = r.next
  ctr : q.ctr = r.ctr
  active : q.active = r.active
  info : ∀ t, (q.info t).map strip = (r.info t).map strip

theorem track_some {r q : Ref} (h : Track r q) {t : Nat} {i : Info} (hi : r.info t = some i) :
    ∃ j, q.info t = some j ∧ strip j = strip i := by
  have := h.info t
  rw [hi] at this
  cases hj : q.info t with
  | none => rw [hj] at this; simp at this
  | some j =>
    rw [hj] at this
    exact ⟨j, rfl, Option.some.inj this⟩

theorem track_none {r q : Ref} (h : Track r q) {t : Nat} (hi : r.info t = none) : q.info t = none := by
  have := h.info t
  rw [hi] at this
  cases hj : q.info t with
  | none => rfl
  | some j => rw [hj] at this; simp at this

theorem track_clk {r q : Ref} (h : Track r q) (t : Nat) : q.clkOf t = r.clkOf t := by
  unfold Ref.clkOf
  cases hi : r.info t with
  | none => rw [track_none h hi]
  | some i =>
    obtain ⟨j, hj, e⟩ := track_some h hi
    rw [hj]
    have : (strip j).clk = (strip i).clk := congrArg Info.clk e
    exact congrArg some this

theorem track_on {r q : Ref} (h : Track r q) (c : Nat) : q.on c = r.on c := by
  unfold Ref.on
  rw [h.active]
  simp only [track_clk h]

theorem track_putI {r q : Ref} (h : Track r q) (t : Nat) {i j : Info} (e : strip j = strip i) :
    Track (r.putI t i) (q.putI t j) := by
  refine ⟨h.rfin, h.qfin, h.next, h.ctr, h.active, ?_⟩
  intro x
  show (upd q.info t _ x).map strip = (upd r.info t _ x).map strip
  by_cases hx : x = t
  · rw [hx, upd_same, upd_same]; simp [e]
  · rw [upd_other _ _ hx, upd_other _ _ hx]; exact h.info x

theorem track_activate {r q : Ref} (h : Track r q) (t : Nat) : Track (r.activate t) (q.activate t) :=
  ⟨h.rfin, h.qfin, h.next, h.ctr, by show q.active ++ [t] = r.active ++ [t]; rw [h.active], h.info⟩

theorem track_quiet {r q : Ref} (h : Track r q) (t : Nat) : Track (r.quiet t) (q.quiet t) :=
  ⟨h.rfin, h.qfin, h.next, h.ctr,
    by show q.active.filter _ = r.active.filter _; rw [h.active], h.info⟩

theorem track_next {r q : Ref} (h : Track r q) : Track { r with next := r.next + 1 } { q with next := q.next + 1 } :=
  ⟨h.rfin, h.qfin, by show q.next + 1 = r.next + 1; rw [h.next], h.ctr, h.active, h.info⟩

theorem track_cong {r q r1 : Ref} (h : Track r q) (h1 : r1.fin = r.fin) (h2 : r1.next = r.next) (h3 : r1.ctr = r.ctr)
    (h4 : r1.active = r.active) (h5 : r1.info = r.info) : Track r1 q :=
  ⟨h1.trans h.rfin, h.qfin, h.next.trans h2.symm, h.ctr.trans h3.symm, h.active.trans h4.symm, by rw [h5]; exact h.info⟩

theorem track_act {r q : Ref} (h : Track r q) (a : Act) : Track (r.doAct a) (q.doAct a) := by
  cases a with
  | make clk ctr point cb =>
    simp only [Ref.doAct]
    unfold Ref.enter
    rw [if_pos (by exact h.rfin), if_pos (by exact h.qfin), h.next]
    have h1 := track_next h
    rw [h.next] at h1
    exact track_activate (track_putI h1 _ rfl) _
  | set t => exact track_activate h t
  | deactivate t => exact track_quiet h t
  | reset t p =>
    simp only [Ref.doAct]
    cases hi : r.info t with
    | none => rw [track_none h hi]; exact h
    | some i =>
      obtain ⟨j, hj, e⟩ := track_some h hi
      rw [hj]
      exact track_activate (track_putI (track_quiet h t) t (congrArg (fun i => { i with point := p }) e)) t
  | destroy t =>
    refine ⟨h.rfin, h.qfin, h.next, h.ctr, (track_quiet h t).active, ?_⟩
    intro x
    show (upd q.info t none x).map strip = (upd r.info t none x).map strip
    by_cases hx : x = t
    · rw [hx, upd_same, upd_same]
    · rw [upd_other _ _ hx, upd_other _ _ hx]; exact h.info x
  | copy t =>
    simp only [Ref.doAct]
    cases hi : r.info t with
    | none => rw [track_none h hi]; exact h
    | some i =>
      obtain ⟨j, hj, e⟩ := track_some h hi
      rw [hj]
      have h1 := track_next h
      rw [h.next] at h1
      have h2 := track_putI h1 r.next (i := { i with fired := false }) (j := { j with fired := false })
        (congrArg (fun i => { i with fired := false }) e)
      show Track (if r.active.contains t then _ else _) (if q.active.contains t then _ else _)
      rw [h.next, show q.active.contains t = r.active.contains t by rw [h.active]]
      split
      · exact track_activate h2 _
      · exact h2
  | assign t u =>
    simp only [Ref.doAct]
    cases hi : r.info u with
    | none => rw [track_none h hi]; exact h
    | some i =>
      obtain ⟨j, hj, e⟩ := track_some h hi
      rw [hj]
      have h2 := track_putI (track_quiet h t) t e
      simp only [h.active]
      split
      · exact track_activate h2 _
      · exact h2
  | count c v =>
    exact ⟨h.rfin, h.qfin, h.next, by show upd q.ctr c v = upd r.ctr c v; rw [h.ctr], h.active, h.info⟩

theorem act_log (r : Ref) (a : Act) : (r.doAct a).log = r.log := by
  cases a <;> simp only [Ref.doAct] <;> (repeat' split) <;> (try unfold Ref.enter) <;> (try split) <;> rfl

theorem call_log (r : Ref) (pl : Ref.Place) (a : Act) : (r.callAct pl a).log = r.log ++ [.act a] := act_log _ a

theorem acts_log (r : Ref) (pl : Ref.Place) (as : List Act) : (r.runActs pl as).log = r.log ++ as.map Ev.act := by
  induction as generalizing r with
  | nil => simp [Ref.runActs]
  | cons a as ih =>
    show ((r.callAct pl a).runActs pl as).log = _
    rw [ih, call_log]
    simp

theorem mark_log (r : Ref) (t : Nat) : (r.markFired t).log = r.log := by
  unfold Ref.markFired; split <;> rfl

def Tr (r : Ref) : Prop := Track r (replay r.log)

theorem tr_call {r : Ref} (h : Tr r) (pl : Ref.Place) (a : Act) : Tr (r.callAct pl a) := by
  unfold Tr
  rw [call_log, replay_snoc]
  exact track_act (track_cong h (by rfl) (by rfl) (by rfl) (by rfl) (by rfl)) a

theorem tr_acts {r : Ref} (h : Tr r) (pl : Ref.Place) (as : List Act) : Tr (r.runActs pl as) := by
  induction as generalizing r with
  | nil => exact h
  | cons a as ih => exact ih (tr_call h pl a)

theorem tr_mark {r : Ref} (h : Tr r) (t : Nat) : Tr (r.markFired t) := by
  unfold Tr
  rw [mark_log]
  unfold Ref.markFired
  split
  · exact h
  · rename_i i hi
    refine ⟨h.rfin, h.qfin, h.next, h.ctr, h.active, ?_⟩
    intro x
    show _ = (upd r.info t _ x).map strip
    by_cases hx : x = t
    · rw [hx, upd_same, h.info t, hi]; rfl
    · rw [upd_other _ _ hx]; exact h.info x

theorem tr_fire {prog : Prog} {r : Ref} (h : Tr r) (c t : Nat) (i : Info) (td : List Nat) : Tr (r.fire prog c t i td) := by
  unfold Ref.fire
  apply tr_mark
  apply tr_acts
  unfold Tr
  show Track _ (replay (r.log ++ [Ev.fired t (r.ctr i.ctr)]))
  rw [replay_snoc]
  exact track_cong (track_quiet h t) (by rfl) (by rfl) (by rfl) (by rfl) (by rfl)

theorem tr_look {prog : Prog} {r : Ref} (h : Tr r) (c t : Nat) (td : List Nat) : Tr (r.look prog c t td) := by
  unfold Ref.look
  split
  · exact h
  · split
    · exact tr_fire h c t _ td
    · exact h

theorem tr_looks {prog : Prog} {r : Ref} (h : Tr r) (c : Nat) (td : List Nat) : Tr (r.looks prog c td) := by
  induction td generalizing r with
  | nil => exact h
  | cons t td ih => exact ih (tr_look h c t td)

theorem tr_edge {prog : Prog} {r : Ref} (h : Tr r) (c : Nat) : Tr (r.edge prog c) := by
  unfold Ref.edge
  apply tr_looks
  exact track_cong h (by rfl) (by rfl) (by rfl) (by rfl) (by rfl)

/-- a run after the startup -/
structure Run (r : Ref) : Prop where
  tr : Tr r
  waiting : r.waiting = []

theorem act_waiting {r : Ref} (hf : r.fin = true) (a : Act) : (r.doAct a).waiting = r.waiting := by
  cases a <;> simp only [Ref.doAct] <;> (repeat' split) <;> (try unfold Ref.enter) <;> (try rw [if_pos (by exact hf)]) <;> rfl

theorem acts_waiting {r : Ref} (h : Tr r) (pl : Ref.Place) (as : List Act) : (r.runActs pl as).waiting = r.waiting := by
  induction as generalizing r with
  | nil => rfl
  | cons a as ih =>
    show ((r.callAct pl a).runActs pl as).waiting = _
    rw [ih (tr_call h pl a)]
    exact act_waiting (by exact h.rfin) a

theorem mark_waiting (r : Ref) (t : Nat) : (r.markFired t).waiting = r.waiting := by
  unfold Ref.markFired; split <;> rfl

theorem look_waiting {prog : Prog} {r : Ref} (h : Tr r) (c t : Nat) (td : List Nat) :
    (r.look prog c t td).waiting = r.waiting := by
  unfold Ref.look
  split
  · rfl
  · split
    · rename_i i hi hc
      unfold Ref.fire
      rw [mark_waiting, acts_waiting]
      · rfl
      · unfold Tr
        show Track _ (replay (r.log ++ [Ev.fired t (r.ctr i.ctr)]))
        rw [replay_snoc]
        exact track_cong (track_quiet h t) (by rfl) (by rfl) (by rfl) (by rfl) (by rfl)
    · rfl

theorem looks_waiting {prog : Prog} {r : Ref} (h : Tr r) (c : Nat) (td : List Nat) :
    (r.looks prog c td).waiting = r.waiting := by
  induction td generalizing r with
  | nil => rfl
  | cons t td ih =>
    show ((r.look prog c t td).looks prog c td).waiting = _
    rw [ih (tr_look h c t td), look_waiting h]

theorem run_step {prog : Prog} {r : Ref} (h : Run r) (o : Op) : Run (r.step prog o).1 := by
  have hask : ∀ t f, Run (r.ask t f).1 := by
    intro t f
    unfold Ref.ask
    split
    · exact ⟨track_cong h.tr rfl rfl rfl rfl rfl, h.waiting⟩
    · exact h
  cases o with
  | act a =>
    show Run (r.outer a).1
    rcases outer_cases r a with e | e
    · rw [e]; exact h
    · rw [e]
      exact ⟨tr_call h.tr _ a, (act_waiting (by exact h.tr.rfin) a).trans h.waiting⟩
  | finalize => exact ⟨track_cong h.tr h.tr.rfin.symm rfl rfl rfl rfl, h.waiting⟩
  | startup =>
    show Run { r.startup with proper := r.proper && r.fin }
    unfold Ref.startup
    rw [h.waiting]
    exact ⟨track_cong h.tr rfl rfl rfl rfl rfl, rfl⟩
  | edge c =>
    refine ⟨tr_edge h.tr c, ?_⟩
    show (r.edge prog c).waiting = []
    unfold Ref.edge
    rw [looks_waiting]
    · exact h.waiting
    · exact track_cong h.tr (by rfl) (by rfl) (by rfl) (by rfl) (by rfl)
  | isActive t => exact hask _ _
  | hasFired t => exact hask _ _
  | point t => exact hask _ _
  | has t => exact hask _ _

/-- while the simulator is being built -/
structure Built (r : Ref) : Prop where
  fin : r.fin = false
  started : r.started = false
  active : r.active = []
  next : (replay r.log).next = r.next
  ctr : (replay r.log).ctr = r.ctr
  qactive : (replay r.log).active = r.waiting
  range : r.waiting = List.range r.next
  info : ∀ t, (replay r.log).info t = r.info t
  alive : ∀ t, t < r.next ↔ r.alive t = true
  safe : r.safe = true

theorem built_init : Built rinit := by
  refine ⟨rfl, rfl, rfl, rfl, rfl, rfl, rfl, fun _ => rfl, ?_, rfl⟩
  intro t
  simp [rinit, Ref.alive]

theorem built_step {prog : Prog} {r : Ref} (h : Built r) {o : Op} (ho : Building o) : Built (r.step prog o).1 := by
  have hask : ∀ t f, Built (r.ask t f).1 := by
    intro t f
    unfold Ref.ask
    split
    · exact ⟨h.fin, h.started, h.active, h.next, h.ctr, h.qactive, h.range, h.info, h.alive, h.safe⟩
    · exact h
  cases o with
  | act a =>
    cases a with
    | make clk ctr point cb =>
      have hlog : replay (r.log ++ [Ev.act (.make clk ctr point cb)]) =
          (({ replay r.log with next := (replay r.log).next + 1 }.putI (replay r.log).next
            { clk := clk, ctr := ctr, point := point, cb := cb, fired := false }).activate (replay r.log).next) := by
        rw [replay_snoc]
        show Ref.enter _ _ = _
        unfold Ref.enter
        rw [if_pos (by exact replay_fin r.log)]
      have he : (r.step prog (.act (.make clk ctr point cb))).1 =
          { r with log := r.log ++ [Ev.act (.make clk ctr point cb)], next := r.next + 1, waiting := r.waiting ++ [r.next],
                   proper := r.proper && r.properAct .outside (.make clk ctr point cb),
                   safe := r.safe && r.safeAct .outside (.make clk ctr point cb),
                   info := upd r.info r.next (some { clk := clk, ctr := ctr, point := point, cb := cb, fired := false }) } := by
        show Ref.enter _ _ = _
        unfold Ref.enter
        rw [if_neg (by simp [Ref.putI, h.fin])]
        rfl
      rw [he]
      refine ⟨h.fin, h.started, h.active, ?_, ?_, ?_, ?_, ?_, ?_, ?_⟩
      · show (replay (r.log ++ [Ev.act (.make clk ctr point cb)])).next = r.next + 1
        rw [hlog, ← h.next]; rfl
      · show (replay (r.log ++ [Ev.act (.make clk ctr point cb)])).ctr = r.ctr
        rw [hlog]; exact h.ctr
      · show (replay (r.log ++ [Ev.act (.make clk ctr point cb)])).active = r.waiting ++ [r.next]
        rw [hlog, ← h.qactive, ← h.next]; rfl
      · show r.waiting ++ [r.next] = List.range (r.next + 1)
        rw [List.range_succ, h.range]
      · intro t
        show (replay (r.log ++ [Ev.act (.make clk ctr point cb)])).info t = _
        rw [hlog]
        show upd (replay r.log).info _ _ t = upd r.info _ _ t
        rw [h.next]
        by_cases hx : t = r.next
        · rw [hx, upd_same, upd_same]
        · rw [upd_other _ _ hx, upd_other _ _ hx]; exact h.info t
      · intro t
        show t < r.next + 1 ↔ (upd r.info _ _ t).isSome = true
        by_cases hx : t = r.next
        · rw [hx, upd_same]; simp
        · rw [upd_other _ _ hx]
          have := h.alive t
          unfold Ref.alive at this
          rw [← this]
          omega
      · show (r.safe && true) = true
        rw [h.safe]; rfl
    | count c v =>
      have hl : replay (r.log ++ [Ev.act (.count c v)]) = { replay r.log with ctr := upd (replay r.log).ctr c v } := by
        rw [replay_snoc]; rfl
      show Built { r with log := r.log ++ [Ev.act (.count c v)], proper := _, safe := r.safe && true, ctr := upd r.ctr c v }
      refine ⟨h.fin, h.started, h.active, ?_, ?_, ?_, h.range, ?_, h.alive, by show (r.safe && true) = true; rw [h.safe]; rfl⟩
      · show (replay (r.log ++ [Ev.act (.count c v)])).next = _
        rw [hl]; exact h.next
      · show (replay (r.log ++ [Ev.act (.count c v)])).ctr = _
        rw [hl, ← h.ctr]
      · show (replay (r.log ++ [Ev.act (.count c v)])).active = _
        rw [hl]; exact h.qactive
      · show ∀ t, (replay (r.log ++ [Ev.act (.count c v)])).info t = _
        rw [hl]; exact h.info
    | _ => exact ho.elim
  | finalize => exact ho.elim
  | startup => exact ho.elim
  | edge c => exact ho.elim
  | isActive t => exact hask _ _
  | hasFired t => exact hask _ _
  | point t => exact hask _ _
  | has t => exact hask _ _

theorem enterAll_eq (r : Ref) (ws : List Nat) :
    ∃ f k, r.enterAll ws = { r with active := r.active ++ ws, fresh := f, ticking := k } := by
  induction ws generalizing r with
  | nil => exact ⟨r.fresh, r.ticking, by simp [Ref.enterAll]⟩
  | cons t ws ih =>
    obtain ⟨f, k, e⟩ := ih (r.activate t)
    refine ⟨f, k, ?_⟩
    show (r.activate t).enterAll ws = _
    rw [e]
    simp [Ref.activate]

theorem built_run {prog : Prog} (pre : List Op) (hp : ∀ o ∈ pre, Building o) :
    Built (runOps (Ref.step prog) rinit pre).1 := by
  have : ∀ (l : List Op) (r : Ref), (∀ o ∈ l, Building o) → Built r → Built (runOps (Ref.step prog) r l).1 := by
    intro l
    induction l with
    | nil => intro r _ h; exact h
    | cons o l ih =>
      intro r hl h
      exact ih _ (fun x hx => hl x (List.mem_cons_of_mem _ hx)) (built_step h (hl o (List.mem_cons_self ..)))
  exact this pre rinit hp built_init

theorem built_made {prog : Prog} (l : List Op) (r : Ref) (hl : ∀ o ∈ l, Building o) (h : Built r) :
    (runOps (Ref.step prog) r l).1.next = r.next + made l := by
  induction l generalizing r with
  | nil => rfl
  | cons o l ih =>
    show (runOps (Ref.step prog) (r.step prog o).1 l).1.next = _
    have ho := hl o (List.mem_cons_self ..)
    rw [ih _ (fun x hx => hl x (List.mem_cons_of_mem _ hx)) (built_step h ho)]
    have hask : ∀ t f, (r.ask t f).1.next = r.next := by
      intro t f
      unfold Ref.ask
      split <;> rfl
    cases o with
    | act a =>
      cases a with
      | make clk ctr point cb =>
        have : (r.step prog (.act (.make clk ctr point cb))).1.next = r.next + 1 := by
          show (Ref.enter _ _).next = _
          unfold Ref.enter
          split <;> rfl
        rw [this]
        show r.next + 1 + made l = r.next + (made l + 1)
        omega
      | count c v => rfl
      | _ => exact ho.elim
    | finalize => exact ho.elim
    | startup => exact ho.elim
    | edge c => exact ho.elim
    | isActive t => show (r.ask t _).1.next + _ = _; rw [hask]; rfl
    | hasFired t => show (r.ask t _).1.next + _ = _; rw [hask]; rfl
    | point t => show (r.ask t _).1.next + _ = _; rw [hask]; rfl
    | has t => show (r.ask t _).1.next + _ = _; rw [hask]; rfl

/-- the state of the promise after building, finalizing and starting -/
def begun (prog : Prog) (pre : List Op) : Ref :=
  ((((runOps (Ref.step prog) rinit pre).1.step prog .finalize).1).step prog .startup).1

theorem begun_eq {prog : Prog} (pre : List Op) (hp : ∀ o ∈ pre, Building o) :
    Run (begun prog pre) ∧ (begun prog pre).active = List.range (runOps (Ref.step prog) rinit pre).1.next ∧
      (begun prog pre).log = (runOps (Ref.step prog) rinit pre).1.log ∧
      (begun prog pre).info = (runOps (Ref.step prog) rinit pre).1.info ∧
      (begun prog pre).proper = (runOps (Ref.step prog) rinit pre).1.proper ∧ (begun prog pre).safe = true := by
  have h := built_run (prog := prog) pre hp
  unfold begun
  generalize (runOps (Ref.step prog) rinit pre).1 = r at h ⊢
  show Run { { r with fin := true }.startup with proper := r.proper && true } ∧ _
  have hb : (Ref.step prog (Ref.step prog r .finalize).1 .startup).1 = { { r with fin := true }.startup with proper := r.proper && true } := rfl
  rw [hb]
  unfold Ref.startup
  obtain ⟨f, k, e⟩ := enterAll_eq { r with fin := true, waiting := [] } r.waiting
  have e' : Ref.enterAll { { r with fin := true } with waiting := [] } ({ r with fin := true } : Ref).waiting = _ := e
  rw [e']
  simp only [h.active, List.nil_append]
  refine ⟨⟨?_, rfl⟩, h.range, trivial, trivial, by simp, h.safe⟩
  refine ⟨rfl, replay_fin r.log, h.next, h.ctr, h.qactive, ?_⟩
  intro t
  show ((replay r.log).info t).map strip = (r.info t).map strip
  rw [h.info t]

theorem life_state {prog : Prog} (pre post : List Op) :
    (runOps (Ref.step prog) rinit (life pre post)).1 = (runOps (Ref.step prog) (begun prog pre) post).1 := by
  unfold life
  rw [runOps_append]
  rfl

theorem life_run {prog : Prog} (pre post : List Op) (hp : ∀ o ∈ pre, Building o) :
    Run (runOps (Ref.step prog) rinit (life pre post)).1 := by
  rw [life_state]
  exact runOps_invariant (Ref.step prog) Run (fun r o h => run_step h o) _ (begun_eq pre hp).1 post

-- what a tick does

theorem firings_append (a b : List Ev) : firings (a ++ b) = firings a ++ firings b := by
  induction a with
  | nil => rfl
  | cons e a ih => cases e <;> simp [firings, ih]

theorem firings_acts (as : List Act) : firings (as.map Ev.act) = [] := by
  induction as with
  | nil => rfl
  | cons a as ih => exact ih

theorem fire_log (prog : Prog) (r : Ref) (c t : Nat) (i : Info) (td : List Nat) :
    (r.fire prog c t i td).log = r.log ++ (Ev.fired t (r.ctr i.ctr) :: (prog i.cb (r.log ++ [Ev.fired t (r.ctr i.ctr)])).map Ev.act) := by
  unfold Ref.fire
  rw [mark_log, acts_log]
  simp

theorem look_log (prog : Prog) (r : Ref) (c t : Nat) (td : List Nat) :
    ∃ new, (r.look prog c t td).log = r.log ++ new ∧ (firings new = [] ∧ new = [] ∨ firings new = [t]) := by
  unfold Ref.look
  split
  · exact ⟨[], by simp, .inl ⟨rfl, rfl⟩⟩
  · split
    · refine ⟨_, fire_log prog r c t _ td, .inr ?_⟩
      simp [firings, firings_acts]
    · exact ⟨[], by simp, .inl ⟨rfl, rfl⟩⟩

theorem looks_log (prog : Prog) (r : Ref) (c : Nat) (td : List Nat) :
    ∃ new, (r.looks prog c td).log = r.log ++ new ∧ (firings new).Sublist td := by
  induction td generalizing r with
  | nil => exact ⟨[], by simp [Ref.looks], List.Sublist.refl _⟩
  | cons t td ih =>
    obtain ⟨n1, e1, f1⟩ := look_log prog r c t td
    obtain ⟨n2, e2, f2⟩ := ih (r.look prog c t td)
    refine ⟨n1 ++ n2, ?_, ?_⟩
    · show ((r.look prog c t td).looks prog c td).log = _
      rw [e2, e1, List.append_assoc]
    · rw [firings_append]
      rcases f1 with ⟨f1, _⟩ | f1
      · rw [f1]; exact f2.cons _
      · rw [f1]; exact f2.cons_cons _

theorem edge_log (prog : Prog) (r : Ref) (c : Nat) :
    ∃ new, (r.edge prog c).log = r.log ++ new ∧ (firings new).Sublist (r.on c) :=
  looks_log prog { r with fresh := [] } c (r.on c)

/-- what concerns trigger `t` with counter `k` -/
structure Frame (t k : Nat) (r r1 : Ref) : Prop where
  info : (r1.info t).map strip = (r.info t).map strip
  active : r1.active.contains t = r.active.contains t
  fresh : r1.fresh.contains t = r.fresh.contains t
  ctr : r1.ctr k = r.ctr k
  next : r.next ≤ r1.next

theorem Frame.refl (t k : Nat) (r : Ref) : Frame t k r r := ⟨rfl, rfl, rfl, rfl, Nat.le_refl _⟩
theorem Frame.trans {t k : Nat} {a b c : Ref} (h1 : Frame t k a b) (h2 : Frame t k b c) : Frame t k a c :=
  ⟨h2.info.trans h1.info, h2.active.trans h1.active, h2.fresh.trans h1.fresh, h2.ctr.trans h1.ctr, Nat.le_trans h1.next h2.next⟩

theorem contains_snoc {l : List Nat} {x t : Nat} (h : x ≠ t) : (l ++ [x]).contains t = l.contains t := by
  simp [List.contains_iff_mem, Ne.symm h]

theorem contains_drop {l : List Nat} {x t : Nat} (h : x ≠ t) : (l.filter (· != x)).contains t = l.contains t := by
  rw [Bool.eq_iff_iff, List.contains_iff_mem, List.contains_iff_mem, List.mem_filter]
  constructor
  · exact fun h => h.1
  · exact fun hm => ⟨hm, by simp [Ne.symm h]⟩

theorem frame_activate {t k x : Nat} {r r1 : Ref} (h : Frame t k r r1) (hx : x ≠ t) : Frame t k r (r1.activate x) :=
  ⟨h.info, (contains_snoc hx).trans h.active, (contains_snoc hx).trans h.fresh, h.ctr, h.next⟩

theorem frame_quiet {t k x : Nat} {r r1 : Ref} (h : Frame t k r r1) (hx : x ≠ t) : Frame t k r (r1.quiet x) :=
  ⟨h.info, (contains_drop hx).trans h.active, (contains_drop hx).trans h.fresh, h.ctr, h.next⟩

theorem frame_putI {t k x : Nat} {r r1 : Ref} {i : Info} (h : Frame t k r r1) (hx : x ≠ t) : Frame t k r (r1.putI x i) :=
  ⟨by show (upd r1.info x _ t).map strip = _; rw [upd_other _ _ (Ne.symm hx)]; exact h.info, h.active, h.fresh, h.ctr, h.next⟩

theorem frame_next {t k : Nat} {r r1 : Ref} (h : Frame t k r r1) : Frame t k r { r1 with next := r1.next + 1 } :=
  ⟨h.info, h.active, h.fresh, h.ctr, Nat.le_succ_of_le h.next⟩

theorem frame_act {t k : Nat} {r : Ref} {a : Act} (hf : r.fin = true) (ht : t < r.next)
    (ha : match Ev.act a with
      | .act (.count c _) => c ≠ k
      | .act a => touches t a = false
      | .fired u _ => u ≠ t) : Frame t k r (r.doAct a) := by
  have h0 := Frame.refl t k r
  have hn : r.next ≠ t := by omega
  cases a with
  | make clk ctr point cb =>
    simp only [Ref.doAct]
    unfold Ref.enter
    rw [if_pos (by exact hf)]
    exact frame_activate (frame_putI (frame_next h0) hn) hn
  | set u => exact frame_activate h0 (by simpa [touches] using ha)
  | deactivate u => exact frame_quiet h0 (by simpa [touches] using ha)
  | reset u p =>
    have hu : u ≠ t := by simpa [touches] using ha
    simp only [Ref.doAct]
    split
    · exact h0
    · exact frame_activate (frame_putI (frame_quiet h0 hu) hu) hu
  | destroy u =>
    have hu : u ≠ t := by simpa [touches] using ha
    have h1 := frame_quiet h0 hu
    exact ⟨by show (upd r.info u none t).map strip = _; rw [upd_other _ _ (Ne.symm hu)], h1.active, h1.fresh, h1.ctr, h1.next⟩
  | copy u =>
    simp only [Ref.doAct]
    split
    · exact h0
    · have h1 := fun i => frame_putI (i := i) (frame_next h0) hn
      split
      · exact frame_activate (h1 _) hn
      · exact h1 _
  | assign u w =>
    have hu : u ≠ t := by simpa [touches] using ha
    simp only [Ref.doAct]
    split
    · exact h0
    · split
      · exact frame_activate (frame_putI (frame_quiet h0 hu) hu) hu
      · exact frame_putI (frame_quiet h0 hu) hu
  | count c v =>
    have hc : c ≠ k := ha
    exact ⟨rfl, rfl, rfl, by show upd r.ctr c v k = _; rw [upd_other _ _ (Ne.symm hc)], Nat.le_refl _⟩

theorem frame_acts {t k : Nat} {r : Ref} {as : List Act} {pl : Ref.Place} (h : Tr r) (ht : t < r.next)
    (ha : leavesAlone t k (as.map Ev.act)) : Frame t k r (r.runActs pl as) := by
  induction as generalizing r with
  | nil => exact Frame.refl ..
  | cons a as ih =>
    have h1 : Frame t k r (r.callAct pl a) := by
      have := frame_act (t := t) (k := k) (a := a)
        (r := { r with log := r.log ++ [Ev.act a], proper := r.proper && r.properAct pl a, safe := r.safe && r.safeAct pl a })
        (by exact h.rfin) (by exact ht) (ha _ (List.mem_cons_self ..))
      exact ⟨this.info, this.active, this.fresh, this.ctr, this.next⟩
    exact h1.trans (ih (tr_call h pl a) (Nat.lt_of_lt_of_le ht h1.next) (fun e he => ha e (List.mem_cons_of_mem _ he)))

theorem frame_mark {t k u : Nat} {r r1 : Ref} (h : Frame t k r r1) : Frame t k r (r1.markFired u) := by
  unfold Ref.markFired
  split
  · exact h
  · rename_i i hi
    refine ⟨?_, h.active, h.fresh, h.ctr, h.next⟩
    show (upd r1.info u _ t).map strip = _
    by_cases hx : t = u
    · rw [hx, upd_same, ← hx, ← h.info, hx, hi]; rfl
    · rw [upd_other _ _ hx]; exact h.info

theorem tr_fired {r : Ref} (h : Tr r) (t v : Nat) : Tr { r.quiet t with log := r.log ++ [Ev.fired t v] } := by
  unfold Tr
  show Track _ (replay (r.log ++ [Ev.fired t v]))
  rw [replay_snoc]
  exact track_cong (track_quiet h t) (by rfl) (by rfl) (by rfl) (by rfl) (by rfl)

theorem frame_look {prog : Prog} {t k u c : Nat} {td : List Nat} {r : Ref} {new : List Ev} (h : Tr r) (ht : t < r.next)
    (hl : (r.look prog c u td).log = r.log ++ new) (ha : leavesAlone t k new) : Frame t k r (r.look prog c u td) := by
  revert hl
  unfold Ref.look
  split
  · intro _; exact Frame.refl ..
  · rename_i i hi
    split
    · intro hl
      rw [fire_log] at hl
      have hl := List.append_cancel_left hl
      subst hl
      have hu : u ≠ t := ha (Ev.fired u (r.ctr i.ctr)) (List.mem_cons_self ..)
      unfold Ref.fire
      refine frame_mark ?_
      have h1 : Frame t k r { r.quiet u with log := r.log ++ [Ev.fired u (r.ctr i.ctr)] } :=
        have f := frame_quiet (Frame.refl t k r) hu
        ⟨f.info, f.active, f.fresh, f.ctr, f.next⟩
      exact h1.trans (frame_acts (tr_fired h u _) ht (fun e he => ha e (List.mem_cons_of_mem _ he)))
    · intro _; exact Frame.refl ..

theorem looks_due {prog : Prog} {t k c : Nat} {td : List Nat} {r : Ref} {new : List Ev} {i : Info} (h : Tr r)
    (hl : (r.looks prog c td).log = r.log ++ new) (ha : leavesAlone t k new) (hm : t ∈ td)
    (hact : t ∈ r.active) (hfr : t ∉ r.fresh) (hi : r.info t = some i) (hk : i.ctr = k) (ht : t < r.next) :
    ¬ i.point ≤ r.ctr k := by
  induction td generalizing r i new with
  | nil => cases hm
  | cons u td ih =>
    intro hp
    obtain ⟨n1, e1, f1⟩ := look_log prog r c u td
    obtain ⟨n2, e2, f2⟩ := looks_log prog (r.look prog c u td) c td
    have hl' : ((r.look prog c u td).looks prog c td).log = r.log ++ new := hl
    rw [e2, e1, List.append_assoc] at hl'
    have hn := List.append_cancel_left hl'
    subst hn
    have ha1 : leavesAlone t k n1 := fun e he => ha e (List.mem_append_left _ he)
    have ha2 : leavesAlone t k n2 := fun e he => ha e (List.mem_append_right _ he)
    by_cases hu : u = t
    · subst hu
      have : (r.look prog c u td).log = r.log ++ (Ev.fired u (r.ctr i.ctr) :: (prog i.cb (r.log ++ [Ev.fired u (r.ctr i.ctr)])).map Ev.act) := by
        unfold Ref.look
        rw [hi]
        simp only
        rw [if_pos (by simp [hact, hfr, hk, hp]), fire_log]
      rw [this] at e1
      have e1 := List.append_cancel_left e1
      subst e1
      exact ha1 (Ev.fired u (r.ctr i.ctr)) (List.mem_cons_self ..) rfl
    · have hf := frame_look h ht e1 ha1
      have hm' : t ∈ td := by
        rcases List.mem_cons.1 hm with hm | hm
        · exact absurd hm.symm hu
        · exact hm
      have hinf := hf.info
      rw [hi] at hinf
      cases hj : (r.look prog c u td).info t with
      | none => rw [hj] at hinf; simp at hinf
      | some j =>
        rw [hj] at hinf
        have hs : strip j = strip i := Option.some.inj hinf
        have hjc : (strip j).ctr = (strip i).ctr := congrArg Info.ctr hs
        replace hjc : j.ctr = i.ctr := hjc
        have hjp : (strip j).point = (strip i).point := congrArg Info.point hs
        replace hjp : j.point = i.point := hjp
        have hact' : t ∈ (r.look prog c u td).active := by
          have := hf.active
          rw [List.contains_iff_mem.2 hact] at this
          exact List.contains_iff_mem.1 this
        have hfr' : t ∉ (r.look prog c u td).fresh := by
          intro hx
          have := hf.fresh
          rw [List.contains_iff_mem.2 hx] at this
          exact hfr (List.contains_iff_mem.1 this.symm)
        refine ih (tr_look h c u td) e2 ha2 hm' hact' hfr' hj (hjc.trans hk) (Nat.lt_of_lt_of_le ht hf.next) ?_
        rw [hjp, hf.ctr]
        exact hp

-- callbacks that make no calls

theorem mark_fields (r : Ref) (t : Nat) : (r.markFired t).active = r.active ∧ (r.markFired t).fresh = r.fresh ∧
    (r.markFired t).ctr = r.ctr ∧ ∀ x, x ≠ t → (r.markFired t).info x = r.info x := by
  unfold Ref.markFired
  split
  · exact ⟨rfl, rfl, rfl, fun _ _ => rfl⟩
  · exact ⟨rfl, rfl, rfl, fun x hx => upd_other _ _ hx⟩

theorem looks_quiet {r : Ref} {c : Nat} {L : List Nat} (q : Ref) (hn : L.Nodup) (ha : ∀ t ∈ L, t ∈ r.active)
    (hf : ∀ t ∈ L, t ∉ r.fresh) (hc : q.ctr = r.ctr) (hi : ∀ t ∈ L, (q.info t).map strip = (r.info t).map strip) :
    (r.looks (fun _ _ => []) c L).log = r.log ++ dueEvents q L := by
  induction L generalizing r with
  | nil => simp [Ref.looks, dueEvents]
  | cons t L ih =>
    have hnt : t ∉ L := (List.nodup_cons.1 hn).1
    have hn' := (List.nodup_cons.1 hn).2
    show ((r.look (fun _ _ => []) c t L).looks (fun _ _ => []) c L).log = _
    have hit := hi t (List.mem_cons_self ..)
    have base : ∀ r1 : Ref, (∀ x ∈ L, x ∈ r1.active) → (∀ x ∈ L, x ∉ r1.fresh) → r1.ctr = r.ctr →
        (∀ x ∈ L, r1.info x = r.info x) → (r1.looks (fun _ _ => []) c L).log = r1.log ++ dueEvents q L := by
      intro r1 b1 b2 b3 b4
      refine ih hn' b1 b2 (hc.trans b3.symm) ?_
      intro x hx
      rw [b4 x hx]
      exact hi x (List.mem_cons_of_mem _ hx)
    cases hr : r.info t with
    | none =>
      rw [hr] at hit
      have hq : q.info t = none := by
        cases hq : q.info t with
        | none => rfl
        | some j => rw [hq] at hit; simp at hit
      have e1 : r.look (fun _ _ => []) c t L = r := by unfold Ref.look; rw [hr]
      rw [e1, base r (fun x hx => ha x (List.mem_cons_of_mem _ hx)) (fun x hx => hf x (List.mem_cons_of_mem _ hx)) rfl (fun _ _ => rfl)]
      unfold dueEvents
      rw [List.filterMap_cons, hq]
    | some i =>
      rw [hr] at hit
      cases hq : q.info t with
      | none => rw [hq] at hit; simp at hit
      | some j =>
        rw [hq] at hit
        have hs : strip j = strip i := Option.some.inj hit
        have hjc : (strip j).ctr = (strip i).ctr := congrArg Info.ctr hs
        replace hjc : j.ctr = i.ctr := hjc
        have hjp : (strip j).point = (strip i).point := congrArg Info.point hs
        replace hjp : j.point = i.point := hjp
        by_cases hp : i.point ≤ r.ctr i.ctr
        · have e1 : r.look (fun _ _ => []) c t L = r.fire (fun _ _ => []) c t i L := by
            unfold Ref.look
            rw [hr]
            simp only
            rw [if_pos (by simp [ha t (List.mem_cons_self ..), hf t (List.mem_cons_self ..), hp])]
          rw [e1, base]
          · rw [fire_log]
            unfold dueEvents
            rw [List.filterMap_cons, hq]
            simp only [hjp, hjc, hc, hp, if_pos]
            simp
          · intro x hx
            have hxt : x ≠ t := fun e => hnt (e ▸ hx)
            have : (r.fire (fun _ _ => []) c t i L).active = r.active.filter (· != t) := by
              exact (mark_fields _ t).1
            rw [this]
            exact List.mem_filter.2 ⟨ha x (List.mem_cons_of_mem _ hx), by simp [hxt]⟩
          · intro x hx
            have : (r.fire (fun _ _ => []) c t i L).fresh = r.fresh.filter (· != t) := by
              exact (mark_fields _ t).2.1
            rw [this]
            intro hm
            exact hf x (List.mem_cons_of_mem _ hx) (List.mem_filter.1 hm).1
          · exact (mark_fields _ t).2.2.1
          · intro x hx
            have hxt : x ≠ t := fun e => hnt (e ▸ hx)
            exact (mark_fields _ t).2.2.2 x hxt
        · have e1 : r.look (fun _ _ => []) c t L = r := by
            unfold Ref.look
            rw [hr]
            simp only
            rw [if_neg (by simp; intro _ _; omega)]
          rw [e1, base r (fun x hx => ha x (List.mem_cons_of_mem _ hx)) (fun x hx => hf x (List.mem_cons_of_mem _ hx)) rfl (fun _ _ => rfl)]
          unfold dueEvents
          rw [List.filterMap_cons, hq]
          simp only [hjp, hjc, hc, hp, if_neg, not_false_eq_true]

end Sparta.TrigMan
