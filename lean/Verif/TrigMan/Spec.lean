import Verif.TrigMan.Model
/-!
What the documentation promises about counter triggers, without handlers, deferred lists or flags: there is a list of
the active triggers, in the order of their activation.  At a tick of a clock those that were active before the tick are
looked at in that order; one whose counter has reached its point becomes inactive and its callback runs.
-/
namespace Sparta.TrigMan

structure Info where
  clk : Nat
  ctr : Nat
  point : Nat
  cb : Nat
  fired : Bool
deriving DecidableEq, Repr

/-- `active`: the active triggers, oldest activation first; `fresh`: those activated since the present tick began;
`waiting`: made before the scheduler was finalized; `ticking`: the clocks on which a trigger was ever activated.
`proper` stays true as long as the program keeps its own obligations, `safe` as long as it stays clear of the calls that
the code mishandles. -/
structure Ref where
  fin : Bool
  started : Bool
  waiting : List Nat
  info : Nat → Option Info
  next : Nat
  active : List Nat
  fresh : List Nat
  ticking : List Nat
  ctr : Nat → Nat
  log : List Ev
  proper : Bool
  safe : Bool

def rinit : Ref :=
  { fin := false, started := false, waiting := [], info := fun _ => none, next := 0, active := [], fresh := [], ticking := [],
    ctr := fun _ => 0, log := [], proper := true, safe := true }

namespace Ref

def clkOf (r : Ref) (t : Nat) : Option Nat := (r.info t).map (·.clk)
def alive (r : Ref) (t : Nat) : Bool := (r.info t).isSome

/-- the active triggers of clock `c` -/
def on (r : Ref) (c : Nat) : List Nat := r.active.filter fun t => r.clkOf t == some c

def putI (r : Ref) (t : Nat) (i : Info) : Ref := { r with info := upd r.info t (some i) }

def activate (r : Ref) (t : Nat) : Ref :=
  { r with active := r.active ++ [t], fresh := r.fresh ++ [t], ticking := r.ticking ++ (r.clkOf t).toList }

def quiet (r : Ref) (t : Nat) : Ref :=
  { r with active := r.active.filter (· != t), fresh := r.fresh.filter (· != t) }

/-- activation now, or at startup -/
def enter (r : Ref) (t : Nat) : Ref := if r.fin then r.activate t else { r with waiting := r.waiting ++ [t] }

def doAct (r : Ref) : Act → Ref
  | .make clk ctr point cb =>
    ({ r with next := r.next + 1 }.putI r.next { clk := clk, ctr := ctr, point := point, cb := cb, fired := false }).enter r.next
  | .set t => r.activate t
  | .deactivate t => r.quiet t
  | .reset t p =>
    match r.info t with
    | none => r
    | some i => ((r.quiet t).putI t { i with point := p }).activate t
  | .destroy t => { r.quiet t with info := upd r.info t none }
  | .copy t =>
    match r.info t with
    | none => r
    | some i =>
      let r' := { r with next := r.next + 1 }.putI r.next { i with fired := false }
      if r.active.contains t then r'.activate r.next else r'
  | .assign t u =>
    match r.info u with
    | none => r
    | some i => if r.active.contains u then ((r.quiet t).putI t i).activate t else (r.quiet t).putI t i
  | .count c v => { r with ctr := upd r.ctr c v }

/-- where a call is made: outside of ticks, or in the callback of trigger `cur` at a tick of clock `c`, when the triggers
`todo` are still to be looked at -/
inductive Place
  | outside
  | inside (c cur : Nat) (todo : List Nat)

/-- the triggers a call mentions exist -/
def mentions (r : Ref) : Act → Bool
  | .make .. => true
  | .set t => r.alive t
  | .deactivate t => r.alive t
  | .reset t _ => r.alive t
  | .destroy t => r.alive t
  | .copy t => r.alive t
  | .assign t u => r.alive t && r.alive u
  | .count .. => true

/-- the obligations of the program: the triggers exist; a callback does not set an active trigger (that throws), and it does
not destroy the trigger whose callback it is -/
def properAct (r : Ref) (pl : Place) (a : Act) : Bool :=
  r.mentions a &&
  match pl, a with
  | .inside .., .set t => !r.active.contains t
  | .inside _ cur _, .destroy t => t != cur
  | _, _ => true

/-- taking trigger `t` (of clock `d`) off the manager is handled well: at a tick of its own clock if it was not activated
during this tick and is not still to be looked at; otherwise if another trigger of that clock remains active, or none ever
was -/
def safeRemove (r : Ref) (pl : Place) (t d : Nat) : Bool :=
  match pl with
  | .outside => !r.ticking.contains d || (r.on d).any (· != t)
  | .inside c _ todo =>
    if d = c then !r.fresh.contains t && !todo.contains t
    else !r.ticking.contains d || (r.on d).any (· != t)

def safeOff (r : Ref) (pl : Place) (t : Nat) : Bool :=
  match r.clkOf t with
  | none => true
  | some d => r.safeRemove pl t d

/-- the calls that the code handles well; before startup only construction -/
def safeAct (r : Ref) (pl : Place) : Act → Bool
  | .make .. => true
  | .set _ => r.started
  | .deactivate t => r.started && r.safeOff pl t
  | .reset t _ => r.started && r.safeOff pl t
  | .destroy t => r.started && r.safeOff pl t
  | .copy _ => r.started
  | .assign t u => r.started && t != u && r.safeOff pl t
  | .count .. => true

/-- note whether a call is proper and safe, note it in the history, and make it -/
def callAct (r : Ref) (pl : Place) (a : Act) : Ref :=
  { r with log := r.log ++ [Ev.act a], proper := r.proper && r.properAct pl a, safe := r.safe && r.safeAct pl a }.doAct a

def runActs (r : Ref) (pl : Place) : List Act → Ref
  | [] => r
  | a :: as => (r.callAct pl a).runActs pl as

def markFired (r : Ref) (t : Nat) : Ref :=
  match r.info t with
  | none => r
  | some i => r.putI t { i with fired := true }

def fire (prog : Nat → List Ev → List Act) (r : Ref) (c t : Nat) (i : Info) (todo : List Nat) : Ref :=
  let r' := { r.quiet t with log := r.log ++ [Ev.fired t (r.ctr i.ctr)] }
  (r'.runActs (.inside c t todo) (prog i.cb r'.log)).markFired t

/-- a trigger is looked at: it must still be active and not have been activated during this tick -/
def look (prog : Nat → List Ev → List Act) (r : Ref) (c t : Nat) (todo : List Nat) : Ref :=
  match r.info t with
  | none => r
  | some i =>
    if r.active.contains t && !r.fresh.contains t && decide (i.point ≤ r.ctr i.ctr) then r.fire prog c t i todo else r

def looks (prog : Nat → List Ev → List Act) (r : Ref) (c : Nat) : List Nat → Ref
  | [] => r
  | t :: ts => (r.look prog c t ts).looks prog c ts

def edge (prog : Nat → List Ev → List Act) (r : Ref) (c : Nat) : Ref :=
  { r with fresh := [] }.looks prog c (r.on c)

def enterAll (r : Ref) : List Nat → Ref
  | [] => r
  | t :: ts => (r.activate t).enterAll ts

def startup (r : Ref) : Ref := { { r with waiting := [] }.enterAll r.waiting with started := true }

def ask (r : Ref) (t : Nat) (f : Info → Ans) : Ref × Ans :=
  match r.info t with
  | none => ({ r with proper := false }, .fail .ub)
  | some i => (r, f i)

/-- a call from the outside; setting an active trigger is refused -/
def outer (r : Ref) (a : Act) : Ref × Ans :=
  match a with
  | .set t => if r.active.contains t then (r, .fail .throw) else (r.callAct .outside a, .ok)
  | _ => (r.callAct .outside a, .ok)

def step (prog : Nat → List Ev → List Act) (r : Ref) : Op → Ref × Ans
  | .act a => r.outer a
  | .finalize => ({ r with fin := true }, .ok)
  | .startup => ({ r.startup with proper := r.proper && r.fin }, .ok)
  | .edge c => (r.edge prog c, .ok)
  | .isActive t => r.ask t fun _ => .bool (r.active.contains t)
  | .hasFired t => r.ask t fun i => .bool i.fired
  | .point t => r.ask t fun i => .num i.point
  | .has t => r.ask t fun _ => .bool (r.active.contains t)

end Ref

abbrev Prog := Nat → List Ev → List Act

/-- the code run over a list of operations: the answers and the history -/
def answers (prog : Prog) (ops : List Op) : List Ans := (runOps (step prog) init ops).2
def history (prog : Prog) (ops : List Op) : List Ev := (runOps (step prog) init ops).1.log

/-- the promise -/
def idealAnswers (prog : Prog) (ops : List Op) : List Ans := (runOps (Ref.step prog) rinit ops).2
def idealHistory (prog : Prog) (ops : List Op) : List Ev := (runOps (Ref.step prog) rinit ops).1.log
def Proper (prog : Prog) (ops : List Op) : Prop := (runOps (Ref.step prog) rinit ops).1.proper = true
def Safe (prog : Prog) (ops : List Op) : Prop := (runOps (Ref.step prog) rinit ops).1.safe = true

/-- what a history says about the triggers: the calls in it, with every trigger that is made or set active at once, and the
callbacks that ran, each of which makes its trigger inactive -/
def replayEv (r : Ref) : Ev → Ref
  | .act a => r.doAct a
  | .fired t _ => r.quiet t

def replay (h : List Ev) : Ref := h.foldl replayEv { rinit with fin := true }

/-- a callback with counter value `v` for trigger `t` is justified by the history before it: the trigger was activated
and neither deactivated nor run since, and `v` is the counter's value and has reached the trigger's point -/
def Justified (before : List Ev) (t v : Nat) : Prop :=
  t ∈ (replay before).active ∧ ∃ i, (replay before).info t = some i ∧ v = (replay before).ctr i.ctr ∧ i.point ≤ v

/-- operations before the startup: construction of triggers, counting, questions -/
def Early : Op → Prop
  | .act (.make ..) => True
  | .act (.count ..) => True
  | .act _ => False
  | .edge _ => False
  | .startup => False
  | _ => True

/-- operations while the simulator is being built: construction of triggers, counting, questions -/
def Building : Op → Prop
  | .act (.make ..) => True
  | .act (.count ..) => True
  | .isActive _ => True
  | .hasFired _ => True
  | .point _ => True
  | .has _ => True
  | _ => False

/-- how many triggers a list of operations constructs -/
def made : List Op → Nat
  | [] => 0
  | .act (.make ..) :: ops => made ops + 1
  | _ :: ops => made ops

/-- the callbacks that are due according to a history, among the triggers `ts`, with the counter values -/
def dueEvents (q : Ref) (ts : List Nat) : List Ev :=
  ts.filterMap fun t =>
    match q.info t with
    | none => none
    | some i => if i.point ≤ q.ctr i.ctr then some (Ev.fired t (q.ctr i.ctr)) else none

/-- the life of a simulator: it is built, finalized, started, and then anything goes -/
def life (pre post : List Op) : List Op := pre ++ .finalize :: .startup :: post

/-- the triggers whose callbacks a piece of history contains -/
def firings : List Ev → List Nat
  | [] => []
  | .fired t _ :: es => t :: firings es
  | .act _ :: es => firings es

/-- a call concerns trigger `t` -/
def touches (t : Nat) : Act → Bool
  | .make .. => false
  | .set u => u == t
  | .deactivate u => u == t
  | .reset u _ => u == t
  | .destroy u => u == t
  | .copy _ => false
  | .assign u _ => u == t
  | .count .. => false

/-- a piece of history leaves trigger `t` with counter `k` alone -/
def leavesAlone (t k : Nat) (es : List Ev) : Prop :=
  ∀ e ∈ es, match e with
    | .act (.count c _) => c ≠ k
    | .act a => touches t a = false
    | .fired u _ => u ≠ t

end Sparta.TrigMan
