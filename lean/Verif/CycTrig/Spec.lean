import Verif.CycTrig.Model
/-!
What the documentation promises about a cycle trigger: it is armed for one time, or it is not; and it runs its callback at
that time, once.
-/
namespace Sparta.CycTrig

inductive Mode
  | rel
  | abs
deriving DecidableEq, Repr

/-- `mode`, `clk`, `val`: how the trigger was prepared last; `waiting`: set before the scheduler was finalized; `armed`: the time
at which the callback is to run; `stale`: the time of an event that was switched off by `deactivate` and has not passed.
`proper` stays true as long as the program keeps its obligations, `safe` as long as it stays clear of what the code
mishandles. -/
structure Ref where
  now : Nat
  fin : Bool
  started : Bool
  mode : Option Mode
  clk : Nat
  val : Nat
  align : Bool
  waiting : Bool
  armed : Option Nat
  stale : Option Nat
  fired : Bool
  log : List Ev
  proper : Bool
  safe : Bool

def rinit : Ref :=
  { now := 0, fin := false, started := false, mode := none, clk := 0, val := 0, align := false, waiting := false, armed := none,
    stale := none, fired := false, log := [], proper := true, safe := true }

/-- the cycle for which a trigger is meant that is set in cycle `cyc`: absolute: the cycle itself; relative: that many
cycles later, or with alignment the next multiple -/
def targetCycle (m : Mode) (align : Bool) (val cyc : Nat) : Nat :=
  match m with
  | .abs => val
  | .rel => if align then (cyc / val + 1) * val else cyc + val

namespace Ref

def active (r : Ref) : Bool := r.armed.isSome || r.waiting

def cycle (per : Nat → Nat) (r : Ref) : Nat := r.now / per r.clk

/-- the tick for which the trigger is armed when it is set now: as many whole cycles ahead as the target is -/
def due (per : Nat → Nat) (r : Ref) (m : Mode) : Nat :=
  r.now + (targetCycle m r.align r.val (r.cycle per) - r.cycle per) * per r.clk

/-- the target can be reached: an absolute cycle is not over, a period to align to is not zero -/
def reachable (per : Nat → Nat) (r : Ref) (m : Mode) : Bool :=
  match m with
  | .abs => decide (r.cycle per ≤ r.val)
  | .rel => !r.align || decide (0 < r.val)

def arm (per : Nat → Nat) (r : Ref) : Ref :=
  if r.fin then
    match r.mode with
    | none => r
    | some m => { r with armed := some (r.due per m) }
  else { r with waiting := true }

def armOk (per : Nat → Nat) (r : Ref) : Bool :=
  !r.fin ||
  match r.mode with
  | none => true
  | some m => r.reachable per m

def prep (r : Ref) (m : Mode) (k n : Nat) : Ref := { r with mode := some m, clk := k, val := n }

/-- calls that are refused: changing or setting a trigger that is set; setting one that was never prepared -/
def refuse (r : Ref) : Act → Bool
  | .deactivate => false
  | .set => r.active || r.mode.isNone
  | _ => r.active

/-- obligations of the program, from the documentation: a trigger may not be prepared or set again while the event of an
earlier setting, though deactivated, has not passed; callbacks make no calls that are refused -/
def properAct (r : Ref) (a : Act) : Bool :=
  !r.refuse a &&
  match a with
  | .deactivate => true
  | _ => r.stale.isNone

/-- what the code handles well: in a callback only `set` and `deactivate`; a trigger is always relative or always absolute; an
absolute cycle lies ahead; a trigger set before the startup is not deactivated before it -/
def safeAct (per : Nat → Nat) (r : Ref) (inCb : Bool) : Act → Bool
  | .prepAbs .. => !inCb && r.mode != some .rel
  | .prepRel .. => !inCb && r.mode != some .abs
  | .align _ => !inCb
  | .set => r.armOk per
  | .setAbs k n => !inCb && r.mode != some .rel && (r.prep .abs k n).armOk per
  | .setRel k n => !inCb && r.mode != some .abs && (r.prep .rel k n).armOk per
  | .deactivate => !r.waiting

def doAct (per : Nat → Nat) (r : Ref) : Act → Ref
  | .prepAbs k n => r.prep .abs k n
  | .prepRel k n => r.prep .rel k n
  | .align b => { r with align := b }
  | .set => r.arm per
  | .setAbs k n => (r.prep .abs k n).arm per
  | .setRel k n => (r.prep .rel k n).arm per
  | .deactivate => { r with armed := none, waiting := false, stale := if r.armed.isSome then r.armed else r.stale }

def callAct (per : Nat → Nat) (r : Ref) (inCb : Bool) (a : Act) : Ref :=
  { r with log := r.log ++ [Ev.act r.now a], proper := r.proper && r.properAct a, safe := r.safe && r.safeAct per inCb a }.doAct per a

def runActs (per : Nat → Nat) (r : Ref) : List Act → Ref
  | [] => r
  | a :: as => (r.callAct per true a).runActs per as

def pending (r : Ref) : Option Nat := if r.armed.isSome then r.armed else r.stale

def wait (r : Ref) (n : Nat) : Ref :=
  if r.started then
    match r.pending with
    | none => { r with now := r.now + n }
    | some d => { r with now := min (r.now + n) d }
  else r

/-- the next event: the callback if the trigger is armed, nothing if it was deactivated -/
def fire (per : Nat → Nat) (prog : List Ev → List Act) (r : Ref) : Ref :=
  if r.started then
    match r.armed with
    | some d =>
      { { r with now := d, armed := none, log := r.log ++ [Ev.fired d] }.runActs per (prog (r.log ++ [Ev.fired d])) with fired := true }
    | none =>
      match r.stale with
      | some d => { r with now := d, stale := none }
      | none => r
  else r

def startup (per : Nat → Nat) (r : Ref) : Ref :=
  if r.waiting then
    { { r with started := true, waiting := false, safe := r.safe && r.armOk per }.arm per with proper := r.proper && r.fin }
  else { r with started := true, proper := r.proper && r.fin }

def outer (per : Nat → Nat) (r : Ref) (a : Act) : Ref × Ans :=
  if r.refuse a then (r, .fail .throw) else (r.callAct per false a, .ok)

def step (per : Nat → Nat) (prog : List Ev → List Act) (r : Ref) : Op → Ref × Ans
  | .act a => r.outer per a
  | .finalize => ({ r with fin := true }, .ok)
  | .startup => (r.startup per, .ok)
  | .wait n => (r.wait n, .ok)
  | .fire => (r.fire per prog, .ok)
  | .isActive => (r, .bool r.active)
  | .hasFired => (r, .bool r.fired)

end Ref

abbrev Prog := List Ev → List Act

def answers (per : Nat → Nat) (prog : Prog) (ops : List Op) : List Ans := (runOps (step per prog) init ops).2
def history (per : Nat → Nat) (prog : Prog) (ops : List Op) : List Ev := (runOps (step per prog) init ops).1.log
def idealAnswers (per : Nat → Nat) (prog : Prog) (ops : List Op) : List Ans := (runOps (Ref.step per prog) rinit ops).2
def idealHistory (per : Nat → Nat) (prog : Prog) (ops : List Op) : List Ev := (runOps (Ref.step per prog) rinit ops).1.log
def Proper (per : Nat → Nat) (prog : Prog) (ops : List Op) : Prop := (runOps (Ref.step per prog) rinit ops).1.proper = true
def Safe (per : Nat → Nat) (prog : Prog) (ops : List Op) : Prop := (runOps (Ref.step per prog) rinit ops).1.safe = true

/-- the setting in force according to a history: mode, clock, value, alignment, whether a time was ever given, and the tick of the last setting if the trigger was
neither deactivated nor run since -/
structure Cfg where
  mode : Mode
  clk : Nat
  val : Nat
  align : Bool
  given : Bool
  set : Option Nat
deriving DecidableEq, Repr

def Cfg.ev (c : Cfg) : Ev → Cfg
  | .act _ (.prepAbs k n) => { c with mode := .abs, clk := k, val := n, given := true }
  | .act _ (.prepRel k n) => { c with mode := .rel, clk := k, val := n, given := true }
  | .act _ (.align b) => { c with align := b }
  | .act τ .set => { c with set := some τ }
  | .act τ (.setAbs k n) => { c with mode := .abs, clk := k, val := n, given := true, set := some τ }
  | .act τ (.setRel k n) => { c with mode := .rel, clk := k, val := n, given := true, set := some τ }
  | .act _ .deactivate => { c with set := none }
  | .fired _ => { c with set := none }

def cfg (h : List Ev) : Cfg := h.foldl Cfg.ev { mode := .rel, clk := 0, val := 0, align := false, given := false, set := none }

/-- operations before the startup of a program that deactivates nothing before it -/
def Early : Op → Prop
  | .act .deactivate => False
  | .startup => False
  | _ => True

end Sparta.CycTrig
