import Verif.Common

/-!
# Model of `sparta::Counter` and `sparta::CycleCounter`

sparta/statistics/Counter.hpp and sparta/statistics/CycleCounter.hpp. Values are naturals below `word` (`uint64_t`);
the arithmetic wraps. Names, descriptions, visibility, the tree, moves and printing are not modelled.
-/

namespace Sparta.Counter

/-- the number of values of `uint64_t` (`CounterBase::counter_type`, CounterBase.hpp:37) -/
def word : Nat := 2 ^ 64

/-- the number of values of `uint32_t`: delays and multipliers of cycle counters -/
def half : Nat := 2 ^ 32

/-- `CounterBase::CounterBehavior`, CounterBase.hpp:45-100 -/
inductive Behavior where
  | normal | integral | latest
  deriving DecidableEq, Repr

/-- `Counter`: its behavior and `val_`, Counter.hpp:297-302 -/
structure Ctr where
  behavior : Behavior
  val : Nat
  deriving DecidableEq, Repr

/-- the constructor, Counter.hpp:50-66 -/
def Ctr.init (b : Behavior) : Ctr := ⟨b, 0⟩

/-- `set`, Counter.hpp:160-169; `none` is the exception. `operator=(counter_type)` and `operator=(const Counter&)`
(168-177) call it. -/
def Ctr.set (c : Ctr) (v : Nat) : Option Ctr :=
  if c.behavior ≠ .latest then none else some { c with val := v }

/-- `increment`, Counter.hpp:191-208, also `operator+=` (229-231) -/
def Ctr.increment (c : Ctr) (n : Nat) : Ctr := { c with val := (c.val + n) % word }

inductive Op where
  | set (v : Nat)
  | add (n : Nat)
  | pre
  | post
  | get
  deriving DecidableEq, Repr

/-- result of a call: an exception or a value -/
inductive Res where
  | threw
  | done
  | val (v : Nat)
  deriving DecidableEq, Repr

def Ctr.step (c : Ctr) : Op → Ctr × Res
  | .set v =>
    match c.set v with
    | none => (c, .threw)
    | some c => (c, .val v)
  | .add n => (c.increment n, .val (c.increment n).val)
  -- `operator++()`, Counter.hpp:213-215
  | .pre => (c.increment 1, .val (c.increment 1).val)
  -- `operator++(int)`, Counter.hpp:223-225
  | .post => (c.increment 1, .val c.val)
  -- `get`, Counter.hpp:238-240
  | .get => (c, .val c.val)

/-- the fields of `CycleCounter`, CycleCounter.hpp:303-316; the cycle of its clock is an argument -/
structure Cyc where
  mult : Nat
  count : Nat
  start : Nat
  counting : Bool
  deriving DecidableEq, Repr

/-- initial values of the fields, CycleCounter.hpp:307-314 -/
def Cyc.init : Cyc := ⟨1, 0, 0, false⟩

/-- `startCountingWithMultiplier`, CycleCounter.hpp:187-192; `startCounting` (170-175) is the case `m = 1`;
`none` is a failed assertion -/
def Cyc.start_ (c : Cyc) (now m d : Nat) : Option Cyc :=
  if c.counting then none else some { c with mult := m, start := (now + d) % word, counting := true }

/-- `stopCounting`, CycleCounter.hpp:207-212 -/
def Cyc.stop (c : Cyc) (now d : Nat) : Option Cyc :=
  if c.counting = false then none
  else if (now + d) % word < c.start then none
  else some { c with count := (c.count + ((now + d) % word - c.start) * c.mult) % word, counting := false }

/-- `updateCountingMultiplier`, CycleCounter.hpp:199-204 -/
def Cyc.update (c : Cyc) (now m : Nat) : Option Cyc :=
  (if c.counting then c.stop now 0 else some c).bind fun c => c.start_ now m 0

/-- `get`, CycleCounter.hpp:239-248 -/
def Cyc.get (c : Cyc) (now : Nat) : Nat :=
  if c.counting && decide (now > c.start) then (c.count + (now - c.start) * c.mult) % word else c.count

/-- a cycle counter and the cycle of its clock (Clock.hpp:197-200) -/
structure CSys where
  now : Nat
  c : Cyc
  deriving DecidableEq, Repr

def CSys.init (now : Nat) : CSys := ⟨now, .init⟩

inductive COp where
  | tick (k : Nat)
  | start (m d : Nat)
  | stop (d : Nat)
  | update (m : Nat)
  | get
  | isCounting
  deriving DecidableEq, Repr

/-- the exceptions come before any change of the counter -/
def CSys.did (s : CSys) : Option Cyc → CSys × Res
  | none => (s, .threw)
  | some c => (⟨s.now, c⟩, .done)

def CSys.step (s : CSys) : COp → CSys × Res
  | .tick k => (⟨s.now + k, s.c⟩, .done)
  | .start m d => s.did (s.c.start_ s.now m d)
  | .stop d => s.did (s.c.stop s.now d)
  | .update m => s.did (s.c.update s.now m)
  | .get => (s, .val (s.c.get s.now))
  | .isCounting => (s, .val (if s.c.counting then 1 else 0))

end Sparta.Counter
