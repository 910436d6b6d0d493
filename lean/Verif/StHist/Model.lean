import Verif.Counter.Model
/-!
Model of histograms of the time spent in states (sparta/sparta/statistics/StateHistogram.hpp), on top of the model of cycle counters in
`Verif.Counter.Model`.

A value of the enumeration is its number. Names, the tree, probabilities and the printed form are not modelled; the statistic `total` is the
sum of the bins. All counters use one clock, whose cycle is `now`.
-/
namespace Sparta.StHist
open Sparta.Counter (Cyc)

/-- StateHistogram.hpp:227-237: `lower_val_`, `upper_val_`, `bin_` and `curr_value_`; `now` is the cycle of the clock -/
structure Hist where
  lower : Nat
  upper : Nat
  bins : List Cyc
  cur : Nat
  now : Nat
  deriving DecidableEq, Repr

/-- StateHistogram.hpp:199-208 `startCounting_`; `none` is a failed assertion, before any change. `val` is a `uint32_t`; an index without a
bin makes `at` throw -/
def Hist.startCounting (h : Hist) (val d : Nat) : Option Hist :=
  if val < h.lower then none
  else if val > h.upper then none
  else match h.bins[val - h.lower]? with
    | none => none
    | some b => match b.start_ h.now 1 d with
      | none => none
      | some b' => some { h with bins := h.bins.set (val - h.lower) b', cur := val }

/-- StateHistogram.hpp:218-225 `stopCounting_` -/
def Hist.stopCounting (h : Hist) (val d : Nat) : Option Hist :=
  if val < h.lower then none
  else if val > h.upper then none
  else match h.bins[val - h.lower]? with
    | none => none
    | some b => match b.stop h.now d with
      | none => none
      | some b' => some { h with bins := h.bins.set (val - h.lower) b' }

/-- StateHistogram.hpp:73-133, the constructor for an enumeration with this `__FIRST` and `__LAST`, at cycle `now`; `none` is a failed
assertion. The number of bins is a `uint32_t`. -/
def Hist.make (first last idle now : Nat) : Option Hist :=
  let lower := first
  let upper := (last + 2 ^ 64 - 1) % 2 ^ 64
  if upper > lower then
    Hist.startCounting { lower := lower, upper := upper, bins := List.replicate ((upper - lower + 1) % 2 ^ 32) .init, cur := 0, now := now } (idle % 2 ^ 32) 0
  else none

/-- the calls; `tick` is the next cycle of the clock, `bin` reads the counter of a value, `total` the statistic over all -/
inductive Op where
  | tick | setState (v : Nat) | setNextState (v : Nat) | getState | bin (v : Nat) | total
  deriving DecidableEq, Repr

inductive Out where
  | done | threw | num (n : Nat)
  deriving DecidableEq, Repr

/-- StateHistogram.hpp:142-149 and 151-158, `setState` (`d = 0`) and `setNextState` (`d = 1`); if the second step throws the first has
happened -/
def Hist.change (h : Hist) (v d : Nat) : Hist × Out :=
  let val := v % 2 ^ 32
  if val ≠ h.cur then
    match h.stopCounting h.cur d with
    | none => (h, .threw)
    | some h1 => match h1.startCounting val d with
      | none => (h1, .threw)
      | some h2 => (h2, .done)
  else (h, .done)

/-- one call -/
def step (h : Hist) : Op → Hist × Out
  | .tick => ({ h with now := h.now + 1 }, .done)
  | .setState v => h.change v 0
  | .setNextState v => h.change v 1
  -- StateHistogram.hpp:160-163
  | .getState => (h, .num h.cur)
  | .bin v => (h, match h.bins[v - h.lower]? with | some b => .num (b.get h.now) | none => .threw)
  | .total => (h, .num (h.bins.map fun b => b.get h.now).sum)

end Sparta.StHist
