import Verif.Counter.Model
import Verif.MathUtils.Model

/-!
# Model of `sparta::HistogramBase` and `sparta::CycleHistogramBase`

sparta/statistics/Histogram.hpp and sparta/statistics/CycleHistogram.hpp. The counters of a histogram are values (the
bins of `Histogram` have behavior `COUNT_NORMAL`, those for the greatest values `COUNT_LATEST`). Probabilities, averages
and the standard deviation (`double`), names other than the limits in them, visibility and the tree are not modelled.
-/

namespace Sparta.Histogram

open Sparta.Counter (word half Cyc)

/-- The bin widths: `is_power_of_2`, Histogram.hpp:62; the shift, Histogram.hpp:64 (`uint32_t`) -/
def shift32 (n : Nat) : Nat := MathUtils.floorLog2_32 (BitVec.ofNat 32 n)

/-- CycleHistogram.hpp:237 (`uint64_t`) -/
def shift64 (n : Nat) : Nat := MathUtils.floorLog2_64 (BitVec.ofNat 64 n)

/-- Histogram.hpp:65, in 64 bits before the conversion to `double` -/
def numBins (lower upper n : Nat) : Nat := ((upper - lower) / n + 1) % word

/-- The loop of `initializeStats_` over the bins, Histogram.hpp:302-321, CycleHistogram.hpp:363-448: the limits that
are put in the name of each bin -/
def labelLoop (upper n : Nat) : Nat → Nat → Nat → List (Nat × Nat)
  | _, _, 0 => []
  | start, stop, k + 1 =>
    let stop := if stop > upper then upper else stop
    (start, stop) :: labelLoop upper n ((stop + 1) % word) ((stop + n) % word) k

/-- Histogram.hpp:300-321 -/
def labels (lower upper n k : Nat) : List (Nat × Nat) := labelLoop upper n lower ((lower + n - 1) % word) k

/-- `HistogramBase`, Histogram.hpp:360-386; `maxs` are the values of `max_counters_`, `tops` is `max_values_` -/
structure Hist where
  lower : Nat
  upper : Nat
  perBin : Nat
  shift : Nat
  names : List (Nat × Nat)
  total : Nat
  sum : Nat
  under : Nat
  over : Nat
  bins : List Nat
  maxs : List Nat
  tops : List Nat
  deriving DecidableEq, Repr

/-- The constructor, Histogram.hpp:53-71, and `initializeStats_`, Histogram.hpp:266-356. The number of bins is a
`uint32_t` compared with the `double`: they are equal exactly when the 64 bit number is below 2^32 (a number of 2^53
or more may be rounded, but not below 2^32). -/
def Hist.init (lower upper n maxVals : Nat) : Option Hist :=
  if upper ≤ lower then none
  else if MathUtils.isPowerOf2 (BitVec.ofNat 64 n) = false then none
  else if half ≤ numBins lower upper n then none
  else
    let k := numBins lower upper n
    some ⟨lower, upper, n, shift32 n, labels lower upper n k, 0, 0, 0, 0, List.replicate k 0,
      List.replicate maxVals 0, List.replicate maxVals 0⟩

/-- `std::multiset::insert`: the multiset is kept as an ascending list -/
def insert (v : Nat) : List Nat → List Nat
  | [] => [v]
  | x :: xs => if v < x then v :: x :: xs else x :: insert v xs

/-- `updateMaxValues_`, Histogram.hpp:212-230 -/
def Hist.updateMax (h : Hist) (v : Nat) : Hist :=
  match h.tops with
  | [] => h
  | m :: rest => if m ≥ v then h else { h with tops := insert v rest, maxs := insert v rest }

/-- the end of `addValue`, Histogram.hpp:94-96 -/
def Hist.track (h : Hist) (v : Nat) : Hist := if h.maxs.length ≠ 0 then h.updateMax v else h

/-- `addValue`, Histogram.hpp:79-98; `false` is the exception of `bin_.at` -/
def Hist.addValue (h : Hist) (v : Nat) : Hist × Bool :=
  let h := { h with total := (h.total + 1) % word, sum := (h.sum + v) % word }
  if v < h.lower then (Hist.track { h with under := (h.under + 1) % word } v, true)
  else if v > h.upper then (Hist.track { h with over := (h.over + 1) % word } v, true)
  else
    let idx := ((v - h.lower) >>> h.shift) % half
    match h.bins[idx]? with
    | none => (h, false)
    | some b => (Hist.track { h with bins := h.bins.set idx ((b + 1) % word) } v, true)

/-- the loop of `getDisplayStringCumulative_`, Histogram.hpp:244-252: for each line the last value and the number -/
def cumLoop (upper n : Nat) : Nat → Nat → List Nat → List (Nat × Nat)
  | _, _, [] => []
  | stop, run, b :: bs =>
    let stop := if stop > upper then upper else stop
    let run := (run + b) % word
    (stop, run) :: cumLoop upper n ((stop + n) % word) run bs

/-- `getDisplayStringCumulative_`, Histogram.hpp:236-256: the first line, the lines of the bins, the last line. (The
first value of all bin lines is the lower limit.) -/
def Hist.cumulative (h : Hist) : Nat × List (Nat × Nat) × Nat :=
  (h.under, cumLoop h.upper h.perBin ((h.lower + h.perBin - 1) % word) h.under h.bins,
    (h.bins.foldl (fun r b => (r + b) % word) h.under + h.over) % word)

/-- add several values -/
def Hist.addAll (h : Hist) : List Nat → Hist × Bool
  | [] => (h, true)
  | v :: vs =>
    match h.addValue v with
    | (h, false) => (h, false)
    | (h, true) => h.addAll vs

/-! ## `CycleHistogramBase` -/

/-- CycleHistogram.hpp:553-573, with the cycle of the clock -/
structure CHist where
  now : Nat
  lower : Nat
  upper : Nat
  shift : Nat
  idle : Nat
  total : Cyc
  under : Cyc
  over : Cyc
  bins : List Cyc
  last : Nat
  max : Nat
  deriving DecidableEq, Repr

/-- where a value is counted, CycleHistogram.hpp:281-290 and 305-314: the counter is replaced by the result of `f`;
`none` is an exception -/
def CHist.count (h : CHist) (v : Nat) (f : Cyc → Option Cyc) : Option CHist :=
  if v < h.lower then (f h.under).map fun c => { h with under := c }
  else if v > h.upper then (f h.over).map fun c => { h with over := c }
  else
    let idx := (v - h.lower) >>> h.shift
    match h.bins[idx]? with
    | none => none
    | some c => (f c).map fun c => { h with bins := h.bins.set idx c }

/-- `startCounting_`, CycleHistogram.hpp:279-293 -/
def CHist.start_ (h : CHist) (v d : Nat) : Option CHist :=
  (h.count v fun c => c.start_ h.now 1 d).map fun h => { h with last := v }

/-- `stopCounting_`, CycleHistogram.hpp:303-315 -/
def CHist.stop (h : CHist) (v d : Nat) : Option CHist := h.count v fun c => c.stop h.now d

/-- `updateMaxValues_`, CycleHistogram.hpp:321-326 -/
def CHist.updateMax (h : CHist) (v : Nat) : CHist := if v > h.max then { h with max := v } else h

/-- `addValue`, CycleHistogram.hpp:77-85 -/
def CHist.addValue (h : CHist) (v : Nat) : Option CHist :=
  (h.stop h.last 0).bind fun h => (h.start_ v 0).bind fun h => (h.stop v 1).bind fun h =>
    (h.start_ h.idle 1).map fun h => h.updateMax v

/-- `setValue`, CycleHistogram.hpp:193-201 -/
def CHist.setValue (h : CHist) (v : Nat) : Option CHist :=
  if h.last ≠ v then (h.stop h.last 0).bind fun h => (h.start_ v 0).map fun h => h.updateMax v
  else some h

/-- The constructors, CycleHistogram.hpp:224-243, 656-666 and 760-779, at cycle `now`. A histogram of 2^53 bins or more
cannot be allocated; below that the `double` is exact. -/
def CHist.init (now lower upper n idle : Nat) : Option CHist :=
  if upper ≤ lower then none
  else if MathUtils.isPowerOf2 (BitVec.ofNat 64 n) = false then none
  else if 2 ^ 53 ≤ numBins lower upper n then none
  else
    (Cyc.init.start_ now 1 0).bind fun total =>
    (CHist.start_ ⟨now, lower, upper, shift64 n, idle, total, .init, .init,
      List.replicate (numBins lower upper n) .init, 0, 0⟩ idle 0).map fun h => h.updateMax idle

inductive COp where
  | tick (k : Nat)
  | add (v : Nat)
  | set (v : Nat)
  | read
  deriving DecidableEq, Repr

/-- what can be read: the counts of the bins, of underflow and overflow, the total and the greatest value -/
structure Reading where
  bins : List Nat
  under : Nat
  over : Nat
  total : Nat
  max : Nat
  deriving DecidableEq, Repr

/-- CycleHistogram.hpp:138-162 with `CycleCounter::get` -/
def CHist.reading (h : CHist) : Reading :=
  ⟨h.bins.map fun c => c.get h.now, h.under.get h.now, h.over.get h.now, h.total.get h.now, h.max⟩

inductive Res where
  | threw
  | done
  | read (r : Reading)
  deriving DecidableEq, Repr

/-- An exception leaves the histogram as it was: the first call that can fail is `stopCounting` of the counter of the
last value, before any change. -/
def CHist.step (h : CHist) : COp → CHist × Res
  | .tick k => ({ h with now := h.now + k }, .done)
  | .add v => match h.addValue v with | none => (h, .threw) | some h => (h, .done)
  | .set v => match h.setValue v with | none => (h, .threw) | some h => (h, .done)
  | .read => (h, .read h.reading)

end Sparta.Histogram
