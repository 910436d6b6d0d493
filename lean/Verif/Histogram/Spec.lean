import Verif.Histogram.Model

/-!
# Specification of histograms
-/

namespace Sparta.Histogram

open Sparta.Counter (word half)

/-- `v` belongs in the `i`-th bin -/
def inBin (lower upper n i v : Nat) : Bool :=
  decide (lower + i * n ≤ v) && decide (v < lower + (i + 1) * n) && decide (v ≤ upper)

/-- the number of bins -/
def binCount (lower upper n : Nat) : Nat := (upper - lower) / n + 1

/-- the last value of the `i`-th bin -/
def lastOf (lower upper n i : Nat) : Nat := min (lower + (i + 1) * n - 1) upper

/-- A cycle histogram: the value in each cycle that ended, the value added in this cycle, the value in force, all
values given. -/
structure CSpec where
  lower : Nat
  upper : Nat
  n : Nat
  idle : Nat
  now : Nat
  cycles : List Nat
  busy : Option Nat
  cur : Nat
  seen : List Nat

def CSpec.init (now lower upper n idle : Nat) : CSpec := ⟨lower, upper, n, idle, now, [], none, idle, [idle]⟩

/-- a cycle ends -/
def CSpec.tick (t : CSpec) : CSpec :=
  { t with now := t.now + 1, cycles := t.cycles ++ [t.busy.getD t.cur], busy := none }

def CSpec.ticks (t : CSpec) : Nat → CSpec
  | 0 => t
  | k + 1 => (t.ticks k).tick

/-- the values that count: those of the cycles that ended and that added in this one -/
def CSpec.values (t : CSpec) : List Nat := t.cycles ++ t.busy.toList

def CSpec.reading (t : CSpec) : Reading :=
  ⟨(List.range (binCount t.lower t.upper t.n)).map fun i => t.values.countP (inBin t.lower t.upper t.n i),
    t.values.countP fun v => decide (v < t.lower), t.values.countP fun v => decide (v > t.upper),
    t.cycles.length, t.seen.foldl max 0⟩

def CSpec.step (t : CSpec) : COp → CSpec × Res
  | .tick k => (t.ticks k, .done)
  | .add v =>
    if t.busy.isSome then (t, .threw)
    else ({ t with busy := some v, cur := t.idle, seen := t.seen ++ [v] }, .done)
  | .set v =>
    if v = t.cur then ({ t with seen := t.seen ++ [v] }, .done)
    else if t.busy.isSome then (t, .threw)
    else ({ t with cur := v, seen := t.seen ++ [v] }, .done)
  | .read => (t, .read t.reading)

/-- the cycle numbers fit in 64 bits -/
def CSpec.legal (t : CSpec) : COp → Prop
  | .tick k => t.now + k < word - half
  | _ => True

instance (t : CSpec) (o : COp) : Decidable (t.legal o) := by cases o <;> unfold CSpec.legal <;> infer_instance

end Sparta.Histogram
