import Verif.Rational.Model
/-!
Model of `sparta::Clock` (/repo/sparta/sparta/simulation/Clock.hpp, /repo/sparta/src/Clock.cpp), of
`ClockManager::normalize` (/repo/sparta/sparta/simulation/ClockManager.hpp) and of the clock-crossing functions
(Clock.hpp 371-468).

A clock tree is given by the children of the root clock; a `Forest` is a list of trees: the first tree (its label and its
children) and the remaining ones. Not modelled: clocks with an explicit frequency (double), the tree nodes,
counters, `setRatio` after construction, the conversion from fractional cycles.
-/
namespace Sparta.Clock
open Sparta.MathUtils Sparta.Rational

inductive Forest (β : Type) where
  | nil
  | cons (a : β) (kids sibs : Forest β)
deriving DecidableEq

/-- the arguments of `makeClock(name, parent, p_rat, c_rat)` (ClockManager.hpp 74-80) -/
structure Ratio where
  p : BitVec 32
  c : BitVec 32
deriving DecidableEq

/-- src/Clock.cpp 70-76 `setRatio` and Clock.hpp 121-123: `parent_ratio_ = Rational(p_rat, c_rat)` and, with the parent's `root_ratio_`,
`root_ratio_ = parent_ratio_.inv() * parent_->root_ratio_`; `none` = assertion in `Rational` -/
def rootRatio (prr : Rat 32) (r : Ratio) : Option (Rat 32) :=
  (make gcd32 r.p r.c).bind fun q => (inv gcd32 q).bind fun i => mul gcd32 i prr

/-- Clock.hpp 119-131 `calcNorm`, the loop over the children (126-128) with the calls for each of them (121-125): returns the new `partial_norm` and
the clocks with their `root_ratio_` -/
def calcNorm (prr : Rat 32) : BitVec 32 → Forest Ratio → Option (BitVec 32 × Forest (Ratio × Rat 32))
  | pn, .nil => some (pn, .nil)
  | pn, .cons r kids sibs =>
    (rootRatio prr r).bind fun rr =>
    (lcm32 pn rr.d).bind fun pn1 =>
    (calcNorm rr pn1 kids).bind fun (pn2, kids') =>
    (lcm32 pn pn2).bind fun pn3 =>
    (calcNorm prr pn3 sibs).map fun (pn4, sibs') => (pn4, .cons (r, rr) kids' sibs')

/-- Clock.hpp 138-143 `setPeriod`: `uint32_t(root_ratio_ * norm)`; `none` = assertion: not an integer -/
def setPeriod (norm : BitVec 32) (rr : Rat 32) : Option (BitVec 32) :=
  (make gcd32 norm 1#32).bind fun n => (mul gcd32 rr n).bind toInt

/-- ClockManager.hpp 113-115: `setPeriod` for all clocks (the order does not matter) -/
def setPeriods (norm : BitVec 32) : Forest (Ratio × Rat 32) → Option (Forest (Ratio × BitVec 32))
  | .nil => some .nil
  | .cons (r, rr) kids sibs =>
    (setPeriod norm rr).bind fun p =>
    (setPeriods norm kids).bind fun kids' =>
    (setPeriods norm sibs).map fun sibs' => .cons (r, p) kids' sibs'

/-- ClockManager.hpp 103-127 `normalize` without explicit frequencies: the factor, the period of the root clock (whose `root_ratio_` is 1, Clock.hpp 321) and
the other clocks with their periods -/
def normalize (f : Forest Ratio) : Option (BitVec 32 × BitVec 32 × Forest (Ratio × BitVec 32)) :=
  (lcm32 1#32 1#32).bind fun pn0 =>
  (calcNorm ⟨1#32, 1#32⟩ pn0 f).bind fun (norm, f') =>
  (setPeriod norm ⟨1#32, 1#32⟩).bind fun p =>
  (setPeriods norm f').map fun f'' => (norm, p, f'')

/-- Clock.hpp 159-162 `getCycle`; the period is converted to 64 bits; `none` = division by zero -/
def getCycle (period : BitVec 32) (tick : BitVec 64) : Option (BitVec 64) :=
  if period = 0#32 then none else some (tick / period.setWidth 64)

/-- Clock.hpp 207-210 `getTick` -/
def getTick (period : BitVec 32) (cycle : BitVec 64) : BitVec 64 := cycle * period.setWidth 64

/-- Clock.hpp 227-230 `getAbsoluteTick` -/
def getAbsoluteTick (period : BitVec 32) (cycle : BitVec 64) : BitVec 64 := (cycle - 1#64) * period.setWidth 64

/-- Clock.hpp 240-243 `isPosedge` at tick `cur` -/
def isPosedge (period : BitVec 32) (cur : BitVec 64) : Option Bool :=
  if period = 0#32 then none else some (cur % period.setWidth 64 == 0#64)

/-- Clock.hpp 371-415 `calculateClockCrossingDelay` at tick `cur` with the periods of the clocks; `none` = assertion (or division by zero) -/
def crossing (cur : BitVec 64) (srcDelay : BitVec 64) (srcP : BitVec 32) (dstDelay : BitVec 64) (dstP : BitVec 32) : Option (BitVec 64) :=
  if srcP = 0#32 ∨ dstP = 0#32 then none
  else if cur / srcP.setWidth 64 * srcP.setWidth 64 ≠ cur then none
  else
    let num := srcDelay + dstDelay
    let raw := cur + num
    let edge := raw / dstP.setWidth 64 * dstP.setWidth 64
    if raw ≠ edge then
      if raw.toNat > edge.toNat then some (num + (dstP.setWidth 64 - (raw - edge))) else none
    else some num

/-- Clock.hpp 430-468 `calculateReverseClockCrossingDelay` -/
def reverseCrossing (arr : BitVec 64) (srcDelay : BitVec 64) (srcP : BitVec 32) (dstDelay : BitVec 64) (dstP : BitVec 32) : Option (BitVec 64) :=
  if srcP = 0#32 ∨ dstP = 0#32 then none
  else if arr ≠ arr / dstP.setWidth 64 * dstP.setWidth 64 then none
  else
    let rel := srcDelay + dstDelay
    let sent := arr - rel
    let edge := sent / srcP.setWidth 64 * srcP.setWidth 64
    if sent ≠ edge then
      if sent.toNat > edge.toNat then some (rel + (sent - edge)) else none
    else some rel

end Sparta.Clock
