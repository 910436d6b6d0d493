import Verif.Common
/-!
Model of `sparta::BasicHistogram<int>` (/repo/sparta/sparta/statistics/BasicHistogram.hpp).

Bucket values are integers (negating the smallest `int` for a name is not modelled). `std::upper_bound` on sorted values gives the first
value that is greater. Counters wrap at 2^64 (/repo/sparta/sparta/statistics/Counter.hpp). Texts of names and descriptions are modelled by what they say.
-/
namespace Sparta.BHist

/-- BasicHistogram.hpp 127-128 members; the template parameter -/
structure Hist where
  assertUnderflow : Bool
  buckets : List Int
  ctrs : List Nat
deriving DecidableEq, Repr

/-- `std::is_sorted` -/
def sorted : List Int → Bool
  | [] => true
  | [_] => true
  | a :: b :: l => a ≤ b && sorted (b :: l)

/-- BasicHistogram.hpp 67-75: the name of a counter is made of the sign and the magnitude of its bucket value -/
def ctrName (v : Int) : Bool × Nat := (v < 0, v.natAbs)

/-- a name occurs twice (adding the second counter to the statistic set throws) -/
def clash : List (Bool × Nat) → Bool
  | [] => false
  | n :: l => l.contains n || clash l

/-- BasicHistogram.hpp 52-89 constructor; `none` = exception -/
def make (assertUnderflow : Bool) (buckets : List Int) : Option Hist :=
  if sorted buckets then
    if clash (buckets.map ctrName) then none
    else some ⟨assertUnderflow, buckets, buckets.map fun _ => 0⟩
  else none

/-- `std::upper_bound` -/
def upperBound (val : Int) : List Int → Nat
  | [] => 0
  | b :: l => if val < b then 0 else upperBound val l + 1

inductive Res where
  | done
  | threw
  | undefined
deriving DecidableEq, Repr

/-- `++ctrs_[i]`, undefined outside the vector -/
def bump (h : Hist) (i : Nat) : Hist × Res :=
  if i < h.ctrs.length then ({ h with ctrs := h.ctrs.modify i fun c => (c + 1) % 2 ^ 64 }, .done) else (h, .undefined)

/-- BasicHistogram.hpp 103-119 `addValue` -/
def add (h : Hist) (val : Int) : Hist × Res :=
  let bucket := upperBound val h.buckets
  if bucket = 0 then
    if h.assertUnderflow then (h, .threw) else bump h 0
  else bump h (bucket - 1)

/-- BasicHistogram.hpp 77-85: what the description of counter `i` says it counts -/
def describes (buckets : List Int) (i : Nat) (val : Int) : Bool :=
  match i, buckets[i]? with
  | 0, some b => val ≤ b
  | i + 1, some b => (buckets[i]?).all (· < val) && val ≤ b
  | _, none => false

end Sparta.BHist
