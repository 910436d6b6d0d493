import Verif.Array.Model
/-!
Model of `sparta::FrontArray` (/repo/sparta/sparta/resources/FrontArray.hpp) on top of the Array model.
-/
namespace Sparta.FrontArray
open Sparta.Array (A)
variable {α : Type}

/-- FrontArray.hpp 156-162: lowest `i` below the capacity that is not valid; the capacity if none -/
def lowestFree (a : A α) : Nat → Nat → Nat
  | 0, i => i
  | fuel + 1, i => if a.isValid i then lowestFree a fuel (i + 1) else i

/-- FrontArray.hpp 153-167 `writeFrontImpl_`; `none` = assertion -/
def writeFront (a : A α) (x : α) : Option (A α × Nat) :=
  let i := lowestFree a a.numEntries 0
  if i < a.numEntries then (a.write i x).map fun a' => (a', i) else none

/-- FrontArray.hpp 172-178: from `k - 1` down, the first `i` that is not valid; `none` for i = -1 -/
def highestFree (a : A α) : Nat → Option Nat
  | 0 => none
  | k + 1 => if a.isValid k then highestFree a k else some k

/-- FrontArray.hpp 169-183 `writeBackImpl_`; `none` = assertion. Capacities below 2^31 (`int32_t i`). -/
def writeBack (a : A α) (x : α) : Option (A α × Nat) :=
  (highestFree a a.numEntries).bind fun i => (a.write i x).map fun a' => (a', i)

/-- FrontArray.hpp 57-65: the loop of `readValid` after `fuel` iterations; `none` = still running -/
def readLoop (a : A α) (nth : Nat) : Nat → Nat → Nat → Option Nat
  | 0, _, _ => none
  | fuel + 1, n, i =>
    if n ≤ nth then readLoop a nth fuel (if a.isValid n then n + 1 else n) (i + 1) else some i

/-- result of a call that may not return -/
inductive Res (α : Type) where
  | threw
  | running
  | value (x : α)
deriving DecidableEq

/-- FrontArray.hpp 49-70 `readValid`, observed after `fuel` loop iterations -/
def readValid (a : A α) (nth fuel : Nat) : Res α :=
  if nth < a.numEntries ∧ nth < a.numValid then
    match readLoop a nth fuel 0 0 with
    | none => .running
    | some i => match a.read (i - 1) with | some x => .value x | none => .threw
  else .threw

end Sparta.FrontArray
