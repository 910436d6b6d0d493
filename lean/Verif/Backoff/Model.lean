import Verif.Common
/-!
Model of `SPARTA_EXPONENTIAL_BACKOFF` (sparta/sparta/utils/SpartaExpBackoff.hpp).

One use of the macro, that is one pair of static variables. The multiplier is part of the names of the variables, so it is a literal; here any
natural number. The action is not modelled, only whether it is performed and the count it sees; actions that throw or use the macro's variables are
not covered, nor are several threads.
-/
namespace Sparta.Backoff

/-- SpartaExpBackoff.hpp:54-55: the two static variables, of type `uint32_t` -/
structure Bk where
  count : Nat
  next : Nat
deriving DecidableEq

/-- SpartaExpBackoff.hpp:54-55 -/
def Bk.init : Bk := ⟨0, 1⟩

/-- SpartaExpBackoff.hpp:56-62: one encounter; the result is the count the action sees, `none` if it is not performed -/
def Bk.step (m : Nat) (b : Bk) : Bk × Option Nat :=
  let c := (b.count + 1) % 2 ^ 32
  if c ≥ b.next then (⟨c, b.next * m % 2 ^ 32⟩, some c) else (⟨c, b.next⟩, none)

/-- the variables after `k` encounters -/
def after (m : Nat) : Nat → Bk
  | 0 => Bk.init
  | k + 1 => ((after m k).step m).1

/-- what happens at encounter `k`, counted from 1 -/
def action (m k : Nat) : Option Nat := ((after m (k - 1)).step m).2

end Sparta.Backoff
