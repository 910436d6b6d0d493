import Verif.StHist.Model
/-!
What the user sees: a log of the state of each cycle.
-/
namespace Sparta.StHist

/-- the state of each cycle that ended, in order; the state of the current cycle if the next state was set in it; the state last set -/
structure Log where
  past : List Nat
  fixed : Option Nat
  cur : Nat
  deriving DecidableEq, Repr

/-- A cycle is spent in the state it ends in, or, if the next state was set in it, in the state before the first such call. -/
def Log.step (l : Log) : Op → Log
  | .tick => { past := l.past ++ [l.fixed.getD l.cur], fixed := none, cur := l.cur }
  | .setState v => { l with cur := v }
  | .setNextState v => if v = l.cur then l else { l with fixed := some (l.fixed.getD l.cur), cur := v }
  | _ => l

/-- a call is allowed: states are values of the enumeration, and after the next state was changed the present one is not -/
def Log.ok (first last : Nat) (l : Log) : Op → Prop
  | .setState v => first ≤ v ∧ v < last ∧ (l.fixed = none ∨ v = l.cur)
  | .setNextState v => first ≤ v ∧ v < last
  | _ => True

instance (first last : Nat) (l : Log) (o : Op) : Decidable (l.ok first last o) := by
  cases o <;> unfold Log.ok <;> infer_instance

/-- every call of a history is allowed -/
def Log.legal (first last : Nat) : Log → List Op → Prop
  | _, [] => True
  | l, o :: os => l.ok first last o ∧ Log.legal first last (l.step o) os

instance decLegal (first last : Nat) : ∀ (l : Log) (os : List Op), Decidable (Log.legal first last l os)
  | _, [] => isTrue trivial
  | l, o :: os => by
    unfold Log.legal
    exact @instDecidableAnd _ _ _ (decLegal first last (l.step o) os)

/-- the log after a history -/
def Log.run (l : Log) (os : List Op) : Log := os.foldl Log.step l

/-- the log of a new histogram -/
def Log.start (idle : Nat) : Log := ⟨[], none, idle⟩

end Sparta.StHist
