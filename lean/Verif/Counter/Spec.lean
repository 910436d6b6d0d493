import Verif.Counter.Model

/-!
# Specification of counters
-/

namespace Sparta.Counter

/-- what a counter that does not wrap shows: the sum of what was added since it was last set -/
def shown (b : Behavior) : List Op → Nat → Nat
  | [], v => v
  | .set w :: os, v => shown b os (if b = .latest then w else v)
  | .add n :: os, v => shown b os (v + n)
  | .pre :: os, v => shown b os (v + 1)
  | .post :: os, v => shown b os (v + 1)
  | .get :: os, v => shown b os v

/-- a period of counting: the amount for each cycle, the first cycle and the cycle after the last -/
structure Period where
  mult : Nat
  first : Nat
  stop : Nat
  deriving DecidableEq, Repr

def Period.total (p : Period) : Nat := p.mult * (p.stop - p.first)

/-- the periods that ended, and the amount and first cycle of that which did not -/
structure CSpec where
  now : Nat
  closed : List Period
  cur : Option (Nat × Nat)
  deriving DecidableEq, Repr

def CSpec.init (now : Nat) : CSpec := ⟨now, [], none⟩

def CSpec.periods (t : CSpec) : List Period :=
  t.closed ++ (match t.cur with | none => [] | some (m, f) => [⟨m, f, t.now⟩])

def CSpec.value (t : CSpec) : Nat := (t.periods.map Period.total).sum

def CSpec.step (t : CSpec) : COp → CSpec × Res
  | .tick k => ({ t with now := t.now + k }, .done)
  | .start m d =>
    match t.cur with
    | some _ => (t, .threw)
    | none => ({ t with cur := some (m, t.now + d) }, .done)
  | .stop d =>
    match t.cur with
    | none => (t, .threw)
    | some (m, f) =>
      if f ≤ t.now + d then (⟨t.now, t.closed ++ [⟨m, f, t.now + d⟩], none⟩, .done) else (t, .threw)
  | .update m =>
    match t.cur with
    | none => ({ t with cur := some (m, t.now) }, .done)
    | some (m', f) =>
      if f ≤ t.now then (⟨t.now, t.closed ++ [⟨m', f, t.now⟩], some (m, t.now)⟩, .done) else (t, .threw)
  | .get => (t, .val (t.value % word))
  | .isCounting => (t, .val (if t.cur.isSome then 1 else 0))

/-- delays and multipliers are 32 bit numbers and cycle numbers with delays fit in 64 bits -/
def CSpec.legal (t : CSpec) : COp → Prop
  | .tick k => t.now + k < word - half
  | .start m d => m < half ∧ d < half
  | .stop d => d < half
  | .update m => m < half
  | _ => True

instance (t : CSpec) (o : COp) : Decidable (t.legal o) := by cases o <;> unfold CSpec.legal <;> infer_instance

/-- what a cycle counter adds in each of the cycles that ended, when no delays are given: the amount in force at
the end of the cycle -/
structure Log where
  cycles : List Nat
  rate : Option Nat

def Log.step (l : Log) : COp → Log
  | .tick k => { l with cycles := l.cycles ++ List.replicate k (l.rate.getD 0) }
  | .start m _ => match l.rate with | none => { l with rate := some m } | some _ => l
  | .stop _ => { l with rate := none }
  | .update m => { l with rate := some m }
  | _ => l

/-- calls without delays -/
def COp.prompt : COp → Prop
  | .start _ d => d = 0
  | .stop d => d = 0
  | _ => True

end Sparta.Counter
