import Verif.SyncPort.Model
/-!
What the users of a sync port can write down from the calls and their results alone.
-/
namespace Sparta.SyncPort
variable {α : Type}

/-- `sends`: tick of the call, returned delay and data of the successful sends, in order; `dels`: tick and data of the deliveries to the consumer, in order;
`sets`: tick and value of the calls of `setReady`, the latest first -/
structure Log (α : Type) where
  now : Nat
  sends : List (Nat × Nat × α)
  dels : List (Nat × α)
  sets : List (Nat × Bool)

def Log.init (α : Type) : Log α := ⟨0, [], [], []⟩

/-- one call and its result -/
def Log.add (L : Log α) : Op α × Res α → Log α
  | (.send x _ _, .delay r) => { L with sends := L.sends ++ [(L.now, r, x)] }
  | (.deliver, .got x) => { L with dels := L.dels ++ [(L.now, x)] }
  | (.setReady b, .done) => { L with sets := (L.now, b) :: L.sets }
  | (.next, .done) => { L with now := L.now + 1 }
  | _ => L

/-- the log of a history -/
def logOf (c : Cfg) (os : List (Op α)) : Log α :=
  (os.zip (runOps (Port.step c) (Port.init α c) os).2).foldl Log.add (Log.init α)

/-- calls that move data -/
def Op.moves : Op α → Bool
  | .send _ _ _ => true
  | .deliver => true
  | _ => false

/-- no sending call threw, nor did a delivery -/
def Quiet (c : Cfg) (os : List (Op α)) : Prop :=
  ∀ e ∈ os.zip (runOps (Port.step c) (Port.init α c) os).2, e.1.moves = true → e.2 ≠ .threw

/-- the receiver is ready in tick `T`: the last call of `setReady` in an earlier tick said so (or the initial state) -/
def Log.readyAt (L : Log α) (c : Cfg) (T : Nat) : Bool :=
  match L.sets.find? fun e => decide (e.1 < T) with
  | some e => e.2
  | none => c.ready0

/-- the tick among `T`, `T + step`, ... that is not before `now` or in which the receiver is ready -/
def settle (ready : Nat → Bool) (step now : Nat) : Nat → Nat → Nat
  | 0, T => T
  | n + 1, T => if T < now ∧ ready T = false then settle ready step now n (T + step) else T

/-- the tick in which data sent in tick `t` with the returned delay `r` is delivered: it is offered after that delay, and then every 1 + port delay cycles until
the receiver is ready (a value not before `now` means: not yet) -/
def Log.due (L : Log α) (c : Cfg) (t r : Nat) : Nat := settle (L.readyAt c) ((c.portDelay + 1) * c.D) L.now L.now (t + r)

/-- what was to be delivered before the current tick -/
def Log.expected (L : Log α) (c : Cfg) : List (Nat × α) :=
  L.sends.filterMap fun e => if L.due c e.1 e.2.1 < L.now then some (L.due c e.1 e.2.1, e.2.2) else none

end Sparta.SyncPort
