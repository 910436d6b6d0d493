import Verif.CircularBuffer.Model
/-!
Specification of a circular buffer: a plain list (oldest first) of at most `cap` values. An iterator variable
is null, designates a position of the list, is past the end, or is dead. Appending keeps iterators on their
elements, except that the evicted oldest element's iterators die; insert, erase and clear kill all iterators.
An iterator that was past the end before a change of the buffer is `stale`; using it is outside the contract.
-/
namespace Sparta.CircularBuffer

inductive SIter where
  | null
  | elem (i : Nat)
  | past
  | dead
  | stale
deriving DecidableEq, Repr

structure Spec (α : Type) where
  cap : Nat
  seq : List α
  regs : Nat → SIter
  /-- consumed positions of the 32 bit window: one per append, 1 + length for every insert and erase -/
  used : Nat

def Spec.init (α : Type) (n : Nat) : Spec α := ⟨n, [], fun _ => .null, 0⟩

/-- effect on an iterator of an append that evicts the oldest element -/
def SIter.shift : SIter → SIter
  | .elem 0 => .dead
  | .elem (i + 1) => .elem i
  | .past => .stale
  | x => x

/-- effect on an iterator of an append that evicts nothing -/
def SIter.keep : SIter → SIter
  | .past => .stale
  | x => x

/-- effect on an iterator of insert, erase and clear -/
def SIter.kill : SIter → SIter
  | .elem _ => .dead
  | .past => .stale
  | x => x

variable {α : Type}

/-- where `begin()` points -/
def Spec.first (s : Spec α) : SIter := if s.seq = [] then .past else .elem 0

def Spec.push (s : Spec α) (v : α) : Spec α :=
  if s.seq.length = s.cap then
    { s with seq := (s.seq ++ [v]).tail, regs := fun r => (s.regs r).shift, used := s.used + 1 }
  else { s with seq := s.seq ++ [v], regs := fun r => (s.regs r).keep, used := s.used + 1 }

def Spec.next (s : Spec α) : SIter → Option SIter
  | .elem i => some (if i + 1 < s.seq.length then .elem (i + 1) else .past)
  | _ => none

def Spec.prev (s : Spec α) : SIter → Option SIter
  | .elem (i + 1) => some (.elem i)
  | .past => if s.seq = [] then none else some (.elem (s.seq.length - 1))
  | _ => none

/-- the element an iterator designates -/
def Spec.at_ (s : Spec α) : SIter → Option α
  | .elem i => s.seq[i]?
  | _ => none

def Spec.eraseAt (s : Spec α) (i : Nat) : Spec α :=
  { s with seq := s.seq.eraseIdx i, regs := fun r => (s.regs r).kill, used := s.used + s.seq.length }

/-- position of an iterator within the buffer; `none` for a null iterator -/
def Spec.place (s : Spec α) : SIter → Option Nat
  | .elem i => some i
  | .past => some s.seq.length
  | _ => none

def resOf : Option α → Res α
  | some v => .value v
  | none => .threw

/-- comparison of the positions of two iterators; comparing with a null iterator is rejected -/
def cmp (f : Nat → Nat → Bool) (nulls : Bool) : Option Nat → Option Nat → Res α
  | some i, some j => .bool (f i j)
  | none, none => .bool nulls
  | _, _ => .threw

def Spec.step (s : Spec α) : Op α → Spec α × Res α
  | .push v => (s.push v, .done)
  | .begin r => ({ s with regs := upd s.regs r s.first }, .done)
  | .end_ r => ({ s with regs := upd s.regs r .past }, .done)
  | .copy r q => ({ s with regs := upd s.regs q (s.regs r) }, .done)
  | .inc r =>
    match s.next (s.regs r) with
    | some x => ({ s with regs := upd s.regs r x }, .done)
    | none => (s, .threw)
  | .dec r =>
    match s.prev (s.regs r) with
    | some x => ({ s with regs := upd s.regs r x }, .done)
    | none => (s, .threw)
  | .deref r => (s, resOf (s.at_ (s.regs r)))
  | .write r v =>
    match s.regs r with
    | .elem i => ({ s with seq := s.seq.set i v }, .done)
    | _ => (s, .threw)
  | .isValid r => (s, .bool (s.at_ (s.regs r)).isSome)
  | .insert r v q =>
    if s.seq = [] then
      ({ s.push v with regs := upd (s.push v).regs q (s.push v).first }, .done)
    else
      match s.regs r with
      | .elem i =>
        ({ s with seq := s.seq.insertIdx i v, regs := upd (fun r => (s.regs r).kill) q (.elem i),
                  used := s.used + s.seq.length + 2 }, .done)
      | _ => (s, .threw)
  | .erase r =>
    match s.regs r with
    | .elem i => (s.eraseAt i, .done)
    | _ => (s, .threw)
  | .revErase r =>
    match s.prev (s.regs r) with
    | some (.elem i) => (s.eraseAt i, .done)
    | _ => (s, .threw)
  | .revDeref r => (s, resOf ((s.prev (s.regs r)).bind s.at_))
  | .revIsValid r => (s, .bool (s.prev (s.regs r)).isSome)
  | .eq r q => (s, cmp (fun i j => i == j) true (s.place (s.regs r)) (s.place (s.regs q)))
  | .lt r q => (s, cmp (fun i j => decide (j < i)) false (s.place (s.regs r)) (s.place (s.regs q)))
  | .gt r q => (s, cmp (fun i j => decide (i < j)) false (s.place (s.regs r)) (s.place (s.regs q)))
  | .clear => ({ s with seq := [], regs := fun r => (s.regs r).kill }, .done)
  | .get i => (s, resOf s.seq[i]?)
  | .isValidIdx i => (s, .bool (decide (i < s.seq.length)))
  | .size => (s, .num s.seq.length)
  | .numFree => (s, .num (s.cap - s.seq.length))

/-- an iterator that may be used -/
def SIter.usable (x : SIter) : Prop := x ≠ .stale
/-- an iterator that may be compared -/
def SIter.comparable (x : SIter) : Prop := x ≠ .stale ∧ x ≠ .dead

instance (x : SIter) : Decidable x.usable := inferInstanceAs (Decidable (x ≠ .stale))
instance (x : SIter) : Decidable x.comparable := inferInstanceAs (Decidable (x ≠ .stale ∧ x ≠ .dead))

/-- the contract: an iterator past the end is not used after the buffer changed, dead iterators are not
compared, nothing is inserted into a full buffer, and fewer than 2^32 window positions were consumed -/
def Spec.legal (s : Spec α) (o : Op α) : Prop :=
  s.used < 2 ^ 32 ∧
  match o with
  | .inc r | .dec r | .deref r | .write r _ | .isValid r | .erase r | .revErase r | .revDeref r | .revIsValid r =>
    (s.regs r).usable
  | .insert r _ _ => s.seq = [] ∨ ((s.regs r).usable ∧ s.seq.length < s.cap)
  | .eq r q | .lt r q | .gt r q => (s.regs r).comparable ∧ (s.regs q).comparable
  | _ => True

instance [DecidableEq α] (s : Spec α) (o : Op α) : Decidable (s.legal o) := by
  unfold Spec.legal
  cases o <;> dsimp only <;> infer_instance

end Sparta.CircularBuffer
