import Verif.Common
/-!
Model of `sparta::Queue` (/repo/sparta/sparta/resources/Queue.hpp).
Not modelled: utilization counters, pipeline collection, names.
-/
namespace Sparta.Queue

/-- Queue.hpp 147-151 `nextPowerOfTwo_`: `64 - clz(val-1)` is `log2 (val-1) + 1`.
The result is `uint32_t`; the model assumes it fits (capacity below 2^30), see `Q.init`. -/
def nextPowerOfTwo (val : Nat) : Nat :=
  if val < 2 then 1 else 2 ^ (Nat.log2 (val - 1) + 1)

/-- Queue.hpp 179-190 `QueueData` placed in a slot of the malloc'ed storage.
`data = none` means the element in the slot has been destroyed, `objId` stays readable. -/
structure Slot (α : Type) where
  data : Option α
  objId : Nat

/-- Queue.hpp private members (lines 800 ff.) : `num_entries_`, `vector_size_`, `queue_data_`,
`current_head_idx_`, `current_write_idx_`, `total_valid_`, `obj_id_`.
`mem i = none` is storage that was never constructed. -/
structure Q (α : Type) where
  numEntries : Nat
  vectorSize : Nat
  mem : Nat → Option (Slot α)
  head : Nat
  write : Nat
  totalValid : Nat
  objId : Nat

/-- Queue.hpp 440-471 constructor: storage is twice the number of entries rounded up to a power of two. -/
def Q.init (α : Type) (n : Nat) : Q α :=
  { numEntries := n, vectorSize := nextPowerOfTwo (n * 2), mem := fun _ => none,
    head := 0, write := 0, totalValid := 0, objId := 0 }

variable {α : Type}

/-- Queue.hpp 154-156 `rollPhysicalIndex_`; the argument is a `uint32_t`. -/
def Q.roll (q : Q α) (x : Nat) : Nat := (x % 2 ^ 32) &&& (q.vectorSize - 1)

/-- Queue.hpp 159-161 `getPhysicalIndex_` -/
def Q.physical (q : Q α) (logical : Nat) : Nat := q.roll (logical + q.head)

/-- Queue.hpp 166-168 `incrementIndexValue_` -/
def Q.incr (q : Q α) (v : Nat) : Nat := q.roll (v + 1)

/-- Queue.hpp 173-175 `decrementIndexValue_`; `val - 1` wraps modulo 2^32. -/
def Q.decr (q : Q α) (v : Nat) : Nat := q.roll (v + 2 ^ 32 - 1)

/-- `invalid_index_` member: `vector_size_ + 1` -/
def Q.invalidIndex (q : Q α) : Nat := q.vectorSize + 1

/-- Queue.hpp 202-206 `physicalToLogical_` -/
def Q.logical (q : Q α) (phys : Nat) : Nat :=
  if phys = q.invalidIndex then q.invalidIndex else q.roll (phys + 2 ^ 32 - q.head)

/-- Queue.hpp 209-213 `isValidPhysical_` -/
def Q.isValidPhysical (q : Q α) (phys : Nat) : Bool := q.logical phys < q.totalValid

/-- Data in a physical slot; `none` when the slot holds no live object (undefined behaviour). -/
def Q.slotData (q : Q α) (phys : Nat) : Option α := (q.mem phys).bind (·.data)

/-- Queue.hpp 503-506 `read`: outer `none` is the assertion failing; a slot without a live object also
gives `none`. -/
def Q.read (q : Q α) (idx : Nat) : Option α :=
  if idx < q.totalValid then q.slotData (q.physical idx) else none

/-- Queue.hpp 524-527 `front` -/
def Q.front (q : Q α) : Option α := if q.totalValid ≠ 0 then q.slotData q.head else none

/-- Queue.hpp 533-538 `back` -/
def Q.back (q : Q α) : Option α := if q.totalValid ≠ 0 then q.slotData (q.decr q.write) else none

/-- Queue.hpp 240-244 and members 405-407: an iterator is a physical index and an object id.
The constructor parameter is `uint32_t obj_id`, so the id is truncated to 32 bits. -/
structure Iter where
  phys : Nat
  objId : Nat
deriving DecidableEq

/-- Queue.hpp 240-244 constructor with its 32-bit `obj_id` parameter -/
def Iter.mk' (phys objId : Nat) : Iter := ⟨phys, objId % 2 ^ 32⟩

/-- Queue.hpp 700-720 `pushImpl_`; `none` = assertion (queue full) thrown, nothing changed. -/
def Q.push (q : Q α) (x : α) : Option (Q α × Iter) :=
  if q.totalValid = q.numEntries then none
  else if ¬ q.write ≤ q.vectorSize then none
  else some ({ q with mem := upd q.mem q.write (some ⟨some x, q.objId + 1⟩),
                      objId := q.objId + 1,
                      write := q.incr q.write,
                      totalValid := q.totalValid + 1 },
             Iter.mk' q.write (q.objId + 1))

/-- Destroying the object in a slot (`data.~value_type()`); a dead slot would be undefined behaviour
and is reported as `none`. -/
def Q.destroy (q : Q α) (phys : Nat) : Option (Q α) :=
  match q.mem phys with
  | some ⟨some _, id⟩ => some { q with mem := upd q.mem phys (some ⟨none, id⟩) }
  | _ => none

/-- Queue.hpp 636-648 `pop` (with 800-804 `processInvalidation_`) -/
def Q.pop (q : Q α) : Option (Q α) :=
  if q.totalValid = 0 then none
  else (q.destroy q.head).map fun q' =>
    { q' with head := q.incr q.head, totalValid := q.totalValid - 1 }

/-- Queue.hpp 654-666 `pop_back` -/
def Q.popBack (q : Q α) : Option (Q α) :=
  if q.totalValid = 0 then none
  else (q.destroy (q.decr q.write)).map fun q' =>
    { q' with write := q.decr q.write, totalValid := q.totalValid - 1 }

/-- Queue.hpp 583-588: the loop of `clear` from `idx` to the write index. `fuel` bounds the number of
iterations; running out of it (or destroying a dead object) is reported as `none`. -/
def Q.clearLoop (q : Q α) : Nat → Nat → Option (Q α)
  | 0, idx => if idx = q.write then some q else none
  | fuel + 1, idx =>
    if idx = q.write then some q
    else (q.destroy idx).bind fun q' => q'.clearLoop fuel (q.incr idx)

/-- Queue.hpp 580-592 `clear` -/
def Q.clear (q : Q α) : Option (Q α) :=
  (q.clearLoop q.vectorSize q.head).map fun q' => { q' with write := 0, head := 0, totalValid := 0 }

/-- Queue.hpp 722-738 `determineIteratorValidity_` (`itr->isValid()`); an unconstructed slot yields false
here, reading it would be undefined. -/
def Q.iterValid (q : Q α) (it : Iter) : Bool :=
  if it.phys = q.invalidIndex then false
  else if q.totalValid = 0 then false
  else if q.isValidPhysical it.phys then
    match q.mem it.phys with
    | some s => s.objId == it.objId
    | none => false
  else false

/-- Queue.hpp 353-357 `operator*` with 411-418 `getAccess_` -/
def Q.deref (q : Q α) (it : Iter) : Option α :=
  if q.iterValid it then q.slotData it.phys else none

/-- Queue.hpp 670-683 `begin()` / `end()` (684-696 for the const versions) -/
def Q.endIter (q : Q α) : Iter := Iter.mk' q.invalidIndex q.invalidIndex

/-- Queue.hpp 670-677 `begin()` -/
def Q.begin (q : Q α) : Option Iter :=
  if q.totalValid = 0 then some q.endIter
  else (q.mem q.head).map fun s => Iter.mk' q.head s.objId

/-- Queue.hpp 761-787 `incrementIterator_` (ids are copied with all 64 bits here) -/
def Q.incIter (q : Q α) (it : Iter) : Option Iter :=
  if it.phys = q.invalidIndex then none
  else
    let p := q.incr it.phys
    if q.isValidPhysical p then (q.mem p).map fun s => ⟨p, s.objId⟩
    else some ⟨q.invalidIndex, q.invalidIndex⟩

/-- Queue.hpp 740-759 `decrementIterator_` -/
def Q.decIter (q : Q α) (it : Iter) : Option Iter :=
  if it.phys = q.head then none
  else if it.phys = q.invalidIndex then
    let p := q.decr q.write
    (q.mem p).map fun s => ⟨p, s.objId⟩
  else
    let p := q.decr it.phys
    (q.mem p).map fun s => ⟨p, s.objId⟩

/-- Mutating operations of the public API. -/
inductive Op (α : Type) where
  | push (x : α)
  | pop
  | popBack
  | clear

/-- One API call: new state and whether the call succeeded (`false` = it threw). Every assertion of the
modelled functions is checked before anything is modified, so a throwing call leaves the queue as it was. -/
def Q.step (q : Q α) : Op α → Q α × Bool
  | .push x => match q.push x with
    | some (q', _) => (q', true)
    | none => (q, false)
  | .pop => match q.pop with
    | some q' => (q', true)
    | none => (q, false)
  | .popBack => match q.popBack with
    | some q' => (q', true)
    | none => (q, false)
  | .clear => match q.clear with
    | some q' => (q', true)
    | none => (q, false)

end Sparta.Queue
