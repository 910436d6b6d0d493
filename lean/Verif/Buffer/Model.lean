import Verif.Common
/-!
Model of `sparta::Buffer` (/repo/sparta/sparta/resources/Buffer.hpp).

A `DataPointer*` is the index of its slot in `data_pool_`.  Left out: statistics, collection, the move constructor, the
reverse iterators (they are `prev` of the forward ones).  The vectors' growth (`capacity() + resize_delta_`) is a
function `grow` from the old to the new number of entries.
-/
namespace Sparta.Buffer
variable {α : Type}

/-- Buffer.hpp 113-115 (`data`, `next_free`, `physical_idx` of each slot) and 1006-1042; the pool has `2 * cap` slots.
`data = none`: no object alive in the slot. -/
structure Buf (α : Type) where
  cap : Nat
  data : Nat → Option α
  next : Nat → Nat
  pidx : Nat → Nat
  map : Nat → Option Nat
  free : Nat
  n : Nat
  valid : Nat → Bool
  amap : Nat → Nat
  inf : Bool
  grow : Nat → Nat

/-- the loops of Buffer.hpp 706-709 and 900-905: every slot's `next_free` is the slot to its right, the last one's is
itself -/
def chainNext (cap : Nat) : Nat → Nat := fun i => if i + 1 < 2 * cap then i + 1 else i

/-- Buffer.hpp 694-714 `clear` -/
def Buf.clear (b : Buf α) : Buf α :=
  { b with n := 0, data := fun _ => none, map := fun _ => none, next := chainNext b.cap, free := 0,
           valid := fun _ => false, amap := fun _ => 0 }

/-- Buffer.hpp 1046-1073: construction (ends with `clear()`), capacity at least 1 -/
def Buf.init (cap : Nat) : Buf α :=
  Buf.clear ⟨cap, fun _ => none, fun i => i, fun _ => 0, fun _ => none, 0, 0, fun _ => false, fun _ => 0, false, id⟩

/-- Buffer.hpp 809-812 `makeInfinite` -/
def Buf.makeInfinite (b : Buf α) (grow : Nat → Nat) : Buf α := { b with inf := true, grow := grow }

/-- Buffer.hpp 498-510 `size`, `numFree` -/
def Buf.numFree (b : Buf α) : Nat := b.cap - b.n

/-- Buffer.hpp 453-465 `isValid`, `read(idx)` (also `access`); `none` = assertion or no object -/
def Buf.read (b : Buf α) (i : Nat) : Option α := if i < b.n then (b.map i).bind b.data else none

/-- Buffer.hpp 876-924 `resizeInternalContainers_` in infinite mode.  Growing `data_pool_` moves the slots, and the move
constructor (104-107) does not take `physical_idx` along. -/
def Buf.resize (b : Buf α) : Buf α :=
  if b.numFree ≠ 0 then b
  else { b with cap := b.grow b.cap, next := chainNext (b.grow b.cap), free := b.n, pidx := fun _ => 0,
                map := fun i => if i < b.n then some (b.amap i) else b.map i }

/-- what both appends do first: Buffer.hpp 931-933, 965-967 -/
def Buf.prepare (b : Buf α) : Buf α := if b.inf then b.resize else b

/-- Buffer.hpp 926-958 `push_backImpl_`; the second component is the slot of the returned iterator, `none` = "Buffer
exhausted" -/
def Buf.pushBack (b0 : Buf α) (x : α) : Buf α × Option Nat :=
  let b := b0.prepare
  if b.numFree = 0 then (b, none)
  else ({ b with data := upd b.data b.free (some x), pidx := upd b.pidx b.free b.n, map := upd b.map b.n (some b.free),
                 amap := upd b.amap b.n b.free, valid := upd b.valid b.free true, n := b.n + 1, free := b.next b.free },
        some b.free)

/-- `buffer_map_[i]->physical_idx = i` for the slot `s = buffer_map_[i]` (never null in the loops) -/
def setPidx (p : Nat → Nat) (s : Option Nat) (i : Nat) : Nat → Nat :=
  match s with
  | some t => upd p t i
  | none => p

/-- the loop of Buffer.hpp 983-993, `k` rounds, `i` counting down -/
def insertLoop (b : Buf α) : Nat → Nat → Buf α
  | 0, _ => b
  | k + 1, i =>
    let s := b.map (i - 1)
    insertLoop { b with map := upd b.map i s, pidx := setPidx b.pidx s i,
                        amap := upd b.amap i (b.amap (i - 1)) } k (i - 1)

/-- Buffer.hpp 960-1004 `insertImpl_`; `none` = assertion -/
def Buf.insert (b0 : Buf α) (idx : Nat) (x : α) : Buf α × Option Nat :=
  let b := b0.prepare
  if b.numFree = 0 ∨ b.n < idx then (b, none)
  else
    let b1 := { b with data := upd b.data b.free (some x), pidx := upd b.pidx b.free idx, valid := upd b.valid b.free true }
    let b2 := insertLoop b1 (b.n - idx) b.n
    ({ b2 with map := upd b2.map idx (some b.free), amap := upd b2.amap b.n b.free, n := b.n + 1, free := b.next b.free },
      some b.free)

/-- the loop of Buffer.hpp 648-658, `k` rounds, `i` counting up -/
def eraseLoop (b : Buf α) : Nat → Nat → Buf α
  | 0, _ => b
  | k + 1, i =>
    let s := b.map (i + 1)
    eraseLoop { b with map := upd b.map i s, pidx := setPidx b.pidx s i,
                       amap := upd b.amap i (b.amap (i + 1)) } k (i + 1)

/-- Buffer.hpp 624-666 `erase(idx)`; `none` = assertion -/
def Buf.erase (b : Buf α) (idx : Nat) : Option (Buf α) :=
  if idx < b.n then
    match b.map idx with
    | none => none
    | some s =>
      let b1 := { b with free := s, data := upd b.data s none, next := upd b.next s b.free, valid := upd b.valid s false }
      let b2 := eraseLoop b1 (b.n - 1 - idx) idx
      some { b2 with map := upd b2.map (b.n - 1) none, n := b.n - 1 }
  else none

/-! ### iterators: the slot, or `none` for `end()` -/

/-- Buffer.hpp 155-160 `getIndex_` -/
def Buf.index (b : Buf α) : Option Nat → Nat
  | none => b.cap
  | some h => b.pidx h

/-- Buffer.hpp 243-249 `isValid` -/
def Buf.itValid (b : Buf α) : Option Nat → Bool
  | none => false
  | some h => b.valid h

/-- Buffer.hpp 251-273 `operator*`; `none` = assertion -/
def Buf.deref (b : Buf α) (it : Option Nat) : Option α := if b.itValid it then it.bind b.data else none

/-- Buffer.hpp 276-289 `operator++`; `none` = assertion -/
def Buf.incr (b : Buf α) (it : Option Nat) : Option (Option Nat) :=
  if b.itValid it then some (if b.index it + 1 < b.n then b.map (b.index it + 1) else none) else none

/-- Buffer.hpp 299-317 `operator--`; `none` = assertion -/
def Buf.decr (b : Buf α) (it : Option Nat) : Option (Option Nat) :=
  if b.itValid it then
    if u32dec (b.index it) < b.n then some (b.map (u32dec (b.index it)))
    else if u32dec (b.index it) < b.cap then some none else none
  else if b.n ≠ 0 then some (b.map (b.n - 1)) else some it

/-- Buffer.hpp 744-750 `begin()` -/
def Buf.begin (b : Buf α) : Option Nat := if b.n ≠ 0 then b.map 0 else none

/-- Buffer.hpp 672-679 `erase(const_iterator)`: the new state and the iterator returned; `none` = assertion -/
def Buf.eraseIt (b : Buf α) (it : Option Nat) : Option (Buf α × Option Nat) :=
  (b.erase (b.index it)).map fun b' => (b', b'.map (b'.index it))

/-- Buffer.hpp 588-597 `insert(const_iterator, dat)` -/
def Buf.insertIt (b : Buf α) (it : Option Nat) (x : α) : Buf α × Option Nat := b.insert (b.index it) x

/-! ### histories -/

/-- calls on a Buffer -/
inductive Op (α : Type) where
  | push (x : α)
  | insert (i : Nat) (x : α)
  | erase (i : Nat)
  | clear
  | read (i : Nat)
  | size
  | numFree
deriving DecidableEq, Repr

/-- what a call shows -/
inductive Out (α : Type) where
  | threw
  | done
  | value (x : α)
  | num (n : Nat)
deriving DecidableEq, Repr

/-- one call -/
def Buf.step (b : Buf α) : Op α → Buf α × Out α
  | .push x => ((b.pushBack x).1, if (b.pushBack x).2.isSome then .done else .threw)
  | .insert i x => ((b.insert i x).1, if (b.insert i x).2.isSome then .done else .threw)
  | .erase i => match b.erase i with
    | some b' => (b', .done)
    | none => (b, .threw)
  | .clear => (b.clear, .done)
  | .read i => (b, match b.read i with | some x => .value x | none => .threw)
  | .size => (b, .num b.n)
  | .numFree => (b, .num b.numFree)

end Sparta.Buffer
