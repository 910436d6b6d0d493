import Verif.Common
/-!
Model of `sparta::SpartaSharedPointer`, `sparta::SpartaWeakPointer` (/repo/sparta/sparta/utils/SpartaSharedPointer.hpp) and
`sparta::SpartaSharedPointerAllocator` (/repo/sparta/sparta/utils/SpartaSharedPointerAllocator.hpp).

A program is a history of calls on pointer variables: `shared[i]` is the i-th shared pointer variable ever constructed, `weak[i]`
the i-th weak one; `none` is a variable whose destructor has run, `some none` an empty pointer, `some (some c)` a pointer to
reference count `c`.  Every constructed object has its own number, so that a reused memory block is told apart from the object
that lived there before; `log` lists the objects in the order in which their destructors ran.

Simplifications: one allocator; `int32_t` counts are integers (fewer than 2^31 pointers); the destructor of the pointed-to object
does not itself use pointers to the objects of the model; constructors do not throw, except in `allocFail`.
`none` as the result of a function is undefined behaviour: use of a reference count that has been deleted or of a block that has
been given back.
-/
namespace Sparta.SharedPtr

/-- SpartaSharedPointer.hpp 92-109 `RefCount`; `obj` is the object at `*p`, `pooled` is `mem_block != nullptr`, `freed` says that
the count was deleted (or, for a pooled one, given back to the allocator) -/
structure Cell where
  count : Int
  wp : Int
  obj : Nat
  pNull : Bool
  pooled : Bool
  freed : Bool
deriving DecidableEq, Repr

/-- all reference counts, the variables, the allocator (SpartaSharedPointerAllocator.hpp 511-518; `free` is
`free_blocks_[0 .. free_idx_)`) -/
structure State where
  cells : List Cell
  shared : List (Option (Option Nat))
  weak : List (Option (Option Nat))
  next : Nat
  log : List Nat
  free : List Nat
  allocated : Nat
  maxBlocks : Nat
  waterMark : Nat
  warned : Bool
deriving DecidableEq, Repr

/-- SpartaSharedPointerAllocator.hpp 179-192: the constructor asserts `water_mark <= max_num_blocks` -/
def init (maxBlocks waterMark : Nat) : Option State :=
  if waterMark ≤ maxBlocks then some ⟨[], [], [], 0, [], [], 0, maxBlocks, waterMark, false⟩ else none

/-- `*ref_count` -/
def getCell (s : State) (c : Nat) : Option Cell :=
  match s.cells[c]? with
  | some x => if x.freed then none else some x
  | none => none

/-- a write to `*ref_count` -/
def setCell (s : State) (c : Nat) (x : Cell) : State := { s with cells := s.cells.set c x }

/-- SpartaSharedPointer.hpp 313-345: the part of `releaseRefCount_` that ends the life of the object.  The temporary
`++wp_count`/`--wp_count` around the destructor is left out (the destructor uses no pointers).  `delete nullptr` does nothing. -/
def endObject (s : State) (c : Nat) (x : Cell) : State × Cell :=
  if x.count = 0 then
    if x.pooled then
      ({ setCell s c { x with count := -1 } with log := s.log ++ [x.obj] }, { x with count := -1 })
    else
      ({ setCell s c { x with count := -1, pNull := true } with log := if x.pNull then s.log else s.log ++ [x.obj] },
        { x with count := -1, pNull := true })
  else (s, x)

/-- SpartaSharedPointer.hpp 347-365: the part of `releaseRefCount_` that gives up the reference count;
SpartaSharedPointerAllocator.hpp 459-463 `releaseBlock_`.  The flag says that the reference passed was set to null. -/
def endCell (s : State) (c : Nat) (x : Cell) : Option (State × Bool) :=
  if x.count ≤ 0 ∧ x.wp = 0 then
    if x.pooled then
      if s.free.length < s.maxBlocks then
        some ({ setCell s c { x with freed := true } with free := s.free ++ [c] }, true)
      else none
    else some (setCell s c { x with freed := true }, true)
  else some (s, false)

/-- SpartaSharedPointer.hpp 311-369 `releaseRefCount_` -/
def release (s : State) (c : Nat) : Option (State × Bool) :=
  match getCell s c with
  | some x => endCell (endObject s c x).1 c (endObject s c x).2
  | none => none

/-- `++ref_count->count` -/
def incCount (s : State) (c : Nat) : Option State :=
  match getCell s c with
  | some x => some (setCell s c { x with count := x.count + 1 })
  | none => none

/-- `++ref_count->wp_count` -/
def incWp (s : State) (c : Nat) : Option State :=
  match getCell s c with
  | some x => some (setCell s c { x with wp := x.wp + 1 })
  | none => none

/-- `--ref_count_->count; releaseRefCount_(ref_count_)` (SpartaSharedPointer.hpp 376-377) -/
def dropCount (s : State) (c : Nat) : Option (State × Bool) :=
  match getCell s c with
  | some x => release (setCell s c { x with count := x.count - 1 }) c
  | none => none

/-- `--(wp_ref_cnt_->wp_count); releaseRefCount_(wp_ref_cnt_)` (SpartaSharedPointer.hpp 427-428) -/
def dropWp (s : State) (c : Nat) : Option (State × Bool) :=
  match getCell s c with
  | some x => release (setCell s c { x with wp := x.wp - 1 }) c
  | none => none

/-- the variable -/
def var (l : List (Option (Option Nat))) (i : Nat) : Option Nat := (l.getD i none).getD none

/-- SpartaSharedPointer.hpp 372-379 `unlink_` of variable `i` -/
def unlink (s : State) (i : Nat) : Option State :=
  match var s.shared i with
  | none => some s
  | some c =>
    match dropCount s c with
    | some (s, true) => some { s with shared := s.shared.set i (some none) }
    | some (s, false) => some s
    | none => none

/-- SpartaSharedPointer.hpp 462-465: the same for a weak pointer -/
def unlinkWeak (s : State) (i : Nat) : Option State :=
  match var s.weak i with
  | none => some s
  | some c =>
    match dropWp s c with
    | some (s, true) => some { s with weak := s.weak.set i (some none) }
    | some (s, false) => some s
    | none => none

/-- SpartaSharedPointer.hpp 122-124, 95-97: `new PointerT` and a new reference count -/
def newCell (s : State) (pooled : Bool) : State :=
  { s with cells := s.cells ++ [⟨1, 0, s.next, false, pooled, false⟩], next := s.next + 1 }

/-- `if(ref_count_ != nullptr) ++ref_count_->count` -/
def incCount? (s : State) : Option Nat → Option State
  | some c => incCount s c
  | none => some s

/-- `if(nullptr != wp_ref_cnt_) ++(wp_ref_cnt_->wp_count)` -/
def incWp? (s : State) : Option Nat → Option State
  | some c => incWp s c
  | none => some s

/-- SpartaSharedPointerAllocator.hpp 389-427 `allocate_`: the reference count, and whether the watermark callback and the
over-allocation callback were called; the count is `none` if an exception was thrown -/
def allocate (s : State) : Option (State × Option Nat × Bool × Bool) :=
  match s.free.getLast? with
  | some c =>
    match s.cells[c]? with
    | some x =>
      if x.pNull then some (s, none, false, false)
      else some ({ setCell s c { x with count := 1, obj := s.next, freed := false } with
        free := s.free.dropLast, next := s.next + 1 }, some c, false, false)
    | none => none
  | none =>
    let warn := decide (s.allocated > s.waterMark) && !s.warned
    let over := decide (s.allocated > s.waterMark) && decide (s.allocated ≥ s.maxBlocks)
    let s1 := { s with warned := s.warned || warn }
    if over then some (s1, none, warn, true)
    else if s.allocated < s.maxBlocks then
      some ({ newCell s1 true with allocated := s.allocated + 1 }, some s.cells.length, warn, false)
    else some (s1, none, warn, false)

/-- SpartaSharedPointerAllocator.hpp 389-427 `allocate_` when the constructor of the object throws: a reused block has left
the free list and has count 1; a fresh block is not counted (`size_`, `allocated_` unchanged) -/
def allocFail (s : State) : State :=
  match s.free.getLast? with
  | some c =>
    match s.cells[c]? with
    | some x => { setCell s c { x with count := 1, obj := s.next, freed := false } with free := s.free.dropLast }
    | none => s
  | none => s

/-- the calls of a program -/
inductive Op where
  /-- `SpartaSharedPointer<T> p(new T)` -/
  | make
  /-- `SpartaSharedPointer<T> p` -/
  | makeNull
  /-- `auto p = allocate_sparta_shared_pointer<T>(allocator)` -/
  | alloc
  /-- `SpartaSharedPointer<T> p(shared[j])` (also from a derived class) -/
  | copy (j : Nat)
  /-- `SpartaSharedPointer<T> p(std::move(shared[j]))` -/
  | move (j : Nat)
  /-- the end of the life of `shared[i]` -/
  | destroy (i : Nat)
  /-- `shared[i] = shared[j]` -/
  | assign (i j : Nat)
  /-- `shared[i] = std::move(shared[j])` -/
  | moveAssign (i j : Nat)
  /-- `shared[i].reset()` -/
  | reset (i : Nat)
  /-- `shared[i].reset(new T)` -/
  | resetNew (i : Nat)
  /-- `SpartaWeakPointer<T> w` -/
  | weakNull
  /-- `SpartaWeakPointer<T> w(shared[j])` -/
  | watch (j : Nat)
  /-- `SpartaWeakPointer<T> w(weak[j])` -/
  | weakCopy (j : Nat)
  /-- `SpartaWeakPointer<T> w(std::move(weak[j]))` -/
  | weakMove (j : Nat)
  /-- the end of the life of `weak[i]` -/
  | weakDestroy (i : Nat)
  /-- `weak[i] = weak[j]` -/
  | weakAssign (i j : Nat)
  /-- `weak[i] = std::move(weak[j])` -/
  | weakMoveAssign (i j : Nat)
  /-- `auto p = weak[j].lock()` -/
  | lock (j : Nat)
  /-- `shared[i].get()` -/
  | get (i : Nat)
  /-- `(bool)shared[i]` -/
  | isSet (i : Nat)
  /-- `!shared[i]` -/
  | isNull (i : Nat)
  /-- `shared[i].use_count()` -/
  | useCount (i : Nat)
  /-- `weak[i].use_count()` -/
  | weakUseCount (i : Nat)
  /-- `weak[i].expired()` -/
  | expired (i : Nat)
  /-- how often has the destructor of object `o` run? -/
  | destroyed (o : Nat)
  /-- `allocator.getNumFree()` -/
  | numFree
  /-- `allocator.getNumAllocated()` -/
  | numAllocated
  /-- `allocator.hasOutstandingObjects()` -/
  | hasOutstanding
deriving DecidableEq, Repr

/-- what a call returns -/
inductive Out where
  | unit
  | threw
  /-- the object pointed to -/
  | obj (o : Option Nat)
  | num (n : Int)
  | flag (b : Bool)
  /-- result of the allocation: did it succeed, was the watermark callback called, was the over-allocation callback called -/
  | alloc (ok warn over : Bool)
  /-- undefined behaviour -/
  | ub
deriving DecidableEq, Repr

/-- SpartaSharedPointer.hpp 271-273 `get`, 251-253 `operator->` -/
def getP (s : State) (i : Nat) : Option (Option Nat) :=
  match var s.shared i with
  | none => some none
  | some c => (getCell s c).map fun x => if x.pNull then none else some x.obj

/-- SpartaSharedPointer.hpp 288-293 `use_count` -/
def useCount (s : State) (i : Nat) : Option Int :=
  match var s.shared i with
  | none => some 0
  | some c => (getCell s c).map fun x => if x.pNull then 0 else x.count

/-- SpartaSharedPointer.hpp 494-499 `use_count` -/
def weakUseCount (s : State) (i : Nat) : Option Int :=
  match var s.weak i with
  | none => some 0
  | some c => (getCell s c).map fun x => if x.count ≤ 0 then 0 else x.count

/-- SpartaSharedPointer.hpp 505-510 `expired` -/
def expired (s : State) (i : Nat) : Option Bool :=
  match var s.weak i with
  | none => some true
  | some c => (getCell s c).map fun x => decide (x.count ≤ 0)

/-- SpartaSharedPointerAllocator.hpp 241-254 `getOutstandingAllocatedObjects` -/
def outstanding (s : State) : List Nat := (s.cells.filter fun x => x.pooled && decide (x.count > 0)).map (·.obj)

/-- SpartaSharedPointerAllocator.hpp 225-227 `getNumAllocated`: `memory_blocks_.size()` -/
def numAllocated (s : State) : Nat := s.cells.countP (·.pooled)

/-- turn undefined behaviour into an output; the state is arbitrary afterwards -/
def orUb (s : State) : Option (State × Out) → State × Out
  | some r => r
  | none => (s, .ub)

/-- an output of a query -/
def query {α : Type} (s : State) (f : α → Out) (r : Option α) : State × Out := orUb s (r.map fun a => (s, f a))

/-- one call -/
def step (s : State) : Op → State × Out
  | .make => let t := newCell s false; ({ t with shared := t.shared ++ [some (some s.cells.length)] }, .unit)
  | .makeNull => ({ s with shared := s.shared ++ [some none] }, .unit)
  | .alloc => orUb s <|
    match allocate s with
    | some (s, some c, w, o) => some ({ s with shared := s.shared ++ [some (some c)] }, .alloc true w o)
    | some (s, none, w, o) => some (s, .alloc false w o)
    | none => none
  -- SpartaSharedPointer.hpp 161-167, 142-153
  | .copy j => orUb s <|
    (incCount? s (var s.shared j)).map fun t => ({ t with shared := t.shared ++ [some (var s.shared j)] }, .unit)
  -- SpartaSharedPointer.hpp 176-181
  | .move j => ({ s with shared := s.shared.set j (some none) ++ [some (var s.shared j)] }, .unit)
  -- SpartaSharedPointer.hpp 184-186
  | .destroy i => orUb s <| (unlink s i).map fun t => ({ t with shared := t.shared.set i none }, .unit)
  -- SpartaSharedPointer.hpp 195-204
  | .assign i j => if i = j then (s, .threw) else orUb s <|
    match unlink s i with
    | some t => (incCount? t (var t.shared j)).map fun u => ({ u with shared := u.shared.set i (some (var t.shared j)) }, .unit)
    | none => none
  -- SpartaSharedPointer.hpp 214-221
  | .moveAssign i j => if i = j then (s, .threw) else orUb s <|
    (unlink s i).map fun t => ({ t with shared := (t.shared.set i (some (var t.shared j))).set j (some none) }, .unit)
  -- SpartaSharedPointer.hpp 279-282
  | .reset i => orUb s <| (unlink s i).map fun t => ({ t with shared := t.shared.set i (some none) }, .unit)
  | .resetNew i => orUb s <| (unlink s i).map fun t =>
    let u := newCell t false; ({ u with shared := u.shared.set i (some (some t.cells.length)) }, .unit)
  | .weakNull => ({ s with weak := s.weak ++ [some none] }, .unit)
  -- SpartaSharedPointer.hpp 416-422
  | .watch j => orUb s <|
    (incWp? s (var s.shared j)).map fun t => ({ t with weak := t.weak ++ [some (var s.shared j)] }, .unit)
  -- SpartaSharedPointer.hpp 437-443
  | .weakCopy j => orUb s <|
    (incWp? s (var s.weak j)).map fun t => ({ t with weak := t.weak ++ [some (var s.weak j)] }, .unit)
  -- SpartaSharedPointer.hpp 449-453
  | .weakMove j => ({ s with weak := s.weak.set j (some none) ++ [some (var s.weak j)] }, .unit)
  -- SpartaSharedPointer.hpp 425-431
  | .weakDestroy i => orUb s <| (unlinkWeak s i).map fun t => ({ t with weak := t.weak.set i none }, .unit)
  -- SpartaSharedPointer.hpp 459-471
  | .weakAssign i j => orUb s <|
    match unlinkWeak s i with
    | some t => (incWp? t (var t.weak j)).map fun u => ({ u with weak := u.weak.set i (some (var t.weak j)) }, .unit)
    | none => none
  -- SpartaSharedPointer.hpp 477-487
  | .weakMoveAssign i j => orUb s <|
    (unlinkWeak s i).map fun t => ({ t with weak := (t.weak.set i (some (var t.weak j))).set j (some none) }, .unit)
  -- SpartaSharedPointer.hpp 516-518, 383-387
  | .lock j => orUb s <|
    (incCount? s (var s.weak j)).map fun t => ({ t with shared := t.shared ++ [some (var s.weak j)] }, .unit)
  | .get i => query s .obj (getP s i)
  -- SpartaSharedPointer.hpp 243-245
  | .isSet i => query s (fun o => .flag o.isSome) (getP s i)
  -- SpartaSharedPointer.hpp 232-234
  | .isNull i => query s (fun o => .flag o.isNone) (getP s i)
  | .useCount i => query s .num (useCount s i)
  | .weakUseCount i => query s .num (weakUseCount s i)
  | .expired i => query s .flag (expired s i)
  | .destroyed o => (s, .num (s.log.count o))
  -- SpartaSharedPointerAllocator.hpp 215-217
  | .numFree => (s, .num s.free.length)
  | .numAllocated => (s, .num (numAllocated s))
  -- SpartaSharedPointerAllocator.hpp 233-235
  | .hasOutstanding => (s, .flag (decide (s.allocated ≠ s.free.length)))

end Sparta.SharedPtr
