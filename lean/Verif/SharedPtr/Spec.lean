import Verif.SharedPtr.Model
/-!
What a program sees: every variable refers to an object or to nothing; an object dies when the last shared pointer to it
goes away; a pool slot is in use as long as any pointer, shared or weak, refers to the object in it.
-/
namespace Sparta.SharedPtr

/-- `pool`: the objects made by the allocator, in order; `peak`: the largest number of pool slots in use so far -/
structure Spec where
  shared : List (Option (Option Nat))
  weak : List (Option (Option Nat))
  next : Nat
  pool : List Nat
  peak : Nat
  maxBlocks : Nat
  waterMark : Nat
  warned : Bool

/-- the number of shared pointers to object `o` -/
def owners (t : Spec) (o : Nat) : Nat := t.shared.count (some (some o))

/-- the number of weak pointers to object `o` -/
def watchers (t : Spec) (o : Nat) : Nat := t.weak.count (some (some o))

/-- the number of pool slots in use -/
def inUse (t : Spec) : Nat := (t.pool.filter fun o => decide (0 < owners t o + watchers t o)).length

def specInit (maxBlocks waterMark : Nat) : Spec := ⟨[], [], 0, [], 0, maxBlocks, waterMark, false⟩

/-- one call -/
def specStep (t : Spec) : Op → Spec × Out
  | .make => ({ t with shared := t.shared ++ [some (some t.next)], next := t.next + 1 }, .unit)
  | .makeNull => ({ t with shared := t.shared ++ [some none] }, .unit)
  | .alloc =>
    -- a slot that was never used is needed if all slots used so far are in use
    let fresh := decide (inUse t = t.peak)
    let warn := fresh && decide (t.peak > t.waterMark) && !t.warned
    let t1 := { t with warned := t.warned || warn }
    if inUse t < t.maxBlocks then
      ({ t1 with shared := t.shared ++ [some (some t.next)], next := t.next + 1, pool := t.pool ++ [t.next],
                 peak := max t.peak (inUse t + 1) }, .alloc true warn false)
    else (t1, .alloc false warn (decide (t.waterMark < t.maxBlocks)))
  | .copy j => ({ t with shared := t.shared ++ [some (var t.shared j)] }, .unit)
  | .move j => ({ t with shared := t.shared.set j (some none) ++ [some (var t.shared j)] }, .unit)
  | .destroy i => ({ t with shared := t.shared.set i none }, .unit)
  | .assign i j => if i = j then (t, .threw) else ({ t with shared := t.shared.set i (some (var t.shared j)) }, .unit)
  | .moveAssign i j =>
    if i = j then (t, .threw) else ({ t with shared := (t.shared.set i (some (var t.shared j))).set j (some none) }, .unit)
  | .reset i => ({ t with shared := t.shared.set i (some none) }, .unit)
  | .resetNew i => ({ t with shared := t.shared.set i (some (some t.next)), next := t.next + 1 }, .unit)
  | .weakNull => ({ t with weak := t.weak ++ [some none] }, .unit)
  | .watch j => ({ t with weak := t.weak ++ [some (var t.shared j)] }, .unit)
  | .weakCopy j => ({ t with weak := t.weak ++ [some (var t.weak j)] }, .unit)
  | .weakMove j => ({ t with weak := t.weak.set j (some none) ++ [some (var t.weak j)] }, .unit)
  | .weakDestroy i => ({ t with weak := t.weak.set i none }, .unit)
  | .weakAssign i j =>
    -- an expired pointer that is the last one to refer to its object becomes empty when assigned to itself
    if i = j ∧ ∃ o, var t.weak i = some o ∧ owners t o = 0 ∧ watchers t o = 1 then
      ({ t with weak := t.weak.set i (some none) }, .unit)
    else ({ t with weak := t.weak.set i (some (var t.weak j)) }, .unit)
  | .weakMoveAssign i j => ({ t with weak := (t.weak.set i (some (var t.weak j))).set j (some none) }, .unit)
  | .lock j => ({ t with shared := t.shared ++ [some (var t.weak j)] }, .unit)
  | .get i => (t, .obj (var t.shared i))
  | .isSet i => (t, .flag (var t.shared i).isSome)
  | .isNull i => (t, .flag (var t.shared i).isNone)
  | .useCount i => (t, .num ((var t.shared i).elim 0 fun o => (owners t o : Int)))
  | .weakUseCount i => (t, .num ((var t.weak i).elim 0 fun o => (owners t o : Int)))
  | .expired i => (t, .flag ((var t.weak i).elim true fun o => decide (owners t o = 0)))
  | .destroyed o => (t, .num (if o < t.next ∧ owners t o = 0 then 1 else 0))
  | .numFree => (t, .num ((t.peak : Int) - inUse t))
  | .numAllocated => (t, .num t.peak)
  | .hasOutstanding => (t, .flag (decide (0 < inUse t)))

/-- variable `i` is alive -/
def alive (l : List (Option (Option Nat))) (i : Nat) : Prop := l.getD i none ≠ none

/-- the program uses only variables that are alive, and calls `lock` only on a weak pointer that is empty or not expired -/
def legal (t : Spec) : Op → Prop
  | .copy j => alive t.shared j
  | .move j => alive t.shared j
  | .destroy i => alive t.shared i
  | .assign i j => alive t.shared i ∧ alive t.shared j
  | .moveAssign i j => alive t.shared i ∧ alive t.shared j
  | .reset i => alive t.shared i
  | .resetNew i => alive t.shared i
  | .watch j => alive t.shared j
  | .weakCopy j => alive t.weak j
  | .weakMove j => alive t.weak j
  | .weakDestroy i => alive t.weak i
  | .weakAssign i j => alive t.weak i ∧ alive t.weak j
  | .weakMoveAssign i j => alive t.weak i ∧ alive t.weak j
  | .lock j => alive t.weak j ∧ (∀ o, var t.weak j = some o → 0 < owners t o)
  | .get i => alive t.shared i
  | .isSet i => alive t.shared i
  | .isNull i => alive t.shared i
  | .useCount i => alive t.shared i
  | .weakUseCount i => alive t.weak i
  | .expired i => alive t.weak i
  | _ => True

end Sparta.SharedPtr
