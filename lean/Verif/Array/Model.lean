import Verif.Common
/-!
Model of `sparta::Array` (/repo/sparta/sparta/resources/Array.hpp), both `NORMAL` and `AGED`.
Not modelled: utilization counter, collection, the `to_validate` / `valid` members of a position (never read).
-/
namespace Sparta.Array

/-- Array.hpp 61-75 `ArrayPosition`. `data = none`: the object has been destroyed. `listPointer` is the
identity of the `std::list` node. -/
structure Pos (α : Type) where
  data : Option α
  listPointer : Nat
  ageAbsId : Nat
  ageRelId : Nat

/-- Array.hpp 985-1010 members. `mem i = none` is memory from `malloc` never written. `agedList` is the
`std::list<uint32_t>`, front first, each node with its identity; `nextNode` supplies fresh identities. -/
structure A (α : Type) where
  aged : Bool
  numEntries : Nat
  numValid : Nat
  mem : Nat → Option (Pos α)
  valid : Nat → Bool
  agedList : List (Nat × Nat)
  nextNode : Nat
  nextAgeAbsId : Nat

/-- Array.hpp 1019-1048 constructor -/
def A.init (α : Type) (aged : Bool) (n : Nat) : A α :=
  { aged := aged, numEntries := n, numValid := 0, mem := fun _ => none, valid := fun _ => false,
    agedList := [], nextNode := 0, nextAgeAbsId := 0 }

variable {α : Type}

/-- Array.hpp 908-928 `updateRelativeAge_`: walks the list of indexes from the oldest; `none` = assertion
failure or access to memory never written. -/
def updateRel (valid : Nat → Bool) : (Nat → Option (Pos α)) → List Nat → Nat → Option (Nat → Option (Pos α))
  | mem, [], _ => some mem
  | mem, idx :: rest, i =>
    if valid idx then
      match mem idx with
      | some p => updateRel valid (upd mem idx (some { p with ageRelId := i })) rest (i + 1)
      | none => none
    else none

/-- the indexes on the aged list from oldest (back) to youngest (front) -/
def A.oldestFirst (a : A α) : List Nat := (a.agedList.map (·.2)).reverse

/-- `std::list::erase(iterator)`: erasing a node that is not on the list is undefined behaviour. -/
def listErase (l : List (Nat × Nat)) (node : Nat) : Option (List (Nat × Nat)) :=
  if l.any (fun e => e.1 == node) then some (l.filter (fun e => e.1 != node)) else none

/-- Array.hpp 934-942: when overwriting a valid entry, drop its count and age information -/
def A.overwrite (a : A α) (idx : Nat) : Option (A α) :=
  if a.valid idx then
    if a.aged then
      (a.mem idx).bind fun p => (listErase a.agedList p.listPointer).map fun l =>
        { a with numValid := a.numValid - 1, agedList := l }
    else some { a with numValid := a.numValid - 1 }
  else some a

/-- Array.hpp 68-69, 946-962: the freshly constructed position of a write -/
def newPos (x : α) (node absId : Nat) : Pos α :=
  { data := some x, listPointer := node, ageAbsId := absId, ageRelId := 0 }

/-- Array.hpp 930-974 `writeImpl_`; `none` = exception or undefined behaviour -/
def A.write (a : A α) (idx : Nat) (x : α) : Option (A α) :=
  if idx < a.numEntries then
    (a.overwrite idx).bind fun a =>
      let a := { a with mem := upd a.mem idx (some (newPos x a.nextNode a.nextAgeAbsId)), valid := upd a.valid idx true,
                        nextAgeAbsId := a.nextAgeAbsId + 1, numValid := a.numValid + 1 }
      if a.aged then
        let a := { a with agedList := (a.nextNode, idx) :: a.agedList, nextNode := a.nextNode + 1 }
        (updateRel a.valid a.mem a.oldestFirst 0).map fun m => { a with mem := m }
      else some a
  else none

/-- Array.hpp 719-743 `erase(idx)` -/
def A.erase (a : A α) (idx : Nat) : Option (A α) :=
  if a.valid idx then
    if a.numValid > 0 then
      let a1 : Option (A α) :=
        if a.aged then
          (a.mem idx).bind fun p => (listErase a.agedList p.listPointer).bind fun l =>
            let a := { a with numValid := a.numValid - 1, agedList := l }
            (updateRel a.valid a.mem a.oldestFirst 0).map fun m => { a with mem := m }
        else some { a with numValid := a.numValid - 1 }
      a1.map fun a =>
        { a with mem := upd a.mem idx ((a.mem idx).map fun p => { p with data := none }),
                 valid := upd a.valid idx false }
    else none
  else none

/-- Array.hpp 748-760 `clear` -/
def A.clear (a : A α) : A α :=
  { a with mem := fun i => if a.valid i then (a.mem i).map (fun p => { p with data := none }) else a.mem i,
           valid := fun _ => false, agedList := [], numValid := 0 }

/-- Array.hpp 541-543 `isValid` -/
def A.isValid (a : A α) (idx : Nat) : Bool := a.valid idx

/-- Array.hpp 550-554 `read`; `none` = exception, or a position without a live object -/
def A.read (a : A α) (idx : Nat) : Option α :=
  if a.isValid idx then (a.mem idx).bind (·.data) else none

/-- Array.hpp 578-604 `getOldestIndex`: walk `nth` steps from the back of the aged list -/
def A.getOldestIndex (a : A α) (nth : Nat) : Option Nat :=
  if a.aged then
    if nth < a.numValid then
      (a.agedList.reverse[nth]?).bind fun e => if a.isValid e.2 then some e.2 else none
    else none
  else none

/-- Array.hpp 616-638 `getYoungestIndex` -/
def A.getYoungestIndex (a : A α) (nth : Nat) : Option Nat :=
  if a.aged then
    if nth < a.numValid then
      (a.agedList[nth]?).bind fun e => if a.isValid e.2 then some e.2 else none
    else none
  else none

/-- the element before the first occurrence of `x`, the last element when `x` does not occur, and `none`
when `x` is first (or the list is empty): `std::find` followed by `--it`, see `getNextOldestIndex` -/
def beforeOrLast (x : Nat) : Option Nat → List Nat → Option Nat
  | prev, [] => prev
  | prev, y :: ys => if y = x then prev else beforeOrLast x (some y) ys

/-- Array.hpp 645-653 `getNextOldestIndex`; `none` = returned false -/
def A.getNextOldestIndex (a : A α) (prev : Nat) : Option Nat :=
  beforeOrLast prev none (a.agedList.map (·.2))

/-- Array.hpp 659-664 `getAge` -/
def A.getAge (a : A α) (idx : Nat) : Option Nat :=
  if a.aged then if a.isValid idx then (a.mem idx).map (·.ageRelId) else none else none

/-- Array.hpp 821-827 `isYounger`; `none` = exception or uninitialised memory -/
def A.isYounger (a : A α) (l r : Nat) : Option Bool :=
  if l ≠ r ∧ l < a.numEntries ∧ r < a.numEntries then
    (a.mem l).bind fun p => (a.mem r).map fun q => decide (p.ageAbsId > q.ageAbsId)
  else none

/-- Array.hpp 836-842 `isOlder` -/
def A.isOlder (a : A α) (l r : Nat) : Option Bool :=
  if l ≠ r ∧ l < a.numEntries ∧ r < a.numEntries then
    (a.mem l).bind fun p => (a.mem r).map fun q => decide (p.ageAbsId < q.ageAbsId)
  else none

/-- `invalid_entry_` member: the index of `end()`/`aend()` -/
def A.invalidEntry (a : A α) : Nat := a.numEntries + 1

/-- Array.hpp 442-450 index of `abegin()` -/
def A.abegin (a : A α) : Option Nat :=
  if a.numValid ≠ 0 then a.getOldestIndex 0 else some a.invalidEntry

/-- Array.hpp 314-355 `operator++` for an aged walking iterator (from `abegin`). The retry when the new
index is not valid is modelled by `fuel`; running out of it counts as failure. -/
def A.aincr (a : A α) : Nat → Nat → Option Nat
  | 0, _ => none
  | fuel + 1, idx =>
    if idx = a.invalidEntry then none
    else
      let next := match a.getNextOldestIndex idx with
        | some j => some j
        | none => a.getOldestIndex 0
      next.bind fun j => a.abegin.bind fun b =>
        if j = b then some a.invalidEntry
        else if j ≠ a.invalidEntry ∧ a.isValid j then some j
        else a.aincr fuel j

/-- Mutating operations of the public API -/
inductive Op (α : Type) where
  | write (idx : Nat) (x : α)
  | erase (idx : Nat)
  | clear

/-- One API call; `false` = the call failed. Assertions that depend on the arguments come first in every
function, so a rejected call changes nothing. -/
def A.step (a : A α) : Op α → A α × Bool
  | .write i x => match a.write i x with
    | some a' => (a', true)
    | none => (a, false)
  | .erase i => match a.erase i with
    | some a' => (a', true)
    | none => (a, false)
  | .clear => (a.clear, true)

end Sparta.Array
