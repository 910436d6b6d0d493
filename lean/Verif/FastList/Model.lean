import Verif.Common
/-!
Model of `sparta::utils::FastList` (/repo/sparta/sparta/utils/FastList.hpp).
The vector of nodes is kept as three functions of the node index (next, prev, value); index -1 is `none`.
The `index` member of node `i` is `i`. Not modelled: the printer, object construction and destruction.
-/
namespace Sparta.FastList

/-- FastList.hpp 439-445 members and 52-71 `Node` -/
structure L (α : Type) where
  cap : Nat
  next : Nat → Option Nat
  prev : Nat → Option Nat
  val : Nat → Option α
  freeHead : Option Nat
  first : Option Nat
  last : Option Nat
  size : Nat

/-- FastList.hpp 191-205 constructor; size 0 is rejected -/
def L.init (α : Type) (n : Nat) : Option (L α) :=
  if n ≠ 0 then
    some { cap := n, next := fun i => if i + 1 = n then none else some (i + 1),
           prev := fun i => if i = 0 then none else some (i - 1), val := fun _ => none,
           freeHead := some 0, first := none, last := none, size := 0 }
  else none

variable {α : Type}

/-- FastList.hpp 260-262: the value is destroyed -/
def L.kill (l : L α) (k : Nat) : L α := { l with val := upd l.val k none }
/-- FastList.hpp 265-270: first and last -/
def L.unhookEnds (l : L α) (k : Nat) : L α :=
  { l with first := if l.first = some k then l.next k else l.first,
           last := if l.last = some k then l.prev k else l.last }
/-- FastList.hpp 272-277: the next node's prev -/
def L.unhookNext (l : L α) (k : Nat) : L α :=
  match l.next k with | some j => { l with prev := upd l.prev j (l.prev k) } | none => l
/-- FastList.hpp 279-283: the previous node's next -/
def L.unhookPrev (l : L α) (k : Nat) : L α :=
  match l.prev k with | some j => { l with next := upd l.next j (l.next k) } | none => l
/-- FastList.hpp 285-291: put the node in front of the free chain -/
def L.free (l : L α) (k : Nat) : L α :=
  let l := { l with prev := upd l.prev k none, next := upd l.next k none }
  let l := match l.freeHead with
    | some f => { l with prev := upd l.prev f (some k), next := upd l.next k (some f) }
    | none => l
  { l with freeHead := some k }

/-- FastList.hpp 257-293 `erase`; returns the iterator index. `--size_` on a `size_t` (never 0 here when
the iterator denotes an element). -/
def L.erase (l : L α) (k : Nat) : L α × Option Nat :=
  let nxt := l.next k
  let l := ((((l.kill k).unhookEnds k).unhookNext k).unhookPrev k).free k
  ({ l with size := l.size - 1 }, nxt)

/-- FastList.hpp 307-312, 345-351, 377-384: take the first free node, construct the value, clean links -/
def L.alloc (l : L α) (f : Nat) (x : α) : L α :=
  { l with freeHead := l.next f, val := upd l.val f (some x), next := upd l.next f none,
           prev := upd l.prev f none }

/-- FastList.hpp 340-365 `emplace_front`; `none` = assertion -/
def L.emplaceFront (l : L α) (x : α) : Option (L α × Option Nat) :=
  l.freeHead.map fun f =>
    let l := l.alloc f x
    let l := match l.first with
      | some o => { l with prev := upd l.prev o (some f), next := upd l.next f (some o) }
      | none => l
    let l := { l with first := some f }
    let l := if l.last = none then { l with last := l.first } else l
    ({ l with size := l.size + 1 }, some f)

/-- FastList.hpp 373-397 `emplace_back`; `none` = assertion -/
def L.emplaceBack (l : L α) (x : α) : Option (L α × Option Nat) :=
  l.freeHead.map fun f =>
    let l := l.alloc f x
    let l := match l.last with
      | some o => { l with next := upd l.next o (some f), prev := upd l.prev f (some o) }
      | none => l
    let l := { l with last := some f }
    let l := if l.first = none then { l with first := l.last } else l
    ({ l with size := l.size + 1 }, some f)

/-- FastList.hpp 296-332 `emplace` (and `insert`) before position `pos` (`none` = end()) -/
def L.emplace (l : L α) (pos : Option Nat) (x : α) : Option (L α × Option Nat) :=
  match pos with
  | none => l.emplaceBack x
  | some k => l.freeHead.map fun f =>
    let l := l.alloc f x
    let l := { l with next := upd l.next f (some k), prev := upd l.prev f (l.prev k) }
    let l := { l with prev := upd l.prev k (some f) }
    let l := match l.prev f with
      | some j => { l with next := upd l.next j (some f) }
      | none => l
    let l := if l.first = some k ∨ l.first = none then { l with first := some f } else l
    ({ l with size := l.size + 1 }, some f)

/-- FastList.hpp 407-411 `pop_back` -/
def L.popBack (l : L α) : Option (L α) := l.last.map fun k => (l.erase k).1
/-- FastList.hpp 414-418 `pop_front` -/
def L.popFront (l : L α) : Option (L α) := l.first.map fun k => (l.erase k).1

/-- FastList.hpp 246-251 the loop of `clear`: `erase(it++)`. Fuel: the number of nodes. -/
def L.clearLoop : Nat → L α → Option Nat → L α
  | 0, l, _ => l
  | _, l, none => l
  | fuel + 1, l, some k => L.clearLoop fuel (l.erase k).1 (l.next k)
/-- FastList.hpp 246-251 `clear` -/
def L.clear (l : L α) : L α := L.clearLoop l.cap l l.first

/-- FastList.hpp 138-144 `operator++` loop from begin() to end(): position and value of each element.
Fuel: the number of nodes. -/
def L.walk (l : L α) : Nat → Option Nat → List (Nat × Option α)
  | 0, _ => []
  | _, none => []
  | fuel + 1, some k => (k, l.val k) :: L.walk l fuel (l.next k)
/-- iteration from begin() to end() -/
def L.contents (l : L α) : List (Nat × Option α) := l.walk l.cap l.first

/-- public operations; positions are node indexes (`iterator::getIndex()`) -/
inductive Op (α : Type) where
  | pushFront (x : α)
  | pushBack (x : α)
  | insert (pos : Option Nat) (x : α)
  | erase (pos : Nat)
  | popFront
  | popBack
  | clear

/-- outcome of a call -/
inductive Out where
  | threw
  | at (pos : Option Nat)
  | done
deriving DecidableEq

/-- one API call -/
def L.step (l : L α) : Op α → L α × Out
  | .pushFront x => match l.emplaceFront x with | some (l', i) => (l', .at i) | none => (l, .threw)
  | .pushBack x => match l.emplaceBack x with | some (l', i) => (l', .at i) | none => (l, .threw)
  | .insert p x => match l.emplace p x with | some (l', i) => (l', .at i) | none => (l, .threw)
  | .erase k => ((l.erase k).1, .at (l.erase k).2)
  | .popFront => match l.popFront with | some l' => (l', .done) | none => (l, .threw)
  | .popBack => match l.popBack with | some l' => (l', .done) | none => (l, .threw)
  | .clear => (l.clear, .done)

end Sparta.FastList
