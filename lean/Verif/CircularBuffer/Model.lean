import Verif.Common
/-!
Model of `sparta::CircularBuffer` (/repo/sparta/sparta/resources/CircularBuffer.hpp).

Simplifications: the two `uint64_t` window counters are unbounded naturals (the truncation to 32 bits in the
validity check is modelled); `num_valid_` (`uint32_t`) is an unbounded natural; the utilization counters, the
collector and the name are left out; one buffer only, so an iterator is attached to it or to nothing.
-/
namespace Sparta.CircularBuffer

/-- one node of the `std::list` (CircularBuffer.hpp:101-118). `id` is the address of the node: the container
never has two live nodes with one address, and the model never reuses an address. -/
structure Node (α : Type) where
  id : Nat
  data : α
  win : Nat
deriving DecidableEq, Repr

/-- `CircularBufferIterator` (CircularBuffer.hpp:141-196): attached buffer or null, `std::list` iterator
(`none` is the end of the list), window index (maximal in a default constructed iterator). -/
structure Iter where
  attached : Bool
  node : Option Nat
  win : Nat
deriving DecidableEq, Repr

/-- default constructed iterator (CircularBuffer.hpp:154, 163, 191) -/
def Iter.null : Iter := ⟨false, none, 18446744073709551615⟩

/-- the buffer (members CircularBuffer.hpp:769-778) -/
structure Buf (α : Type) where
  maxSize : Nat
  data : List (Node α)
  numValid : Nat
  startIdx : Nat
  endIdx : Nat
  /-- next unused node address -/
  fresh : Nat

/-- constructor (CircularBuffer.hpp:420, 769-778) -/
def Buf.init (α : Type) (n : Nat) : Buf α := ⟨n, [], 0, 0, 0, 0⟩

/-- how a call ends: normally, by a failed `sparta_assert` (an exception), or in undefined behaviour -/
inductive Out (β : Type) where
  | ok (b : β)
  | threw
  | ub
deriving DecidableEq, Repr

variable {α : Type}

/-- `isValidIterator_`, whose parameter is a `uint32_t` (CircularBuffer.hpp:692-694) -/
def Buf.isValidIterator (b : Buf α) (w : Nat) : Bool :=
  decide (b.startIdx ≤ w % 2 ^ 32) && decide (w % 2 ^ 32 < b.endIdx)

/-- `window_idx_ - 1` on a `uint64_t` (CircularBuffer.hpp:307) -/
def u64pred (w : Nat) : Nat := if w = 0 then 18446744073709551615 else w - 1

/-- `CircularBufferIterator::isValid` (CircularBuffer.hpp:251-257) -/
def Buf.iterValid (b : Buf α) (it : Iter) : Bool := it.attached && b.isValidIterator it.win

/-- where a node of the list is; `none` for an address that is no longer in the list -/
def Buf.pos (b : Buf α) (id : Nat) : Option Nat := b.data.findIdx? (fun n => n.id == id)

/-- `++` on a `std::list` iterator; undefined at the end and for an erased node (CircularBuffer.hpp:288) -/
def Buf.listNext (b : Buf α) : Option Nat → Out (Option Nat)
  | none => .ub
  | some id =>
    match b.pos id with
    | none => .ub
    | some i => .ok (b.data[i + 1]?.map Node.id)

/-- `--` on a `std::list` iterator; undefined at the beginning and for an erased node (CircularBuffer.hpp:309) -/
def Buf.listPrev (b : Buf α) : Option Nat → Out (Option Nat)
  | none => if b.data.isEmpty then .ub else .ok (b.data.getLast?.map Node.id)
  | some id =>
    match b.pos id with
    | none => .ub
    | some 0 => .ub
    | some (i + 1) => .ok (b.data[i]?.map Node.id)

/-- iterator `operator++` (CircularBuffer.hpp:283-294) -/
def Buf.inc (b : Buf α) (it : Iter) : Out Iter :=
  if it.attached then
    if b.iterValid it then
      match b.listNext it.node with
      | .ok n => .ok { it with win := it.win + 1, node := n }
      | .threw => .threw
      | .ub => .ub
    else .threw
  else .threw

/-- iterator `operator--` (CircularBuffer.hpp:304-315) -/
def Buf.dec (b : Buf α) (it : Iter) : Out Iter :=
  if it.attached then
    if b.isValidIterator (u64pred it.win) then
      match b.listPrev it.node with
      | .ok n => .ok { it with win := u64pred it.win, node := n }
      | .threw => .threw
      | .ub => .ub
    else .threw
  else .threw

/-- the element behind a `std::list` iterator; undefined at the end and for an erased node -/
def Buf.listAt (b : Buf α) : Option Nat → Out α
  | none => .ub
  | some id =>
    match b.data.find? (fun n => n.id == id) with
    | none => .ub
    | some n => .ok n.data

/-- iterator `operator*` (CircularBuffer.hpp:260-265) -/
def Buf.deref (b : Buf α) (it : Iter) : Out α :=
  if it.attached then
    if b.iterValid it then b.listAt it.node else .threw
  else .threw

/-- store through the reference that `operator*` returns (CircularBuffer.hpp:260-265) -/
def Buf.write (b : Buf α) (it : Iter) (v : α) : Out (Buf α) :=
  match b.deref it with
  | .ok _ => .ok { b with data := b.data.map (fun n => if some n.id = it.node then { n with data := v } else n) }
  | .threw => .threw
  | .ub => .ub

/-- `begin` (CircularBuffer.hpp:602-609); an empty list with nonzero size would be undefined, the model then
returns the end position -/
def Buf.begin (b : Buf α) : Iter :=
  if b.numValid ≠ 0 then
    match b.data with
    | n :: _ => ⟨true, some n.id, n.win⟩
    | [] => ⟨true, none, b.endIdx⟩
  else ⟨true, none, b.endIdx⟩

/-- `end` (CircularBuffer.hpp:615-617) -/
def Buf.end_ (b : Buf α) : Iter := ⟨true, none, b.endIdx⟩

/-- `push_backImpl_` (CircularBuffer.hpp:705-722); the assertion at the end is modelled as `.threw` -/
def Buf.pushBack (b : Buf α) (v : α) : Out (Buf α) :=
  let data := b.data ++ [⟨b.fresh, v, b.endIdx⟩]
  let b' :=
    if b.numValid = b.maxSize then
      { b with data := data.tail, endIdx := b.endIdx + 1, startIdx := b.startIdx + 1, fresh := b.fresh + 1 }
    else { b with data := data, endIdx := b.endIdx + 1, numValid := b.numValid + 1, fresh := b.fresh + 1 }
  if b'.data.length ≤ b'.numValid then .ok b' else .threw

/-- the renumbering loop of `invalidateIndexes_` (CircularBuffer.hpp:749-752) -/
def renumber : Nat → List (Node α) → List (Node α)
  | _, [] => []
  | w, n :: l => { n with win := w } :: renumber (w + 1) l

/-- `invalidateIndexes_` (CircularBuffer.hpp:742-753) -/
def Buf.invalidateIndexes (b : Buf α) : Buf α :=
  { b with startIdx := b.endIdx + 1, data := renumber (b.endIdx + 1) b.data,
           endIdx := b.endIdx + 1 + b.data.length }

/-- `std::list::insert` before a position; undefined for an erased node (CircularBuffer.hpp:735) -/
def Buf.listInsert (b : Buf α) (n : Node α) : Option Nat → Out (List (Node α))
  | none => .ok (b.data ++ [n])
  | some id =>
    match b.pos id with
    | none => .ub
    | some i => .ok (b.data.insertIdx i n)

/-- `insertEntry_` (CircularBuffer.hpp:724-740): the new buffer and the returned iterator. The returned window
index is read from the node after the renumbering. -/
def Buf.insert (b : Buf α) (it : Iter) (v : α) : Out (Buf α × Iter) :=
  if b.data.isEmpty then
    match b.pushBack v with
    | .ok b' => .ok (b', b'.begin)
    | .threw => .threw
    | .ub => .ub
  else if b.iterValid it then
    match b.listInsert ⟨b.fresh, v, b.endIdx⟩ it.node with
    | .ok d =>
      let b' := Buf.invalidateIndexes { b with data := d, numValid := b.numValid + 1, fresh := b.fresh + 1 }
      match b'.data.find? (fun n => n.id == b.fresh) with
      | some n => .ok (b', ⟨true, some n.id, n.win⟩)
      | none => .ub
    | .threw => .threw
    | .ub => .ub
  else .threw

/-- `std::list::erase` and the rest of `eraseEntry_` (CircularBuffer.hpp:696-703); erasing the end or an
erased node is undefined -/
def Buf.eraseNode (b : Buf α) : Option Nat → Out (Buf α)
  | none => .ub
  | some id =>
    match b.pos id with
    | none => .ub
    | some i => .ok (Buf.invalidateIndexes { b with data := b.data.eraseIdx i, numValid := b.numValid - 1 })

/-- `erase(const_iterator)` (CircularBuffer.hpp:562-567, 696-703) -/
def Buf.erase (b : Buf α) (it : Iter) : Out (Buf α) :=
  if it.attached then
    if b.iterValid it then b.eraseNode it.node else .threw
  else .threw

/-- `isValid` of a reverse iterator with the given base (CircularBuffer.hpp:352-361) -/
def Buf.revValid (b : Buf α) (it : Iter) : Out Bool :=
  match b.dec it with
  | .ok j => .ok (b.iterValid j)
  | .threw => .ok false
  | .ub => .ub

/-- `operator*` of a reverse iterator with the given base: `std::reverse_iterator` dereferences the
predecessor of the base (CircularBuffer.hpp:335) -/
def Buf.revDeref (b : Buf α) (it : Iter) : Out α :=
  match b.dec it with
  | .ok j => b.deref j
  | .threw => .threw
  | .ub => .ub

/-- `erase(const_reverse_iterator)` (CircularBuffer.hpp:573-578, 696-703, 364-367) -/
def Buf.revErase (b : Buf α) (it : Iter) : Out (Buf α) :=
  if it.attached then
    match b.revValid it with
    | .ok true =>
      match b.dec it with
      | .ok j => b.eraseNode j.node
      | .threw => .threw
      | .ub => .ub
    | .ok false => .threw
    | .threw => .threw
    | .ub => .ub
  else .threw

/-- `clear` (CircularBuffer.hpp:588-594) -/
def Buf.clear (b : Buf α) : Buf α := { b with data := [], numValid := 0, startIdx := b.endIdx }

/-- `std::advance` on a bidirectional iterator: `n` increments (CircularBuffer.hpp:684) -/
def Buf.advance (b : Buf α) : Nat → Iter → Out Iter
  | 0, it => .ok it
  | n + 1, it =>
    match b.inc it with
    | .ok j => b.advance n j
    | .threw => .threw
    | .ub => .ub

/-- `operator[]` (CircularBuffer.hpp:681-686) -/
def Buf.get (b : Buf α) (i : Nat) : Out α :=
  if i < b.numValid then
    match b.advance i b.begin with
    | .ok it => b.deref it
    | .threw => .threw
    | .ub => .ub
  else .threw

/-- iterator `operator==` (CircularBuffer.hpp:234-239) -/
def Iter.eq (i j : Iter) : Out Bool := if i.attached = j.attached then .ok (i.win == j.win) else .threw

/-- iterator `operator<` (CircularBuffer.hpp:218-223) -/
def Iter.lt (i j : Iter) : Out Bool := if i.attached = j.attached then .ok (decide (i.win > j.win)) else .threw

/-- iterator `operator>` (CircularBuffer.hpp:226-231) -/
def Iter.gt (i j : Iter) : Out Bool := if i.attached = j.attached then .ok (decide (i.win < j.win)) else .threw

/-- public calls. Iterators live in numbered variables of the client; `erase`, `deref` and `isValid` also exist
on the reverse iterator whose base is the variable (`rbegin()` has base `end()`, `rend()` has base `begin()`). -/
inductive Op (α : Type) where
  | push (v : α)
  | begin (r : Nat)
  | end_ (r : Nat)
  | copy (r q : Nat)
  | inc (r : Nat)
  | dec (r : Nat)
  | deref (r : Nat)
  | write (r : Nat) (v : α)
  | isValid (r : Nat)
  | insert (r : Nat) (v : α) (q : Nat)
  | erase (r : Nat)
  | revErase (r : Nat)
  | revDeref (r : Nat)
  | revIsValid (r : Nat)
  | eq (r q : Nat)
  | lt (r q : Nat)
  | gt (r q : Nat)
  | clear
  | get (i : Nat)
  | isValidIdx (i : Nat)
  | size
  | numFree
deriving DecidableEq

/-- what the client sees -/
inductive Res (α : Type) where
  | done
  | bool (b : Bool)
  | value (v : α)
  | num (n : Nat)
  | threw
  | ub
deriving DecidableEq, Repr

/-- buffer and iterator variables of the client -/
structure World (α : Type) where
  buf : Buf α
  regs : Nat → Iter

def World.init (α : Type) (n : Nat) : World α := ⟨Buf.init α n, fun _ => Iter.null⟩

/-- a call that yields a new buffer -/
def World.setBuf (w : World α) : Out (Buf α) → World α × Res α
  | .ok b => ({ w with buf := b }, .done)
  | .threw => (w, .threw)
  | .ub => (w, .ub)

/-- a call that yields a new iterator -/
def World.setReg (w : World α) (r : Nat) : Out Iter → World α × Res α
  | .ok it => ({ w with regs := upd w.regs r it }, .done)
  | .threw => (w, .threw)
  | .ub => (w, .ub)

/-- a call that yields a value -/
def World.value (w : World α) : Out α → World α × Res α
  | .ok v => (w, .value v)
  | .threw => (w, .threw)
  | .ub => (w, .ub)

/-- a call that yields a truth value -/
def World.truth (w : World α) : Out Bool → World α × Res α
  | .ok v => (w, .bool v)
  | .threw => (w, .threw)
  | .ub => (w, .ub)

/-- one public call (CircularBuffer.hpp:450-686) -/
def step (w : World α) : Op α → World α × Res α
  | .push v => w.setBuf (w.buf.pushBack v)
  | .begin r => w.setReg r (.ok w.buf.begin)
  | .end_ r => w.setReg r (.ok w.buf.end_)
  | .copy r q => w.setReg q (.ok (w.regs r))
  | .inc r => w.setReg r (w.buf.inc (w.regs r))
  | .dec r => w.setReg r (w.buf.dec (w.regs r))
  | .deref r => w.value (w.buf.deref (w.regs r))
  | .write r v => w.setBuf (w.buf.write (w.regs r) v)
  | .isValid r => w.truth (.ok (w.buf.iterValid (w.regs r)))
  | .insert r v q =>
    match w.buf.insert (w.regs r) v with
    | .ok (b, it) => (⟨b, upd w.regs q it⟩, .done)
    | .threw => (w, .threw)
    | .ub => (w, .ub)
  | .erase r => w.setBuf (w.buf.erase (w.regs r))
  | .revErase r => w.setBuf (w.buf.revErase (w.regs r))
  | .revDeref r => w.value (w.buf.revDeref (w.regs r))
  | .revIsValid r => w.truth (w.buf.revValid (w.regs r))
  | .eq r q => w.truth ((w.regs r).eq (w.regs q))
  | .lt r q => w.truth ((w.regs r).lt (w.regs q))
  | .gt r q => w.truth ((w.regs r).gt (w.regs q))
  | .clear => w.setBuf (.ok w.buf.clear)
  | .get i => w.value (w.buf.get i)
  | .isValidIdx i => w.truth (.ok (decide (i < w.buf.numValid)))
  | .size => (w, .num w.buf.numValid)
  | .numFree => (w, .num (w.buf.maxSize - w.buf.numValid))

end Sparta.CircularBuffer
