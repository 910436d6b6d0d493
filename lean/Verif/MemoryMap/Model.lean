import Verif.Common

/-!
# Model of `sparta::memory::SimpleMemoryMap`

`/repo/sparta/sparta/memory/SimpleMemoryMap.hpp`.  The search tree is modelled as the code has it:
nodes on a heap with child and parent pointers and a colour, changed by single pointer writes.

Outcomes of a member function:
* `none`: a null pointer is dereferenced, an assertion *inside* the tree code fails, one of the
  "this should not have occurred" exceptions is thrown with the tree already changed, or a loop does
  not end within the number of nodes of the tree.  The theorems show that this never happens.
* an explicit error value: the documented exceptions thrown before anything is changed.

Simplifications, for the whole file: node and `Mapping` memory comes from an unbounded counter and is
never freed (the code frees nodes only in the destructor); `Mapping` objects are immutable (their
members are `const`), so a pointer to one is its value; a memory interface is the number identifying
it with its block size and range; addresses are naturals below `2^64`, and the wrap-around is written
where the code adds.
-/

namespace Sparta.MemoryMap

/-- `2^64`, the number of values of `addr_t`. -/
def wordSize : Nat := 2 ^ 64

/-- `~(addr_t)0`. -/
def topAddr : Nat := wordSize - 1

/-- `SimpleMemoryMap::Mapping`, SimpleMemoryMap.hpp:60-135. `memif` is the identity of the memory
interface. -/
structure Mapping where
  start : Nat
  stop : Nat
  destOff : Nat
  memif : Nat
deriving DecidableEq, Repr

/-- `Mapping::mapAddress`, SimpleMemoryMap.hpp:114-116, with the arithmetic modulo `2^64`. -/
def Mapping.mapAddress (m : Mapping) (input : Nat) : Nat :=
  ((input + (wordSize - m.start)) + m.destOff) % wordSize

/-- `Mapping::overlaps`, SimpleMemoryMap.hpp:132-134. -/
def Mapping.overlaps (m : Mapping) (a b : Nat) : Bool :=
  (decide (a ≥ m.start) && decide (a < m.stop)) || (decide (b > m.start) && decide (b ≤ m.stop)) ||
    (decide (a < m.start) && decide (b > m.stop))

/-- What a `BinTreeNode` holds: a separator, or a destination (`dest != nullptr`),
SimpleMemoryMap.hpp:802,806. -/
inductive Key where
  | sep (a : Nat)
  | dest (m : Mapping)
deriving DecidableEq, Repr

/-- `BinTreeNode`, SimpleMemoryMap.hpp:660-808. Pointers are `Option Nat`, `nullptr` is `none`. -/
structure Node where
  key : Key
  red : Bool
  l : Option Nat
  r : Option Nat
  parent : Option Nat

/-- Child pointer `l` (`d = true`) or `r` (`d = false`). -/
def Node.ch (x : Node) (d : Bool) : Option Nat := if d then x.l else x.r

/-- Assignment to the child pointer `l` or `r`. -/
def Node.setCh (x : Node) (d : Bool) (v : Option Nat) : Node :=
  if d then { x with l := v } else { x with r := v }

/-- The nodes in memory, `bintree_` (SimpleMemoryMap.hpp:963) and the next unused node number. -/
structure Tree where
  h : Nat → Node
  root : Option Nat
  next : Nat

/-- `x->l = v` or `x->r = v`. -/
def Tree.setCh (t : Tree) (x : Nat) (d : Bool) (v : Option Nat) : Tree :=
  { t with h := upd t.h x ((t.h x).setCh d v) }

/-- `x->parent = v`. -/
def Tree.setParent (t : Tree) (x : Nat) (v : Option Nat) : Tree :=
  { t with h := upd t.h x { t.h x with parent := v } }

/-- `x->red = v`. -/
def Tree.setRed (t : Tree) (x : Nat) (v : Bool) : Tree :=
  { t with h := upd t.h x { t.h x with red := v } }

/-- `new BinTreeNode(p, ...)`, SimpleMemoryMap.hpp:675-722: red, without children. -/
def Tree.alloc (t : Tree) (p : Option Nat) (k : Key) : Tree :=
  { t with h := upd t.h t.next ⟨k, true, none, none, p⟩, next := t.next + 1 }

/-- `rotateRight_` (`d = true`: the pivot is the left child), SimpleMemoryMap.hpp:931-952, and
`rotateLeft_` (`d = false`), SimpleMemoryMap.hpp:905-926, which is the same text with `l` and `r`
exchanged. -/
def rotate (d : Bool) (t : Tree) (n : Nat) : Option Tree :=
  match (t.h n).ch d with
  | none => none                                            -- sparta_assert(n->l)
  | some pivot =>
    let t := t.setCh n d ((t.h pivot).ch (!d))
    let t := match (t.h n).ch d with
      | some c => t.setParent c (some n)
      | none => t
    let t := t.setParent pivot (t.h n).parent
    let t := match (t.h n).parent with
      | none => { t with root := some pivot }
      | some p =>
        if (t.h p).ch (!d) = some n then t.setCh p (!d) (some pivot)
        else t.setCh p d (some pivot)
    let t := t.setCh pivot (!d) (some n)
    some (t.setParent n (some pivot))

/-- The `u && u->red` test, SimpleMemoryMap.hpp:822,843. -/
def Tree.isRed (t : Tree) : Option Nat → Bool
  | none => false
  | some u => (t.h u).red

/-- The body of the loop for a parent which is the `d` child of its parent and whose sibling is not
red: cases 2 and 3, SimpleMemoryMap.hpp:829-838 (`d = true`) and 849-855 (`d = false`). Gives the
tree and the new `n`. -/
def fixRotate (d : Bool) (t : Tree) (n p : Nat) : Option (Tree × Nat) :=
  let moved : Option (Tree × Nat) :=
    if (t.h p).ch (!d) = some n then (rotate (!d) t p).map (fun t => (t, p)) else some (t, n)
  match moved with
  | none => none
  | some (t, n) =>
    match (t.h n).parent with
    | none => none
    | some p =>
      let t := t.setRed p false
      match (t.h p).parent with
      | none => none
      | some g =>
        let t := t.setRed g true
        (rotate d t g).map (fun t => (t, n))

/-- The loop of `RBTreeFixup_`, SimpleMemoryMap.hpp:819-858; the first argument bounds the number of
iterations. -/
def fixLoop : Nat → Tree → Nat → Option Tree
  | 0, _, _ => none
  | fuel + 1, t, n =>
    if t.root = some n then some t else
    match (t.h n).parent with
    | none => none
    | some p =>
      if (t.h p).red = false then some t else
      match (t.h p).parent with
      | none => none
      | some g =>
        let d := decide ((t.h g).ch true = some p)           -- n->parent == n->parent->parent->l
        let u := (t.h g).ch (!d)
        if t.isRed u then
          -- case 1
          let t := t.setRed p false
          let t := match u with
            | some u => t.setRed u false
            | none => t
          let t := t.setRed g true
          fixLoop fuel t g
        else
          match fixRotate d t n p with
          | none => none
          | some (t, n) => fixLoop fuel t n

/-- `RBTreeFixup_`, SimpleMemoryMap.hpp:814-861. -/
def fixup (t : Tree) (n : Nat) : Option Tree :=
  match fixLoop (t.next + 1) (t.setRed n true) n with
  | none => none
  | some t =>
    match t.root with
    | none => none
    | some r => some (t.setRed r false)

/-- `n->l = new BinTreeNode(n, k); n = n->l; RBTreeFixup_(n);` (or with `r`), as in
SimpleMemoryMap.hpp:298-300, 311-313, 357-359, 378-380, 400-401, 403-404, 412-413, 415-416, 422.
Gives the tree and the new node. -/
def attach (t : Tree) (n : Nat) (d : Bool) (k : Key) : Option (Tree × Nat) :=
  let new := t.next
  let t := t.alloc (some n) k
  let t := t.setCh n d (some new)
  (fixup t new).map (fun t => (t, new))

/-- The loop inserting the left endpoint, SimpleMemoryMap.hpp:270-319. Gives the tree, `n` and
`max`. (`min` is only used in messages.) -/
def placeStart : Nat → Tree → Nat → Nat → Nat → Option (Tree × Nat × Nat)
  | 0, _, _, _, _ => none
  | fuel + 1, t, n, max, start =>
    match (t.h n).key with
    | .dest m =>
      if start < m.start then
        match (t.h n).l with
        | none => none
        | some c => placeStart fuel t c max start
      else if start ≥ m.stop then
        match (t.h n).r with
        | none => none
        | some c => placeStart fuel t c max start
      else none
    | .sep a =>
      if a = start then some (t, n, max)
      else if a < start then
        match (t.h n).r with
        | some c => placeStart fuel t c max start
        | none => (attach t n false (.sep start)).map (fun x => (x.1, x.2, max))
      else
        match (t.h n).l with
        | some c => placeStart fuel t c a start
        | none => (attach t n true (.sep start)).map (fun x => (x.1, x.2, a))

/-- The loop inserting the right endpoint, SimpleMemoryMap.hpp:323-385. Gives the tree and `n`. -/
def placeEnd : Nat → Tree → Nat → Nat → Nat → Nat → Option (Tree × Nat)
  | 0, _, _, _, _, _ => none
  | fuel + 1, t, n, max, start, stop =>
    match (t.h n).key with
    | .dest m =>
      if stop ≤ m.start then
        match (t.h n).l with
        | none => none
        | some c => placeEnd fuel t c max start stop
      else if stop > m.stop then
        match (t.h n).r with
        | none => none
        | some c => placeEnd fuel t c max start stop
      else none
    | .sep a =>
      if a = stop then some (t, n)
      else if a < start then none
      else if a = start then
        match (t.h n).r with
        | some c => if a ≤ max then placeEnd fuel t c max start stop else none
        | none => if max ≠ stop then attach t n false (.sep stop) else some (t, n)
      else if a < stop then none
      else
        match (t.h n).l with
        | some c => placeEnd fuel t c a start stop
        | none => if a ≠ stop then attach t n true (.sep stop) else some (t, n)

/-- `findSeparatorNode_`, SimpleMemoryMap.hpp:878-900. -/
def findSeparatorNode : Nat → Tree → Option Nat → Nat → Option Nat
  | 0, _, _, _ => none
  | _ + 1, _, none, _ => none
  | fuel + 1, t, some n, addr =>
    match (t.h n).key with
    | .dest m =>
      if addr < m.start then findSeparatorNode fuel t (t.h n).l addr
      else if addr ≥ m.stop then findSeparatorNode fuel t (t.h n).r addr
      else none
    | .sep a =>
      if addr = a then some n
      else if addr > a then findSeparatorNode fuel t (t.h n).r addr
      else findSeparatorNode fuel t (t.h n).l addr

/-- `n->separator`, SimpleMemoryMap.hpp:802; a destination node has `~0` there
(SimpleMemoryMap.hpp:716). -/
def Node.separator (x : Node) : Nat :=
  match x.key with
  | .sep a => a
  | .dest _ => topAddr

/-- Placing the destination node, SimpleMemoryMap.hpp:391-422. -/
def placeDest (t : Tree) (n : Nat) (m : Mapping) : Option Tree :=
  let s := (t.h n).separator
  if s = topAddr then none else
  if m.stop ≤ s then
    match (t.h n).l with
    | some _ =>
      match findSeparatorNode (t.next + 1) t t.root m.start with
      | none => none
      | some n =>
        match (t.h n).r with
        | some _ => none
        | none => (attach t n false (.dest m)).map (·.1)
    | none => (attach t n true (.dest m)).map (·.1)
  else if m.start ≥ s then
    match (t.h n).r with
    | some _ =>
      match findSeparatorNode (t.next + 1) t t.root m.stop with
      | none => none
      | some n =>
        match (t.h n).l with
        | some _ => none
        | none => (attach t n true (.dest m)).map (·.1)
    | none => (attach t n false (.dest m)).map (·.1)
  else none

/-- The first phase of `addMapping`: left endpoint, SimpleMemoryMap.hpp:258-320. -/
def placeFirst (t : Tree) (start : Nat) : Option (Tree × Nat × Nat) :=
  match t.root with
  | none =>
    let new := t.next
    let t := t.alloc none (.sep start)
    let t := { t with root := some new }
    (fixup t new).map (fun t => (t, new, topAddr))
  | some r => placeStart (t.next + 1) t r topAddr start

/-- The tree changes of `addMapping`, SimpleMemoryMap.hpp:258-422. -/
def insertMapping (t : Tree) (m : Mapping) : Option Tree :=
  match placeFirst t m.start with
  | none => none
  | some (t, n, max) =>
    match placeEnd (t.next + 1) t n max m.start m.stop with
    | none => none
    | some (t, n) => placeDest t n m

/-- A memory interface as seen by `addMapping`: `getBlockSize()` and `getRange()`. -/
structure MemIF where
  id : Nat
  blockSize : Nat
  range : Nat
deriving DecidableEq, Repr

/-- `SimpleMemoryMap`: `block_size_`, `block_offset_mask_`, the tree and `mappings_` (whose length is
`num_mappings_`), SimpleMemoryMap.hpp:958-986. -/
structure Map where
  blockSize : Nat
  mask : Nat
  tree : Tree
  mappings : List Mapping

/-- Constructor, SimpleMemoryMap.hpp:149-157. `none`: the assertion fails, or the shift or the
subtraction of `(1 << block_idx_rshift_) - 1` on `int` overflows. -/
def create (blockSize : Nat) : Option Map :=
  if blockSize = 0 then none
  else if blockSize.log2 ≥ 31 then none
  else some ⟨blockSize, 2 ^ blockSize.log2 - 1, ⟨fun _ => ⟨.sep 0, false, none, none, none⟩, none, 0⟩, []⟩

/-- The ways in which `addMapping` refuses its arguments. -/
inductive AddError where
  | noMemIF | blockSize | empty | startAlign | endAlign | destAlign | range | overlap
deriving DecidableEq, Repr

/-- The checks of `addMapping`, SimpleMemoryMap.hpp:226-256. -/
def checkAdd (s : Map) (start stop : Nat) (memif : Option MemIF) (destStart : Nat) :
    Except AddError Mapping :=
  match memif with
  | none => .error .noMemIF
  | some mi =>
    if mi.blockSize ≠ s.blockSize then .error .blockSize
    else if ¬ start < stop then .error .empty
    else if start &&& s.mask ≠ 0 then .error .startAlign
    else if stop &&& s.mask ≠ 0 then .error .endAlign
    else if destStart &&& s.mask ≠ 0 then .error .destAlign
    else if mi.range < ((stop - start) + destStart) % wordSize then .error .range
    else if s.mappings.any (fun m => m.overlaps start stop) then .error .overlap
    else .ok ⟨start, stop, destStart, mi.id⟩

/-- `addMapping`, SimpleMemoryMap.hpp:222-426. -/
def addMapping (s : Map) (start stop : Nat) (memif : Option MemIF) (destStart : Nat) :
    Option (Except AddError Unit × Map) :=
  match checkAdd s start stop memif destStart with
  | .error e => some (.error e, s)
  | .ok m =>
    match insertMapping s.tree m with
    | none => none
    | some t => some (.ok (), { s with tree := t, mappings := s.mappings ++ [m] })

/-- The loop of `findMapping`, SimpleMemoryMap.hpp:498-513, 530-545. The outer `none` is a loop that
does not end; the second component counts the visited nodes. -/
def findLoop : Nat → Tree → Option Nat → Nat → Option (Option Mapping × Nat)
  | _, _, none, _ => some (none, 0)
  | 0, _, some _, _ => none
  | fuel + 1, t, some n, addr =>
    match (t.h n).key with
    | .dest m =>
      if addr < m.start then (findLoop fuel t (t.h n).l addr).map (fun x => (x.1, x.2 + 1))
      else if addr ≥ m.stop then (findLoop fuel t (t.h n).r addr).map (fun x => (x.1, x.2 + 1))
      else some (some m, 1)
    | .sep a =>
      if addr ≥ a then (findLoop fuel t (t.h n).r addr).map (fun x => (x.1, x.2 + 1))
      else (findLoop fuel t (t.h n).l addr).map (fun x => (x.1, x.2 + 1))

/-- `findMapping`, SimpleMemoryMap.hpp:492-519, 524-550. -/
def findMapping (s : Map) (addr : Nat) : Option (Option Mapping) :=
  (findLoop s.tree.next s.tree s.tree.root addr).map (·.1)

/-- Number of nodes `findMapping` visits: not a function of the code, the iterations of its loop. -/
def findSteps (s : Map) (addr : Nat) : Option Nat :=
  (findLoop s.tree.next s.tree s.tree.root addr).map (·.2)

/-- `findInterface`, SimpleMemoryMap.hpp:479-485. -/
def findInterface (s : Map) (addr : Nat) : Option (Option Nat) :=
  (findMapping s addr).map (fun m => m.map (·.memif))

/-- `mapAddress`, SimpleMemoryMap.hpp:609-615. -/
def mapAddress (s : Map) (addr : Nat) : Option (Option Nat × Nat) :=
  (findMapping s addr).map fun
    | none => (none, 0)
    | some m => (some m.memif, m.mapAddress addr)

/-- What `verifyHasMapping` does: returns, or throws one of its two exceptions. -/
inductive Verify where
  | ok | spans | none
deriving DecidableEq, Repr

/-- The loop of `verifyHasMapping`, SimpleMemoryMap.hpp:565-583. -/
def verifyLoop : Nat → Tree → Option Nat → Nat → Nat → Option Verify
  | _, _, none, _, _ => some .none
  | 0, _, some _, _, _ => none
  | fuel + 1, t, some n, addr, stop =>
    match (t.h n).key with
    | .dest m =>
      if addr < m.start then verifyLoop fuel t (t.h n).l addr stop
      else if addr ≥ m.stop then verifyLoop fuel t (t.h n).r addr stop
      else if stop ≤ m.stop then some .ok
      else some .spans
    | .sep a =>
      if addr ≥ a then verifyLoop fuel t (t.h n).r addr stop
      else verifyLoop fuel t (t.h n).l addr stop

/-- `verifyHasMapping`, SimpleMemoryMap.hpp:559-584. -/
def verifyHasMapping (s : Map) (addr size : Nat) : Option Verify :=
  verifyLoop s.tree.next s.tree s.tree.root addr ((addr + size) % wordSize)

/-- `getNumMappings`, SimpleMemoryMap.hpp:621-623. -/
def getNumMappings (s : Map) : Nat := s.mappings.length

/-- One call of `addMapping`. -/
structure AddOp where
  start : Nat
  stop : Nat
  memif : Option MemIF
  destStart : Nat
deriving Repr

/-- A step of a history of `addMapping` calls. -/
def step (s : Map) (o : AddOp) : Option (Except AddError Unit × Map) :=
  addMapping s o.start o.stop o.memif o.destStart

/-- A history of `addMapping` calls: the final map and what each call did. -/
def run : Map → List AddOp → Option (Map × List (Except AddError Unit))
  | s, [] => some (s, [])
  | s, o :: os =>
    match step s o with
    | none => none
    | some (r, s) =>
      match run s os with
      | none => none
      | some (s, rs) => some (s, r :: rs)

end Sparta.MemoryMap
