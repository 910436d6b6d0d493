import Verif.Common
/-!
Model of `sparta::TieredMap` (/repo/sparta/sparta/utils/TieredMap.hpp) with `KeyT = uint64_t`, and of `computeMask`
(/repo/sparta/sparta/utils/Utils.hpp).  The nodes form a tree without sharing, so a `void*` is represented by what it points
to; a `pair_t*` is the position of the pair in `pairs_`.  `none` is undefined behaviour (a wrong cast, a shift by 64 or more,
an overflow of `1 << n`), an exception, or a call that never returns.  Not modelled: the release of memory, the number of
nodes and the estimated memory use.
-/
namespace Sparta.TieredMap

/-- `void*`: null, a node (TieredMap.hpp 64 `node_t`), or a pair -/
inductive Ptr where
  | null
  | node (children : List Ptr)
  | pair (i : Nat)
deriving Repr

/-- TieredMap.hpp 504-548; `num_tiers_` is the length of `tier_shifts_` (both change at the same places) -/
structure Map (V : Type) where
  nodeSize : Nat
  shift : Nat
  mask : Nat
  root : Ptr
  shifts : List Nat
  pairs : List (Nat × V)

/-- Utils.hpp 171-188 `computeMask<uint64_t>`: mask and `lsb_pos`; `1 << 31` and more overflow `int` -/
def computeMask (size : Nat) : Option (Nat × Nat) :=
  if 1 ≤ size then
    if size = 2 ^ Nat.log2 size then
      if Nat.log2 size < 31 then some (2 ^ 64 - 1 - (2 ^ Nat.log2 size - 1), Nat.log2 size) else none
    else none
  else some (0, 64)

/-- TieredMap.hpp 176-190 (constructor), 367-377 `allocateRoot_` -/
def make (V : Type) (nodeSize : Nat) : Option (Map V) :=
  match computeMask nodeSize with
  | some (m, l) => some ⟨nodeSize, l, 2 ^ 64 - 1 - m, .node [], [0], []⟩
  | none => none

/-- TieredMap.hpp 258-266 `clear` -/
def clear {V : Type} (s : Map V) : Map V := { s with root := .node [], shifts := [0], pairs := [] }

/-- TieredMap.hpp 331-344: the loop of `tryGet` -/
def getLoop (mask k : Nat) : List Nat → Ptr → Option (Option Nat)
  | [], .pair i => some (some i)
  | [], _ => none
  | s :: ss, .node l =>
    if s < 64 then
      match l[(k >>> s) &&& mask]? with
      | none => some none
      | some .null => some none
      | some p => getLoop mask k ss p
    else none
  | _ :: _, _ => none

/-- `tier_shifts_[0]` -/
def topShift {V : Type} (s : Map V) : Nat := s.shifts.headD 0

/-- TieredMap.hpp 322-347, 352-376 `tryGet`, 276-293 `find`: the position of the pair -/
def tryGet {V : Type} (s : Map V) (k : Nat) : Option (Option Nat) :=
  if 64 ≤ topShift s then none
  else if s.nodeSize ≤ k >>> topShift s then some none
  else getLoop s.mask k s.shifts s.root

/-- `node.resize(vidx + 1, nullptr)` if the node is shorter -/
def resize (l : List Ptr) (n : Nat) : List Ptr := l ++ List.replicate (n - l.length) .null

/-- TieredMap.hpp 425-458: the loop of `set_`; `fresh` is the position of a new pair.  Returns the changed node and the position
of the pair. -/
def setLoop (mask k fresh : Nat) : List Nat → Ptr → Option (Ptr × Nat)
  | [], _ => none
  | s :: ss, .node l =>
    if s < 64 then
      let v := (k >>> s) &&& mask
      let l := resize l (v + 1)
      match ss, l[v]? with
      | [], some .null => some (.node (l.set v (.pair fresh)), fresh)
      | [], some (.pair i) => some (.node l, i)
      | [], _ => none
      | ss, some .null =>
        match setLoop mask k fresh ss (.node []) with
        | some (p, i) => some (.node (l.set v p), i)
        | none => none
      | ss, some c =>
        match setLoop mask k fresh ss c with
        | some (p, i) => some (.node (l.set v p), i)
        | none => none
      | _, none => none
    else none
  | _ :: _, _ => none

/-- TieredMap.hpp 467-475 `addTier_` -/
def addTier {V : Type} (s : Map V) : Map V :=
  { s with shifts := (topShift s + s.shift) :: s.shifts, root := .node [s.root] }

/-- TieredMap.hpp 412-424: `set_` calls itself after adding a tier; `fuel` bounds the number of calls -/
def grow {V : Type} : Nat → Map V → Nat → Option (Map V)
  | 0, _, _ => none
  | fuel + 1, s, k =>
    if 64 ≤ topShift s then none
    else if s.nodeSize ≤ k >>> topShift s then grow fuel (addTier s) k
    else some s

/-- TieredMap.hpp 412-461 `set_`: sets the value and returns the pair -/
def set {V : Type} (fuel : Nat) (s : Map V) (k : Nat) (n : V) : Option (Map V × Nat) :=
  match grow fuel s k with
  | none => none
  | some s =>
    match setLoop s.mask k s.pairs.length s.shifts s.root with
    | none => none
    | some (p, i) =>
      let pairs := if i = s.pairs.length then s.pairs ++ [(k, n)] else s.pairs.modify i (fun e => (e.1, n))
      some ({ s with root := p, pairs := pairs }, i)

/-- TieredMap.hpp 298-304 `operator[]`: the position of the pair whose value is returned by reference -/
def index {V : Type} (zero : V) (fuel : Nat) (s : Map V) (k : Nat) : Option (Map V × Nat) :=
  match tryGet s k with
  | none => none
  | some (some i) => some (s, i)
  | some none => set fuel s k zero

/-- the calls of a user -/
inductive Op (V : Type) where
  /-- `m[k] = v` -/
  | write (k : Nat) (v : V)
  /-- `m[k]` -/
  | read (k : Nat)
  /-- `m.find(k)` -/
  | find (k : Nat)
  | clear
  | size
  /-- `for(x : m)` -/
  | iterate

/-- what a call returns -/
inductive Out (V : Type) where
  | unit
  | value (v : Option V)
  | pair (p : Option (Nat × V))
  | num (n : Nat)
  | values (l : List V)
  /-- undefined behaviour -/
  | bad
deriving DecidableEq

/-- one call -/
def step {V : Type} (zero : V) (s : Map V) : Op V → Map V × Out V
  | .write k v =>
    match index zero 65 s k with
    | some (s, i) => ({ s with pairs := s.pairs.modify i (fun e => (e.1, v)) }, .unit)
    | none => (s, .bad)
  | .read k =>
    match index zero 65 s k with
    | some (s, i) => (s, .value (s.pairs[i]?.map (·.2)))
    | none => (s, .bad)
  | .find k =>
    match tryGet s k with
    | some (some i) => (s, .pair s.pairs[i]?)
    | some none => (s, .pair none)
    | none => (s, .bad)
  | .clear => (clear s, .unit)
  | .size => (s, .num s.pairs.length)
  | .iterate => (s, .values (s.pairs.map (·.2)))

/-- TieredMap.hpp 216 `getNumTiers` -/
def numTiers {V : Type} (s : Map V) : Nat := s.shifts.length

end Sparta.TieredMap
