import Verif.Common
/-!
Model of `sparta::ArchData` (/repo/sparta/sparta/functional/ArchData.hpp) after layout, and of
`sparta::memory::MemoryObject` (/repo/sparta/sparta/memory/MemoryObject.hpp).
Not modelled: a line size of 0 (its line index is computed with a shift by 64, which is undefined), typed
accesses (`read<T,BO>`), owner nodes, and the printing functions. Layout is in `Layout.lean`.
Offsets are natural numbers; the bounds checks wrap at 2^64 as in the code.
-/
namespace Sparta.ArchData

/-- the bytes of a line; only positions below the line size are ever accessed -/
abbrev Data := Nat → UInt8

/-- ArchData.hpp 157-415 `Line`: `data_` and `dirty_` (`idx_` is the key in the map, `offset_` and `size_`
follow from it) -/
structure Line where
  data : Data
  dirty : Bool

/-- ArchData.hpp 1620-1690 members. `lsb` is `line_lsb_` (the line size is `2 ^ lsb`), `fill`/`fsz` are
`initial_`/`initial_val_size_`, `lines` is `line_map_` (a finite map, see the TieredMap model, listed in order
of allocation), `inits` are the writes done by `writeInitial` of the segments. -/
structure AD where
  lsb : Nat
  fill : Nat
  fsz : Nat
  canFree : Bool
  size : Nat
  inits : List (Nat × List UInt8)
  lines : List (Nat × Line)

/-- ArchData.hpp 795-797 `getLineSize` -/
def AD.lineSize (m : AD) : Nat := 2 ^ m.lsb

/-- ArchData.hpp 1241-1293: the copying loop of `fillWith_`: whole patterns while more than one pattern is left,
then the remainder. The first argument is fuel. -/
def fillLoop (pat : List UInt8) (w : Nat) : Nat → Nat → List UInt8
  | 0, _ => []
  | fuel + 1, rem => if rem > w then pat ++ fillLoop pat w fuel (rem - w) else pat.take rem

/-- ArchData.hpp 1241-1293 `fillWith_<FillT>` with `sizeof(FillT) = w`: the bytes written to the buffer. (For
`off = 0` the C++ shift by the full width is undefined for 4 and 8 byte patterns; both results that compilers
produce, 0 and the unshifted value, give the same pattern.) -/
def fillWith (w fill size off : Nat) : List UInt8 :=
  let shifted := ((fill >>> (8 * off)) ||| (fill <<< (8 * (w - off)))) % 2 ^ (8 * w)
  let pat := (List.range w).map fun i => UInt8.ofNat (shifted >>> (8 * i))
  fillLoop pat w (size + 1) size

/-- ArchData.hpp 118-141 `fillValue`; `none` = threw -/
def fillValue (size fill fsz off : Nat) : Option (List UInt8) :=
  if fsz = 1 then some (List.replicate size (UInt8.ofNat fill))
  else if fsz = 2 ∨ fsz = 4 ∨ fsz = 8 then some (fillWith fsz fill size off)
  else none

/-- the bytes of a freshly filled line; ArchData.hpp 235-237 `fillWithInitial` -/
def AD.fillData (m : AD) : Data := fun j => ((fillValue m.lineSize m.fill m.fsz 0).getD []).getD j 0

/-- ArchData.hpp 813 `getLineIndex` -/
def AD.lineIdx (m : AD) (addr : Nat) : Nat := addr >>> m.lsb

/-- `line_map_.find` -/
def AD.find (m : AD) (i : Nat) : Option Line := m.lines.lookup i

/-- ArchData.hpp 1451-1497 `allocateLine_` for an index that is not allocated: a new line is dirty and filled -/
def AD.allocate (m : AD) (i : Nat) : AD := { m with lines := m.lines ++ [(i, ⟨m.fillData, true⟩)] }

/-- ArchData.hpp 680-700 `getLine`: make sure the line of an offset exists; `none` = assertion -/
def AD.getLine (m : AD) (addr : Nat) : Option AD :=
  if addr < m.size then
    match m.find (m.lineIdx addr) with
    | some _ => some m
    | none => some (m.allocate (m.lineIdx addr))
  else none

/-- change the line with index `i` in the map -/
def AD.modify (m : AD) (i : Nat) (f : Line → Line) : AD :=
  { m with lines := m.lines.map fun p => if p.1 = i then (p.1, f p.2) else p }

/-- 64-bit wrap of an offset computation -/
def wrap (k : Nat) : Nat := k % 2 ^ 64

/-- ArchData.hpp 335-341 `Line::read(offset, size, data)`; `none` = assertion -/
def Line.read (l : Line) (lineSize off n : Nat) : Option (List UInt8) :=
  if wrap (off + n) ≤ lineSize then some ((List.range n).map fun j => l.data (off + j)) else none

/-- ArchData.hpp 374-381: the bytes after `Line::write(offset, size, data)` -/
def overwrite (d : Data) (off : Nat) (bs : List UInt8) : Data :=
  fun j => if off ≤ j ∧ j < off + bs.length then bs.getD (j - off) 0 else d j

/-- Read through the line: `getLine(addr).read(addr - offset, n, buf)`, as registers and counters do. -/
def AD.read (m : AD) (addr n : Nat) : Option (AD × List UInt8) :=
  (m.getLine addr).bind fun q =>
    (q.find (q.lineIdx addr)).bind fun l => (l.read q.lineSize (addr % q.lineSize) n).map fun bs => (q, bs)

/-- MemoryObject.hpp 157-165 `write`: `getLine(addr)` and `Line::write` (ArchData.hpp 374-381); a failing
size check leaves the line allocated, which is kept in the state: the result is the new state and whether the
call succeeded. -/
def AD.write (m : AD) (addr : Nat) (bs : List UInt8) : AD × Bool :=
  match m.getLine addr with
  | none => (m, false)
  | some q =>
    if wrap (addr % q.lineSize + bs.length) ≤ q.lineSize then
      (q.modify (q.lineIdx addr) fun l => ⟨overwrite l.data (addr % q.lineSize) bs, true⟩, true)
    else (q, false)

/-- ArchData.hpp 933-938 `checkInSingleLine` and 863-868 `checkCanAccess`; `false` = threw -/
def AD.canAccess (m : AD) (addr n : Nat) : Bool :=
  wrap (wrap (addr + n) + 2 ^ 64 - addr / m.lineSize * m.lineSize) ≤ m.lineSize && wrap (addr + n) ≤ m.size

/-- MemoryObject.hpp 132-148 `read`: does not allocate a line; `none` = threw -/
def AD.peek (m : AD) (addr n : Nat) : Option (List UInt8) :=
  if addr < m.size then
    match m.find (m.lineIdx addr) with
    | some l => l.read m.lineSize (addr % m.lineSize) n
    | none =>
      if m.canAccess addr n then fillValue n m.fill m.fsz ((addr % m.lineSize) % m.fsz) else none
  else none

/-- ArchData.hpp 756-776 `clean` -/
def AD.clean (m : AD) : AD :=
  if m.canFree then { m with lines := [] }
  else { m with lines := m.lines.map fun p => (p.1, ⟨m.fillData, p.2.dirty⟩) }

/-- `writeInitial` of every segment (ArchData.hpp 634-637, 788-791): each is a write of its initial bytes -/
def AD.writeInits (m : AD) : List (Nat × List UInt8) → AD
  | [] => m
  | (a, bs) :: l => ((m.write a bs).1).writeInits l

/-- ArchData.hpp 785-792 `reset` -/
def AD.reset (m : AD) : AD := m.clean.writeInits m.inits

/-- ArchData.hpp 465-512 constructor, then layout of `size` bytes (603-664) with the initial writes of the
segments; `none` = threw -/
def AD.init (lsb fill fsz : Nat) (canFree : Bool) (size : Nat) (inits : List (Nat × List UInt8)) : Option AD :=
  if (fsz = 1 ∨ fsz = 2 ∨ fsz = 4 ∨ fsz = 8) ∧ fill < 2 ^ (8 * fsz) ∧ lsb ≤ 31 then
    some ((⟨lsb, fill, fsz, canFree, size, inits, []⟩ : AD).writeInits inits)
  else none

/-- MemoryObject.hpp 79-103 constructor -/
def AD.initMemory (lsb fill fsz size : Nat) : Option AD :=
  if size ≠ 0 ∧ size % 2 ^ lsb = 0 then AD.init lsb fill fsz true size [] else none

/-- the line with index `i`, allocated when missing (ArchData.hpp 953-961) -/
def AD.ensure (m : AD) (i : Nat) : AD :=
  match m.find i with
  | some _ => m
  | none => m.allocate i

/-- `Line::updateFrom` (ArchData.hpp 197-202) and 947-966 `updateFrom` over the lines of the other memory -/
def AD.updateFrom (m : AD) : List (Nat × Line) → AD
  | [] => m
  | (i, l) :: ls =>
    ((m.ensure i).modify i fun _ => ⟨l.data, true⟩).updateFrom ls

/-- Accesses -/
inductive Op where
  | read (addr n : Nat)
  | peek (addr n : Nat)
  | write (addr : Nat) (bs : List UInt8)
  | clean
  | reset
deriving DecidableEq

/-- What the caller sees -/
inductive Res where
  | threw
  | ok
  | data (bs : List UInt8)
deriving DecidableEq

/-- One access -/
def AD.step (m : AD) : Op → AD × Res
  | .read a n =>
    match m.getLine a with
    | none => (m, .threw)
    | some q => match m.read a n with | some (q', bs) => (q', .data bs) | none => (q, .threw)
  | .peek a n => (m, match m.peek a n with | some bs => .data bs | none => .threw)
  | .write a bs => ((m.write a bs).1, if (m.write a bs).2 then .ok else .threw)
  | .clean => (m.clean, .ok)
  | .reset => (m.reset, .ok)

end Sparta.ArchData
