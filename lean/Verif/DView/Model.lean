import Verif.ByteOrder.Model
import Verif.Common
/-!
Model of `sparta::DataView` (/repo/sparta/sparta/functional/DataView.hpp) after layout, and of the typed accesses of a line
(/repo/sparta/sparta/functional/ArchData.hpp 315-327, 353-365, 375-382).

The machine is little-endian. Values are natural numbers of the width of the unsigned types; of the signed types only `int16_t`
differs (its byte swap, see ByteOrder), apart from the sign extension in `writeTruncated`. Not modelled: layout (in ArchData/Layout), views
that are not placed, and dirty flags (in ArchData). Indexes have 32 bits and lines at most 2^31 bytes, so that no sum wraps.
-/
namespace Sparta.DView
open Sparta.ByteOrder

/-- the bytes of a line -/
abbrev Data := Nat → UInt8

/-- DataView.hpp 447-449 members and `getSize`: a placed view: its line, its offset in the line, its size -/
structure View where
  line : Nat
  off : Nat
  size : Nat
deriving DecidableEq

/-- lines of `L` bytes -/
structure Mem where
  L : Nat
  lines : Nat → Data

/-- `*reinterpret_cast<T*>(d)` on a little-endian machine -/
def word (d : Data) : Nat → Nat → Nat
  | _, 0 => 0
  | loc, n + 1 => (d loc).toNat + 256 * word d (loc + 1) n

/-- assignment through the same pointer -/
def poke (d : Data) (loc n v : Nat) : Data :=
  fun a => if loc ≤ a ∧ a < loc + n then UInt8.ofNat (v / 256 ^ (a - loc) % 256) else d a

/-- ArchData.hpp 315-327 `Line::read<T, BO>`; `none` = assertion -/
def lineRead (m : Mem) (line : Nat) (k : Kind) (o : Order) (off idx : Nat) : Option Nat :=
  let loc := off + idx * k.bytes
  if loc + k.bytes ≤ m.L then some (reorder k o (BitVec.ofNat _ (word (m.lines line) loc k.bytes))).toNat else none

/-- ArchData.hpp 353-365 `Line::write<T, BO>` -/
def lineWrite (m : Mem) (line : Nat) (k : Kind) (o : Order) (off val idx : Nat) : Option Mem :=
  let loc := off + idx * k.bytes
  if loc + k.bytes ≤ m.L then
    some { m with lines := upd m.lines line (poke (m.lines line) loc k.bytes (reorder k o (BitVec.ofNat _ val)).toNat) }
  else none

/-- Utils.hpp 153-155 `isPowerOf2` -/
def isPowerOf2 (x : Nat) : Bool := x == 0 || x &&& (x - 1) == 0

/-- DataView.hpp 149-166 `read`, `readUnsafe` -/
def View.read (m : Mem) (v : View) (k : Kind) (o : Order) (idx : Nat) : Option Nat :=
  if idx < v.size / k.bytes then lineRead m v.line k o v.off idx else none

/-- DataView.hpp 244-264 `write`, `writeUnsafe` -/
def View.write (m : Mem) (v : View) (k : Kind) (o : Order) (val idx : Nat) : Option Mem :=
  if idx < v.size / k.bytes then lineWrite m v.line k o v.off val idx else none

/-- DataView.hpp 179-214 `readPadded`, `readPaddedUnsafe`; the value is converted to `T` -/
def View.readPadded (m : Mem) (v : View) (k : Kind) (o : Order) (idx : Nat) : Option Nat :=
  if k.bytes * idx ≤ v.size then
    let left := v.size - k.bytes * idx
    if isPowerOf2 left then
      (if left ≥ 8 then lineRead m v.line .k64 o v.off idx
      else if left = 4 then lineRead m v.line .k32 o v.off idx
      else if left = 2 then lineRead m v.line .u16 o v.off idx
      else if left = 1 then lineRead m v.line .k8 o v.off idx
      else some 0).map (· % 256 ^ k.bytes)
    else none
  else none

/-- DataView.hpp 282-318 `writeTruncated`, `writeTruncatedUnsafe` for a value of type `T` -/
def View.writeTruncated (m : Mem) (v : View) (k : Kind) (o : Order) (val idx : Nat) : Option Mem :=
  if k.bytes * idx ≤ v.size then
    let left := v.size - k.bytes * idx
    if isPowerOf2 left then
      if left ≥ 8 then lineWrite m v.line .k64 o v.off val idx
      else if left = 4 then lineWrite m v.line .k32 o v.off val idx
      else if left = 2 then lineWrite m v.line .u16 o v.off val idx
      else if left = 1 then lineWrite m v.line .k8 o v.off val idx
      else some m
    else none
  else none

/-- the bytes at some place -/
def bytesAt (d : Data) (a n : Nat) : List UInt8 := (List.range n).map fun j => d (a + j)

/-- DataView.hpp 327-343 `operator=` for placed views: sizes, and the `memcpy` of ArchData.hpp 375-382, whose behaviour is undefined if
source and destination overlap (`some none`) -/
def View.assign (m : Mem) (v u : View) : Option (Option Mem) :=
  if v.size ≠ u.size then none
  else if v.off + v.size ≤ m.L then
    if v.line = u.line ∧ v.off < u.off + u.size ∧ u.off < v.off + v.size then some none
    else
      let src := bytesAt (m.lines u.line) u.off v.size
      some (some { m with lines := upd m.lines v.line fun a =>
        if v.off ≤ a ∧ a < v.off + v.size then src.getD (a - v.off) 0 else m.lines v.line a })
  else none

/-! ### texts -/

/-- a hexadecimal digit -/
def digit (d : Nat) : Char := ("0123456789abcdef".toList).getD d '?'

/-- the digits of a number as `<< std::hex` writes them (the first number bounds their count) -/
def hexMin : Nat → Nat → List Char
  | 0, _ => []
  | fuel + 1, v => if v < 16 then [digit v] else hexMin fuel (v / 16) ++ [digit (v % 16)]

/-- `setw(n)` with fill character `0` -/
def pad (n : Nat) (l : List Char) : List Char := List.replicate (n - l.length) '0' ++ l

/-- a number of at most 64 bits in a field -/
def hex (n v : Nat) : List Char := pad n (hexMin 16 v)

/-- DataView.hpp 355-364 `getByteString` from byte `i` on -/
def byteString (m : Mem) (v : View) : Nat → Nat → Option (List Char)
  | 0, _ => some []
  | n + 1, i => (v.read m .k8 .LE i).bind fun b => (byteString m v n (i + 1)).map fun r => hex 2 b ++ [' '] ++ r

/-- DataView.hpp 458-463: words `n-1`, ..., 0 -/
def wordsLE (m : Mem) (v : View) : Nat → Option (List Char)
  | 0 => some []
  | n + 1 => (v.read m .k64 .LE n).bind fun w => (wordsLE m v n).map fun r => hex 16 w ++ r

/-- DataView.hpp 465-470: `n` words from word `i` on -/
def wordsBE (m : Mem) (v : View) : Nat → Nat → Option (List Char)
  | 0, _ => some []
  | n + 1, i => (v.read m .k64 .BE i).bind fun w => (wordsBE m v n (i + 1)).map fun r => hex 16 w ++ r

/-- DataView.hpp 374-394 `getValueAsString` -/
def View.valueString (m : Mem) (v : View) (o : Order) : Option (List Char) :=
  (if v.size = 1 then (v.read m .k8 o 0).map (hex 2)
  else if v.size = 2 then (v.read m .u16 o 0).map (hex 4)
  else if v.size = 4 then (v.read m .k32 o 0).map (hex 8)
  else match o with
    | .LE => wordsLE m v (v.size / 8)
    | .BE => wordsBE m v (v.size / 8) 0).map fun r => '0' :: 'x' :: r

/-- DataView.hpp 418-432 `writeInitial_` from byte `i` on -/
def writeInitial (m : Mem) (v : View) : List UInt8 → Nat → Option Mem
  | [], _ => some m
  | b :: bs, i => (v.write m .k8 .LE b.toNat i).bind fun m => writeInitial m v bs (i + 1)

/-! ### calls -/

inductive Op where
  | read (v : View) (k : Kind) (o : Order) (idx : Nat)
  | write (v : View) (k : Kind) (o : Order) (val idx : Nat)
  | readPadded (v : View) (k : Kind) (o : Order) (idx : Nat)
  | writeTruncated (v : View) (k : Kind) (o : Order) (val idx : Nat)
  | assign (v u : View)
  | byteString (v : View)
  | valueString (v : View) (o : Order)

/-- What the caller sees; after `undefined` anything may be -/
inductive Res where
  | threw
  | undefined
  | done
  | num (n : Nat)
  | text (s : List Char)
deriving DecidableEq

def ofNum (m : Mem) : Option Nat → Mem × Res
  | none => (m, .threw)
  | some n => (m, .num n)

def ofMem (m : Mem) : Option Mem → Mem × Res
  | none => (m, .threw)
  | some q => (q, .done)

def ofText (m : Mem) : Option (List Char) → Mem × Res
  | none => (m, .threw)
  | some t => (m, .text t)

/-- one call -/
def step (m : Mem) : Op → Mem × Res
  | .read v k o idx => ofNum m (v.read m k o idx)
  | .write v k o val idx => ofMem m (v.write m k o val idx)
  | .readPadded v k o idx => ofNum m (v.readPadded m k o idx)
  | .writeTruncated v k o val idx => ofMem m (v.writeTruncated m k o val idx)
  | .assign v u => match v.assign m u with | none => (m, .threw) | some none => (m, .undefined) | some (some q) => (q, .done)
  | .byteString v => ofText m (byteString m v v.size 0)
  | .valueString v o => ofText m (v.valueString m o)

end Sparta.DView
