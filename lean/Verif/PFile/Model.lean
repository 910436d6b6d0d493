import Verif.Checkpoint.Model
/-!
Model of `PersistentFastCheckpointer` (/repo/sparta/sparta/serialization/checkpoint/PersistentFastCheckpointer.hpp): files written
and read with its storage adapters through `ArchData::saveAll` and `restoreAll` (functional/ArchData.hpp 1001-1013, 1023-1051).

Files are lists of bytes on a little-endian machine, and a stream being read is what is left of it together with whether
it is still good. Not modelled: names of files and opening them, errors while writing, and text-mode conversion of line ends
(`restore(filename)` opens the file without the binary flag, which matters only on other platforms). Lines are written in order of
allocation; the code writes them in the order of the TieredMap, and nothing below depends on the order.
-/
namespace Sparta.PFile
open Sparta.ArchData Sparta.Checkpoint

/-! ### writing -/

/-- PersistentFastCheckpointer.hpp 56-57: the bytes of a number, lowest first -/
def le : Nat → Nat → List UInt8
  | 0, _ => []
  | n + 1, v => UInt8.ofNat (v % 256) :: le n (v / 256)

/-- PersistentFastCheckpointer.hpp 53-58 `beginLine`: an `L` and the index -/
def beginLine (idx : Nat) : List UInt8 := 76 :: le 8 idx

/-- PersistentFastCheckpointer.hpp 60-62 `writeLineBytes`, ArchData.hpp 263-266 `Line::save`: all bytes of the line -/
def lineBytes (size : Nat) (d : Data) : List UInt8 := (List.range size).map d

/-- ArchData.hpp 1001-1013 `saveAll` with `FileWriteAdapter`; 64-69 `endArchData` writes an `E` -/
def writeAD (m : AD) : List UInt8 :=
  (m.lines.flatMap fun p => beginLine p.1 ++ lineBytes m.lineSize p.2.data) ++ [69]

/-- PersistentFastCheckpointer.hpp 262-271 `save_` -/
def writeAll (ads : List AD) : List UInt8 := ads.flatMap writeAD

/-! ### reading -/

/-- an input stream: the bytes that are left, and `good()` -/
structure In where
  left : List UInt8
  good : Bool
deriving DecidableEq

/-- characters that formatted input skips -/
def isSpace (b : UInt8) : Bool := b == 32 || (9 ≤ b && b ≤ 13)

/-- `fs_ >> ctrl` (PersistentFastCheckpointer.hpp 108): skips white space, `none` = failed -/
def In.ctrl (s : In) : In × Option UInt8 :=
  if s.good then
    match s.left.dropWhile isSpace with
    | [] => (⟨[], false⟩, none)
    | c :: r => (⟨r, true⟩, some c)
  else (s, none)

/-- `fs_.read(buf, n)`: the bytes that arrive; the stream is no longer good if they are fewer than `n` -/
def In.read (s : In) (n : Nat) : In × List UInt8 :=
  if s.good then (⟨s.left.drop n, decide (n ≤ s.left.length)⟩, s.left.take n) else (s, [])

/-- the number whose low bytes are given -/
def unle : List UInt8 → Nat
  | [] => 0
  | b :: bs => b.toNat + 256 * unle bs

/-- `INVALID_LINE_IDX`, ArchData.hpp 112 -/
def invalid : Nat := 2 ^ 64 - 1

/-- PersistentFastCheckpointer.hpp 106-121 `getNextRestoreLine`; `none` = threw. A short index is not noticed here. -/
def In.nextLine (s : In) : In × Option Nat :=
  match s.ctrl with
  | (s, none) => (s, none)
  | (s, some c) =>
    if c = 76 then let r := s.read 8; (r.1, some (unle r.2))
    else if c = 69 then (s, some invalid)
    else (s, none)

/-- ArchData.hpp 1025-1035: the loop of `restore`, with `Line::restore` (249-252) and `copyLineBytes`
(PersistentFastCheckpointer.hpp 123-125: bytes that do not arrive leave the buffer as it was). The first number bounds the turns: each
takes a byte. The last component: no exception; otherwise the lines restored so far stay. -/
def restoreLoop : Nat → AD → In → AD × In × Bool
  | 0, m, s => (m, s, false)
  | fuel + 1, m, s =>
    match s.nextLine with
    | (s, none) => (m, s, false)
    | (s, some i) =>
      if i = invalid then (m, s, true)
      else
        let a := wrap (i * m.lineSize)
        match m.getLine a with
        | none => (m, s, false)
        | some q =>
          let r := s.read q.lineSize
          restoreLoop fuel (q.modify (q.lineIdx a) fun l => ⟨overwrite l.data 0 r.2, false⟩) r.1

/-- ArchData.hpp 1046-1051 `restoreAll`, 1023-1027 the assertion of `restore` -/
def restoreAD (m : AD) (s : In) : AD × In × Bool :=
  if s.good then restoreLoop (s.left.length + 1) m.clean s else (m.clean, s, false)

/-- PersistentFastCheckpointer.hpp 238-244 `restore`: all ArchDatas in order until one throws -/
def restoreAll : List AD → In → List AD × Bool
  | [], _ => ([], true)
  | m :: ms, s =>
    match restoreAD m s with
    | (m, _, false) => (m :: ms, false)
    | (m, s, true) => let r := restoreAll ms s; (m :: r.1, r.2)

/-! ### the checkpointer -/

inductive Op where
  /-- a call of the checkpointer, or an access to the memories -/
  | cp (o : Checkpoint.Op)
  | save
  | restore (file : List UInt8)

/-- What the caller sees -/
inductive Res where
  | cp (r : Checkpoint.Res)
  | saved (id : Nat) (file : List UInt8)
  | restored
  | threw
deriving DecidableEq

/-- one call: `save` is PersistentFastCheckpointer.hpp 194-198 (and 206-212, 221-232), `restore` 238-244 (and 250-254) -/
def step (c : CP) : Op → CP × Res
  | .cp o => let r := c.step o; (r.1, .cp r.2)
  | .save =>
    match c.create true with
    | (c', .created id _) => ({ c' with ads := c'.ads.map undirty }, .saved id (writeAll c'.ads))
    | (c', r) => (c', .cp r)
  | .restore f =>
    let r := restoreAll c.ads ⟨f, true⟩
    ({ c with ads := r.1 }, if r.2 then .restored else .threw)

end Sparta.PFile
