import Verif.Common
/-!
The pipeline database: writing transactions, and reading the transactions of a window of time.

Code: sparta/sparta/pipeViewer/Outputter.hpp 44-262, transaction_structures.hpp 16-133; sparta/src/ArgosOutputter.cpp 21-72;
helios/pipeViewer/pipe_view/transactiondb/src/Reader.hpp 104-1162.

Simplifications: a byte and a character is a natural number, ':' is 58 and a newline is 10.  The machine is little endian.  A field of
a pair record is one entry (name, size, value, string, format) where the code has vectors of the same length.  The padding of an
instruction is 0.  The header of the index file is either the one the outputter writes or the file is refused.  A token of the text
files that should be a number and is not, and a transaction that ends within the file, are failures.  A seek to a position below 2^63
succeeds.  The lock of the reader is left out; so are `dumpIndexTransactions` and the other text made from pairs.
-/
namespace Sparta.Argos

abbrev Text := List Nat

/-- Outputter.hpp 48-63 `writeData_`: the `n` low bytes of a value -/
def le : Nat → Nat → List Nat
  | 0, _ => []
  | n + 1, v => v % 256 :: le n (v / 256)

/-- Reader.hpp 139-156 `read`: the value of some bytes, the others are 0 -/
def unle : List Nat → Nat
  | [] => 0
  | b :: bs => b + 256 * unle bs

/-- one digit as `operator<<` writes it -/
def digit (d : Nat) : Nat := if d < 10 then 48 + d else 87 + d

/-- `operator<<` for unsigned numbers in base `b + 2` -/
def digits (b n : Nat) : Text :=
  if h : n < b + 2 then [digit n] else digits b (n / (b + 2)) ++ [digit (n % (b + 2))]
termination_by n
decreasing_by exact Nat.div_lt_self (by omega) (by omega)

/-- decimal -/
def dec (n : Nat) : Text := digits 8 n

/-- `operator>>` for unsigned numbers; `none`: the stream fails -/
def undec (t : Text) : Option Nat :=
  if t = [] ∨ t.any (fun c => c < 48 || 57 < c) then none else some (t.foldl (fun a c => 10 * a + (c - 48)) 0)

/-- transaction_structures.hpp 35-58 `transaction_t` -/
structure Hdr where
  start : Nat
  stop : Nat
  parent : Nat
  id : Nat
  display : Nat
  loc : Nat
  flags : Nat
  proc : Nat
deriving DecidableEq, Repr

/-- transaction_structures.hpp 91-113: one entry of `nameVector`, `sizeOfVector`, `valueVector` (`num`: its `second`),
`stringVector`, `delimVector` -/
structure Field where
  name : Text
  size : Nat
  val : Nat
  num : Bool
  str : Text
  fmt : Nat
deriving DecidableEq, Repr

/-- transaction_structures.hpp 61-133: annotations, instructions, memory operations, pairs -/
inductive Rec
  | annot (h : Hdr) (text : Text)
  | inst (h : Hdr) (op va ra : Nat)
  | mem (h : Hdr) (va ra : Nat)
  | pair (h : Hdr) (pid : Nat) (fields : List Field)
deriving DecidableEq, Repr

/-- the files: record.bin, index.bin, map.dat, data.dat, string_map.dat, display_format.dat -/
structure Files where
  recs : List Nat
  idx : List Nat
  map : Text
  data : Text
  strs : Text
  disp : Text
deriving DecidableEq, Repr

/-- Outputter.hpp 141, 144, 154: the static variables `locIDSet`, `pairIDSet`, and the keys of `stringMap` -/
structure Statics where
  locs : List Nat
  pids : List Nat
  keys : List (Nat × Nat × Nat)
deriving DecidableEq, Repr

/-- Outputter.hpp 109-116: the files, `last_record_pos_`; and the static variables -/
structure Out where
  files : Files
  last : Nat
  st : Statics
deriving DecidableEq, Repr

/-- transaction_structures.hpp 25-27, ArgosOutputter.cpp 40-43: "sparta_pipeout_version:   2" and a newline -/
def header : List Nat :=
  [115, 112, 97, 114, 116, 97, 95, 112, 105, 112, 101, 111, 117, 116, 95, 118, 101, 114, 115, 105, 111, 110, 58, 32, 32, 32, 50, 10]

/-- ArgosOutputter.cpp 21-53: the constructor -/
def Out.new (H : Nat) (st : Statics) : Out :=
  { files := { recs := [], idx := header ++ le 8 H, map := [], data := [], strs := [], disp := [] }, last := 0, st := st }

/-- ArgosOutputter.cpp 68-72 `writeIndex` -/
def Out.index (o : Out) : Out := { o with files := { o.files with idx := o.files.idx ++ le 8 o.files.recs.length } }

/-- ArgosOutputter.cpp 54-67: the destructor -/
def Out.close (o : Out) : Files := { o.files with idx := o.files.idx ++ le 8 o.last }

/-- the 48 bytes of a transaction (ArgosOutputter.cpp 45-48) -/
def Hdr.bytes (h : Hdr) : List Nat :=
  le 8 h.start ++ le 8 h.stop ++ le 8 h.parent ++ le 8 h.id ++ le 8 h.display ++ le 4 h.loc ++ le 2 h.flags ++ le 2 h.proc

/-- Outputter.hpp 181-183, 204-209, 232-234, 252-257: what the record file gets for a field -/
def Field.bytes (f : Field) : List Nat :=
  if f.num then le f.size f.val else le 2 f.str.length ++ f.str.take (f.str.length % 65536)

/-- Outputter.hpp 92-101 `writeTransaction`, 125-132 for annotations, 137-261 for pairs: what the record file gets -/
def Rec.bytes : Rec → List Nat
  | .annot h t => h.bytes ++ le 2 t.length ++ t.take (t.length % 65536)
  | .inst h op va ra => h.bytes ++ le 4 op ++ le 4 0 ++ le 8 va ++ le 8 ra
  | .mem h va ra => h.bytes ++ le 8 va ++ le 8 ra
  | .pair h _ fs => h.bytes ++ fs.flatMap Field.bytes

/-- Outputter.hpp 173-211: a field in a line of the data file -/
def Field.dataText (f : Field) : Text :=
  58 :: (f.name ++ 58 :: (if f.num then dec f.size ++ 58 :: dec 0 else dec 0 ++ 58 :: dec 1))

/-- Outputter.hpp 167, 173-212: a line of the data file -/
def dataLine (pid : Nat) (fs : List Field) : Text := dec pid ++ 58 :: dec fs.length ++ fs.flatMap Field.dataText ++ [10]

/-- Outputter.hpp 213-217: a line of the display format file -/
def dispLine (pid : Nat) (fs : List Field) : Text := dec pid ++ fs.flatMap (fun f => 58 :: dec f.fmt) ++ [10]

/-- Outputter.hpp 185-199, 236-250: the line of the string map for the field `i`, if it has a string and its key is new -/
def Out.putStr (o : Out) (pid i : Nat) (f : Field) : Out :=
  if f.num = true ∧ f.str ≠ [] ∧ (pid, i, f.val) ∉ o.st.keys then
    { o with files := { o.files with strs := o.files.strs ++ (dec pid ++ 58 :: dec i ++ 58 :: dec f.val ++ 58 :: f.str ++ [10]) }
             st := { o.st with keys := o.st.keys ++ [(pid, i, f.val)] } }
  else o

/-- Outputter.hpp 173-211, 228-259: the strings of the fields -/
def Out.putStrs (o : Out) (pid : Nat) : Nat → List Field → Out
  | _, [] => o
  | i, f :: fs => (o.putStr pid i f).putStrs pid (i + 1) fs

/-- Outputter.hpp 157-160: a new location -/
def Out.putLoc (o : Out) (loc pid : Nat) : Out :=
  if loc ∈ o.st.locs then o
  else { o with files := { o.files with map := o.files.map ++ (dec loc ++ 58 :: dec pid ++ [10]) }
                st := { o.st with locs := o.st.locs ++ [loc] } }

/-- Outputter.hpp 163-218: a new kind of pairs -/
def Out.putPair (o : Out) (pid : Nat) (fs : List Field) : Out :=
  if pid ∈ o.st.pids then o
  else { o with files := { o.files with data := o.files.data ++ dataLine pid fs, disp := o.files.disp ++ dispLine pid fs }
                st := { o.st with pids := o.st.pids ++ [pid] } }

/-- Outputter.hpp 94-100: the position and the bytes -/
def Out.put (o : Out) (r : Rec) : Out :=
  { o with files := { o.files with recs := o.files.recs ++ r.bytes }, last := o.files.recs.length }

/-- Outputter.hpp 92-261 `writeTransaction` -/
def Out.write (o : Out) : Rec → Out
  | .pair h pid fs => (((o.putLoc h.loc pid).putPair pid fs).putStrs pid 0 fs).put (.pair h pid fs)
  | r => o.put r

/-- the calls of an outputter -/
inductive Op
  | record (r : Rec)
  | index
deriving DecidableEq, Repr

def Out.step (o : Out) : Op → Out
  | .record r => o.write r
  | .index => o.index

def Out.run (o : Out) (ops : List Op) : Out := ops.foldl Out.step o

/-- the failures: a file is empty (Reader.hpp 125-126), the header (840-843), an interval of 0 (860), a line of the text files that
cannot be parsed (a loop that does not end, 418-420, or values that are not set), `at` (635, 647, 913), a seek (437-439), a transaction
that is not complete (562), undefined behaviour (a vector that is too short), a field of more than 8 bytes (668), the type of a
transaction (749) -/
inductive Err
  | empty
  | version
  | heartbeat
  | parse
  | at
  | seek
  | short
  | ub
  | size
  | type
deriving DecidableEq, Repr

/-- Reader.hpp 394-423 `pair_struct`, without the entry for the pair id: `length` (without that entry), and name, size, type of each
field; the formats -/
structure Desc where
  len : Nat
  fields : List (Text × Nat × Nat)
  fmts : List Nat
deriving DecidableEq, Repr

/-- Reader.hpp 1129-1161: the files, `heartbeat_`, `size_of_index_file_`, `size_of_record_file_`, `lowest_cycle_`, `highest_cycle_`,
whether `record_file_` has failed, `file_updated_`, `loc_map_`, `map_`, `stringMap_` -/
structure Reader where
  files : Files
  H : Nat
  isize : Nat
  rsize : Nat
  lo : Nat
  hi : Nat
  bad : Bool
  updated : Bool
  locs : List (Nat × Nat)
  descs : List (Nat × Desc)
  labels : List ((Nat × Nat × Nat) × Text)
deriving DecidableEq, Repr

/-- the parts of a text between the separators -/
def split (sep : Nat) : Text → List Text
  | [] => [[]]
  | c :: cs =>
    if c = sep then [] :: split sep cs
    else match split sep cs with
      | [] => [[c]]
      | t :: ts => (c :: t) :: ts

/-- Reader.hpp 207-245, 256-298: `operator>>` for strings, when the separator counts as white space -/
def tokens (sep : Nat) (t : Text) : List Text := (split sep t).filter (fun x => !x.isEmpty)

/-- Reader.hpp 372-388 `processWith`: the function is called for each line -/
def forLines {α : Type} (f : α → List Text → Except Err α) : α → List Text → Except Err α
  | a, [] => .ok a
  | a, l :: ls =>
    match f a (tokens 58 l) with
    | .error e => .error e
    | .ok b => forLines f b ls

/-- an unordered map: what is there stays -/
def emplace {α β : Type} [DecidableEq α] (m : List (α × β)) (a : α) (b : β) : List (α × β) :=
  if (m.lookup a).isSome then m else m ++ [(a, b)]

/-- Reader.hpp 314-346, 887: a line of the map file -/
def mapLine (m : List (Nat × Nat)) : List Text → Except Err (List (Nat × Nat))
  | a :: b :: _ =>
    match undec a, undec b with
    | some x, some y => .ok (emplace m x y)
    | _, _ => .error .parse
  | _ => .error .parse

/-- Reader.hpp 418-420: name, size, type until the end of the line -/
def triples : List Text → Option (List (Text × Nat × Nat))
  | [] => some []
  | n :: s :: t :: ts =>
    match undec s, undec t, triples ts with
    | some x, some y, some r => some ((n, x, y) :: r)
    | _, _, _ => none
  | _ => none

/-- Reader.hpp 401-423, 897-907: a line of the data file -/
def descLine (m : List (Nat × Desc)) : List Text → Except Err (List (Nat × Desc))
  | a :: b :: ts =>
    match undec a, undec b, triples ts with
    | some pid, some n, some fs => .ok (emplace m pid { len := n, fields := fs, fmts := [] })
    | _, _, _ => .error .parse
  | _ => .error .parse

/-- all of them are numbers -/
def undecs : List Text → Option (List Nat)
  | [] => some []
  | t :: ts =>
    match undec t, undecs ts with
    | some x, some r => some (x :: r)
    | _, _ => none

/-- the formats of the first entry for `pid` grow -/
def addFmts (m : List (Nat × Desc)) (pid : Nat) (l : List Nat) : List (Nat × Desc) :=
  m.map (fun p => if p.1 = pid then (p.1, { p.2 with fmts := p.2.fmts ++ l }) else p)

/-- Reader.hpp 909-918: a line of the display format file -/
def fmtLine (m : List (Nat × Desc)) : List Text → Except Err (List (Nat × Desc))
  | a :: ts =>
    match undec a, undecs ts with
    | some pid, some l => if (m.lookup pid).isSome then .ok (addFmts m pid l) else .error .at
    | _, _ => .error .parse
  | _ => .error .parse

/-- Reader.hpp 314-346, 921: a line of the string map -/
def strLine (m : List ((Nat × Nat × Nat) × Text)) : List Text → Except Err (List ((Nat × Nat × Nat) × Text))
  | a :: b :: c :: d :: _ =>
    match undec a, undec b, undec c with
    | some x, some y, some z => .ok (emplace m (x, y, z) d)
    | _, _, _ => .error .parse
  | _ => .error .parse

/-- 2^64 -/
def W : Nat := 18446744073709551616

/-- the `n` bytes at `pos` -/
def word (b : List Nat) (pos n : Nat) : Nat := unle ((b.drop pos).take n)

/-- Reader.hpp 505-528 `findCycleLast_`.  522-525: if the read fails, the old value is returned, and the stream stays failed. -/
def Reader.findLast (R : Reader) : Reader :=
  let pos := word R.files.idx (R.isize - 8) 8
  if R.bad ∨ R.files.recs.length < pos + 48 then { R with bad := true }
  else { R with hi := (word R.files.recs (pos + 8) 8 + W - 1) % W }

/-- Reader.hpp 795-922: the constructor -/
def Reader.new (f : Files) : Except Err Reader :=
  if f.recs = [] ∨ f.idx = [] ∨ f.map = [] ∨ f.data = [] ∨ f.strs = [] ∨ f.disp = [] then .error .empty
  else if f.idx.take 28 ≠ header then .error .version
  else if word f.idx 28 8 = 0 then .error .heartbeat
  else match forLines mapLine [] (tokens 10 f.map) with
    | .error e => .error e
    | .ok locs =>
      match forLines descLine [] (tokens 10 f.data) with
      | .error e => .error e
      | .ok ds =>
        match forLines fmtLine ds (tokens 10 f.disp) with
        | .error e => .error e
        | .ok descs =>
          match forLines strLine [] (tokens 10 f.strs) with
          | .error e => .error e
          | .ok labels =>
            .ok (Reader.findLast
              { files := f, H := word f.idx 28 8, isize := f.idx.length, rsize := f.recs.length, lo := word f.recs 0 8, hi := 0
                bad := decide (f.recs.length < 48), updated := false, locs := locs, descs := descs, labels := labels })

/-- Reader.hpp 431-460 `findRecordReadPos_`; `first_index_` is 36 -/
def Reader.findPos (R : Reader) (start : Nat) : Except Err Nat :=
  let step := (36 + start / R.H * 8) % W
  if W ≤ 2 * step then .error .seek
  else if R.isize ≤ step + 8 then .ok R.rsize
  else .ok (word R.files.idx step 8)

/-- Reader.hpp 467-471 `roundUp_` -/
def roundUp (H num : Nat) : Nat :=
  let s := (num + H + W - 1) % W
  s - s % H

/-- what a callback gets; for pairs `nameVector`, `sizeOfVector`, `delimVector`, `valueVector` and `stringVector` -/
inductive Shown
  | annot (h : Hdr) (text : Text)
  | inst (h : Hdr) (op va ra : Nat)
  | mem (h : Hdr) (va ra : Nat)
  | pair (h : Hdr) (names : List Text) (sizes fmts : List Nat) (values : List (Nat × Bool)) (strings : List Text)
deriving DecidableEq, Repr

/-- Reader.hpp 560-562: a transaction; `none`: the read fails -/
def readHdr (b : List Nat) : Option Hdr :=
  if b.length < 48 then none
  else some { start := word b 0 8, stop := word b 8 8, parent := word b 16 8, id := word b 24 8, display := word b 32 8
              loc := word b 40 4, flags := word b 44 2, proc := word b 46 2 }

/-- Reader.hpp 689-714: an integer in the format of its field -/
def showNum (fmt v : Nat) : Text :=
  if v = W - 1 then []
  else if fmt = 2 then 48 :: 120 :: digits 14 v
  else if fmt = 1 then 48 :: digits 6 v
  else dec v

/-- Reader.hpp 664-740: the fields from `i` on: values, strings, and the bytes that follow -/
def readFields (labels : List ((Nat × Nat × Nat) × Text)) (pid : Nat) (fmts : List Nat) :
    Nat → List (Text × Nat × Nat) → List Nat → Except Err (List (Nat × Bool) × List Text × List Nat)
  | _, [], b => .ok ([], [], b)
  | i, (_, size, type) :: fs, b =>
    let next (v : Nat × Bool) (s : Text) (b' : List Nat) :=
      match readFields labels pid fmts (i + 1) fs b' with
      | .error e => .error e
      | .ok (vs, ss, b'') => .ok (v :: vs, s :: ss, b'')
    if type = 0 then
      if 8 < size then .error .size
      else if b.length < size then .error .short
      else
        let v := unle (b.take size)
        match labels.lookup (pid, i, v) with
        | some s => next (v, false) s (b.drop size)
        | none =>
          match fmts[i]? with
          | none => if v = W - 1 then next (v, true) [] (b.drop size) else .error .ub
          | some fmt => next (v, true) (showNum fmt v) (b.drop size)
    else if type = 1 then
      if b.length < 2 + word b 0 2 then .error .short
      else next (W - 1, true) ((b.drop 2).take (word b 0 2)) (b.drop (2 + word b 0 2))
    else next (0, false) [110, 111, 110, 101] b

/-- "pairid" -/
def pairid : Text := [112, 97, 105, 114, 105, 100]

/-- Reader.hpp 559-752 `readRecord_`: what the callback gets, if it is called, and the bytes that follow.  583-595: annotations outside
of the window are left out. -/
def Reader.readRecord (R : Reader) (start stop : Nat) (b : List Nat) : Except Err (Option Shown × List Nat) :=
  match readHdr b with
  | none => .error .short
  | some h =>
    if h.flags % 8 = 1 then
      let n := word b 48 2
      if b.length < 50 + n then .error .short
      else .ok (if h.stop < start ∨ stop < h.start then none else some (.annot h ((b.drop 50).take n)), b.drop (50 + n))
    else if h.flags % 8 = 2 then
      if b.length < 72 then .error .short
      else .ok (some (.inst h (word b 48 4) (word b 56 8) (word b 64 8)), b.drop 72)
    else if h.flags % 8 = 3 then
      if b.length < 64 then .error .short
      else .ok (some (.mem h (word b 48 8) (word b 56 8)), b.drop 64)
    else if h.flags % 8 = 4 then
      match R.locs.lookup h.loc with
      | none => .error .at
      | some pid =>
        match R.descs.lookup pid with
        | none => .error .at
        | some d =>
          if d.fields.length < d.len then .error .ub
          else match readFields R.labels pid d.fmts 0 (d.fields.take d.len) (b.drop 48) with
            | .error e => .error e
            | .ok (vs, ss, b') =>
              .ok (some (.pair h (pairid :: d.fields.map (fun x => x.1)) (2 :: d.fields.map (fun x => x.2.1)) (0 :: d.fmts)
                ((pid, false) :: vs) (dec pid :: ss)), b')
    else .error .type

/-- Reader.hpp 531-554 `readRecordVersion_`, where `b` is what follows in the record file; it has at most `fuel` bytes -/
def Reader.readRecords (R : Reader) (endPos start stop : Nat) : Nat → List Nat → Except Err (List Shown)
  | 0, _ => .ok []
  | fuel + 1, b =>
    if R.files.recs.length - b.length < endPos then
      match R.readRecord start stop b with
      | .error e => .error e
      | .ok (x, b') =>
        match R.readRecords endPos start stop fuel b' with
        | .error e => .error e
        | .ok xs => .ok (x.toList ++ xs)
    else .ok []

/-- Reader.hpp 961-1000 `getWindow`: what the callbacks get.  If the stream has failed, `tellg` is -1. -/
def Reader.window (R : Reader) (start stop : Nat) : Except Err (List Shown) :=
  match R.findPos start with
  | .error e => .error e
  | .ok pos =>
    match R.findPos (roundUp R.H stop) with
    | .error e => .error e
    | .ok endPos => if R.bad then .ok [] else R.readRecords endPos start stop (R.files.recs.length + 1) (R.files.recs.drop pos)

/-- Reader.hpp 754-788, 1107-1111 `isUpdated`, when the files are `f` now.  768-771: the files are opened again, the text files are
not read again. -/
def Reader.isUpdated (R : Reader) (f : Files) : Reader × Bool :=
  let R := { R with files := f }
  if f.idx.length ≠ R.isize ∧ f.recs.length ≠ R.rsize then
    if f.recs.length - f.recs.length % R.H = R.rsize then (R, R.updated)
    else
      let R := Reader.findLast { R with isize := f.idx.length, rsize := f.recs.length - f.recs.length % R.H, bad := false }
      ({ R with updated := true }, true)
  else (R, R.updated)

/-- Reader.hpp 1113-1116 `ackUpdated` -/
def Reader.ack (R : Reader) : Reader := { R with updated := false }

end Sparta.Argos
