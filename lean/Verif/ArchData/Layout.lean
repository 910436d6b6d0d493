import Verif.ArchData.Model
/-!
Placement of segments (registers) inside an `ArchData`: sparta/sparta/functional/ArchData.hpp 551-638 and
1513-1614, ArchDataSegment.hpp 44-110. Offsets and sizes are `uint64_t`, so sums wrap at 2^64.
-/
namespace Sparta.ArchData.Layout

/-- `ArchDataSegment` (ArchDataSegment.hpp 44-66): size, identifier (`none` = INVALID_ID), identifier of the
segment it is a subset of, offset in that segment -/
structure Seg where
  size : Nat
  id : Option Nat
  subsetOf : Option Nat
  subsetOff : Nat
deriving Repr, DecidableEq

/-- `isPowerOf2` as used by the constructor (ArchDataSegment.hpp 59-62) and `registerSegment`
(ArchData.hpp 551-573, 891-902): the size must be a non-zero power of two within a line, the identifier new.
The same object registered twice is not modelled. -/
def canRegister (line : Nat) (segs : List Seg) (s : Seg) : Bool :=
  (s.size &&& (s.size - 1) == 0) && s.size != 0 && decide (s.size ≤ line) &&
    (match s.id with | none => true | some i => segs.all fun t => t.id != some i)

def register (line : Nat) (segs : List Seg) (s : Seg) : Option (List Seg) :=
  if canRegister line segs s then some (segs ++ [s]) else none

/-- segments registered one after the other -/
def registerAll (line : Nat) : List Seg → List Seg → Option (List Seg)
  | segs, [] => some segs
  | segs, s :: ss => match register line segs s with | some segs' => registerAll line segs' ss | none => none

/-- layout state: offsets of placed segments, `size_`, `num_lines_laid_out_`, the two waste counters -/
structure St where
  placed : Nat → Option Nat
  size : Nat
  numLines : Nat
  padWaste : Nat
  lineWaste : Nat

/-- `getLayoutPaddingWaste` and `getLayoutLineWaste`, ArchData.hpp 1122-1128: the counters are `uint32_t`; the state
holds the exact sums, which agree with the counters modulo 2^32 -/
def St.paddingWaste (st : St) : Nat := st.padWaste % 2 ^ 32

def St.linesWaste (st : St) : Nat := st.lineWaste % 2 ^ 32

/-- outcome of a placement: done, an exception or failed assertion, or endless recursion -/
inductive Out where
  | ok (st : St)
  | threw
  | loops

/-- padding to the next host word, ArchData.hpp 1574-1578 -/
def pad (st : St) : St :=
  if st.size % 4 ≠ 0 then
    { st with size := wrap (st.size + (4 - st.size % 4)), padWaste := st.padWaste + (4 - st.size % 4) }
  else st

/-- start of the line holding an address: `addr & line_mask_` for a power-of-two line size -/
def lineOf (line x : Nat) : Nat := x / line * line

/-- `placeSegment_` for a root segment, ArchData.hpp 1568-1609 -/
def placeRoot (line : Nat) (st0 : St) (i sz : Nat) : Out :=
  let st := pad st0
  let start := lineOf line st.size
  let stop := lineOf line (wrap (st.size + sz - 1))
  let done := fun (st : St) =>
    if st.size % 4 = 0 then .ok { st with placed := upd st.placed i (some st.size), size := wrap (st.size + sz) } else Out.threw
  if start ≠ stop then
    if start < stop then
      done { st with size := wrap (start + line), numLines := st.numLines + 1,
                     lineWaste := st.lineWaste + (wrap (start + line) - st.size) }
    else .threw
  else if st.numLines * line ≤ start then
    if st.size % line = 0 then done { st with numLines := st.numLines + 1 } else .threw
  else done st

/-- index of the segment with an identifier (`helper_map`, ArchData.hpp 612-626) -/
def lookupId (segs : List Seg) (id : Nat) : Option Nat := segs.findIdx? fun s => s.id == some id

/-- `placeSegment_`, ArchData.hpp 1513-1614, and `place`, ArchDataSegment.hpp 81-91 (throws when placed already); the fuel bounds the recursion to parents -/
def place (line : Nat) (segs : List Seg) : Nat → St → Nat → Out
  | 0, _, _ => .loops
  | fuel + 1, st, i =>
    match st.placed i with
    | some _ => .ok st
    | none =>
      match segs[i]? with
      | none => .threw
      | some s =>
        match s.subsetOf with
        | none => placeRoot line st i s.size
        | some p =>
          match lookupId segs p with
          | none => .threw
          | some j =>
            match place line segs fuel st j with
            | .ok st' =>
              match segs[j]?, st'.placed j with
              | some ps, some po =>
                if wrap (s.size + s.subsetOff) > ps.size then .threw
                else if (st'.placed i).isSome then .threw
                else .ok { st' with placed := upd st'.placed i (some (wrap (po + s.subsetOff))) }
              | _, _ => .threw
            | r => r

/-- the loop of `layout`, ArchData.hpp 628-632 -/
def placeAll (line : Nat) (segs : List Seg) : St → List Nat → Out
  | st, [] => .ok st
  | st, i :: is =>
    match place line segs (segs.length + 1) st i with
    | .ok st' => placeAll line segs st' is
    | r => r

def St.init : St := ⟨fun _ => none, 0, 0, 0, 0⟩

/-- `layout`, ArchData.hpp 603-638, without the initial writes (see `AD.init`) -/
def layout (line : Nat) (segs : List Seg) : Out := placeAll line segs St.init (List.range segs.length)

end Sparta.ArchData.Layout
