import Verif.Common
/-!
Model of `RegisterBits` (/repo/sparta/sparta/functional/RegisterBits.hpp) and of `RegisterBase`, `Register` and `Register::Field`
(/repo/sparta/sparta/functional/Register.hpp), on a little-endian machine.

Simplifications: a `RegisterBits` is a value (the aliasing of views made from a pointer is not modelled; the only views made here, of the argument of a write, are read
only); the bytes of a register are a list of bytes (their place in an `ArchData` is `Verif.ArchData`); `isWritable` is true; the tree of nodes, banks, aliases, callbacks
of `readWithCheck`/`writeWithCheck` and printing are not modelled.
-/
namespace Sparta.Register

/-- The number of bytes and the storage in 64-bit words: `local_storage_` (8 bytes, one word) for up to 8 bytes, else `local_storage_alt_` (RegisterBits.hpp 727-732, 86-98).
The bytes of the word above `n` are part of the storage. -/
structure Bits where
  n : Nat
  ws : List (BitVec 64)
deriving DecidableEq, Repr

/-- the word at 64-bit index `k` -/
def Bits.w (b : Bits) (k : Nat) : BitVec 64 := b.ws.getD k 0

/-- the byte at index `k` -/
def Bits.byte (b : Bits) (k : Nat) : BitVec 8 := (b.w (k / 8)).extractLsb' (8 * (k % 8)) 8

/-- the words allocated for `n` bytes (a number above 8 that is not a multiple of 8 is rounded down: the accesses of the last word are then out of bounds and are failures below) -/
def wordsOf (n : Nat) : Nat := if n ≤ 8 then 1 else n / 8

/-- RegisterBits.hpp 86-98 -/
def Bits.mk0 (n : Nat) : Bits := ⟨n, List.replicate (wordsOf n) 0⟩

/-- RegisterBits.hpp 646-651 `set` of a `uint64_t` (for less than 8 bytes the copy stays within `local_storage_`) -/
def Bits.set (b : Bits) (v : BitVec 64) : Bits := ⟨b.n, b.ws.set 0 v⟩

/-- RegisterBits.hpp 107-122 with a `uint64_t`; `none` = assertion -/
def Bits.mkVal (n : Nat) (v : BitVec 64) : Option Bits := if 8 ≤ n then some ((Bits.mk0 n).set v) else none

/-- the value whose `n` low bytes are 0xff: 660-663 `fill(0xff)` -/
def Bits.ones (n : Nat) : Bits := if n < 8 then ⟨n, [BitVec.allOnes 64 >>> (64 - 8 * n)]⟩ else ⟨n, List.replicate (wordsOf n) (BitVec.allOnes 64)⟩

/-- The operators `|` 209-242 and `&` 245-277 with `bitMerge_` 31-38, for the operation `f` on words. `none` = the invalid `RegisterBits(nullptr)` or an access out of bounds. -/
def Bits.merge (f : (w : Nat) → BitVec w → BitVec w → BitVec w) (a b : Bits) : Option Bits :=
  if a.n = 8 then some ⟨8, [f 64 (a.w 0) (b.w 0)]⟩
  else if a.n = 4 then some ⟨4, [(f 32 ((a.w 0).setWidth 32) ((b.w 0).setWidth 32)).setWidth 64]⟩
  else if a.n > 8 then
    if a.n % 8 = 0 ∧ a.ws.length ≤ b.ws.length then some ⟨a.n, (a.ws.zip b.ws).map fun p => f 64 p.1 p.2⟩ else none
  else if a.n = 2 then some ⟨2, [(f 16 ((a.w 0).setWidth 16) ((b.w 0).setWidth 16)).setWidth 64]⟩
  else if a.n = 1 then some ⟨1, [(f 8 ((a.w 0).setWidth 8) ((b.w 0).setWidth 8)).setWidth 64]⟩
  else none

/-- 209-242 -/
def Bits.or (a b : Bits) : Option Bits := a.merge (fun _ x y => x ||| y) b
/-- 245-277 -/
def Bits.and (a b : Bits) : Option Bits := a.merge (fun _ x y => x &&& y) b

/-- 280-306 `~` with `bitNot_` 41-46 -/
def Bits.not (a : Bits) : Option Bits :=
  if a.n = 8 then some ⟨8, [~~~ a.w 0]⟩
  else if a.n = 4 then some ⟨4, [(~~~ (a.w 0).setWidth 32).setWidth 64]⟩
  else if a.n > 8 then if a.n % 8 = 0 then some ⟨a.n, a.ws.map (~~~ ·)⟩ else none
  else if a.n = 2 then some ⟨2, [(~~~ (a.w 0).setWidth 16).setWidth 64]⟩
  else if a.n = 1 then some ⟨1, [(~~~ (a.w 0).setWidth 8).setWidth 64]⟩
  else none

/-- What the compiled program makes of `-1 >> k` for the `int` -1 and `k ≥ 32` (line 373), which is undefined behaviour: `none`, or a value. All compilers give -1. -/
abbrev UB := Option (BitVec 64)

/-- 371-373 `prev_dbl_word_bits_dropped_mask` for 0 < r < 64: `-1 >> (64 - r)` is -1 for a shift below 32 -/
def dropMask (ub : UB) (r : Nat) : Option (BitVec 64) := if 64 - r < 32 then some (BitVec.allOnes 64) else ub

/-- 375-385: the loop from word 0; each word takes the low bits of the next, not yet shifted -/
def microR (r : Nat) (m : BitVec 64) : List (BitVec 64) → List (BitVec 64)
  | [] => []
  | [w] => [w >>> r]
  | w :: v :: l => ((w >>> r) ||| ((v &&& m) <<< (64 - r))) :: microR r m (v :: l)

/-- 313-398 `>>` with `bitShiftRight_` 49-54 (types narrower than `int` are promoted). `none`: undefined behaviour (shift count not below the width of the promoted type; the unsigned
difference in 365 wraps when more words than there are are shifted and the loop 375-385 then leaves the array), or `RegisterBits(nullptr)` -/
def Bits.shr (ub : UB) (a : Bits) (s : Nat) : Option Bits :=
  if a.n = 8 then if s < 64 then some ⟨8, [a.w 0 >>> s]⟩ else none
  else if a.n = 4 then if s < 32 then some ⟨4, [((a.w 0).setWidth 32 >>> s).setWidth 64]⟩ else none
  else if a.n > 8 then
    if a.n % 8 ≠ 0 then none
    else
      let num := a.n / 8
      let cnt := s / 64
      let moved := a.ws.drop cnt
      let fin := moved ++ List.replicate (num - moved.length) 0
      let r := s % 64
      if cnt = num ∨ r = 0 then some ⟨a.n, fin⟩
      else if cnt > num then none
      else (dropMask ub r).map fun m => ⟨a.n, microR r m (fin.take (num - cnt)) ++ fin.drop (num - cnt)⟩
  else if a.n = 2 then if s < 32 then some ⟨2, [((a.w 0).setWidth 16 >>> s).setWidth 64]⟩ else none
  else if a.n = 1 then if s < 32 then some ⟨1, [((a.w 0).setWidth 8 >>> s).setWidth 64]⟩ else none
  else none

/-- 463-476 and 590-603: the loop from the top word; each word takes the high bits of the one below, not yet shifted (`p` is the word below, 0 for word 0) -/
def microL (r : Nat) (p : BitVec 64) : List (BitVec 64) → List (BitVec 64)
  | [] => []
  | w :: l => ((w <<< r) ||| ((p &&& (BitVec.allOnes 64 <<< (64 - r))) >>> (64 - r))) :: microL r w l

/-- narrow left shifts, 57-62 and 529-536, 607-614: for types narrower than `int` the promoted value must stay below 2^32 (C++17) -/
def shlNarrow (k : Nat) (w : BitVec 64) (s : Nat) : Option (BitVec k) :=
  if s < (if k = 64 then 64 else 32) ∧ (k < 32 → (w.toNat % 2 ^ k) * 2 ^ s < 2 ^ 32) then some (w.setWidth k <<< s) else none

/-- 405-489 `<<` -/
def Bits.shl (a : Bits) (s : Nat) : Option Bits :=
  if a.n = 8 then (shlNarrow 64 (a.w 0) s).map fun x => ⟨8, [x]⟩
  else if a.n = 4 then (shlNarrow 32 (a.w 0) s).map fun x => ⟨4, [x.setWidth 64]⟩
  else if a.n > 8 then
    if a.n % 8 ≠ 0 then none
    else
      let num := a.n / 8
      let cnt := s / 64
      let fin := List.replicate (min cnt num) 0 ++ a.ws.take (num - cnt)
      let r := s % 64
      if r = 0 ∨ num ≤ cnt then some ⟨a.n, fin⟩ else some ⟨a.n, microL r 0 fin⟩
  else if a.n = 2 then (shlNarrow 16 (a.w 0) s).map fun x => ⟨2, [x.setWidth 64]⟩
  else if a.n = 1 then (shlNarrow 8 (a.w 0) s).map fun x => ⟨1, [x.setWidth 64]⟩
  else none

/-- 571-578: the loop that moves words in place, from word `src` on -/
def slideUp (cnt num src : Nat) (ws : List (BitVec 64)) : List (BitVec 64) :=
  if src + cnt < num then slideUp cnt num (src + 1) ((ws.set (src + cnt) (ws.getD src 0)).set src 0) else ws
termination_by num - src

/-- writes the low `k` bits of a word and keeps the others -/
def putLow (k : Nat) (w : BitVec 64) (x : BitVec k) : BitVec 64 := ((w >>> k) <<< k) ||| x.setWidth 64

/-- 526-615 `<<=` (for other sizes nothing is done) -/
def Bits.shlAssign (a : Bits) (s : Nat) : Option Bits :=
  if a.n = 8 then (shlNarrow 64 (a.w 0) s).map fun x => ⟨8, [x]⟩
  else if a.n = 4 then (shlNarrow 32 (a.w 0) s).map fun x => ⟨4, [putLow 32 (a.w 0) x]⟩
  else if a.n > 8 then
    if a.n % 8 ≠ 0 then none
    else
      let num := a.n / 8
      let cnt := s / 64
      let fin := if cnt > 0 then slideUp cnt num 0 a.ws else a.ws
      let r := s % 64
      if r = 0 ∨ num ≤ cnt then some ⟨a.n, fin⟩ else some ⟨a.n, microL r 0 fin⟩
  else if a.n = 2 then (shlNarrow 16 (a.w 0) s).map fun x => ⟨2, [putLow 16 (a.w 0) x]⟩
  else if a.n = 1 then (shlNarrow 8 (a.w 0) s).map fun x => ⟨1, [putLow 8 (a.w 0) x]⟩
  else some a

/-- 491-520 `|=` -/
def Bits.orAssign (a b : Bits) : Option Bits :=
  if a.n = 8 then some ⟨8, [a.w 0 ||| b.w 0]⟩
  else if a.n = 4 then some ⟨4, [putLow 32 (a.w 0) ((a.w 0).setWidth 32 ||| (b.w 0).setWidth 32)]⟩
  else if a.n > 8 then
    if a.n % 8 = 0 ∧ a.ws.length ≤ b.ws.length then some ⟨a.n, (a.ws.zip b.ws).map fun p => p.1 ||| p.2⟩ else none
  else if a.n = 2 then some ⟨2, [putLow 16 (a.w 0) ((a.w 0).setWidth 16 ||| (b.w 0).setWidth 16)]⟩
  else if a.n = 1 then some ⟨1, [putLow 8 (a.w 0) ((a.w 0).setWidth 8 ||| (b.w 0).setWidth 8)]⟩
  else some a

/-- 634-637 `==` -/
def Bits.beq (a b : Bits) : Bool := a.n == b.n && (List.range a.n).all fun k => a.byte k == b.byte k

/-- 713-717 `none`: `memcmp` of the data with itself one byte further; `none` = assertion -/
def Bits.none (a : Bits) : Option Bool :=
  if a.n = 0 then Option.none else some ((List.range (a.n - 1)).all fun k => a.byte k == a.byte (k + 1))

/-- 723-725 `any` -/
def Bits.any (a : Bits) : Option Bool := a.none.map (!·)

/-- 695-701 `dataAs<uint64_t>` -/
def Bits.dataAs (a : Bits) : BitVec 64 := if a.n < 8 then a.w 0 &&& (BitVec.allOnes 64 >>> (64 - 8 * a.n)) else a.w 0

/-- the 64-bit word that begins with these bytes (little-endian, missing bytes 0) -/
def word : List (BitVec 8) → BitVec 64
  | [] => 0
  | b :: l => (word l <<< 8) ||| b.setWidth 64

/-- `n` bytes copied into a fresh `RegisterBits` (Register.hpp 1383-1388, 372-384) or viewed (1220) -/
def Bits.ofBytes (bs : List (BitVec 8)) : Bits :=
  ⟨bs.length, (List.range (wordsOf bs.length)).map fun k => word (bs.drop (8 * k))⟩

/-- the first `size` bytes -/
def Bits.toBytes (b : Bits) (size : Nat) : List (BitVec 8) := (List.range size).map b.byte

/-! ### Registers -/

/-- Register.hpp 168-207 -/
structure FieldDef where
  low : Nat
  high : Nat
  ro : Bool
deriving DecidableEq, Repr

/-- Register.hpp 548-680: the size and the fields -/
structure Def where
  bytes : Nat
  fields : List FieldDef
deriving DecidableEq, Repr

/-- Register.hpp 1357-1381 `computeWriteMask_`: the loop -/
def roMask (ub : UB) (n : Nat) : List FieldDef → Bits → Option Bits
  | [], m => some m
  | f :: fs, m =>
    if f.ro then
      ((Bits.ones n).shr ub (8 * n - (f.high - f.low + 1))).bind fun p =>
      (p.shl f.low).bind fun q =>
      (m.orAssign q).bind fun m' => roMask ub n fs m'
    else roMask ub n fs m

/-- Register.hpp 1357-1381 -/
def writeMask (ub : UB) (d : Def) : Option Bits := (roMask ub d.bytes d.fields (Bits.mk0 d.bytes)).bind Bits.not

/-- Register.hpp 138-150 `computeFieldMask_` -/
def fieldMask (n : Nat) (f : FieldDef) : Option Bits :=
  ((Bits.mk0 n).set (BitVec.allOnes 64 >>> (64 - (f.high - f.low + 1)))).shlAssign f.low

/-- Register.hpp 229-252: the checks of the constructor of `Field` -/
def FieldDef.ok (n : Nat) (f : FieldDef) : Bool := f.low ≤ f.high && f.low < 8 * n && f.high < 8 * n && f.high - f.low + 1 ≤ 64

/-- a register: `mask_`, the fields with `field_mask_` and `not_field_mask_`, and its bytes -/
structure Reg where
  n : Nat
  mask : Bits
  fields : List (FieldDef × Bits × Bits)
  mem : List (BitVec 8)
deriving DecidableEq

/-- Register.hpp 722-786 (size checked in 762), 1359 and 216-256, with initial value `mem`; `none` = exception or undefined behaviour. (The masks of a field are computed before its checks; for fields
without or with more than 64 bits the shift in line 146 is then already undefined.) -/
def Reg.make (ub : UB) (d : Def) (mem : List (BitVec 8)) : Option Reg :=
  if d.bytes = 0 ∨ 2 ^ Nat.log2 d.bytes ≠ d.bytes ∨ d.fields.all (·.ok d.bytes) = false ∨ mem.length ≠ d.bytes then none
  else
    (writeMask ub d).bind fun m =>
    (d.fields.mapM fun f => (fieldMask d.bytes f).bind fun k => k.not.map fun nk => (f, k, nk)).map fun fs => ⟨d.bytes, m, fs, mem⟩

inductive Res where
  /-- exception -/
  | threw
  /-- undefined behaviour -/
  | ub
  | bytes (bs : List (BitVec 8))
  | val (v : BitVec 64)
  | done
  /-- written, with the prior and the final value in the notification to observers -/
  | wrote (prior final : List (BitVec 8))
deriving DecidableEq

/-- ArchData.hpp 335-341: `size` bytes from `off` -/
def slice (mem : List (BitVec 8)) (size off : Nat) : List (BitVec 8) := (mem.drop off).take size

/-- ArchData.hpp 375-382 -/
def splice (mem : List (BitVec 8)) (off : Nat) (bs : List (BitVec 8)) : List (BitVec 8) := mem.take off ++ bs ++ mem.drop (off + bs.length)

/-- Register.hpp 1220-1222 and 1237-1239: the bytes that replace the old ones under the write mask -/
def Reg.masked (ub : UB) (g : Reg) (bs : List (BitVec 8)) (off : Nat) : Option (List (BitVec 8)) :=
  (g.mask.shr ub (8 * off)).bind fun mask =>
  mask.not.bind fun nmask =>
  ((Bits.ofBytes (slice g.mem bs.length off)).and nmask).bind fun a =>
  ((Bits.ofBytes bs).and mask).bind fun b =>
  (a.or b).map fun r => r.toBytes bs.length

inductive Op where
  | read (size off : Nat)
  | peek (size off : Nat)
  | write (bs : List (BitVec 8)) (off : Nat)
  | poke (bs : List (BitVec 8)) (off : Nat)
  /-- through a reference to the base class -/
  | writeUnmasked (bs : List (BitVec 8)) (off : Nat)
  | pokeUnmasked (bs : List (BitVec 8)) (off : Nat)
  /-- `Register::writeUnmasked<T>(val, idx)`, `bs` the bytes of the value -/
  | writeUnmaskedT (bs : List (BitVec 8)) (idx : Nat)
  | fieldRead (k : Nat)
  | fieldWrite (k : Nat) (v : BitVec 64)
  | fieldPoke (k : Nat) (v : BitVec 64)
  | fieldPokeUnmasked (k : Nat) (v : BitVec 64)
deriving DecidableEq

/-- Register.hpp 1609-1621 `write_` with an observer -/
def Reg.put (g : Reg) (bs : List (BitVec 8)) (off : Nat) : Reg × Res :=
  ({ g with mem := splice g.mem off bs }, .wrote g.mem (splice g.mem off bs))

/-- Register.hpp 1623-1628 `poke_` -/
def Reg.quiet (g : Reg) (bs : List (BitVec 8)) (off : Nat) : Reg × Res := ({ g with mem := splice g.mem off bs }, .done)

/-- Register.hpp 268-281: `read` and `peek` of a field -/
def Reg.fieldRead (ub : UB) (g : Reg) (f : FieldDef) (m : Bits) : Option (BitVec 64) :=
  ((Bits.ofBytes g.mem).and m).bind fun a => (a.shr ub f.low).map Bits.dataAs

/-- Register.hpp 401-415 `newRegisterValue_` -/
def Reg.newValue (g : Reg) (f : FieldDef) (nm : Bits) (v : BitVec 64) : Except Res (List (BitVec 8)) :=
  match (Bits.mkVal (max g.n 8) v).bind fun x => x.shlAssign f.low with
  | none => .error .ub
  | some fv =>
    match (fv.and nm).bind Bits.none with
    | none => .error .ub
    | some false => .error .threw
    | some true =>
      match ((Bits.ofBytes g.mem).and nm).bind fun a => a.or fv with
      | none => .error .ub
      | some r => .ok (r.toBytes g.n)

/-- Register.hpp 1204-1248 (bounds checks), 1571-1575 with 1641-1646, 1588-1602, 268-312 -/
def Reg.step (ub : UB) (g : Reg) : Op → Reg × Res
  | .read size off => if off + size ≤ g.n then (g, .bytes (slice g.mem size off)) else (g, .threw)
  | .peek size off => if off + size ≤ g.n then (g, .bytes (slice g.mem size off)) else (g, .threw)
  | .write bs off =>
    if off + bs.length ≤ g.n then
      match g.masked ub bs off with
      | some r => g.put r off
      | none => (g, .ub)
    else (g, .threw)
  | .poke bs off =>
    if off + bs.length ≤ g.n then
      match g.masked ub bs off with
      | some r => g.quiet r off
      | none => (g, .ub)
    else (g, .threw)
  | .writeUnmasked bs off => if off + bs.length ≤ g.n then g.put bs off else (g, .threw)
  | .pokeUnmasked bs off => if off + bs.length ≤ g.n then g.quiet bs off else (g, .threw)
  | .writeUnmaskedT bs idx => if idx + bs.length ≤ g.n then g.quiet bs idx else (g, .ub)
  | .fieldRead k =>
    match g.fields[k]? with
    | some (f, m, _) =>
      match g.fieldRead ub f m with
      | some v => (g, .val v)
      | none => (g, .ub)
    | none => (g, .threw)
  | .fieldWrite k v =>
    match g.fields[k]? with
    | some (f, _, nm) =>
      match g.newValue f nm v with
      | .ok bs =>
        match g.masked ub bs 0 with
        | some r => g.put r 0
        | none => (g, .ub)
      | .error e => (g, e)
    | none => (g, .threw)
  | .fieldPoke k v =>
    match g.fields[k]? with
    | some (f, _, nm) =>
      match g.newValue f nm v with
      | .ok bs =>
        match g.masked ub bs 0 with
        | some r => g.quiet r 0
        | none => (g, .ub)
      | .error e => (g, e)
    | none => (g, .threw)
  | .fieldPokeUnmasked k v =>
    match g.fields[k]? with
    | some (f, _, nm) =>
      match g.newValue f nm v with
      | .ok bs => g.quiet bs 0
      | .error e => (g, e)
    | none => (g, .threw)

end Sparta.Register
