import Verif.CachedMem.Model

/-!
# Specification of cached memory

There is one memory. Every cache has a list of writes that it did and that are not yet in the memory; it sees
the memory with its own writes on top, in their order.
-/

namespace Sparta.CachedMem

open Sparta.MemoryMap (wordSize)
open Sparta.MemIf (Bytes)

structure SW where
  uid : Nat
  addr : Nat
  data : Bytes

/-- a cache: its writes, oldest first; the identity of its latest write; the blocks it holds -/
structure SCache where
  writes : List SW
  uid : Nat
  held : Nat → Bool

structure Spec where
  bs : Nat
  total : Nat
  wm : Nat
  mem : Nat → UInt8
  n : Nat
  caches : Nat → SCache

/-- memory with writes on top -/
def view (mem : Nat → UInt8) : List SW → Nat → UInt8
  | [] => mem
  | w :: ws => view (put mem w.addr w.data) ws

def bytes (f : Nat → UInt8) (a k : Nat) : Bytes := (List.range k).map fun j => f (a + j)

def Spec.init (lsb total wm n : Nat) (ids : Nat → Nat) (mem : Nat → UInt8) : Spec :=
  ⟨2 ^ lsb, total, wm, mem, n, fun c => ⟨[], ids c * idUnit, fun _ => false⟩⟩

def Spec.see (t : Spec) (c : Nat) : Nat → UInt8 := view t.mem (t.caches c).writes

def Spec.fits (t : Spec) (a k : Nat) : Bool := decide (a + k ≤ t.total)

def Spec.oneBlock (t : Spec) (a k : Nat) : Bool := a / t.bs == (a + k - 1) / t.bs

def Spec.set (t : Spec) (c : Nat) (x : SCache) : Spec := { t with caches := upd t.caches c x }

/-- what is reported of writes: each with the bytes that would be seen without it and the newer ones -/
def report (mem : Nat → UInt8) : List SW → List W
  | [] => []
  | w :: ws => ⟨w.uid, w.addr, w.data, bytes mem w.addr w.data.length⟩ :: report (put mem w.addr w.data) ws

def SW.covers (w : SW) (a : Nat) : Bool := decide (w.addr ≤ a) && decide (a < w.addr + w.data.length)

def Spec.step (t : Spec) : Op → Spec × Res
  | .tryRead c a k =>
    (t, if t.oneBlock a k && t.fits a k then .data (bytes (t.see c) a k) else .no)
  | .tryPeek c a k => (t, if t.fits a k then .data (bytes (t.see c) a k) else .no)
  | .tryWrite c a bs =>
    let x := t.caches c
    if t.oneBlock a bs.length && t.fits a bs.length then
      if x.writes.length = t.wm then (t, .threw)
      else (t.set c ⟨x.writes ++ [⟨x.uid + 1, a, bs⟩], x.uid + 1, upd x.held (a / t.bs) true⟩, .yes)
    else (t, .no)
  | .tryPoke _ a bs => if t.fits a bs.length then ({ t with mem := put t.mem a bs }, .yes) else (t, .no)
  | .commit c uid =>
    match (t.caches c).writes with
    | [] => (t, .threw)
    | w :: ws =>
      if w.uid = uid then
        ({ t.set c { t.caches c with writes := ws } with mem := put t.mem w.addr w.data }, .yes)
      else (t, .threw)
  | .drop c uid =>
    let x := t.caches c
    if x.writes.any (fun w => w.uid == uid) then
      (t.set c { x with writes := x.writes.takeWhile fun w => w.uid != uid }, .yes)
    else (t, .threw)
  | .pending c => (t, .writes (report t.mem (t.caches c).writes))
  | .pendingFor c a => (t, .writes ((report t.mem (t.caches c).writes).filter fun w => w.covers a))
  | .last c =>
    match (report t.mem (t.caches c).writes).getLast? with
    | none => (t, .threw)
    | some w => (t, .writes [w])
  | .device a bs => if t.fits a bs.length then ({ t with mem := put t.mem a bs }, .yes) else (t, .no)

def sized (a k : Nat) : Prop := 0 < k ∧ a + k < wordSize

instance (a k : Nat) : Decidable (sized a k) := inferInstanceAs (Decidable (_ ∧ _))

/-- every cache other than `src` holds the block of the address -/
def Spec.allHold (t : Spec) (src : Option Nat) (a : Nat) : Prop :=
  ∀ c, c < t.n → src ≠ some c → (t.caches c).held (a / t.bs) = true

instance (t : Spec) (src a) : Decidable (t.allHold src a) :=
  decidable_of_iff (∀ c ∈ List.range t.n, src ≠ some c → (t.caches c).held (a / t.bs) = true)
    ⟨fun h c hc => h c (List.mem_range.2 hc), fun h c hc => h c (List.mem_range.1 hc)⟩

/-- the byte can be poked through cache `c`: it holds the block and has no write over the byte, and no other
cache holds the block -/
def Spec.pokeable (t : Spec) (c a : Nat) : Prop :=
  (t.caches c).held (a / t.bs) = true ∧ (∀ w ∈ (t.caches c).writes, w.covers a = false) ∧
    ∀ d, d < t.n → d ≠ c → (t.caches d).held (a / t.bs) = false

instance (t : Spec) (c a) : Decidable (t.pokeable c a) :=
  decidable_of_iff ((t.caches c).held (a / t.bs) = true ∧ (∀ w ∈ (t.caches c).writes, w.covers a = false) ∧
    ∀ d ∈ List.range t.n, d ≠ c → (t.caches d).held (a / t.bs) = false)
    ⟨fun h => ⟨h.1, h.2.1, fun d hd => h.2.2 d (List.mem_range.2 hd)⟩,
     fun h => ⟨h.1, h.2.1, fun d hd => h.2.2 d (List.mem_range.1 hd)⟩⟩

/-- Calls allowed: existing caches, accesses with a size that end below 2^64; pokes only of pokeable bytes; a
commit and a write of a device only when all other caches hold the block; a write of a device in one block. -/
def Spec.legal (t : Spec) : Op → Prop
  | .tryRead c a k => c < t.n ∧ sized a k
  | .tryPeek c a k => c < t.n ∧ sized a k
  | .tryWrite c a bs => c < t.n ∧ sized a bs.length
  | .tryPoke c a bs => c < t.n ∧ sized a bs.length ∧
      (t.fits a bs.length = true → ∀ j, j ∈ List.range bs.length → t.pokeable c (a + j))
  | .commit c _ => c < t.n ∧ ∀ w ∈ (t.caches c).writes.head?, t.allHold (some c) w.addr
  | .drop c _ => c < t.n
  | .pending c => c < t.n
  | .pendingFor c _ => c < t.n
  | .last c => c < t.n
  | .device a bs => sized a bs.length ∧ t.fits a bs.length = true ∧ t.oneBlock a bs.length = true ∧ t.allHold none a

instance (t : Spec) (o : Op) : Decidable (t.legal o) := by
  cases o <;> unfold Spec.legal <;> infer_instance

end Sparta.CachedMem
