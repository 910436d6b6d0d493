import Verif.ArchData.Model
/-!
Specification of an architectural memory: a function from addresses to bytes.
-/
namespace Sparta.ArchData

/-- byte `k` of a number, least significant first -/
def byteOf (v k : Nat) : UInt8 := UInt8.ofNat (v / 256 ^ k)

structure Spec where
  lsb : Nat
  fill : Nat
  fsz : Nat
  size : Nat
  inits : List (Nat × List UInt8)
  mem : Nat → UInt8

/-- the value of memory that was never written: the fill pattern, restarted at every line -/
def Spec.blank (s : Spec) (a : Nat) : UInt8 := byteOf s.fill ((a % 2 ^ s.lsb) % s.fsz)

/-- an access must start inside the memory and stay within one line -/
def Spec.inLine (s : Spec) (a n : Nat) : Bool := a < s.size && a % 2 ^ s.lsb + n ≤ 2 ^ s.lsb

def Spec.load (s : Spec) (a n : Nat) : List UInt8 := (List.range n).map fun j => s.mem (a + j)

def Spec.store (s : Spec) (a : Nat) (bs : List UInt8) : Spec :=
  { s with mem := fun x => if a ≤ x ∧ x < a + bs.length then bs.getD (x - a) 0 else s.mem x }

/-- writes that are rejected are ignored -/
def Spec.stores (s : Spec) : List (Nat × List UInt8) → Spec
  | [] => s
  | (a, bs) :: l => (if s.inLine a bs.length then s.store a bs else s).stores l

def Spec.init (lsb fill fsz size : Nat) (inits : List (Nat × List UInt8)) : Spec :=
  let s : Spec := ⟨lsb, fill, fsz, size, inits, fun _ => 0⟩
  ({ s with mem := s.blank }).stores inits

def Spec.step (s : Spec) : Op → Spec × Res
  | .read a n => (s, if s.inLine a n then .data (s.load a n) else .threw)
  | .peek a n => (s, if s.inLine a n then .data (s.load a n) else .threw)
  | .write a bs => if s.inLine a bs.length then (s.store a bs, .ok) else (s, .threw)
  | .clean => ({ s with mem := s.blank }, .ok)
  | .reset => (({ s with mem := s.blank }).stores s.inits, .ok)

/-- buffers have fewer than 2^63 bytes; the non-allocating read stays inside the memory -/
def Spec.legal (s : Spec) : Op → Prop
  | .read _ n => n < 2 ^ 63
  | .peek a n => n < 2 ^ 63 ∧ (a + n ≤ s.size ∨ s.size ≤ a ∨ s.size % 2 ^ s.lsb = 0)
  | .write _ bs => bs.length < 2 ^ 63
  | _ => True

end Sparta.ArchData
