import Verif.MemIf.Model
import Verif.ArchData.Spec

/-!
# Specification of memory interfaces

Memory objects are functions from offsets to bytes. Every address of every interface either denotes
one byte of one object, or nothing.
-/

namespace Sparta.MemIf

open Sparta.MemoryMap (wordSize Mapping)

inductive SKind where
  | obj (o : Nat)
  | map (ms : List Mapping)

/-- an interface: block size, addresses below `total`, what it leads to -/
structure SNode where
  bs : Nat
  total : Nat
  kind : SKind

structure Spec where
  nObj : Nat
  nNode : Nat
  objs : Nat → Option ArchData.Spec
  nodes : Nat → Option SNode
  reads : Nat → Nat
  writes : Nat → Nat
  obsR : Nat → Bool
  obsW : Nat → Bool
  notes : List Note
  dmis : List Dmi

def Spec.empty : Spec :=
  ⟨0, 0, fun _ => none, fun _ => none, fun _ => 0, fun _ => 0, fun _ => false, fun _ => false, [], []⟩

/-- the interfaces an access to address `a` of interface `i` passes, each with the address there, and
the byte it ends at, as object and offset -/
def walk (nodes : Nat → Option SNode) : Nat → Nat → Nat → List (Nat × Nat) × Option (Nat × Nat)
  | 0, _, _ => ([], none)
  | d + 1, i, a =>
    match nodes i with
    | none => ([], none)
    | some n =>
      if a < n.total then
        match n.kind with
        | .obj o => ([(i, a)], some (o, a))
        | .map ms =>
          match ms.find? (fun m => decide (m.start ≤ a) && decide (a < m.stop)) with
          | none => ([(i, a)], none)
          | some m =>
            let r := walk nodes d m.memif (m.destOff + (a - m.start))
            ((i, a) :: r.1, r.2)
      else ([(i, a)], none)

/-- the byte an address of an interface denotes -/
def Spec.loc (t : Spec) (i a : Nat) : Option (Nat × Nat) := (walk t.nodes (i + 1) i a).2

/-- the interfaces an access passes -/
def Spec.trail (t : Spec) (i a : Nat) : List (Nat × Nat) := (walk t.nodes (i + 1) i a).1

/-- every address of the range denotes a byte -/
def Spec.mapped (t : Spec) (i a k : Nat) : Bool := (List.range k).all fun j => (t.loc i (a + j)).isSome

/-- the value of an address -/
def Spec.byte (t : Spec) (i a : Nat) : UInt8 :=
  match t.loc i a with
  | none => 0
  | some (o, x) =>
    match t.objs o with
    | none => 0
    | some m => m.mem x

def Spec.load (t : Spec) (i a k : Nat) : Bytes := (List.range k).map fun j => t.byte i (a + j)

/-- assign to one address -/
def Spec.setByte (t : Spec) (i a : Nat) (b : UInt8) : Spec :=
  match t.loc i a with
  | none => t
  | some (o, x) => { t with objs := upd t.objs o ((t.objs o).map fun m => { m with mem := upd m.mem x b }) }

/-- assign to consecutive addresses -/
def Spec.store (t : Spec) (i a : Nat) : Bytes → Spec
  | [] => t
  | b :: bs => (t.setByte i a b).store i (a + 1) bs

/-- the range is in more than one block -/
def Spec.crosses (t : Spec) (i a k : Nat) : Bool :=
  match t.nodes i with
  | none => false
  | some n => a / n.bs != (a + k - 1) / n.bs

/-- the interfaces that count an access: all it passes, or only the first when it crosses blocks -/
def Spec.counted (t : Spec) (i a k : Nat) : List Nat :=
  if t.crosses i a k then [i] else (t.trail i a).map (·.1)

/-- add one for every interface of a list without duplicates -/
def bump (f : Nat → Nat) (l : List Nat) : Nat → Nat := fun j => if j ∈ l then f j + 1 else f j

/-- reads succeed when the range is in one block and every address denotes a byte; observers are told,
innermost interface first -/
def Spec.tryRead (t : Spec) (i a k : Nat) : Spec × Option Bytes :=
  let t1 := { t with reads := bump t.reads (t.counted i a k) }
  if t.crosses i a k = false ∧ t.mapped i a k = true then
    let d := t.load i a k
    ({ t1 with notes := t.notes ++
      ((t.trail i a).reverse.filter (fun p => t.obsR p.1)).map (fun p => Note.read p.1 p.2 d) }, some d)
  else (t1, none)

/-- a list up to and including the first element with a property -/
def upTo (p : Nat → Bool) : List Nat → List Nat
  | [] => []
  | x :: l => if p x then [x] else x :: upTo p l

/-- writes likewise; a write that fails is not passed on by an interface whose writes are observed -/
def Spec.tryWrite (t : Spec) (i a : Nat) (bs : Bytes) : Spec × Bool :=
  let k := bs.length
  if t.crosses i a k = false ∧ t.mapped i a k = true then
    let t2 := { t with writes := bump t.writes (t.counted i a k) }.store i a bs
    ({ t2 with notes := t.notes ++
      ((t.trail i a).reverse.filter (fun p => t.obsW p.1)).map (fun p => Note.write p.1 p.2 (t.load i a k) bs) }, true)
  else ({ t with writes := bump t.writes (upTo t.obsW (t.counted i a k)) }, false)

/-- peeks may cross blocks and change nothing -/
def Spec.tryPeek (t : Spec) (i a k : Nat) : Option Bytes :=
  if t.mapped i a k then some (t.load i a k) else none

/-- how many addresses before the first that denotes nothing -/
def Spec.reach (t : Spec) (i a k : Nat) : Nat :=
  ((List.range k).takeWhile fun j => (t.loc i (a + j)).isSome).length

def Spec.within (t : Spec) (i a k : Nat) : Bool :=
  match t.nodes i with
  | none => false
  | some n => a + k ≤ n.total

/-- pokes may cross blocks; a poke inside the address range of the interface writes up to the first
address that denotes nothing -/
def Spec.tryPoke (t : Spec) (i a : Nat) (bs : Bytes) : Spec × Bool :=
  if t.within i a bs.length then
    (t.store i a (bs.take (t.reach i a bs.length)), t.reach i a bs.length == bs.length)
  else (t, false)

/-- the reason given for a refused access -/
def Spec.accessError (t : Spec) (i a k : Nat) : Err :=
  let tail : Err :=
    if t.crosses i a k then .span
    else if t.within i a k then .unknown
    else .window
  match t.nodes i with
  | none => .unknown
  | some n =>
    match n.kind with
    | .obj _ => tail
    | .map ms =>
      match ms.find? (fun m => decide (m.start ≤ a) && decide (a < m.stop)) with
      | none => .noMapping
      | some m => if a + k ≤ m.stop then tail else .spansMapping

def Spec.debugError (t : Spec) (i a k : Nat) : Err := if t.within i a k then .unknown else .window

/-- a new mapping is refused unless it fits -/
def acceptable (n target : SNode) (ms : List Mapping) (start stop dest : Nat) : Bool :=
  decide (target.bs = n.bs) && decide (start < stop) && decide (start % n.bs = 0) &&
    decide (stop % n.bs = 0) && decide (dest % n.bs = 0) && decide (stop - start + dest ≤ target.total) &&
    ms.all fun m => decide (m.stop ≤ start) || decide (stop ≤ m.start)

/-- the object node at the end of the walk and the address there -/
def Spec.last (t : Spec) (i a : Nat) : Nat × Nat := (t.trail i a).getLastD (0, 0)

/-- a direct interface covers one block of an object, under the addresses of the object -/
def Spec.getDMI (t : Spec) (i a k : Nat) : Spec × Option Nat :=
  if t.crosses i a k then (t, none)
  else
    match t.loc i a, t.nodes (t.last i a).1 with
    | some (o, x), some n =>
      let start := x / n.bs * n.bs
      match t.dmis.findIdx? (fun y => y.node == (t.last i a).1 && y.start == start) with
      | some h => (t, some h)
      | none => ({ t with dmis := t.dmis ++ [⟨(t.last i a).1, o, start, n.bs, true⟩] }, some t.dmis.length)
    | _, _ => (t, none)

def Dmi.covers (x : Dmi) (a k : Nat) : Bool := x.valid && decide (x.start ≤ a) && decide (a + k ≤ x.start + x.size)

def Spec.step (t : Spec) : Op → Spec × Res
  | .newObj lsb fill fsz size =>
    if (fsz = 1 ∨ fsz = 2 ∨ fsz = 4 ∨ fsz = 8) ∧ fill < 2 ^ (8 * fsz) ∧ lsb ≤ 31 ∧ size ≠ 0 ∧ size % 2 ^ lsb = 0 then
      ({ t with nObj := t.nObj + 1, objs := upd t.objs t.nObj (some (ArchData.Spec.init lsb fill fsz size [])) },
        .id t.nObj)
    else (t, .threw)
  | .newObjNode o =>
    match t.objs o with
    | none => (t, .threw)
    | some m =>
      ({ t with nNode := t.nNode + 1, nodes := upd t.nodes t.nNode (some ⟨2 ^ m.lsb, m.size, .obj o⟩) }, .id t.nNode)
  | .newMapNode bs total =>
    if bs ≠ 0 ∧ 2 ^ bs.log2 = bs ∧ 0 < total ∧ total % bs = 0 then
      ({ t with nNode := t.nNode + 1, nodes := upd t.nodes t.nNode (some ⟨bs, total, .map []⟩) }, .id t.nNode)
    else (t, .threw)
  | .addMapping i start stop memif dest =>
    match t.nodes i, t.nodes memif with
    | some n, some target =>
      match n.kind with
      | .obj _ => (t, .threw)
      | .map ms =>
        if acceptable n target ms start stop dest then
          ({ t with nodes := upd t.nodes i (some { n with kind := .map (ms ++ [⟨start, stop, dest, memif⟩]) }) }, .yes)
        else (t, .refused)
    | _, _ => (t, .threw)
  | .observe i r w => ({ t with obsR := upd t.obsR i r, obsW := upd t.obsW i w }, .yes)
  | .tryRead i a k => let (t', r) := t.tryRead i a k; (t', match r with | none => .no | some d => .data d)
  | .tryWrite i a bs => let (t', r) := t.tryWrite i a bs; (t', if r then .yes else .no)
  | .tryPeek i a k => (t, match t.tryPeek i a k with | none => .no | some d => .data d)
  | .tryPoke i a bs => let (t', r) := t.tryPoke i a bs; (t', if r then .yes else .no)
  | .read i a k =>
    let (t', r) := t.tryRead i a k; (t', match r with | none => .err (t.accessError i a k) | some d => .data d)
  | .write i a bs =>
    let (t', r) := t.tryWrite i a bs; (t', if r then .yes else .err (t.accessError i a bs.length))
  | .peek i a k => (t, match t.tryPeek i a k with | none => .err (t.debugError i a k) | some d => .data d)
  | .poke i a bs =>
    let (t', r) := t.tryPoke i a bs; (t', if r then .yes else .err (t.debugError i a bs.length))
  | .getDMI i a k => let (t', r) := t.getDMI i a k; (t', match r with | none => .null | some h => .id h)
  | .dmiRead h a k =>
    match t.dmis[h]? with
    | none => (t, .threw)
    | some x =>
      (t, if x.covers a k then .data ((List.range k).map fun j =>
          match t.objs x.obj with | none => 0 | some m => m.mem (a + j)) else .no)
  | .dmiWrite h a bs =>
    match t.dmis[h]? with
    | none => (t, .threw)
    | some x =>
      if x.covers a bs.length then
        ({ t with objs := upd t.objs x.obj ((t.objs x.obj).map fun m => m.store a bs) }, .yes)
      else (t, .no)
  | .invalidate i =>
    ({ t with dmis := t.dmis.map fun x => if x.node = i then { x with valid := false } else x }, .yes)

/-- an access of at least one byte that does not reach the end of the 64 bit address space -/
def sized (a k : Nat) : Prop := 0 < k ∧ a + k < wordSize

instance (a k : Nat) : Decidable (sized a k) := inferInstanceAs (Decidable (_ ∧ _))

/-- Calls allowed: memory objects up to 2^63 bytes; map blocks below 2^31 bytes; a map is given
interfaces constructed before it, and address ranges that do not overflow; accesses go to existing
interfaces and have a size; a DMI is asked for at an address that denotes a byte. -/
def Spec.legal (t : Spec) : Op → Prop
  | .newObj _ _ _ size => size ≤ 2 ^ 63
  | .newObjNode _ => True
  | .newMapNode bs total => bs < 2 ^ 31 ∧ total < wordSize
  | .addMapping i start stop memif dest =>
    memif < i ∧ start < wordSize ∧ stop < wordSize ∧ dest < wordSize ∧ stop - start + dest < wordSize
  | .observe _ _ _ => True
  | .tryRead i a k => i < t.nNode ∧ sized a k
  | .tryWrite i a bs => i < t.nNode ∧ sized a bs.length
  | .tryPeek i a k => i < t.nNode ∧ sized a k
  | .tryPoke i a bs => i < t.nNode ∧ sized a bs.length
  | .read i a k => i < t.nNode ∧ sized a k
  | .write i a bs => i < t.nNode ∧ sized a bs.length
  | .peek i a k => i < t.nNode ∧ sized a k
  | .poke i a bs => i < t.nNode ∧ sized a bs.length
  | .getDMI i a k => i < t.nNode ∧ sized a k ∧ (t.loc i a).isSome = true
  | .dmiRead _ a k => sized a k
  | .dmiWrite _ a bs => sized a bs.length
  | .invalidate _ => True

instance (t : Spec) (o : Op) : Decidable (t.legal o) := by
  cases o <;> unfold Spec.legal <;> infer_instance

end Sparta.MemIf
