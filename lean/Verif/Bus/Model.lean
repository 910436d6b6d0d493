import Verif.Strings.Model
/-!
Model of `sparta::Bus::bind` (sparta/sparta/ports/Bus.hpp): two buses are bound by matching the names of their ports.

A port is its name and the type of its data. The maps of ports by name and by stripped name are lists of pairs without repetitions; the order of an
`unordered_map` is not specified, here it is the order of the list. Binding two ports succeeds exactly if the types of their data agree
(DataPort.hpp:115-124 and 353-361); other kinds of ports and ports that are already bound are not modelled.
-/
namespace Sparta.Bus
open Strings (Str stripPattern)

/-- a port: its name and the type of its data -/
structure Port where
  name : Str
  ty : Nat
deriving DecidableEq

/-- Bus.hpp:54-63: the name by which a port is matched; `kw` is "in" or "out" -/
def key (kw name : Str) : Option Str :=
  match stripPattern (kw ++ ['_']) name with
  | none => none
  | some a => match stripPattern ('_' :: kw) a with
    | none => none
    | some b => some (b.filter (· != '_'))

/-- Bus.hpp:47-70: `none` if two ports cannot be told apart -/
def populate (kw : Str) : List Port → List (Str × Port) → Option (List (Str × Port))
  | [], m => some m
  | p :: ps, m =>
    match key kw p.name with
    | none => none
    | some k => if (m.lookup k).isSome then none else populate kw ps (m ++ [(k, p)])

/-- Bus.hpp:72-90: the ports without an equivalent in the other map -/
def checkBinding (m1 m2 : List (Str × Port)) : List Port :=
  (m1.filter (fun e => (m2.lookup e.1).isNone)).map (·.2) ++ (m2.filter (fun e => (m1.lookup e.1).isNone)).map (·.2)

/-- Bus.hpp:92-103 with DataPort.hpp:115-124 and 353-361: the pairs bound, and whether an exception ended the loop -/
def bindPorts (m2 : List (Str × Port)) : List (Str × Port) → List (Port × Port) × Bool
  | [] => ([], true)
  | e :: es =>
    match m2.lookup e.1 with
    | none => ([], false)
    | some q =>
      if e.2.ty = q.ty then
        let (l, good) := bindPorts m2 es
        ((e.2, q) :: l, good)
      else ([], false)

/-- the in and out ports of a bus -/
structure Bus where
  ins : List Port
  outs : List Port

/-- Bus.hpp:223-255: the pairs of ports bound, this bus' port first, and whether the call returns -/
def bind (a b : Bus) : List (Port × Port) × Bool :=
  match populate "in".toList a.ins [], populate "out".toList a.outs [],
    populate "in".toList b.ins [], populate "out".toList b.outs [] with
  | some ai, some ao, some bi, some bo =>
    if (checkBinding ai bo ++ checkBinding ao bi).length ≠ 0 then ([], false)
    else
      let (l, good) := bindPorts bo ai
      if good then
        let (l', good') := bindPorts bi ao
        (l ++ l', good')
      else (l, false)
  | _, _, _, _ => ([], false)

end Sparta.Bus
