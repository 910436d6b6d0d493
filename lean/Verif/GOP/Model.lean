import Verif.DAG.Model
/-!
Model of global ordering points and of the precedence operators (sparta/sparta/events/GlobalOrderingPoint.hpp, Precedence.hpp,
sparta/sparta/kernel/DAG.hpp), on top of the model of the graph.

Events are numbered in the order in which they are made. Not modelled: early cycle detection, calls after the graph is finalized (they are
refused by an assertion), events of different schedulers, ports, groups of events.
-/
namespace Sparta.GOP
open Sparta.DAG (G)

/-- DAG.cpp:147-153: the names of the points of the phases, in order -/
def phaseNames : List String := ["Trigger", "Update", "PortUpdate", "Flush", "Collection", "Tick", "PostTick"]

/-- DAG.hpp:214-221: the graph, `gops_`, and `vertex_` of each event; `next` is the next vertex the factory hands out -/
structure S where
  g : G
  gops : List (String × Nat)
  evs : List Nat
  next : Nat

/-- DAG.cpp:138-165 `initializeDAG_` -/
def S.init : S := ⟨G.init false, phaseNames.zip (List.range 7), [], 7⟩

/-- DAG.hpp:151-155 `findGOPVertex` -/
def find : List (String × Nat) → String → Option Nat
  | [], _ => none
  | (k, v) :: l, n => if k = n then some v else find l n

/-- DAG.hpp:177-184 `getGOPoint`, 164-170 `newGOPVertex` -/
def S.point (s : S) (n : String) : S × Nat :=
  match find s.gops n with
  | some v => (s, v)
  | none => ({ s with gops := (n, s.next) :: s.gops, next := s.next + 1 }, s.next)

/-- DAG.cpp:168-195 `link` -/
def S.link (s : S) (v w : Nat) : S := { s with g := (s.g.step (.link v w)).1 }

inductive Op where
  /-- an event of phase `p` is made (0 = Trigger .. 6 = PostTick) -/
  | event (p : Nat)
  /-- event `i` >> event `j` -/
  | order (i j : Nat)
  /-- event `i` >> GlobalOrderingPoint(node, n) -/
  | before (i : Nat) (n : String)
  /-- GlobalOrderingPoint(node, n) >> event `j` -/
  | after (n : String) (j : Nat)

/-- one call; a call for an event that does not exist or a phase that does not exist cannot be made and changes nothing -/
def S.step (s : S) : Op → S × Unit
  -- Scheduleable.cpp:50-53 `setVertex`, 112-157 the phase
  | .event p =>
    if p < 7 then ({ s with g := (s.g.step (.phase p s.next)).1, evs := s.evs ++ [s.next], next := s.next + 1 }, ()) else (s, ())
  -- Precedence.hpp:293-301 and the like, Scheduleable.cpp:56-76 `precedes`
  | .order i j =>
    match s.evs[i]?, s.evs[j]? with
    | some v, some w => (s.link v w, ())
    | _, _ => (s, ())
  -- GlobalOrderingPoint.hpp:71-79, Precedence.hpp:136-142, Scheduleable.cpp:78-98 `precedes`
  | .before i n =>
    match s.evs[i]? with
    | some v => let (s, w) := s.point n; (s.link v w, ())
    | none => (s, ())
  -- GlobalOrderingPoint.hpp:71-79, Precedence.hpp:171-177, Vertex.cpp:159-165 `precedes`
  | .after n j =>
    match s.evs[j]? with
    | some w => let (s, v) := s.point n; (s.link v w, ())
    | none => (s, ())

/-- the state after a history -/
def S.run (os : List Op) : S := (runOps S.step S.init os).1

/-- DAG.cpp:198-274 `sort`: the group of an event, if sorting succeeds -/
def S.group (s : S) (i : Nat) : Option Nat :=
  match s.g.sort, s.evs[i]? with
  | .ok g', some v => some (g'.gid v)
  | _, _ => none

/-- DAG.cpp:198-274 `sort`: whether it succeeds -/
def S.sorts (s : S) : Bool := match s.g.sort with | .ok _ => true | _ => false

end Sparta.GOP
