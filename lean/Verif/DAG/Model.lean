import Verif.Common
/-!
Model of `sparta::DAG` and `sparta::Vertex`
(/repo/sparta/sparta/kernel/{DAG,Vertex}.hpp, /repo/sparta/src/{DAG,Vertex,Scheduleable}.cpp).
Vertices are numbers; 0..6 are the seven global ordering points of `initializeDAG_`.
Not modelled: labels, edge objects, printing to streams, GOP associates (the list is never filled).
-/
namespace Sparta.DAG

/-- Vertex.hpp 85-89 -/
inductive Color where
  | white
  | gray
  | black
deriving DecidableEq

/-- DAG.hpp 214-224 and Vertex.hpp 290-305 members, per vertex members as functions of the vertex.
`out v` is `outbound_edge_list_`; `outbound_edge_map_` always has the same keys (both change together in
Vertex.cpp 24-62), so membership in the map is membership in `out v`. -/
structure G where
  verts : List Nat
  inDag : Nat → Bool
  out : Nat → List Nat
  inb : Nat → Nat
  gid : Nat → Nat
  numGroups : Nat
  early : Bool

/-- DAG.cpp 172-180: remember a vertex the first time it is linked -/
def G.addVert (g : G) (v : Nat) : G :=
  if g.inDag v then g else { g with verts := g.verts ++ [v], inDag := upd g.inDag v true }

/-- Vertex.cpp 24-38 `Vertex::link` -/
def G.vlink (g : G) (v w : Nat) : G × Bool :=
  if w = v then (g, false)
  else if w ∈ g.out v then (g, false)
  else ({ g with out := upd g.out v (g.out v ++ [w]), inb := upd g.inb w (g.inb w + 1) }, true)

/-- Vertex.cpp 40-62 `Vertex::unlink`; `none` = assertion -/
def G.unlink (g : G) (v w : Nat) : Option (G × Bool) :=
  if w = v then some (g, false)
  else if w ∈ g.out v then
    if g.inb w > 0 then
      some ({ g with out := upd g.out v ((g.out v).filter (· ≠ w)), inb := upd g.inb w (g.inb w - 1) }, true)
    else none
  else some (g, false)

/-- Vertex.cpp 78-97: the loop of `detectCycle` over the outbound edges, with the recursive call `rec`;
outer `none` = recursion deeper than the model's fuel -/
def scanDetect (rec : (Nat → Color) → Nat → Option ((Nat → Color) × Bool)) :
    (Nat → Color) → List Nat → Option ((Nat → Color) × Bool)
  | c, [] => some (c, false)
  | c, w :: ws =>
    match c w with
    | .white =>
      match rec c w with
      | none => none
      | some (c', true) => some (c', true)
      | some (c', false) => scanDetect rec c' ws
    | .gray => some (c, true)
    | .black => scanDetect rec c ws

/-- Vertex.cpp 72-102 `Vertex::detectCycle` -/
def G.visitDetect (g : G) : Nat → (Nat → Color) → Nat → Option ((Nat → Color) × Bool)
  | 0, _, _ => none
  | fuel + 1, c, v =>
    match scanDetect (g.visitDetect fuel) (upd c v .gray) (g.out v) with
    | some (c', false) => some (upd c' v .black, false)
    | r => r

/-- DAG.cpp 284-291: the outer loop of `DAG::detectCycle` -/
def G.detectFrom (g : G) : (Nat → Color) → List Nat → Option Bool
  | _, [] => some false
  | c, v :: vs =>
    if c v = .white then
      match g.visitDetect g.verts.length c v with
      | none => none
      | some (_, true) => some true
      | some (c', false) => g.detectFrom c' vs
    else g.detectFrom c vs

/-- DAG.cpp 277-292 `DAG::detectCycle`. The recursion is at most as deep as the number of vertices;
`none` (never returned, see C10) would mean that it is not. -/
def G.detectCycle (g : G) : Option Bool := g.detectFrom (fun _ => .white) g.verts

/-- Vertex.cpp 131-152: the loop of `findCycle`; inner `none` = returned false, `some l` = returned true
with the cycle list `l` -/
def scanFind (rec : (Nat → Color) → Nat → Option ((Nat → Color) × Option (List Nat))) :
    (Nat → Color) → List Nat → Option ((Nat → Color) × Option (List Nat))
  | c, [] => some (c, none)
  | c, w :: ws =>
    match c w with
    | .white =>
      match rec c w with
      | none => none
      | some (c', some l) => some (c', some (w :: l))
      | some (c', none) => scanFind rec c' ws
    | .gray => some (c, some [w])
    | .black => scanFind rec c ws

/-- Vertex.cpp 125-157 `Vertex::findCycle` -/
def G.visitFind (g : G) : Nat → (Nat → Color) → Nat → Option ((Nat → Color) × Option (List Nat))
  | 0, _, _ => none
  | fuel + 1, c, v =>
    match scanFind (g.visitFind fuel) (upd c v .gray) (g.out v) with
    | some (c', none) => some (upd c' v .black, none)
    | r => r

/-- DAG.cpp 347-353: the loop of `getCycles_` -/
def G.findFrom (g : G) : (Nat → Color) → List Nat → Option (Option (List Nat))
  | _, [] => some none
  | c, v :: vs =>
    if c v = .white then
      match g.visitFind g.verts.length c v with
      | none => none
      | some (_, some l) => some (some l)
      | some (c', none) => g.findFrom c' vs
    else g.findFrom c vs

/-- DAG.cpp 338-356 `getCycles_`; `some []` when there is none -/
def G.getCycles (g : G) : Option (List Nat) := (g.findFrom (fun _ => .white) g.verts).map (·.getD [])

/-- DAG.cpp 18-29, 33-50 `writeCycleAsText`: the edges reported for the list; `none` = assertion failure or a
null pointer access. (`writeCycleAsDOT` 58-92 makes the same accesses without the first assertion.) -/
def G.cycleText (g : G) (l : List Nat) : Option (List (Nat × Nat)) :=
  let steps := l.zip l.tail
  if steps.all (fun e => decide (e.2 ∈ g.out e.1)) then
    l.getLast?.bind fun last =>
      (l.find? fun w => decide (w ∈ g.out last)).map fun w => steps ++ [(last, w)]
  else none

/-- outcome of linking -/
inductive LinkOut where
  | ok
  | cycle (l : List Nat)
  | stuck
deriving DecidableEq

/-- DAG.cpp 168-195 `DAG::link`. When the exception is thrown the edge stays. -/
def G.link (g : G) (v w : Nat) : G × LinkOut :=
  let g := (g.addVert v).addVert w
  let (g, new) := g.vlink v w
  if new ∧ g.early then
    match g.detectCycle with
    | some true => (g, match g.getCycles with | some l => .cycle l | none => .stuck)
    | some false => (g, .ok)
    | none => (g, .stuck)
  else (g, .ok)

/-- Vertex.hpp 132-138: members before anything is linked; every vertex starts in group 1 (constructor
calls `reset()`). -/
def G.empty (early : Bool) : G :=
  { verts := [], inDag := fun _ => false, out := fun _ => [], inb := fun _ => 0, gid := fun _ => 1,
    numGroups := 1, early := early }

/-- DAG.cpp 138-165 `initializeDAG_`: Trigger .. PostTick are 0..6 -/
def G.init (early : Bool) : G :=
  (List.range 6).foldl (fun g i => (g.link i (i + 1)).1) (G.empty early)

/-- Scheduleable.cpp 108-160: place event vertex `v` into scheduling phase `p` (0 = Trigger .. 6 = PostTick):
after the ordering point of the previous phase, before its own. If early cycle detection throws at the first
link the second is not made. -/
def G.setPhase (g : G) (p v : Nat) : G × LinkOut :=
  if p = 0 then g.link v 0
  else
    match g.link (p - 1) v with
    | (g, .ok) => g.link v p
    | r => r

/-- state of the while loop in `DAG::sort` -/
structure S where
  zlist : List Nat
  vcount : Nat
  gid : Nat → Nat
  inb : Nat → Nat
  numGroups : Nat

/-- DAG.cpp 239-261: the loop over the outbound edges; `none` = assertion -/
def S.edges (gid : Nat) : S → List Nat → Option S
  | s, [] => some s
  | s, w :: ws =>
    if s.inb w > 0 then
      let k := s.inb w - 1
      let s := if s.gid w ≤ gid then { s with gid := upd s.gid w (gid + 1) } else s
      let s := if k = 0 then { s with zlist := s.zlist ++ [w] } else s
      S.edges gid { s with inb := upd s.inb w k } ws
    else none

/-- DAG.cpp 226-266: the while loop; `none` = assertion. `fuel` bounds the number of iterations; the
assertion `vcount > 0` fails before it can run out. -/
def G.kahn (g : G) : Nat → S → Option S
  | fuel, s =>
    match s.zlist with
    | [] => some s
    | v :: zs =>
      match fuel with
      | 0 => none
      | fuel + 1 =>
        if s.vcount > 0 then
          let s := { s with zlist := zs, vcount := s.vcount - 1 }
          (S.edges (s.gid v) s (g.out v)).bind fun s =>
            g.kahn fuel (if s.gid v > s.numGroups then { s with numGroups := s.gid v + 1 } else s)
        else none

/-- outcome of `sort`: the graph with its group ids, a cycle exception, or an assertion failure -/
inductive SortOut where
  | ok (g : G)
  | cycle (l : List Nat)
  | failed

/-- DAG.cpp 198-274 `DAG::sort` (the printing of cycles in lines 204-207 only writes to cout). The queue is
initialised in lines 210-218: every vertex is reset, those without producers enter the queue. -/
def G.sort (g : G) : SortOut :=
  let s : S := { zlist := g.verts.filter (fun v => g.inb v = 0), vcount := g.verts.length,
                 gid := fun v => if v ∈ g.verts then 1 else g.gid v,
                 inb := g.inb, numGroups := 1 }
  match g.kahn g.verts.length s with
  | none => .failed
  | some s =>
    if s.vcount ≠ 0 then
      match g.getCycles with
      | some l => .cycle l
      | none => .failed
    else .ok { g with gid := s.gid, numGroups := s.numGroups }

/-- calls that build the graph -/
inductive Op where
  | link (v w : Nat)
  | unlink (v w : Nat)
  | phase (p v : Nat)

/-- one call -/
def G.step (g : G) : Op → G × LinkOut
  | .link v w => g.link v w
  | .unlink v w => match g.unlink v w with | some (g, _) => (g, .ok) | none => (g, .stuck)
  | .phase p v => g.setPhase p v

end Sparta.DAG
