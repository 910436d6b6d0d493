import Verif.Common
import Verif.PTree.Model
/-!
Notifications and log messages.

Code: sparta/sparta/log/NotificationSource.hpp (sources, their observers), sparta/src/TreeNode.cpp and
sparta/sparta/simulation/TreeNode.hpp (registration of observers, its propagation through the tree),
sparta/sparta/simulation/VirtualGlobalTreeNode.hpp, sparta/src/MessageSource.cpp, sparta/sparta/log/Tap.hpp,
sparta/sparta/log/Destination.hpp.

Simplifications: nodes are known by numbers, in the order of construction; number 0 is the virtual global node.  The
tree is a nested value: the way up from a node to its root (`getParent`) is carried along as a list.  Payload types are
numbers, 0 is `sparta::log::Message`; every source of type 0 is a `MessageSource`.  A callback is `user k` (an object
and its method) or `tap k` (`Tap::send_` of tap `k`).  The observers of a node are one list for all payload types
(`obs_local_` has one list per type; lists of different types do not influence each other).  Interned strings are
compared by their text.  Names, groups, phases and the other checks of `addChild_` are not modelled; neither are
destruction of nodes, `ANY_TYPE`, `MirrorNotificationSource`, threads, the formats of destinations.
-/
namespace Sparta.Notify
open Sparta.PTree (patMatches)
open Sparta.Strings (Str)

inductive Cb
  | user (k : Nat)
  | tap (k : Nat)
deriving DecidableEq, Repr

/-- TreeNode.hpp 2963-3230 `delegate`: callback, payload type (part of `stub_ptr`), observation point, name.
Equality is that of `operator==` (3049-3056). -/
structure Del where
  cb : Cb
  ty : Nat
  pt : Nat
  name : Str
deriving DecidableEq, Repr

/-- NotificationSource.hpp 470-491, 954: the members of a source.  `nodes` is `obs_nodes_`. -/
structure Src where
  ty : Nat
  name : Str
  nodes : List Nat
  dels : List Del
  observed : Bool
  posts : Nat
deriving DecidableEq, Repr

/-- a node with the subtree below it -/
inductive Tree
  | node (id : Nat) (priv : Nat) (obs : List Del) (src : Option Src) (kids : List Tree)
deriving Repr

namespace Tree
def id : Tree → Nat | .node i _ _ _ _ => i
def priv : Tree → Nat | .node _ p _ _ _ => p
def obs : Tree → List Del | .node _ _ o _ _ => o
def src : Tree → Option Src | .node _ _ _ s _ => s
def kids : Tree → List Tree | .node _ _ _ _ k => k
end Tree

/-! ### names -/

/-- TreeNode.cpp 2669-2686 `notificationCategoryMatch` -/
def catMatch (query name : Str) : Bool := query.isEmpty || query == name || patMatches query name

def isSep (c : Char) : Bool := c == ' ' || c == '\t' || c == ','
def isBlank (c : Char) : Bool := c == ' ' || c == '\t'

theorem dropWhile_length_le {α} (p : α → Bool) : ∀ l : List α, (l.dropWhile p).length ≤ l.length
  | [] => Nat.le_refl _
  | a :: l => by
    rw [List.dropWhile_cons]
    split
    · exact Nat.le_succ_of_le (dropWhile_length_le p l)
    · exact Nat.le_refl _

theorem dropWhile_head {α} (p : α → Bool) : ∀ (l : List α) (a : α) (r : List α), l.dropWhile p = a :: r → p a = false
  | [], a, r, h => by cases h
  | b :: l, a, r, h => by
    rw [List.dropWhile_cons] at h
    split at h
    · exact dropWhile_head p l a r h
    · rename_i hb
      cases h
      simpa using hb

/-- TreeNode.cpp 2589-2628 `parseNotificationNameString`.  `none`: it throws -/
def parseNames (s : Str) : Option (List Str) :=
  match h : s.dropWhile isSep with
  | [] => some [[]]
  | c :: r =>
    let tok := (c :: r).takeWhile (fun x => !isSep x)
    match h2 : ((c :: r).dropWhile (fun x => !isSep x)).dropWhile isBlank with
    | [] => some [tok]
    | d :: u =>
      if d == ',' then
        match parseNames (d :: u) with
        | some l => some (tok :: l)
        | none => none
      else none
termination_by s.length
decreasing_by
  have h1 := dropWhile_length_le isSep s
  rw [h] at h1
  have h3 := dropWhile_length_le isBlank ((c :: r).dropWhile (fun x => !isSep x))
  rw [h2] at h3
  have hc : isSep c = false := dropWhile_head isSep s c r h
  have h4 : ((c :: r).dropWhile (fun x => !isSep x)).length ≤ r.length := by
    rw [List.dropWhile_cons, if_pos (by simp [hc])]
    exact dropWhile_length_le _ r
  simp only [List.length_cons] at *
  omega

/-! ### sources -/

/-- NotificationSource.hpp 569-582 `canGenerateNotification_` (TreeNode's own version answers false) -/
def canGen (src : Option Src) (ty : Nat) (name : Str) : Bool :=
  match src with
  | none => false
  | some s => s.ty == ty && catMatch name s.name

/-- the four kinds of observation state callbacks (NotificationSource.hpp 60-260), with the number of observers passed -/
inductive Ev
  | sole (src : Nat) (n : Nat)
  | added (src : Nat) (n : Nat)
  | removed (src : Nat) (n : Nat)
  | none (src : Nat) (n : Nat)
deriving DecidableEq, Repr

/-- NotificationSource.hpp 495-521 `notificationObserverAdded_`; the callbacks are collected -/
def obsAdded (i : Nat) (s : Src) (pt : Nat) (d : Del) : Src × List Ev :=
  let s' := { s with nodes := if s.nodes.contains pt then s.nodes else s.nodes ++ [pt], dels := s.dels ++ [d], observed := true }
  (s', (if s.observed then [] else [.sole i s'.dels.length]) ++ [.added i s'.dels.length])

/-- NotificationSource.hpp 525-565 `notificationObserverRemoved_` -/
def obsRemoved (i : Nat) (s : Src) (pt : Nat) (d : Del) : Src × List Ev :=
  let dels := s.dels.erase d
  let s' := { s with dels := dels, observed := !dels.isEmpty, nodes := if dels.any (·.pt == pt) then s.nodes else s.nodes.erase pt }
  (s', .removed i dels.length :: (if s.observed && !s'.observed then [.none i dels.length] else []))

/-- TreeNode.hpp 3076-3080 `observes` within the list of the type -/
def observes (n : Nat) (ty : Nat) (name : Str) (d : Del) : Bool := d.ty == ty && d.pt == n && catMatch d.name name

/-- NotificationSource.hpp 611-634 `determineObs_Nodes_` (with TreeNode.cpp 2630-2672): `chain` is the way from the
source up to its root, each with the observers registered there; `g` those of the virtual global node -/
def determine (s : Src) (chain : List (Nat × List Del)) (g : List Del) : Src :=
  let all := chain ++ [(0, g)]
  let dels := all.flatMap (fun e => e.2.filter (observes e.1 s.ty s.name))
  { s with dels := dels, observed := !dels.isEmpty,
           nodes := (all.filter (fun e => e.2.any (observes e.1 s.ty s.name))).map (·.1) }

/-! ### the tree -/

mutual
/-- TreeNode.hpp 3949-3956 `incrementPrivacyLevel_` -/
def incPriv (k : Nat) : Tree → Tree
  | .node i p o s kids => .node i (p + k) o s (incPrivL k kids)
def incPrivL (k : Nat) : List Tree → List Tree
  | [] => []
  | t :: ts => incPriv k t :: incPrivL k ts
end

mutual
/-- TreeNode.cpp 1634-1648 `informAddedChildSubtree_`: every source below determines its observers again
(NotificationSource.hpp 599 `onAddedAsChild_`).  `above` is the way from the parent of the node upwards -/
def inform (g : List Del) (above : List (Nat × List Del)) : Tree → Tree
  | .node i p o s kids =>
    .node i p o (s.map (fun x => determine x ((i, o) :: above) g)) (informL g ((i, o) :: above) kids)
def informL (g : List Del) (above : List (Nat × List Del)) : List Tree → List Tree
  | [] => []
  | t :: ts => inform g above t :: informL g above ts
end

mutual
/-- TreeNode.cpp 1711-1823 `addChild_`, the part that links the child `c` to the node numbered `n` -/
def attach (g : List Del) (n : Nat) (c : Tree) (above : List (Nat × List Del)) : Tree → Tree
  | .node i p o s kids =>
    if i = n then .node i p o s (kids ++ [inform g ((i, o) :: above) (incPriv p c)])
    else .node i p o s (attachL g n c ((i, o) :: above) kids)
def attachL (g : List Del) (n : Nat) (c : Tree) (above : List (Nat × List Del)) : List Tree → List Tree
  | [] => []
  | t :: ts => attach g n c above t :: attachL g n c above ts
end

mutual
/-- the node numbered `n` in a subtree -/
def find (n : Nat) : Tree → Option Tree
  | .node i p o s kids => if i = n then some (.node i p o s kids) else findL n kids
def findL (n : Nat) : List Tree → Option Tree
  | [] => none
  | t :: ts => match find n t with
    | some r => some r
    | none => findL n ts
end

mutual
/-- change one field or member of the node numbered `n` -/
def modify (n : Nat) (f : List Del → List Del) (g : Src → Src) : Tree → Tree
  | .node i p o s kids =>
    if i = n then .node i p (f o) (s.map g) (modifyL n f g kids) else .node i p o s (modifyL n f g kids)
def modifyL (n : Nat) (f : List Del → List Del) (g : Src → Src) : List Tree → List Tree
  | [] => []
  | t :: ts => modify n f g t :: modifyL n f g ts
end

mutual
/-- call a function on the subtree of the node numbered `n`; the events it gives are collected -/
def onNode (n : Nat) (f : Tree → Tree × List Ev) : Tree → Tree × List Ev
  | .node i p o s kids =>
    if i = n then f (.node i p o s kids)
    else (.node i p o s (onNodeL n f kids).1, (onNodeL n f kids).2)
def onNodeL (n : Nat) (f : Tree → Tree × List Ev) : List Tree → List Tree × List Ev
  | [] => ([], [])
  | t :: ts => ((onNode n f t).1 :: (onNodeL n f ts).1, (onNode n f t).2 ++ (onNodeL n f ts).2)
end

/-- the loop over the names of 2437-2443, which ends at the first match -/
def addHere (d : Del) (names : List Str) (i : Nat) : Option Src → Option Src × List Ev
  | none => (none, [])
  | some s =>
    if names.any (canGen (some s) d.ty) then (some (obsAdded i s d.pt d).1, (obsAdded i s d.pt d).2)
    else (some s, [])

/-- the loop over the names of 2461-2467 -/
def delHere (d : Del) (names : List Str) (i : Nat) : Option Src → Option Src × List Ev
  | none => (none, [])
  | some s =>
    if names.any (canGen (some s) d.ty) then (some (obsRemoved i s d.pt d).1, (obsRemoved i s d.pt d).2)
    else (some s, [])

mutual
/-- TreeNode.cpp 2430-2452 `broadcastRegistrationForNotificationToChildren_`; `all` is `allow_private` -/
def bcastAdd (d : Del) (names : List Str) (all : Bool) : Tree → Tree × List Ev
  | .node i p o s kids =>
    (.node i p o (addHere d names i s).1 (bcastAddL d names all p kids).1,
     (addHere d names i s).2 ++ (bcastAddL d names all p kids).2)
/-- the children are those of `getAllChildren_` or of `getChildren` (735-750: those of the same privacy level) -/
def bcastAddL (d : Del) (names : List Str) (all : Bool) (p : Nat) : List Tree → List Tree × List Ev
  | [] => ([], [])
  | t :: ts =>
    if all || t.priv == p then
      ((bcastAdd d names all t).1 :: (bcastAddL d names all p ts).1, (bcastAdd d names all t).2 ++ (bcastAddL d names all p ts).2)
    else (t :: (bcastAddL d names all p ts).1, (bcastAddL d names all p ts).2)
end

mutual
/-- TreeNode.cpp 2454-2476 `broadcastDeregistrationForNotificationToChildren_` -/
def bcastDel (d : Del) (names : List Str) (all : Bool) : Tree → Tree × List Ev
  | .node i p o s kids =>
    (.node i p o (delHere d names i s).1 (bcastDelL d names all p kids).1,
     (delHere d names i s).2 ++ (bcastDelL d names all p kids).2)
def bcastDelL (d : Del) (names : List Str) (all : Bool) (p : Nat) : List Tree → List Tree × List Ev
  | [] => ([], [])
  | t :: ts =>
    if all || t.priv == p then
      ((bcastDel d names all t).1 :: (bcastDelL d names all p ts).1, (bcastDel d names all t).2 ++ (bcastDelL d names all p ts).2)
    else (t :: (bcastDelL d names all p ts).1, (bcastDelL d names all p ts).2)
end

mutual
/-- TreeNode.cpp 2571-2587 `canSubtreeGenerateNotifications` for one name: only public children -/
def canSub (ty : Nat) (name : Str) : Tree → Bool
  | .node _ p _ s kids => canGen s ty name || canSubL ty name p kids
def canSubL (ty : Nat) (name : Str) (p : Nat) : List Tree → Bool
  | [] => false
  | t :: ts => (t.priv == p && canSub ty name t) || canSubL ty name p ts
end

/-! ### messages, taps, destinations -/

/-- MessageSource.cpp 31-42: what observers get: the payload (of type `ty`); `seq` counts for messages only -/
structure Msg where
  ty : Nat
  seq : Nat
  src : Nat
  text : Nat
deriving DecidableEq, Repr

/-- Tap.hpp 248-256 -/
structure Tap where
  node : Option Nat
  cat : Str
  dest : Nat
  num : Nat
deriving DecidableEq, Repr

/-- Destination.hpp 218-226; `last` is the entry of `last_seq_map_` for the only thread (0), -1 if there is none -/
structure Dest where
  recv : Nat
  dups : Nat
  num : Nat
  out : List Msg
  last : Int
deriving DecidableEq, Repr

def Dest.empty : Dest := ⟨0, 0, 0, [], -1⟩

/-- Destination.hpp 155-172 `write`, 204-211 `getLastSequenceNum_` -/
def Dest.write (d : Dest) (m : Msg) : Dest :=
  if (m.seq : Int) ≤ d.last then { d with recv := d.recv + 1, dups := d.dups + 1 }
  else { d with recv := d.recv + 1, num := d.num + 1, out := d.out ++ [m], last := m.seq }

/-- a notification being delivered: the delegates of the source that are still to be called (NotificationSource.hpp 970-972) -/
structure Frame where
  msg : Msg
  rest : List Del
deriving DecidableEq, Repr

/-- `roots`: the nodes without parent (`parentless_map_`), `gobs` and `gkids`: observers and children of the virtual global
node; `seq`: MessageSource.cpp 20 -/
structure State where
  next : Nat
  roots : List Tree
  gobs : List Del
  gkids : List Tree
  seq : Nat
  frames : List Frame
  taps : List Tap
  dests : Nat → Dest

def init : State := ⟨1, [], [], [], 0, [], [], fun _ => .empty⟩

inductive Op
  | node
  | source (parent : Nat) (ty : Nat) (name : Str)
  | addChild (parent child : Nat)
  | makePrivate (n : Nat)
  | register (n : Nat) (k : Nat) (ty : Nat) (name : Str) (ensure : Bool) (all : Bool)
  | deregister (n : Nat) (k : Nat) (ty : Nat) (name : Str) (all : Bool)
  | tap (cat : Str) (dest : Nat)
  | tapReset (k : Nat) (n : Option Nat)
  | post (src : Nat) (text : Nat)
  | deliver
  | observed (src : Nat)
deriving DecidableEq, Repr

inductive Res
  | made (n : Nat)
  | ok
  | events (l : List Ev)
  | error
  | called (k : Nat) (pt : Nat) (m : Msg)
  | tapped (k : Nat)
  | returned (m : Msg)
  | info (observed : Bool) (num : Nat) (nodes : List Nat) (posts : Nat)
  | undefined
deriving DecidableEq, Repr

/-- the node numbered `n` (other than the virtual global node) -/
def State.get (s : State) (n : Nat) : Option Tree :=
  match findL n s.roots with
  | some t => some t
  | none => findL n s.gkids

/-- the observers registered at a node -/
def State.obsAt (s : State) (n : Nat) : Option (List Del) :=
  if n = 0 then some s.gobs else (s.get n).map Tree.obs

def State.modify (s : State) (n : Nat) (f : List Del → List Del) (g : Src → Src) : State :=
  { s with roots := modifyL n f g s.roots, gkids := modifyL n f g s.gkids }

def State.modObs (s : State) (n : Nat) (f : List Del → List Del) : State :=
  if n = 0 then { s with gobs := f s.gobs } else s.modify n f id

/-- TreeNode.hpp 4325 `canSubtreeGenerateNotification`; the virtual global node: VirtualGlobalTreeNode.hpp 227-231 and
its children, of privacy level 0 -/
def State.possible (s : State) (n : Nat) (ty : Nat) (name : Str) : Bool :=
  if n = 0 then canSubL ty name 0 s.gkids
  else match s.get n with
    | some t => canSub ty name t
    | none => false

def State.onNode (s : State) (n : Nat) (f : Tree → Tree × List Ev) : State × List Ev :=
  ({ s with roots := (onNodeL n f s.roots).1, gkids := (onNodeL n f s.gkids).1 },
   (onNodeL n f s.roots).2 ++ (onNodeL n f s.gkids).2)

/-- a broadcast from node `n`: from the virtual global node it goes to all nodes without parent
(VirtualGlobalTreeNode.hpp 195-223) -/
def State.bcast (s : State) (n : Nat) (f : Tree → Tree × List Ev) : State × List Ev :=
  if n = 0 then ({ s with roots := s.roots.map (fun t => (f t).1) }, s.roots.flatMap (fun t => (f t).2))
  else s.onNode n f

/-- TreeNode.hpp 4322-4380 `registerForNotification_`.  The observer is in the list of the node before the names are
parsed (3417-3426). -/
def register (s : State) (n : Nat) (cb : Cb) (ty : Nat) (name : Str) (ensure all : Bool) : State × Res :=
  match s.obsAt n with
  | none => (s, .undefined)
  | some obs =>
    if ensure && !s.possible n ty name then (s, .error)
    else if obs.contains ⟨cb, ty, n, name⟩ then (s, .error)
    else
      let s1 := s.modObs n (· ++ [⟨cb, ty, n, name⟩])
      match parseNames name with
      | none => (s1, .error)
      | some names =>
        let r := s1.bcast n (bcastAdd ⟨cb, ty, n, name⟩ names all)
        (r.1, .events r.2)

/-- TreeNode.hpp 4386-4438 `deregisterForNotification_` -/
def deregister (s : State) (n : Nat) (cb : Cb) (ty : Nat) (name : Str) (all : Bool) : State × Res :=
  match s.obsAt n with
  | none => (s, .undefined)
  | some obs =>
    if obs.contains ⟨cb, ty, n, name⟩ then
      match parseNames name with
      | none => (s, .error)
      | some names =>
        let r := s.bcast n (bcastDel ⟨cb, ty, n, name⟩ names all)
        (r.1.modObs n (·.erase ⟨cb, ty, n, name⟩), .events r.2)
    else (s, .error)

/-- the nodes without parent other than `n` -/
def dropRoot (n : Nat) (l : List Tree) : List Tree := l.filter (fun t => t.id != n)

/-- TreeNode.cpp 1711-1823 `addChild_` of a tree `c` without parent that is in no list -/
def State.link (s : State) (p : Nat) (c : Tree) : State :=
  if p = 0 then { s with gkids := s.gkids ++ [inform s.gobs [(0, s.gobs)] c] }
  else { s with roots := attachL s.gobs p c [] s.roots, gkids := attachL s.gobs p c [(0, s.gobs)] s.gkids }

/-- `addChild_` on two nodes.  A child that is the parent or above of it is refused; one that has a parent already is an
irrecoverable error (1812-1817) -/
def addChild (s : State) (p c : Nat) : State × Res :=
  if p ≠ 0 ∧ (s.get p).isNone then (s, .undefined)
  else match s.roots.find? (fun t => t.id == c) with
    | none => (s, .undefined)
    | some t =>
      if (find p t).isSome then (s, .error)
      else (({ s with roots := dropRoot c s.roots } : State).link p t, .ok)

/-- NotificationSource.hpp 269-302 -/
def newSource (s : State) (p ty : Nat) (name : Str) : State × Res :=
  if p ≠ 0 ∧ (s.get p).isNone then (s, .undefined)
  else (({ s with next := s.next + 1 } : State).link p (.node s.next 0 [] (some ⟨ty, name, [], [], false, 0⟩) []), .made s.next)

/-- MessageSource.cpp 23-44 `emit_`, NotificationSource.hpp 954-973 `postNotification`: the calls follow as `deliver` -/
def post (s : State) (i text : Nat) : State × Res :=
  match (s.get i).bind Tree.src with
  | none => (s, .undefined)
  | some x =>
    ({ s.modify i id (fun x => { x with posts := x.posts + 1 }) with
        seq := if x.ty = 0 then s.seq + 1 else s.seq,
        frames := ⟨⟨x.ty, if x.ty = 0 then s.seq else 0, i, text⟩, x.dels⟩ :: s.frames }, .ok)

/-- Tap.hpp 234-243 `send_` -/
def send (s : State) (k : Nat) (m : Msg) : State :=
  match s.taps[k]? with
  | none => s
  | some t => { s with taps := s.taps.set k { t with num := t.num + 1 }, dests := upd s.dests t.dest ((s.dests t.dest).write m) }

/-- the next call of the notification delivered last (callbacks may post before they return) -/
def deliver (s : State) : State × Res :=
  match s.frames with
  | [] => (s, .undefined)
  | ⟨m, []⟩ :: fs => ({ s with frames := fs }, .returned m)
  | ⟨m, d :: ds⟩ :: fs =>
    match d.cb with
    | .user k => ({ s with frames := ⟨m, ds⟩ :: fs }, .called k d.pt m)
    | .tap k => (send { s with frames := ⟨m, ds⟩ :: fs } k m, .tapped k)

/-- Tap.hpp 150-171 `detach` -/
def detach (s : State) (k : Nat) (t : Tap) : State × Res :=
  match t.node with
  | none => (s, .ok)
  | some n =>
    let r := deregister s n (.tap k) 0 t.cat true
    ({ r.1 with taps := r.1.taps.set k { t with node := none } }, r.2)

/-- Tap.hpp 128-141 `reset` (an exception of `detach` passes through) -/
def tapReset (s : State) (k : Nat) (n : Option Nat) : State × Res :=
  match s.taps[k]? with
  | none => (s, .undefined)
  | some t =>
    let r := detach s k t
    if r.2 = .error ∨ r.2 = .undefined then r
    else match n with
      | none => r
      | some n =>
        if (r.1.obsAt n).isNone then (s, .undefined)
        else register { r.1 with taps := r.1.taps.set k { t with node := some n } } n (.tap k) 0 t.cat false true

/-- one call.  Changing the observers or the tree while a notification is delivered is not modelled: the loop of
`postNotification` runs over the list that may change. -/
def step (s : State) : Op → State × Res
  | .node => ({ s with next := s.next + 1, roots := s.roots ++ [.node s.next 0 [] none []] }, .made s.next)
  | .source p ty name => if s.frames = [] then newSource s p ty name else (s, .undefined)
  | .addChild p c => if s.frames = [] then addChild s p c else (s, .undefined)
  | .makePrivate n =>
    if (s.get n).isNone then (s, .undefined)
    else ((s.onNode n (fun t => (incPriv 1 t, []))).1, .ok)
  | .register n k ty name ensure all => if s.frames = [] then register s n (.user k) ty name ensure all else (s, .undefined)
  | .deregister n k ty name all => if s.frames = [] then deregister s n (.user k) ty name all else (s, .undefined)
  | .tap cat dest => ({ s with taps := s.taps ++ [⟨none, cat, dest, 0⟩] }, .made s.taps.length)
  | .tapReset k n => if s.frames = [] then tapReset s k n else (s, .undefined)
  | .post i text => post s i text
  | .deliver => deliver s
  | .observed i => match (s.get i).bind Tree.src with
    | none => (s, .undefined)
    | some x => (s, .info x.observed x.dels.length x.nodes x.posts)

end Sparta.Notify
