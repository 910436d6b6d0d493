import Verif.Common
import Verif.PTree.Spec
/-!
The device tree: nodes with names, aliases, groups, children and levels of privacy; looking up and searching.

Code: sparta/src/TreeNode.cpp 90-150, 318-393, 520-623, 635-660, 736-841, 843-1157, 1205-1332, 1368-1375, 1514-1528, 1677-1858,
1983-2148, 2371-2425, 2979-2986; sparta/sparta/simulation/TreeNode.hpp 55-86, 302, 369, 2203, 3949-3956, 4300-4305;
sparta/sparta/simulation/RootTreeNode.hpp 526-532.

Simplifications: nodes are numbers, in the order of their construction.  Everything happens in the building phase of the tree
(no finalization, no moves, no tags, no notifications); there is no global node above the roots.  The hooks for additional
checks (`onAddingChild_` and the like) do nothing, except that a root refuses a parent.  Descriptions are not empty.  Numbers
do not overflow.  A failure is one of: `throw`, an exception that the caller may handle, nothing has changed; `critical`, a failed
assertion or an exception half way through a change; `ub`, undefined behaviour or an object that is not there.  After the last two
the run is over.  Loops over parents have a bound, the number of nodes made; it is proved that they end before.
-/
namespace Sparta.TNode
open Sparta.Strings (Str)
open Sparta.PTree (Tok parseRegex createSearchRegexPattern names dot tokMatch)

inductive Err
  | throw
  | critical
  | ub
deriving DecidableEq, Repr

/-- TreeNode.hpp 302 `GROUP_IDX_NONE` -/
def idxNone : Nat := 4294967295

/-- TreeNode.hpp 369 `GROUP_NAME_BUILTIN` -/
def builtin : Str := "_SPARTA_builtin_group_".toList

/-- TreeNode.hpp 4300-4690, the members that matter.  `names` are the entries of the multimap `names_` in its order;
`root`: made as a `RootTreeNode` -/
structure Node where
  name : Str
  aliases : List Str
  group : Str
  gidx : Nat
  indexable : Bool
  root : Bool
  parent : Option Nat
  ploc : Option Str
  children : List Nat
  names : List (Str × Nat)
  priv : Nat
deriving DecidableEq, Repr

structure St where
  node : Nat → Option Node
  next : Nat
  dead : Bool

def init : St := { node := fun _ => none, next := 0, dead := false }

/-! ### names -/

/-- TreeNode.hpp 58 `ALPHANUM_CHARS` -/
def alphanum : List Char := "abcdefghijklmnopqrstuvwxyzABCDEFGHIJKLMNOPQRSTUVWXYZ01234567890_".toList

/-- TreeNode.hpp 62 `DIGIT_CHARS` -/
def digitChars : List Char := "0123456789".toList

/-- TreeNode.hpp 69-86 `RESERVED_WORDS` -/
def reserved : List Str :=
  ["and", "del", "from", "not", "while", "as", "elif", "global", "or", "with", "assert", "else", "if", "pass", "yield", "break",
   "except", "import", "print", "class", "exec", "in", "raise", "continue", "finally", "is", "return", "def", "for", "lambda",
   "try", "__init__", "__del__", "__cinit__", "__dealloc__", "name", "author", "report", "content", "include",
   "extension"].map String.toList

/-- `nm.find("__")` -/
def findUU : Str → Option Nat
  | [] => none
  | '_' :: '_' :: _ => some 0
  | _ :: s => (findUU s).map (· + 1)

/-- the second check of `validateName`; `nm.size() - 3` wraps for short names, then it is no position -/
def uuRefused (nm : Str) : Bool :=
  match findUU nm with
  | none => false
  | some pos => pos == 0 || pos + 3 == nm.length

/-- the text begins with a digit -/
def startsDigit (s : Str) : Bool :=
  match s.head? with
  | none => false
  | some c => digitChars.contains c

/-- the text ends with a digit -/
def endsDigit (s : Str) : Bool :=
  match s.getLast? with
  | none => false
  | some c => digitChars.contains c

/-- TreeNode.cpp 520-551 `validateName` -/
def validName (nm : Str) : Bool :=
  !reserved.contains nm && !uuRefused nm && !startsDigit nm && nm.all (alphanum.contains ·)

/-- TreeNode.cpp 553-623 `validateGroup` -/
def validGroup (name group : Str) (idx : Nat) : Bool :=
  group.all (alphanum.contains ·) && !reserved.contains group && (findUU group).isNone && !endsDigit group && !startsDigit group
    && !(name.isEmpty && group.isEmpty)
    && !(group.isEmpty && idx != idxNone)
    && (if group = builtin then idx == idxNone else group.isEmpty || idx != idxNone)

/-- `std::string` order of the keys -/
def strLe : Str → Str → Bool
  | [], _ => true
  | _ :: _, [] => false
  | a :: s, b :: t => if a.toNat < b.toNat then true else if b.toNat < a.toNat then false else strLe s t

/-- `std::multimap::emplace`: after the entries that are not greater -/
def insertName (k : Str) (c : Nat) : List (Str × Nat) → List (Str × Nat)
  | [] => [(k, c)]
  | e :: l => if strLe e.1 k then e :: insertName k c l else (k, c) :: e :: l

/-- TreeNode.cpp 788-798 `getIdentifiers` -/
def idents (nd : Node) : List Str := (if nd.name = [] then [] else [nd.name]) ++ nd.aliases

/-- TreeNode.cpp 1801-1803: group and index -/
def groupKey (nd : Node) : Option Str := if nd.group = [] then none else some (nd.group ++ Nat.toDigits 10 nd.gidx)

/-- TreeNode.cpp 1795-1803: the names by which a parent knows a child -/
def keys (nd : Node) : List Str := idents nd ++ (groupKey nd).toList

def insertNames (c : Nat) : List Str → List (Str × Nat) → List (Str × Nat)
  | [], l => l
  | k :: ks, l => insertNames c ks (insertName k c l)

/-! ### up the tree -/

/-- `getParent` -/
def parentOf (s : St) (n : Nat) : Option Nat :=
  match s.node n with
  | none => none
  | some nd => nd.parent

/-- a node, its parent, and so on -/
def chain (s : St) : Nat → Nat → List Nat
  | 0, _ => []
  | f + 1, n =>
    n :: match parentOf s n with
      | none => []
      | some p => chain s f p

def ancestry (s : St) (n : Nat) : List Nat := chain s s.next n

/-- TreeNode.cpp 637-646 `getRoot` -/
def getRoot (s : St) (n : Nat) : Nat := (ancestry s n).getLastD n

/-- TreeNode.cpp 1368-1375 `getLevel` -/
def getLevel (s : St) (n : Nat) : Nat := (ancestry s n).length - 1

/-- TreeNode.cpp 1317-1332 `isDescendantOf`; no depth: a negative one -/
def descLoop (s : St) (a : Nat) : Nat → Option Nat → Nat → Bool
  | 0, _, _ => false
  | f + 1, depth, n =>
    if n = a then true
    else if depth = some 0 then false
    else match parentOf s n with
      | none => false
      | some p => descLoop s a f (depth.map (· - 1)) p

def isDescendantOf (s : St) (n a : Nat) (depth : Option Nat) : Bool := descLoop s a s.next depth n

/-- TreeNode.cpp 1835-1858 `getLocation_`; `none`: the assertion fails, there is a parent and a stored location -/
def locLoop (s : St) : Nat → Nat → Option Str
  | 0, _ => none
  | f + 1, n =>
    match s.node n with
    | none => none
    | some nd =>
      match nd.parent with
      | some p =>
        if nd.ploc.isSome then none
        else match locLoop s f p with
          | none => none
          | some l => some (l ++ '.' :: nd.name)
      | none =>
        match nd.ploc with
        | some l => some (l ++ '.' :: nd.name)
        | none => if nd.root then some nd.name else some ('~' :: nd.name)

/-- TreeNode.cpp 1334-1338 `getLocation` -/
def getLocation (s : St) (n : Nat) : Option Str := locLoop s s.next n

/-! ### building -/

/-- the node is in the subtree of `a`: what `incrementPrivacyLevel_` reaches from `a` -/
def under (s : St) (a x : Nat) : Bool := (ancestry s x).contains a

/-- TreeNode.cpp 1738-1764: the loop over the children -/
def checkChildren (s : St) (c : Nat) (cd : Node) : List Nat → Except Err Unit
  | [] => .ok ()
  | t :: ts =>
    if t = c then .error .throw
    else match s.node t with
      | none => .error .ub
      | some td =>
        if td.group = cd.group ∧ td.gidx ≠ idxNone ∧ td.gidx = cd.gidx ∧ cd.indexable = true ∧ td.indexable = true then .error .throw
        else checkChildren s c cd ts

/-- `names_.find`, and the first entry of `equal_range` -/
def lookupName (k : Str) : List (Str × Nat) → Option Nat
  | [] => none
  | e :: l => if e.1 = k then some e.2 else lookupName k l

/-- TreeNode.cpp 2371-2388 `verifyUniqueChildIdentifier_`, for the names given -/
def checkNames (s : St) (l : List (Str × Nat)) : List Str → Except Err Unit
  | [] => .ok ()
  | k :: ks =>
    match lookupName k l with
    | none => checkNames s l ks
    | some t =>
      match s.node t with
      | none => .error .ub
      | some _ => .error .throw

/-- TreeNode.cpp 1791-1810: the child is entered, its subtree gets the level of the parent on top, its parent is set -/
def attach (s : St) (p c : Nat) (pd cd : Node) : St :=
  { s with node := fun x =>
      if x = p then some { pd with names := insertNames c (keys cd) pd.names, children := pd.children ++ [c] }
      else if x = c then some { cd with parent := some p, priv := cd.priv + pd.priv }
      else match s.node x with
        | none => none
        | some nd => some (if under s c x then { nd with priv := nd.priv + pd.priv } else nd) }

/-- TreeNode.cpp 1711-1823 `addChild_`, and 1677-1682: a child that has a parent is noticed after it has been entered -/
def addChild (s : St) (p c : Nat) : Except Err St :=
  match s.node p, s.node c with
  | some pd, some cd =>
    if p = c then .error .throw
    else if (ancestry s p).contains c then .error .throw
    else match checkChildren s c cd pd.children with
      | .error e => .error e
      | .ok _ =>
        match checkNames s pd.names (cd.name :: cd.aliases ++ [cd.name]) with
        | .error e => .error e
        | .ok _ =>
          if cd.root then .error .throw
          else if cd.parent.isSome then .error .critical
          else .ok (attach s p c pd cd)
  | _, _ => .error .ub

/-- a node without a parent -/
def bare (name group : Str) (gidx : Nat) (indexable root : Bool) : Node :=
  { name := name, aliases := [], group := group, gidx := gidx, indexable := indexable, root := root, parent := none, ploc := none,
    children := [], names := [], priv := 0 }

def alloc (s : St) (nd : Node) : St :=
  { s with node := fun x => if x = s.next then some nd else s.node x, next := s.next + 1 }

/-- TreeNode.cpp 88-150: the constructor.  If the parent refuses the node, there is no node -/
def construct (s : St) (parent : Option Nat) (nd : Node) : Except Err St :=
  if !(validName nd.name && validGroup nd.name nd.group nd.gidx) then .error .throw
  else match parent with
    | none => .ok (alloc s nd)
    | some p => if (s.node p).isNone then .error .ub else addChild (alloc s nd) p s.next

/-- TreeNode.cpp 364-393 `addAlias` -/
def addAlias (s : St) (n : Nat) (a : Str) : Except Err St :=
  match s.node n with
  | none => .error .ub
  | some nd =>
    if nd.parent.isSome then .error .throw
    else if !validName a then .error .throw
    else if a = [] then .error .throw
    else if nd.aliases.contains a then .error .throw
    else .ok { s with node := fun x => if x = n then some { nd with aliases := nd.aliases ++ [a] } else s.node x }

/-- TreeNode.hpp 2203 `makeSubtreePrivate`, 3949-3956 -/
def makePrivate (s : St) (n : Nat) : Except Err St :=
  match s.node n with
  | none => .error .ub
  | some _ =>
    .ok { s with node := fun x =>
      match s.node x with
      | none => none
      | some nd => some (if under s n x then { nd with priv := nd.priv + 1 } else nd) }

/-- TreeNode.cpp 2391-2418 `removeChildForTeardown_`: the entry under the group and index stays -/
def dropChild (n : Nat) (nd pd : Node) : Node :=
  { pd with children := pd.children.erase n, names := pd.names.filter (fun e => !(idents nd).contains e.1) }

/-- the nodes after the destructor; `loc` is the location of the node -/
def detach (s : St) (n : Nat) (nd : Node) (loc : Option Str) : St :=
  { s with node := fun x =>
      if x = n then none
      else match s.node x with
        | none => none
        | some xd =>
          some (if nd.parent = some x then dropChild n nd xd
            else if nd.children.contains x then { xd with parent := none, ploc := loc }
            else xd) }

/-- TreeNode.cpp 318-359: the destructor; `getLocation` is called if there are children -/
def destroy (s : St) (n : Nat) : Except Err St :=
  match s.node n with
  | none => .error .ub
  | some nd =>
    if nd.children = [] then .ok (detach s n nd none)
    else match getLocation s n with
      | none => .error .critical
      | some l => .ok (detach s n nd (some l))

/-! ### looking up -/

/-- TreeNode.hpp 4300-4305 `canSeeChild_` -/
def canSee (s : St) (n x : Nat) : Except Err Bool :=
  match s.node n, s.node x with
  | some nd, some xd => .ok (nd.priv == xd.priv)
  | _, _ => .error .ub

/-- the loop of TreeNode.cpp 1116-1138 and 1269-1281 -/
def walk (s : St) : List Str → Nat → Except Err (Option Nat)
  | [], n => .ok (some n)
  | nm :: L, n =>
    match s.node n with
    | none => .error .ub
    | some nd =>
      if nm = [] then
        match nd.parent with
        | none => .ok none
        | some p => walk s L p
      else
        match lookupName nm nd.names with
        | none => .ok none
        | some c => walk s L c

/-- TreeNode.cpp 1141-1155: what may not be seen is not given out -/
def visible (s : St) (all : Bool) (n x : Nat) : Except Err (Option Nat) :=
  if all then .ok (some x)
  else match canSee s n x with
    | .error e => .error e
    | .ok b => .ok (if b then some x else none)

/-- TreeNode.cpp 1105-1157 `getChild_`: no node is a null pointer, or an exception if the node must exist -/
def getChild (s : St) (all : Bool) (n : Nat) (path : Str) : Except Err (Option Nat) :=
  if path = [] then .ok (some n)
  else match walk s (names path) n with
    | .error e => .error e
    | .ok none => .ok none
    | .ok (some x) => visible s all n x

/-- TreeNode.cpp 1260-1290 `hasChild_` -/
def hasChild (s : St) (all : Bool) (n : Nat) (path : Str) : Except Err Bool :=
  if path = [] then .ok true
  else match walk s (names path) n with
    | .error e => .error e
    | .ok none => .ok false
    | .ok (some x) => if all then .ok true else canSee s n x

/-- TreeNode.cpp 736-751 `getChildren`: the children on the same level -/
def getChildren (s : St) (n : Nat) : List Nat :=
  match s.node n with
  | none => []
  | some nd => nd.children.filter (fun c => match s.node c with
    | none => false
    | some cd => cd.priv == nd.priv)

/-! ### searching -/

/-- `std::regex_match` with its groups; they take as much as they can, from the left -/
def capture : List Tok → Str → Option (List Str)
  | [], s => if s.isEmpty then some [] else none
  | .lit c :: r, d :: s => if c == d then capture r s else none
  | .lit _ :: _, [] => none
  | .opt :: r, [] => (capture r []).map ([] :: ·)
  | .opt :: r, d :: s =>
    match (if dot d then capture r s else none) with
    | some l => some ([d] :: l)
    | none => (capture r (d :: s)).map ([] :: ·)
  | .star :: r, [] => (capture r []).map ([] :: ·)
  | .star :: r, d :: s =>
    match (if dot d then capture (.star :: r) s else none) with
    | some (u :: l) => some ((d :: u) :: l)
    | _ => (capture r (d :: s)).map ([] :: ·)
  | .plus :: _, [] => none
  | .plus :: r, d :: s =>
    if dot d then
      match capture (.plus :: r) s with
      | some (u :: l) => some ((d :: u) :: l)
      | _ => (capture r s).map ([d] :: ·)
    else none
termination_by r s => r.length + s.length

/-- TreeNode.cpp 878-884: the expression for one level; the model leaves those out that are not sequences of characters and wildcards -/
def regexOf (nm : Str) : Except Err (List Tok) :=
  match parseRegex (createSearchRegexPattern nm) with
  | none => .error .throw
  | some r => .ok r

/-- the check of TreeNode.cpp 976 -/
def consider (s : St) (all : Bool) (n c : Nat) : Except Err Bool := if all then .ok true else canSee s n c

/-- TreeNode.cpp 964-991 `findImmediateChildren_`: the loop; `found` in order -/
def immLoop (s : St) (all : Bool) (n : Nat) (r : List Tok) :
    List (Str × Nat) → List (Nat × List Str) → Except Err (List (Nat × List Str))
  | [], found => .ok found
  | e :: es, found =>
    match capture r e.1 with
    | none => immLoop s all n r es found
    | some reps =>
      match consider s all n e.2 with
      | .error er => .error er
      | .ok false => immLoop s all n r es found
      | .ok true =>
        if found.any (fun f => f.1 == e.2) then immLoop s all n r es found
        else immLoop s all n r es (found ++ [(e.2, reps)])

/-- TreeNode.cpp 889-928: the search below every child found; `f` is the recursive call.  The replacements of the descendant are
copied to the end from the back: they end up in the opposite order -/
def below (f : Nat → Except Err (List (Nat × List Str))) : List (Nat × List Str) → Except Err (List (Nat × List Str))
  | [] => .ok []
  | (c, reps) :: cs =>
    match f c with
    | .error e => .error e
    | .ok xs =>
      match below f cs with
      | .error e => .error e
      | .ok ys => .ok (xs.map (fun x => (x.1, reps ++ x.2.reverse)) ++ ys)

/-- TreeNode.cpp 843-937 `findChildren_`, on the levels of the pattern: the nodes found with their replacements -/
def find (s : St) (all : Bool) : List Str → Nat → Except Err (List (Nat × List Str))
  | [], n => .ok [(n, [])]
  | nm :: L, n =>
    match s.node n with
    | none => .error .ub
    | some nd =>
      if nm = [] then
        match nd.parent with
        | none => .ok []
        | some p => find s all L p
      else
        match regexOf nm with
        | .error e => .error e
        | .ok r =>
          match immLoop s all n r nd.names [] with
          | .error e => .error e
          | .ok cs => below (find s all L) cs

def findChildren (s : St) (all : Bool) (n : Nat) (pattern : Str) : Except Err (List (Nat × List Str)) :=
  find s all (names pattern) n

/-- TreeNode.cpp 2123-2148 `getPreviousName_` on the text before the position; `none`: `npos` -/
def prevName (t : Str) : Str × Option Str :=
  match t.reverse.findIdx? (· == '.') with
  | none => (t, none)
  | some k => (t.drop (t.length - k), if k + 1 = t.length then none else some (t.take (t.length - k - 1)))

theorem prevName_lt {s r : Str} (h : (prevName s).2 = some r) : r.length < s.length := by
  unfold prevName at h
  split at h
  · cases h
  · rename_i k hk
    have hlt := (List.findIdx?_eq_some_iff_getElem.mp hk).1
    rw [List.length_reverse] at hlt
    dsimp only at h
    split at h
    · cases h
    · cases h
      rw [List.length_take]; omega

/-- the levels of a pattern from the last to the first -/
def prevNames (t : Str) : List Str :=
  match h : (prevName t).2 with
  | some r => (prevName t).1 :: prevNames r
  | none => [(prevName t).1]
termination_by t.length
decreasing_by exact prevName_lt h

/-- the test of TreeNode.cpp 1076-1079 for the identifiers of a node -/
def anyMatch (r : List Tok) (ids : List Str) : Bool := ids.any (fun i => tokMatch r i)

/-- TreeNode.cpp 1081-1087: up -/
def upFrom (s : St) (start n : Nat) (nd : Node) : Option Nat :=
  match nd.parent with
  | some p => some p
  | none =>
    match s.node start with
    | none => none
    | some sd => if sd.children.contains n then some start else none

/-- TreeNode.cpp 1049-1102: the loop -/
def matchUp (s : St) (start : Nat) : List Str → Nat → Except Err Bool
  | [], _ => .ok false
  | tok :: rest, n =>
    match s.node n with
    | none => .error .ub
    | some nd =>
      if tok = [] then .error .throw
      else match regexOf tok with
        | .error e => .error e
        | .ok r =>
          if anyMatch r (idents nd) then
            match upFrom s start n nd with
            | none => .ok false
            | some q => if q = start ∧ rest = [] then .ok true else matchUp s start rest q
          else .ok false

/-- TreeNode.cpp 1033-1103 `locationMatchesPattern` -/
def locationMatches (s : St) (n : Nat) (pattern : Str) (start : Nat) : Except Err Bool :=
  if pattern = [] then .ok (start == n) else matchUp s start (prevNames pattern) n

/-- TreeNode.cpp 1239-1249: the choice among the children; `f` is the recursive call -/
def deepLoop (s : St) (f : Nat → Except Err (Nat × Str)) : List (Nat × List Str) → Nat × Str → Except Err (Nat × Str)
  | [], best => .ok best
  | (c, _) :: cs, best =>
    match s.node c, f c with
    | some cd, .ok pr =>
      deepLoop s f cs (if best.1 ≤ pr.1 then (pr.1, if pr.2 = [] then cd.name else cd.name ++ '.' :: pr.2) else best)
    | _, .error e => .error e
    | none, _ => .error .ub

/-- TreeNode.cpp 1217-1258 `recursGetDeepestMatchingPath_` -/
def deep (s : St) : List Str → Nat → Except Err (Nat × Str)
  | [], n =>
    match s.node n with
    | none => .error .ub
    | some nd => .ok (1, nd.name)
  | nm :: L, n =>
    match s.node n with
    | none => .error .ub
    | some nd =>
      if nm = [] then
        match nd.parent with
        | none => .error .ub
        | some p =>
          match deep s L p with
          | .error e => .error e
          | .ok pr => .ok (1, '.' :: pr.2)
      else
        match regexOf nm with
        | .error e => .error e
        | .ok r =>
          match immLoop s false n r nd.names [] with
          | .error e => .error e
          | .ok [] => .ok (0, [])
          | .ok (c :: cs) =>
            match deepLoop s (deep s L) (c :: cs) (0, []) with
            | .error e => .error e
            | .ok b => .ok (1 + b.1, b.2)

/-- TreeNode.cpp 1212-1215 `getDeepestMatchingPath` -/
def deepestPath (s : St) (n : Nat) (path : Str) : Except Err Str :=
  match deep s (names path) n with
  | .error e => .error e
  | .ok pr => .ok pr.2

/-! ### a run -/

inductive Op
  /-- a node, or a node of a derived class; below `parent` if there is one -/
  | new (parent : Option Nat) (name group : Str) (gidx : Nat) (indexable : Bool)
  /-- a `RootTreeNode` -/
  | newRoot (name : Str)
  | addAlias (n : Nat) (a : Str)
  | addChild (p c : Nat)
  | makePrivate (n : Nat)
  | destroy (n : Nat)
deriving DecidableEq, Repr

inductive Ans
  | ok
  | node (n : Nat)
  | fail (e : Err)
  | gone
deriving DecidableEq, Repr

def finish (s : St) (a : Ans) : Except Err St → St × Ans
  | .ok s' => (s', a)
  | .error .throw => (s, .fail .throw)
  | .error e => ({ s with dead := true }, .fail e)

def live (s : St) : Op → St × Ans
  | .new p nm g i ix => finish s (.node s.next) (construct s p (bare nm g i ix false))
  | .newRoot nm => finish s (.node s.next) (construct s none (bare nm [] idxNone true true))
  | .addAlias n a => finish s .ok (addAlias s n a)
  | .addChild p c => finish s .ok (addChild s p c)
  | .makePrivate n => finish s .ok (makePrivate s n)
  | .destroy n => finish s .ok (destroy s n)

def step (s : St) (o : Op) : St × Ans := if s.dead then (s, .gone) else live s o

end Sparta.TNode
