import Verif.Strings.Model
/-!
Model of the virtual parameter tree (/repo/sparta/sparta/simulation/ParameterTree.hpp) and of the search patterns of
tree nodes (/repo/sparta/src/TreeNode.cpp 1492-1536 and /repo/sparta/src/sparta.cpp 134-152).

A `std::string` is a list of characters.  A pointer to a node is the list of child indices from the root: children are
only ever appended, so such a pointer stays valid until the tree is cleared or assigned (`Node::release` is not
modelled).  A failing `sparta_assert` or a thrown `SpartaException` is the result `none` (or `false` beside a
partly changed tree).  Not modelled: user data, printing, `Node`'s own copy constructor and assignment.  Simplified: the
counters of writes, reads and requirements do not wrap at 2^32.
-/
namespace Sparta.PTree
open Sparta.Strings (Str replaceSubstring)

/-! ### search patterns -/

/-- sparta.cpp 134-152 `TREE_NODE_PATTERN_SUBS`: the texts replaced, in order, and what replaces them -/
def patternSubs : List (Char × Str) :=
  [('(', ['\\', '(']), (')', ['\\', ')']), ('[', ['\\', '[']), (']', ['\\', ']']),
   ('*', ['(', '.', '*', ')']), ('?', ['(', '.', '?', ')']), ('+', ['(', '.', '+', ')'])]

/-- one of the replacements of TreeNode.cpp 1498-1500 -/
def applySub (s : Str) (pr : Char × Str) : Str :=
  match replaceSubstring s [pr.1] pr.2 with
  | some r => r.1
  | none => s

/-- TreeNode.cpp 1492-1503 `createSearchRegexPattern` -/
def createSearchRegexPattern (pat : Str) : Str := patternSubs.foldl applySub pat

/-- TreeNode.cpp 1505-1512 `hasWildcardCharacters` -/
def hasWild (name : Str) : Bool := patternSubs.any (fun pr => name.contains pr.1)

/-- the regular expressions that occur: sequences of characters and of `(.*)`, `(.?)`, `(.+)` -/
inductive Tok
  | lit (c : Char)
  | star
  | opt
  | plus
deriving DecidableEq, Repr

/-- characters with a meaning of their own in an ECMAScript regular expression -/
def regexSpecial : List Char := ['\\', '^', '$', '.', '|', '{', '}', '(', ')', '[', ']', '*', '+', '?']

/-- how `std::regex` reads the text (ParameterTree.hpp 439, TreeNode.cpp 1532).  `none`: an expression outside of this model -/
def parseRegex : Str → Option (List Tok)
  | [] => some []
  | '(' :: '.' :: '*' :: ')' :: s => (parseRegex s).map (Tok.star :: ·)
  | '(' :: '.' :: '?' :: ')' :: s => (parseRegex s).map (Tok.opt :: ·)
  | '(' :: '.' :: '+' :: ')' :: s => (parseRegex s).map (Tok.plus :: ·)
  | '\\' :: c :: s => if ['(', ')', '[', ']'].contains c then (parseRegex s).map (Tok.lit c :: ·) else none
  | c :: s => if regexSpecial.contains c then none else (parseRegex s).map (Tok.lit c :: ·)

/-- the characters `.` stands for: all but line ends -/
def dot (c : Char) : Bool := c != '\n' && c != '\r'

/-- `std::regex_match`: the whole text is in the language of the expression -/
def tokMatch : List Tok → Str → Bool
  | [], s => s.isEmpty
  | .lit c :: r, d :: s => c == d && tokMatch r s
  | .lit _ :: _, [] => false
  | .opt :: r, [] => tokMatch r []
  | .opt :: r, d :: s => tokMatch r (d :: s) || (dot d && tokMatch r s)
  | .star :: r, [] => tokMatch r []
  | .star :: r, d :: s => tokMatch r (d :: s) || (dot d && tokMatch (.star :: r) s)
  | .plus :: _, [] => false
  | .plus :: r, d :: s => dot d && (tokMatch r s || tokMatch (.plus :: r) s)
termination_by r s => r.length + s.length

/-- ParameterTree.hpp 438-442 `Node::matches`, TreeNode.cpp 1530-1535 `matchesGlobLike` -/
def patMatches (pattern other : Str) : Bool :=
  match parseRegex (createSearchRegexPattern pattern) with
  | some r => tokMatch r other
  | none => false

/-! ### paths -/

/-- TreeNode.cpp 1514-1528 `getNextName`: the name and the text left, `none` for `npos` -/
def nextName (s : Str) : Str × Option Str :=
  match s.findIdx? (· == '.') with
  | some k => (s.take k, if k + 1 = s.length then none else some (s.drop (k + 1)))
  | none => (s, none)

theorem nextName_lt {s r : Str} (h : (nextName s).2 = some r) : r.length < s.length := by
  unfold nextName at h
  split at h
  · rename_i k hk
    have := (List.findIdx?_eq_some_iff_getElem.mp hk).1
    dsimp only at h
    split at h
    · cases h
    · obtain rfl := Option.some.inj h
      simp; omega
  · cases h

/-- the names that repeated calls of `getNextName` give; no names for the empty path.  An empty name means "parent". -/
def names (s : Str) : List Str :=
  if s = [] then []
  else
    match h : (nextName s).2 with
    | some r => (nextName s).1 :: names r
    | none => [(nextName s).1]
termination_by s.length
decreasing_by exact nextName_lt h

/-! ### nodes -/

/-- ParameterTree.hpp 73-82, 151: `value` holds `value_` and `origin_` while `has_value_` -/
structure Node where
  name : Str
  value : Option (Str × Str)
  required : Nat
  writes : Nat
  reads : Nat
  children : List Node

/-- position of a node: child indices from the root -/
abbrev Ref := List Nat

/-- ParameterTree.hpp 174-180 -/
def newNode (nm : Str) : Node := ⟨nm, none, 0, 0, 0, []⟩

/-- ParameterTree.hpp 187-194: the root has no name -/
def newRoot : Node := newNode []

/-- ParameterTree.hpp 628-640 `setValue` -/
def Node.setValue (n : Node) (v : Str) (req : Bool) (org : Str) : Node :=
  { n with value := some (v, org), writes := n.writes + 1, required := if req then n.required + 1 else n.required }

/-- the loop of ParameterTree.hpp 541-572 over the children, newest first.  The result is the index in `children_`. -/
def prioLoop (nm : Str) (w : Bool) : List Node → Option Nat
  | [] => none
  | c :: older =>
    if c.name = nm then some older.length
    else if w then
      if hasWild c.name then none
      else if patMatches nm c.name then none
      else prioLoop nm w older
    else if patMatches c.name nm then none
    else prioLoop nm w older

/-- ParameterTree.hpp 519-575 `getPriorityChildMatch` -/
def prioIdx (cs : List Node) (nm : Str) : Option Nat := prioLoop nm (hasWild nm) cs.reverse

/-- ParameterTree.hpp 580-590 `addChild`, the new child: the node exists at once; its count of requirements -/
def added (nm : Str) (req : Bool) : Node := { newNode nm with required := if req then 1 else 0 }

/-- ParameterTree.hpp 478-508 `Node::create`, on the names of the path.  The tree and the node made or found; no node for
a path with an empty name; `none`: the assertion of `addChild` failed.  Then nothing has changed: only nodes that were
there before can have a value. -/
def create (req : Bool) : List Str → Node → Option (Node × Option Ref)
  | [], n => some (n, some [])
  | nm :: rest, n =>
    if nm = [] then some (n, none)
    else
      match prioIdx n.children nm with
      | some i =>
        match n.children[i]? with
        | some c => (create req rest c).map fun p => ({ n with children := n.children.set i p.1 }, p.2.map (i :: ·))
        | none => none
      | none =>
        if n.value.isSome then none
        else (create req rest (added nm req)).map fun p =>
          ({ n with children := n.children ++ [p.1] }, p.2.map (n.children.length :: ·))

/-- the node at a position -/
def nodeAt : Ref → Node → Option Node
  | [], n => some n
  | i :: r, n => match n.children[i]? with
    | some c => nodeAt r c
    | none => none

/-- change the node at a position -/
def modifyAt (f : Node → Node) : Ref → Node → Node
  | [], n => f n
  | i :: r, n => match n.children[i]? with
    | some c => { n with children := n.children.set i (modifyAt f r c) }
    | none => n

/-- ParameterTree.hpp 330-332 `incrementReadCount` -/
def Node.incRead (n : Node) : Node := { n with reads := n.reads + 1 }

/-- ParameterTree.hpp 1239-1247 `set` -/
def set (path v : Str) (req : Bool) (org : Str) (root : Node) : Option (Node × Bool) :=
  match create false (names path) root with
  | none => none
  | some (t, none) => some (t, false)
  | some (t, some r) => some (modifyAt (·.setValue v req org) r t, true)

/-! ### lookups -/

/-- the loop of ParameterTree.hpp 1584-1595 over the children, newest first: the children, the index of the first match
that counts, the index of the first match without value -/
def lastLoop (leaf : Bool) (nm : Str) : List Node → List Node × Option Nat × Option Nat
  | [] => ([], none, none)
  | c :: older =>
    let r := lastLoop leaf nm older
    if patMatches c.name nm then
      if c.value.isSome || !leaf then (c.incRead :: r.1, some older.length, r.2.2)
      else (c :: r.1, r.2.1, some older.length)
    else (c :: r.1, r.2.1, r.2.2)

/-- the body of the loop of ParameterTree.hpp 1616-1625 for one matching child -/
def innerHit (leaf : Bool) (p : Node × Option Ref) : Node × Option Ref :=
  match p.2 with
  | none => (p.1, none)
  | some r =>
    match nodeAt r p.1 with
    | none => (p.1, none)
    | some m =>
      if m.value.isSome || !leaf then (modifyAt Node.incRead r p.1, some r) else (p.1, none)

/-- the loop of ParameterTree.hpp 1614-1627 over the children, newest first; `f` is the recursive call -/
def innerLoop (f : Node → Option (Node × Option Ref)) (leaf : Bool) (nm : Str) : List Node → Option (List Node × Option Ref)
  | [] => some ([], none)
  | c :: older =>
    if patMatches c.name nm then
      (f c).bind fun p => (innerLoop f leaf nm older).map fun q =>
        ((innerHit leaf p).1 :: q.1, ((innerHit leaf p).2.map (older.length :: ·)).or q.2)
    else (innerLoop f leaf nm older).map fun q => (c :: q.1, q.2)

/-- ParameterTree.hpp 1569-1629 `recursTryGet_`.  `none`: an assertion failed or an exception was thrown.  Then no
count has changed: counts are changed on the last level of the path and on the way back from there only, and every call
that reaches the level of the offending name fails. -/
def recursTryGet (leaf : Bool) : Str → List Str → Node → Option (Node × Option Ref)
  | nm, [], n =>
    if hasWild nm then none
    else
      let r := lastLoop leaf nm n.children.reverse
      some ({ n with children := r.1.reverse }, (r.2.1.or r.2.2).map fun i => [i])
  | nm, nm2 :: rest, n =>
    if hasWild nm then none
    else if nm2 = [] then none
    else (innerLoop (recursTryGet leaf nm2 rest) leaf nm n.children.reverse).map fun q =>
      ({ n with children := q.1.reverse }, q.2)

/-- ParameterTree.hpp 1525-1566 `tryGet_`, behind `tryGet`, `get`, `exists`, `hasValue` -/
def tryGet (path : Str) (leaf : Bool) (root : Node) : Option (Node × Option Ref) :=
  match names path with
  | [] => some (root, some [])
  | nm :: rest => if nm = [] then none else recursTryGet leaf nm rest root

/-- the loop of ParameterTree.hpp 1643-1652 -/
def lastRequired (nm : Str) : List Node → Option Bool
  | [] => none
  | c :: older =>
    if (if hasWild nm then c.name == nm else patMatches c.name nm) then some (decide (0 < c.required))
    else lastRequired nm older

/-- the loop of ParameterTree.hpp 1668-1677; `f` is the recursive call -/
def innerRequired (f : Node → Option (Option Bool)) (nm : Str) : List Node → Option (Option Bool)
  | [] => some none
  | c :: older =>
    if patMatches c.name nm then
      match f c with
      | none => none
      | some (some b) => some (some b)
      | some none => innerRequired f nm older
    else innerRequired f nm older

/-- ParameterTree.hpp 1633-1680 `recursGetIsRequired_`: `none`: exception; `some none`: no match -/
def recursIsRequired : Str → List Str → Node → Option (Option Bool)
  | nm, [], n => some (lastRequired nm n.children.reverse)
  | nm, nm2 :: rest, n =>
    if nm2 = [] then none else innerRequired (recursIsRequired nm2 rest) nm n.children.reverse

/-- ParameterTree.hpp 1372-1395 `isRequired`; `none`: exception, among others when nothing matches -/
def isRequired (path : Str) (root : Node) : Option Bool :=
  match names path with
  | [] => some (decide (0 < root.required))
  | nm :: rest =>
    if nm = [] then none
    else match recursIsRequired nm rest root with
      | some (some b) => some b
      | _ => none

/-- the loop of ParameterTree.hpp 1716-1723 -/
def lastRead (nm : Str) : List Node → Bool
  | [] => false
  | c :: older => (patMatches c.name nm && c.value.isSome && decide (0 < c.reads)) || lastRead nm older

/-- the loop of ParameterTree.hpp 1737-1745; `f` is the recursive call -/
def innerRead (f : Node → Option Bool) (nm : Str) : List Node → Option Bool
  | [] => some false
  | c :: older =>
    if patMatches c.name nm then
      match f c with
      | none => none
      | some true => some true
      | some false => innerRead f nm older
    else innerRead f nm older

/-- ParameterTree.hpp 1705-1747 `recursIsRead_` -/
def recursIsRead : Str → List Str → Node → Option Bool
  | nm, [], n => if hasWild nm then none else some (lastRead nm n.children.reverse)
  | nm, nm2 :: rest, n =>
    if hasWild nm then none
    else if nm2 = [] then none
    else innerRead (recursIsRead nm2 rest) nm n.children.reverse

/-- ParameterTree.hpp 1419-1436 `isRead` -/
def isRead (path : Str) (root : Node) : Option Bool :=
  match names path with
  | [] => some (root.value.isSome && decide (0 < root.reads))
  | nm :: rest => if nm = [] then none else recursIsRead nm rest root

mutual
/-- ParameterTree.hpp 1686-1700 `recursCountUnreadValueNodes_`: the nodes it reports, in order -/
def unread : Node → List Ref
  | ⟨_, value, _, _, reads, children⟩ =>
    (if value.isSome && reads == 0 then [[]] else []) ++ unreadL 0 children
/-- the loop of ParameterTree.hpp 1695-1698 (newest first) over the children from index `i` on -/
def unreadL : Nat → List Node → List Ref
  | _, [] => []
  | i, c :: cs => unreadL (i + 1) cs ++ (unread c).map (i :: ·)
end

mutual
/-- ParameterTree.hpp 653-658 `Node::unrequire` -/
def unrequireN : Node → Node
  | ⟨name, value, _, writes, reads, children⟩ => ⟨name, value, 0, writes, reads, unrequireL children⟩
/-- the loop of ParameterTree.hpp 655-657 -/
def unrequireL : List Node → List Node
  | [] => []
  | c :: cs => unrequireN c :: unrequireL cs
end

/-- ParameterTree.hpp 1402-1409 `unrequire` -/
def unrequire (path : Str) (root : Node) : Option (Node × Bool) :=
  match tryGet path false root with
  | none => none
  | some (t, none) => some (t, false)
  | some (t, some r) => some (modifyAt unrequireN r t, true)

/-! ### merging and copying -/

/-- change the node at a position by something that can fail on the way -/
def modifyAtE (f : Node → Node × Bool) : Ref → Node → Node × Bool
  | [], n => f n
  | i :: r, n => match n.children[i]? with
    | some c => ({ n with children := n.children.set i (modifyAtE f r c).1 }, (modifyAtE f r c).2)
    | none => (n, false)

/-- ParameterTree.hpp 1095-1097: take over the value of the other node -/
def inherit (value : Option (Str × Str)) (required : Nat) (n : Node) : Node :=
  match value with
  | some (v, o) => n.setValue v (decide (0 < required)) o
  | none => n

mutual
/-- ParameterTree.hpp 1093-1109 `recursAppendTree_`: the tree, and whether it got through.  The two trees are different
objects. -/
def append : Node → Node → Node × Bool
  | ⟨_, value, required, _, _, children⟩, n => appendL children (inherit value required n)
/-- the loop of ParameterTree.hpp 1104-1108 -/
def appendL : List Node → Node → Node × Bool
  | [], n => (n, true)
  | c :: cs, n =>
    match create (decide (0 < c.required)) (names c.name) n with
    | some (n', some r) =>
      let m := modifyAtE (append c) r n'
      if m.2 then appendL cs m.1 else m
    | some (n', none) => (n', false)
    | none => (n, false)
end

/-- ParameterTree.hpp 1449-1451 `merge`, 896-907 `appendTree` with the root of the other tree -/
def merge (root other : Node) : Node × Bool := append other root

/-- ParameterTree.hpp 1198-1202: the copy constructor -/
def copy (other : Node) : Option Node :=
  let r := merge newRoot other
  if r.2 then some r.1 else none

/-! ### nodes as the user sees them -/

/-- names on the way to a position -/
def namesAt : Ref → Node → Option (List Str)
  | [], _ => some []
  | i :: r, n => match n.children[i]? with
    | some c => (namesAt r c).map (c.name :: ·)
    | none => none

/-- names joined with dots -/
def joinDots : List Str → Str
  | [] => []
  | [a] => a
  | a :: b :: l => a ++ '.' :: joinDots (b :: l)

/-- ParameterTree.hpp 300-318 `getPath` -/
def getPath (r : Ref) (root : Node) : Option Str := (namesAt r root).map joinDots

/-- ParameterTree.hpp 682-694 `Node::set` on the node at `r`; `none` for no such node too -/
def nodeSet (r : Ref) (path v : Str) (req : Bool) (org : Str) (root : Node) : Option (Node × Bool) :=
  match getPath r root with
  | none => none
  | some p => set (if p ≠ [] ∧ path ≠ [] then p ++ ['.'] ++ path else p ++ path) v req org root

/-- the loop of ParameterTree.hpp 458-463 -/
def childLoop (nm : Str) : List Node → Option Nat
  | [] => none
  | c :: older => if patMatches c.name nm then some older.length else childLoop nm older

/-- ParameterTree.hpp 451-466 `getChild` and 599-604 `operator[]` of a node; `none`: exception -/
def index (n : Node) (nm : Str) : Option Nat :=
  if hasWild nm then none else childLoop nm n.children.reverse

/-- `node[a][b]...`: the position of the node reached -/
def indexAll : List Str → Node → Option Ref
  | [], _ => some []
  | nm :: rest, n =>
    match index n nm with
    | none => none
    | some i => match n.children[i]? with
      | some c => (indexAll rest c).map (i :: ·)
      | none => none

/-! ### several trees -/

inductive Op
  | set (t : Nat) (path v : Str) (req : Bool) (org : Str)
  | create (t : Nat) (path : Str) (req : Bool)
  | tryGet (t : Nat) (path : Str) (leaf : Bool)
  | isRequired (t : Nat) (path : Str)
  | isRead (t : Nat) (path : Str)
  | unread (t : Nat)
  | unrequire (t : Nat) (path : Str)
  | merge (t o : Nat)
  | copy (t o : Nat)
  | assign (t o : Nat)
  | clear (t : Nat)
deriving DecidableEq, Repr

/-- what a call gives.  `node`: the position and the path of a node, its value and origin if it has a value -/
inductive Res
  | error
  | done
  | bool (b : Bool)
  | node (x : Option (Ref × Str × Option (Str × Str)))
  | nodes (l : List (Ref × Str × Option (Str × Str)))
deriving DecidableEq, Repr

abbrev State := Nat → Node

/-- no tree has content -/
def State.init : State := fun _ => newRoot

/-- what a pointer to a node shows -/
def view (root : Node) (r : Ref) : Ref × Str × Option (Str × Str) :=
  (r, (getPath r root).getD [], (nodeAt r root).bind (·.value))

/-- store the changed tree and give a result, or report an error -/
def State.put (s : State) (t : Nat) (x : Option (Node × Res)) : State × Res :=
  match x with
  | none => (s, .error)
  | some (n, r) => (upd s t n, r)

def State.step (s : State) : Op → State × Res
  | .set t path v req org => s.put t ((PTree.set path v req org (s t)).map fun p => (p.1, .bool p.2))
  | .create t path req =>
    s.put t ((PTree.create req (names path) (s t)).map fun p => (p.1, .node (p.2.map (view p.1))))
  | .tryGet t path leaf => s.put t ((PTree.tryGet path leaf (s t)).map fun p => (p.1, .node (p.2.map (view p.1))))
  | .isRequired t path => s.put t ((PTree.isRequired path (s t)).map fun b => (s t, .bool b))
  | .isRead t path => s.put t ((PTree.isRead path (s t)).map fun b => (s t, .bool b))
  | .unread t => (s, .nodes ((PTree.unread (s t)).map (view (s t))))
  | .unrequire t path => s.put t ((PTree.unrequire path (s t)).map fun p => (p.1, .bool p.2))
  | .merge t o =>
    let m := PTree.merge (s t) (s o)
    (upd s t m.1, if m.2 then .done else .error)
  | .copy t o => s.put t ((PTree.copy (s o)).map fun n => (n, .done))
  | .assign t o =>
    -- ParameterTree.hpp 1204-1208: `clear()` comes first
    let s1 := upd s t newRoot
    let m := PTree.merge (s1 t) (s1 o)
    (upd s1 t m.1, if m.2 then .done else .error)
  | .clear t => (upd s t newRoot, .done)

end Sparta.PTree
