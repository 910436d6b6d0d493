import Verif.TNode.Model
/-!
What the claims about the device tree are about: ancestors, levels, paths of names.
-/
namespace Sparta.TNode
open Sparta.Strings (Str)

/-- `a` is a proper ancestor of `n`, for the parents given -/
inductive Above (P : Nat → Option Nat) : Nat → Nat → Prop
  | parent {a n : Nat} : P n = some a → Above P a n
  | up {a n p : Nat} : P n = some p → Above P a p → Above P a n

/-- the number of ancestors -/
inductive Lv (P : Nat → Option Nat) : Nat → Nat → Prop
  | zero {n : Nat} : P n = none → Lv P n 0
  | succ {n p d : Nat} : P n = some p → Lv P p d → Lv P n (d + 1)

/-- a node that exists -/
def Alive (s : St) (n : Nat) : Prop := (s.node n).isSome = true

/-- the children of a node, private ones too -/
def childrenOf (s : St) (n : Nat) : List Nat :=
  match s.node n with
  | none => []
  | some nd => nd.children

/-- names and aliases of a node -/
def identsOf (s : St) (n : Nat) : List Str :=
  match s.node n with
  | none => []
  | some nd => idents nd

/-- names, aliases, group with index -/
def keysOf (s : St) (n : Nat) : List Str :=
  match s.node n with
  | none => []
  | some nd => keys nd

def nameOf (s : St) (n : Nat) : Str :=
  match s.node n with
  | none => []
  | some nd => nd.name

def levelOf (s : St) (n : Nat) : Nat :=
  match s.node n with
  | none => 0
  | some nd => nd.priv

/-- a path downwards: for every level a name out of `K` -/
inductive Down (s : St) (K : Nat → List Str) : Nat → List Str → Nat → Prop
  | here (n : Nat) : Down s K n [] n
  | step {n c x : Nat} {k : Str} {ks : List Str} : parentOf s c = some n → k ∈ K c → Down s K c ks x → Down s K n (k :: ks) x

/-- the nodes that a pattern with the levels `L` designates from a node: an empty level goes up, another one to the children with
a matching name out of `K`; without access to private children only to those on the same level of privacy -/
inductive Reach (s : St) (all : Bool) (K : Nat → List Str) : List Str → Nat → Nat → Prop
  | here (n : Nat) : Reach s all K [] n n
  | up {n p x : Nat} {L : List Str} : parentOf s n = some p → Reach s all K L p x → Reach s all K ([] :: L) n x
  | down {n c x : Nat} {nm k : Str} {L : List Str} : nm ≠ [] → parentOf s c = some n → k ∈ K c → PTree.Glob nm k →
      (all = true ∨ levelOf s c = levelOf s n) → Reach s all K L c x → Reach s all K (nm :: L) n x

def isWild (c : Char) : Bool := c == '*' || c == '?' || c == '+'

/-- the text that a pattern becomes when its wildcards are replaced, in order, by the texts given -/
inductive Fill : Str → List Str → Str → Prop
  | nil : Fill [] [] []
  | lit {c : Char} {p t : Str} {rs : List Str} : isWild c = false → Fill p rs t → Fill (c :: p) rs (c :: t)
  | wild {c : Char} {p t u : Str} {rs : List Str} : isWild c = true → Fill p rs t → Fill (c :: p) (u :: rs) (u ++ t)

/-- the same for the levels of a path, with the replacements of every level apart -/
inductive FillPath : List Str → List (List Str) → List Str → Prop
  | nil : FillPath [] [] []
  | cons {p t : Str} {r : List Str} {L ts : List Str} {rs : List (List Str)} : Fill p r t → FillPath L rs ts →
      FillPath (p :: L) (r :: rs) (t :: ts)

/-- the order in which the replacements of the levels come out -/
def scramble : List (List Str) → List Str
  | [] => []
  | r :: rs => r ++ (scramble rs).reverse

/-- the number of wildcards -/
def wilds (L : List Str) : Nat := (L.map (fun p => p.countP isWild)).sum

/-- the state after a run -/
def after (ops : List Op) : St := (runOps step init ops).1

/-- a destructor that leaves no entry behind -/
def TidyDestroy (s : St) (n : Nat) : Prop :=
  ∀ nd, s.node n = some nd → nd.parent = none ∨ ∀ k, groupKey nd = some k → k ∈ idents nd

/-- no node with a group loses its life while it has a parent (unless its group and index are a name or alias of it too) -/
def Tidy : St → List Op → Prop
  | _, [] => True
  | s, o :: os => (∀ n, o = .destroy n → TidyDestroy s n) ∧ Tidy (step s o).1 os

end Sparta.TNode
