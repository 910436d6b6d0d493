import Verif.Common
/-!
Model of `sparta::ExportedPort::resolvePort_` (sparta/src/ExportedPort.cpp) and of `utils::recursiveTreeSearch` (sparta/sparta/utils/TreeUtils.hpp):
how an exported port that is given by a name finds the port it stands for.

The device tree below the search path is a finite tree of nodes with an identity, a name and a kind. Binding itself is not modelled (see DataPort),
nor are exported ports that are given their internal port, nor a missing search path, nor a second attempt after a failed one.
-/
namespace Sparta.ExPort

/-- what a tree node is: `getAs<Port>` succeeds on the last two, `getAs<ExportedPort>` on the last only -/
inductive Kind where
  | other
  | port
  | exported
deriving DecidableEq

/-- a node of the device tree with what is below it -/
inductive Tree where
  | node (id : Nat) (name : String) (kind : Kind) (children : List Tree)

/-- the identity of a node -/
def Tree.id : Tree → Nat
  | .node i _ _ _ => i
/-- the name of a node -/
def Tree.name : Tree → String
  | .node _ n _ _ => n
/-- the kind of a node -/
def Tree.kind : Tree → Kind
  | .node _ _ k _ => k
/-- the children of a node -/
def Tree.children : Tree → List Tree
  | .node _ _ _ c => c

mutual
/-- TreeUtils.hpp:35-49: nothing is searched below a match -/
def search (nm : String) : Tree → List Tree
  | .node i n k c => if n = nm then [.node i n k c] else searchAll nm c
/-- TreeUtils.hpp:44-46 -/
def searchAll (nm : String) : List Tree → List Tree
  | [] => []
  | t :: ts => search nm t ++ searchAll nm ts
end

/-- ExportedPort.cpp:64-73: the loop over two matches; `none` is an exception -/
def pick : List Tree → Option Nat → Option (Option Nat)
  | [], r => some r
  | t :: ts, r =>
    match t.kind with
    | .exported => pick ts r
    | .port => pick ts (some t.id)
    | .other => none

/-- ExportedPort.cpp:13-78: the internal port found by the exported port `self`; `none` is an exception -/
def resolve (self : Nat) (nm : String) (root : Tree) : Option Nat :=
  match search nm root with
  | [] => none
  | [t] => if t.kind = .other then none else if t.id = self then none else some t.id
  | [t, u] => (pick [t, u] none).bind id
  | _ => none

end Sparta.ExPort
