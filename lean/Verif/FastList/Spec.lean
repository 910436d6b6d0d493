import Verif.FastList.Model
/-! Specification of FastList: a plain list of (position id, value) and a stack of unused ids. -/
namespace Sparta.FastList

structure Spec (α : Type) where
  cap : Nat
  items : List (Nat × α)
  free : List Nat

def Spec.init (α : Type) (n : Nat) : Spec α := ⟨n, [], List.range n⟩

variable {α : Type}

def Spec.ids (s : Spec α) : List Nat := s.items.map Prod.fst
/-- place of position id `k` in the list -/
def Spec.place (s : Spec α) (k : Nat) : Nat := s.ids.idxOf k

/-- put a new element at place `i` -/
def Spec.insertAt (s : Spec α) (i : Nat) (x : α) : Spec α × Out :=
  match s.free with
  | f :: fs => ({ s with items := s.items.insertIdx i (f, x), free := fs }, .at (some f))
  | [] => (s, .threw)

/-- remove the element at place `i` -/
def Spec.removeAt (s : Spec α) (i : Nat) : Spec α :=
  { s with items := s.items.eraseIdx i, free := (s.ids[i]?).toList ++ s.free }

def Spec.step (s : Spec α) : Op α → Spec α × Out
  | .pushFront x => s.insertAt 0 x
  | .pushBack x => s.insertAt s.items.length x
  | .insert none x => s.insertAt s.items.length x
  | .insert (some k) x => s.insertAt (s.place k) x
  | .erase k => (s.removeAt (s.place k), .at s.ids[s.place k + 1]?)
  | .popFront => if s.items = [] then (s, .threw) else (s.removeAt 0, .done)
  | .popBack => if s.items = [] then (s, .threw) else (s.removeAt (s.items.length - 1), .done)
  | .clear => ({ s with items := [], free := s.ids.reverse ++ s.free }, .done)

/-- iterators passed in must denote elements of the list -/
def Spec.legal (s : Spec α) : Op α → Prop
  | .insert (some k) _ => k ∈ s.ids
  | .erase k => k ∈ s.ids
  | _ => True

end Sparta.FastList
