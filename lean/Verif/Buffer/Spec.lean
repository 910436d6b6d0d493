import Verif.Buffer.Model
/-! A bounded list, which is what a Buffer should be. -/
namespace Sparta.Buffer
variable {α : Type}

/-- contents, capacity, and how the capacity grows (`none`: fixed) -/
structure Bounded (α : Type) where
  l : List α
  cap : Nat
  grow : Option (Nat → Nat)

/-- make room before adding, if the capacity may grow -/
def Bounded.room (s : Bounded α) : Bounded α :=
  match s.grow with
  | some g => if s.l.length = s.cap then { s with cap := g s.cap } else s
  | none => s

/-- the calls on a bounded list -/
def Bounded.step (s : Bounded α) : Op α → Bounded α × Out α
  | .push x =>
    if s.room.l.length = s.room.cap then (s.room, .threw) else ({ s.room with l := s.l ++ [x] }, .done)
  | .insert i x =>
    if s.room.l.length = s.room.cap ∨ s.l.length < i then (s.room, .threw)
    else ({ s.room with l := s.l.insertIdx i x }, .done)
  | .erase i => if i < s.l.length then ({ s with l := s.l.eraseIdx i }, .done) else (s, .threw)
  | .clear => ({ s with l := [] }, .done)
  | .read i => (s, match s.l[i]? with | some x => .value x | none => .threw)
  | .size => (s, .num s.l.length)
  | .numFree => (s, .num (s.cap - s.l.length))

end Sparta.Buffer
