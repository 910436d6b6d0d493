import Verif.RegView.Model
/-! What the calls are said to do: an object has a value of its own, or shows data that is elsewhere, or has nothing. -/
namespace Sparta.RegView

/-- an object that has nothing any more, with its own value, that views data, that works on data -/
inductive SObj
  | gone (n : Nat)
  | own (v : List Nat)
  | view (b n : Nat)
  | window (b n : Nat)
deriving DecidableEq, Repr

structure SMem where
  bufs : Nat → List Nat
  objs : Nat → Option SObj
  next : Nat

def SObj.size : SObj → Nat
  | .gone n => n
  | .own v => v.length
  | .view _ n => n
  | .window _ n => n

/-- what an object shows -/
def SMem.val (s : SMem) (k : Nat) : Option (List Nat) :=
  match s.objs k with
  | some (.own v) => some v
  | some (.view b n) => some ((s.bufs b).take n)
  | some (.window b n) => some ((s.bufs b).take n)
  | _ => none

/-- the object shows `v` from now on: a window changes the data, all others have a value of their own -/
def SMem.assign (s : SMem) (k : Nat) (v : List Nat) : SMem :=
  match s.objs k with
  | some (.window b n) => { s with bufs := upd s.bufs b (v ++ (s.bufs b).drop n) }
  | _ => { s with objs := upd s.objs k (some (.own v)) }

/-- the object shows `f` of what it has shown -/
def SMem.change (s : SMem) (k : Nat) (f : List Nat → List Nat) : SMem × Res :=
  match s.val k with
  | none => (s, .ub)
  | some v => (s.assign k (f v), .done)

def SMem.add (s : SMem) (o : SObj) : SMem := { s with objs := upd s.objs s.next (some o), next := s.next + 1 }

def sstep (s : SMem) : Op → SMem × Res
  | .alloc n => (s.add (.own (List.replicate n 0)), .done)
  | .allocData n d => if n < d.length then (s, .assert) else (s.add (.own (d ++ List.replicate (n - d.length) 0)), .done)
  | .viewMut b n _ => (s.add (.window b n), .done)
  | .viewConst b n _ => (s.add (.view b n), .done)
  | .nil _ => (s.add (.gone 0), .done)
  | .copy k _ =>
    match s.objs k with
    | none => (s, .ub)
    | some (.window b n) => (s.add (.own ((s.bufs b).take n)), .done)
    | some o => (s.add o, .done)
  | .move k _ =>
    match s.objs k with
    | none => (s, .ub)
    | some o => (({ s with objs := upd s.objs k (some (.gone o.size)) }).add o, .done)
  | .set k d => s.change k (fun v => d.take v.length ++ v.drop d.length)
  | .fill k x => s.change k (fun v => List.replicate v.length x)
  | .orAssign k j =>
    match s.val j with
    | none => (s, .ub)
    | some w => s.change k (fun v => List.zipWith (· ||| ·) v w)
  | .poke k i x => s.change k (fun v => v.set i x)
  | .get k =>
    match s.val k with
    | none => (s, .ub)
    | some v => (s, .bytes v)
  | .size k =>
    match s.objs k with
    | none => (s, .ub)
    | some o => (s, .num o.size)
  | .equal k j =>
    match s.val k, s.val j with
    | some v, some w => (s, .bool (decide (v = w)))
    | _, _ => (s, .ub)
  | .pokeBuf b i x => if (s.bufs b).length ≤ i then (s, .ub) else ({ s with bufs := upd s.bufs b ((s.bufs b).set i x) }, .done)
  | .getBuf b => (s, .bytes (s.bufs b))

def sinit (bufs : Nat → List Nat) : SMem := { bufs := bufs, objs := fun _ => none, next := 0 }

def isWindow (o : Option SObj) : Bool := match o with
  | some (.window _ _) => true
  | _ => false

/-- views fit their data; what works on data is not moved, and not copied unless it has more than 8 bytes; data that is set is not longer
than the object, or at most 8 bytes unless the object works on data; single bytes lie in the object; sizes fit -/
def legal (s : SMem) : Op → Prop
  | .viewMut b n junk => n ≤ (s.bufs b).length ∧ junk.length = 8
  | .viewConst b n junk => n ≤ (s.bufs b).length ∧ junk.length = 8
  | .nil junk => junk.length = 8
  | .copy k junk => junk.length = 8 ∧ (isWindow (s.objs k) = true → ∀ o, s.objs k = some o → 8 < o.size)
  | .move k junk => junk.length = 8 ∧ isWindow (s.objs k) = false
  | .set k d => ∀ o, s.objs k = some o → d.length ≤ o.size ∨ (d.length ≤ 8 ∧ o.size ≤ 8 ∧ isWindow (s.objs k) = false)
  | .orAssign k j => ∀ o, s.objs k = some o → (o.size = 1 ∨ o.size = 2 ∨ o.size = 4 ∨ (8 ≤ o.size ∧ o.size % 8 = 0)) ∧
      ∀ p, s.objs j = some p → o.size = p.size
  | .poke k i _ => ∀ o, s.objs k = some o → i < o.size
  | .equal k j => (s.val k).isSome = true ∧ (s.val j).isSome = true
  | _ => True

end Sparta.RegView
