import Verif.Common
/-!
Where a `RegisterBits` keeps its bytes: own storage, views of other data, copies and moves.

Code: sparta/sparta/functional/RegisterBits.hpp 65-202, 491-521, 634-637, 646-689, 707, 729-733.

Simplifications: a byte is a natural number.  The data that is viewed lies in named buffers, and a view starts at the beginning of its
buffer.  What an array or an uninitialised member holds is an argument of the call (`junk`).  `|=` is modelled on bytes (the words are
the subject of C93).  A program reaches the bytes it gets from `data()` at once.
-/
namespace Sparta.RegView

/-- what `local_data_` and `remote_data_` point to: nothing, a buffer, `local_storage_` or `local_storage_alt_` of this object -/
inductive Ptr
  | null
  | ext (b : Nat)
  | store
  | alt
deriving DecidableEq, Repr

/-- RegisterBits.hpp 729-733: `local_storage_`, `local_storage_alt_`, `local_data_`, `remote_data_`, `num_bytes_` -/
structure Obj where
  store : List Nat
  alt : Option (List Nat)
  loc : Ptr
  rem : Ptr
  n : Nat
deriving DecidableEq, Repr

/-- the buffers, and the objects that were made so far -/
structure Mem where
  bufs : Nat → List Nat
  objs : Nat → Option Obj
  next : Nat

/-- the calls; an object is known by the number of objects that were made before it -/
inductive Op
  | alloc (n : Nat)
  | allocData (n : Nat) (d : List Nat)
  | viewMut (b n : Nat) (junk : List Nat)
  | viewConst (b n : Nat) (junk : List Nat)
  | nil (junk : List Nat)
  | copy (k : Nat) (junk : List Nat)
  | move (k : Nat) (junk : List Nat)
  | set (k : Nat) (d : List Nat)
  | fill (k v : Nat)
  | orAssign (k j : Nat)
  | poke (k i v : Nat)
  | get (k : Nat)
  | size (k : Nat)
  | equal (k j : Nat)
  | pokeBuf (b i v : Nat)
  | getBuf (b : Nat)
deriving DecidableEq, Repr

/-- what a call gives; `assert` is an assertion that fails, `ub` is undefined behaviour -/
inductive Res
  | done
  | bytes (l : List Nat)
  | num (n : Nat)
  | bool (b : Bool)
  | assert
  | ub
deriving DecidableEq, Repr

/-- the bytes a pointer of an object points to -/
def region (m : Mem) (o : Obj) : Ptr → Option (List Nat)
  | .null => none
  | .ext b => some (m.bufs b)
  | .store => some o.store
  | .alt => o.alt

/-- `memcpy` to position `i` -/
def overwrite (l : List Nat) (i : Nat) (d : List Nat) : List Nat := l.take i ++ d ++ l.drop (i + d.length)

/-- other bytes where `local_data_` points to -/
def put (m : Mem) (k : Nat) (o : Obj) (l : List Nat) : Mem :=
  match o.loc with
  | .null => m
  | .ext b => { m with bufs := upd m.bufs b l, objs := upd m.objs k (some o) }
  | .store => { m with objs := upd m.objs k (some { o with store := l }) }
  | .alt => { m with objs := upd m.objs k (some { o with alt := some l }) }

/-- RegisterBits.hpp 65-79 `convert_`; `none` = undefined behaviour -/
def convert (m : Mem) (o : Obj) : Option Obj :=
  if o.loc ≠ .null then some o
  else match region m o o.rem with
    | none => none
    | some r =>
      if r.length < o.n then none
      else if o.n ≤ 8 then some { o with store := overwrite o.store 0 (r.take o.n), loc := .store, rem := .store }
      else some { o with alt := some (r.take o.n), loc := .alt, rem := .alt }

/-- the methods that write: `convert_`, and then `f` on the bytes at `local_data_` -/
def modify (m : Mem) (k : Nat) (f : Mem → Obj → List Nat → Option (List Nat)) : Mem × Res :=
  match m.objs k with
  | none => (m, .ub)
  | some o =>
    match convert m o with
    | none => (m, .ub)
    | some o' =>
      match region m o' o'.loc with
      | none => (m, .ub)
      | some r =>
        match f { m with objs := upd m.objs k (some o') } o' r with
        | none => (m, .ub)
        | some r' => (put m k o' r', .done)

/-- `num_bytes_` bytes at `remote_data_` -/
def value (m : Mem) (o : Obj) : Option (List Nat) :=
  match region m o o.rem with
  | none => none
  | some r => if r.length < o.n then none else some (r.take o.n)

/-- a new object -/
def Mem.add (m : Mem) (o : Obj) : Mem := { m with objs := upd m.objs m.next (some o), next := m.next + 1 }

/-- RegisterBits.hpp 86-98: the constructor of zeros -/
def zeros (n : Nat) : Obj :=
  if 8 < n then { store := List.replicate 8 0, alt := some (List.replicate n 0), loc := .alt, rem := .alt, n := n }
  else { store := List.replicate 8 0, alt := none, loc := .store, rem := .store, n := n }

/-- RegisterBits.hpp 646-651 `set`; `sizeof(DataT)` is the length of `d` -/
def Mem.set (m : Mem) (k : Nat) (d : List Nat) : Mem × Res :=
  modify m k (fun _ _ r => if r.length < d.length then none else some (overwrite r 0 d))

/-- RegisterBits.hpp 160-176: the copy constructor -/
def copyOf (o : Obj) (junk : List Nat) : Obj :=
  let p := if o.n ≤ 8 then (if o.loc = .null then Ptr.null else .store) else (if o.loc = .null then .null else .alt)
  { store := if o.n ≤ 8 then o.store else junk, alt := none, loc := p, rem := if o.loc = o.rem then p else o.rem, n := o.n }

/-- RegisterBits.hpp 185-202: the move constructor -/
def moveOf (o : Obj) (junk : List Nat) : Obj :=
  let p := if o.n ≤ 8 then (if o.loc = .null then Ptr.null else .store) else if o.loc = .null then .null else if o.alt = none then .null else .alt
  { store := if o.n ≤ 8 then o.store else junk, alt := if o.n ≤ 8 ∨ o.loc = .null then none else o.alt, loc := p
    rem := if o.loc = o.rem then p else o.rem, n := o.n }

/-- RegisterBits.hpp 185-202: what is left of the original -/
def moved (o : Obj) : Obj :=
  { o with alt := if o.n ≤ 8 ∨ o.loc = .null then o.alt else none, loc := .null, rem := .null }

def step (m : Mem) : Op → Mem × Res
  | .alloc n => (m.add (zeros n), .done)
  -- 107-122
  | .allocData n d =>
    if n < d.length then (m, .assert) else (m.add (zeros n)).set m.next d
  -- 131-135
  | .viewMut b n junk => (m.add { store := junk, alt := none, loc := .ext b, rem := .ext b, n := n }, .done)
  -- 144-147
  | .viewConst b n junk => (m.add { store := junk, alt := none, loc := .null, rem := .ext b, n := n }, .done)
  -- 152
  | .nil junk => (m.add { store := junk, alt := none, loc := .null, rem := .null, n := 0 }, .done)
  | .copy k junk =>
    match m.objs k with
    | none => (m, .ub)
    | some o =>
      -- 170-174
      if 8 < o.n ∧ o.loc ≠ .null then
        match region m o o.loc with
        | none => (m, .ub)
        | some r => if r.length < o.n then (m, .ub) else (m.add { copyOf o junk with alt := some (r.take o.n) }, .done)
      else (m.add (copyOf o junk), .done)
  | .move k junk =>
    match m.objs k with
    | none => (m, .ub)
    | some o => (({ m with objs := upd m.objs k (some (moved o)) }).add (moveOf o junk), .done)
  | .set k d => m.set k d
  -- 660-663
  | .fill k v => modify m k (fun _ o r => if r.length < o.n then none else some (overwrite r 0 (List.replicate o.n v)))
  -- 491-521; sizes for which nothing is done or memory beyond the end is used are 0, 3, 5, 6, 7 and those above 8 that 8 does not divide
  | .orAssign k j =>
    modify m k (fun m o r =>
      if 8 < o.n ∧ o.n % 8 ≠ 0 then none
      else if o.n = 0 ∨ o.n = 3 ∨ o.n = 5 ∨ o.n = 6 ∨ o.n = 7 then some r
      else match m.objs j with
        | none => none
        | some p =>
          match region m p p.rem with
          | none => none
          | some q => if r.length < o.n ∨ q.length < o.n then none else some (overwrite r 0 (List.zipWith (· ||| ·) (r.take o.n) (q.take o.n))))
  -- 686-689, and an assignment
  | .poke k i v => modify m k (fun _ _ r => if r.length ≤ i then none else some (overwrite r i [v]))
  -- 678-680, or 670-672
  | .get k =>
    match m.objs k with
    | none => (m, .ub)
    | some o =>
      match value m o with
      | none => (m, .ub)
      | some v => (m, .bytes v)
  -- 707
  | .size k =>
    match m.objs k with
    | none => (m, .ub)
    | some o => (m, .num o.n)
  -- 634-637
  | .equal k j =>
    match m.objs k, m.objs j with
    | some o, some p =>
      if o.n ≠ p.n then (m, .bool false)
      else match value m o, value m p with
        | some v, some w => (m, .bool (decide (v = w)))
        | _, _ => (m, .ub)
    | _, _ => (m, .ub)
  | .pokeBuf b i v => if (m.bufs b).length ≤ i then (m, .ub) else ({ m with bufs := upd m.bufs b (overwrite (m.bufs b) i [v]) }, .done)
  | .getBuf b => (m, .bytes (m.bufs b))

/-- no objects yet -/
def init (bufs : Nat → List Nat) : Mem := { bufs := bufs, objs := fun _ => none, next := 0 }

end Sparta.RegView
