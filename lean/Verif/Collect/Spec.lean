import Verif.Collect.Model
/-!
What a viewer is to show: for each file, each collectable and each tick the value that the collectable had at the end of the tick.
-/
namespace Sparta.Collect

/-- what the users of collection see: the tick, the file, whether collection is on, which collectables are collected (`on`) and which
were when the collector was destroyed (`stale`), the value each one has now and the tick since which it has it, the picture, the
pending ends of values collected for some time, the variables that are collected automatically and the ticks in which that is done -/
structure View where
  H : Nat
  pair : Nat → Bool
  auto : Nat → Bool
  now : Nat
  path : Nat
  active : Bool
  on : List Nat
  stale : List Nat
  cur : Nat → Val
  began : Nat → Nat
  pic : Nat → Nat → Nat → Val
  closes : List (Nat × Nat)
  var : Nat → Option Val
  pend : List Nat

def View.new (H : Nat) (pair auto : Nat → Bool) : View :=
  { H := H, pair := pair, auto := auto, now := 0, path := 0, active := false, on := [], stale := [], cur := fun _ => []
    began := fun _ => 0, pic := fun _ _ _ => [], closes := [], var := fun _ => none, pend := [] }

/-- some collectables get new values -/
def View.update (v : View) (f : Nat → Option Val) : View :=
  { v with
    cur := fun i => (f i).getD (v.cur i)
    began := fun i => match f i with
      | some w => if w = v.cur i then v.began i else v.now
      | none => v.began i }

/-- one collectable gets a new value -/
def single (i : Nat) (w : Val) : Nat → Option Val := fun j => if j = i then some w else none

/-- some collectables become empty -/
def empties (is : List Nat) : Nat → Option Val := fun j => if j ∈ is then some [] else none

/-- the values that are collected automatically -/
def View.fetch (v : View) : Nat → Option Val := fun i => if i ∈ v.on ∧ v.auto i = true then some ((v.var i).getD []) else none

/-- automatic collection at the end of a tick -/
def View.autos (v : View) : View :=
  if v.now ∈ v.pend then
    { v.update v.fetch with pend := (if v.on.any v.auto then [v.now + 1] else []) ++ v.pend.filter (fun t => t ≠ v.now) }
  else v

/-- the tick is over: it is in the picture -/
def View.keep (v : View) : View :=
  { v with
    now := v.now + 1
    pic := if v.active then upd v.pic v.path (fun i t => if t = v.now then v.cur i else v.pic v.path i t) else v.pic }

/-- at the beginning of a tick values end that were collected up to it -/
def View.ends (v : View) : View :=
  { v.update (empties ((v.closes.filter (fun p => p.2 = v.now)).map Prod.fst)) with
    closes := v.closes.filter (fun p => p.2 ≠ v.now) }

/-- collection begins: the file is opened anew -/
def View.begin (v : View) : View :=
  if v.active then v else { v with active := true, pic := upd v.pic v.path (fun _ _ => []) }

def View.step (v : View) : Op → View
  | .collect i w => if i ∈ v.on then v.update (single i w) else v
  | .collectFor i w d =>
    if i ∈ v.on then { v.update (single i w) with closes := v.closes ++ (if d = 0 then [] else [(i, v.now + d)]) } else v
  | .collectAll b n xs =>
    v.update (fun j => if j ∈ v.on ∧ b ≤ j ∧ j < b + n then some ((xs[j - b]?.join).getD []) else none)
  | .close i => v.update (single i [])
  | .initialize i w => if v.pair i = true ∧ i ∈ v.on then v.update (single i w) else v
  | .assign i x => { v with var := upd v.var i x }
  | .start is =>
    { v.begin with
      on := is ++ v.on
      stale := v.stale.filter (fun i => i ∉ is)
      pend := (if is.any v.auto then [v.now + 1] else []) ++ v.pend }
  | .stop is =>
    { v.update (empties is) with
      on := v.on.filter (fun i => i ∉ is)
      stale := v.stale.filter (fun i => i ∉ is)
      active := v.on.any (fun i => i ∉ is) }
  | .stopAll => { v.update (empties v.on) with on := [] }
  | .destroy =>
    { v.update (empties v.on) with
      pic := upd v.pic v.path (fun i t => if i ∈ v.on ∧ t = v.now then v.cur i else v.pic v.path i t)
      on := []
      stale := v.on ++ v.stale
      active := false }
  | .reactivate p => { v with path := p }
  | .next => v.autos.keep.ends

/-- the annotation of a record has room for less than 65536 characters -/
def View.fits (v : View) (i : Nat) (w : Val) : Prop := v.pair i = true ∨ w.length < 65536

/-- a collectable of pairs is only collected while it is on, and none after the collector was destroyed -/
def View.ready (v : View) (i : Nat) : Prop := i ∈ v.on ∨ (v.pair i = false ∧ i ∉ v.stale)

/-- what the users do -/
def View.legal (v : View) : Op → Prop
  | .collect i w => v.fits i w ∧ v.ready i
  | .collectFor i w _ => v.fits i w ∧ i ∉ v.stale
  | .collectAll b n xs => ∀ j, j < n → ∀ w, xs[j]? = some (some w) → v.fits (b + j) w ∧ v.ready (b + j)
  | .close _ => True
  | .initialize i w => if v.pair i = true then v.fits i w ∧ i ∉ v.stale else i ∉ v.on
  | .assign i x => ∀ w, x = some w → v.fits i w
  | .start is => ∀ i ∈ is, v.cur i = []
  | .stop is => ∀ i ∈ is, v.pair i = true → v.cur i = []
  | .stopAll => ∀ i ∈ v.on, v.pair i = true → v.cur i = []
  | .destroy => ∀ i ∈ v.on, v.cur i ≠ [] → v.began i < v.now ∧ v.now % v.H ≠ 0
  | .reactivate _ => v.active = false
  | .next => ∀ i ∈ v.stale, v.auto i = false

/-- a run of legal calls, and where it leads -/
inductive Legal : View → List Op → View → Prop
  | nil (v : View) : Legal v [] v
  | cons {v w : View} {op : Op} {ops : List Op} : v.legal op → Legal (v.step op) ops w → Legal v (op :: ops) w

/-- collection into the file `p` does not begin again -/
def Kept (p : Nat) (v : View) (ops : List Op) : Prop :=
  ∀ a is b, ops = a ++ .start is :: b → (a.foldl View.step v).active = true ∨ (a.foldl View.step v).path ≠ p

/-- a call that does not concern the collectable `i` -/
def spares (i : Nat) : Op → Prop
  | .collect j _ => j ≠ i
  | .collectFor j _ _ => j ≠ i
  | .collectAll b n _ => i < b ∨ b + n ≤ i
  | .close j => j ≠ i
  | .initialize j _ => j ≠ i
  | .start is => i ∉ is
  | .stop is => i ∉ is
  | .stopAll => False
  | .destroy => False
  | _ => True

/-- the values that the records of a file show for a collectable in a tick -/
def shown (file : List Item) (i t : Nat) : List Val :=
  file.filterMap (fun x => match x with
    | .index => none
    | .record r => if r.loc = i ∧ r.start ≤ t ∧ t < r.stop then some r.val else none)

/-- no value or one value -/
def only (w : Val) : List Val := if w = [] then [] else [w]

/-- the records of a file -/
def records (file : List Item) : List Rec :=
  file.filterMap (fun x => match x with
    | .index => none
    | .record r => some r)

end Sparta.Collect
