import Verif.Common
/-!
Model of `sparta::Scoreboard` and `sparta::ScoreboardView` (/repo/sparta/sparta/resources/Scoreboard.hpp,
/repo/sparta/src/Scoreboard.cpp).

Simplifications: units are their numbers (the names and the parsing and validation of the latency matrix are left
out); the search for the master in the tree is left out; views are never destroyed; ready callbacks are
identified by a number and do not call back into the scoreboard; one `tick` is one cycle, in which the updates due
are delivered in the order in which they were scheduled (same event, same phase).
-/
namespace Sparta.Scoreboard

/-- `RegisterBitMask` (Scoreboard.hpp:50-52) -/
abbrev Mask := BitVec 512

/-- initial value `0xffffffff` of both masks (Scoreboard.hpp:134, 283) -/
def initMask : Mask := 0xffffffff#512

/-- `CallbackData` (Scoreboard.hpp:288-304); `id` stands for the function -/
structure Cb where
  needed : Mask
  inst : Nat
  id : Nat
deriving DecidableEq, Repr

/-- `ScoreboardView` (Scoreboard.hpp:283-313) -/
structure View where
  unit : Nat
  mask : Mask
  cbs : List Cb
deriving DecidableEq, Repr

/-- a call of a ready callback: which one and with which argument -/
structure Fired where
  cb : Cb
  bits : Mask
deriving DecidableEq, Repr

/-- the condition of the callback loop (Scoreboard.cpp:267) -/
def Cb.ready (c : Cb) (m : Mask) : Bool := c.needed == (m &&& c.needed)

/-- the callback loop of `receiveScoreboardUpdate_` (Scoreboard.cpp:262-274): remaining callbacks and the calls -/
def fireLoop (m bits : Mask) : List Cb → List Cb × List Fired
  | [] => ([], [])
  | c :: l =>
    if c.ready m then ((fireLoop m bits l).1, ⟨c, bits⟩ :: (fireLoop m bits l).2)
    else (c :: (fireLoop m bits l).1, (fireLoop m bits l).2)

/-- `receiveScoreboardUpdate_` (Scoreboard.cpp:253-275); `none` is the failed assertion for an empty update -/
def View.receive (v : View) (bits : Mask) : Option (View × List Fired) :=
  if bits = 0 then none
  else
    let m := v.mask ||| bits
    let r := fireLoop m bits v.cbs
    some ({ v with mask := m, cbs := r.1 }, r.2)

/-- `registerReadyCallback` (Scoreboard.cpp:277-282) -/
def View.register (v : View) (c : Cb) : View := { v with cbs := v.cbs ++ [c] }

/-- `clearCallbacks` (Scoreboard.cpp:284-302) -/
def View.clearCallbacks (v : View) (inst : Nat) : View := { v with cbs := v.cbs.filter (fun c => !(c.inst == inst)) }

/-- `ScoreboardView::clearBits_` (Scoreboard.cpp:362-365) -/
def View.clearBits (v : View) (bits : Mask) : View := { v with mask := v.mask &&& ~~~bits }

/-- `ScoreboardView::isSet` (Scoreboard.hpp:235-238) -/
def View.isSet (v : View) (bits : Mask) : Bool := bits == (v.mask &&& bits)

/-- a scheduled `ScoreboardViewUpdate` (Scoreboard.hpp:162-174) -/
structure Update where
  due : Nat
  bits : Mask
  view : Nat
deriving DecidableEq, Repr

/-- latency table: `none` is INVALID_LATENCY (Scoreboard.hpp:48, 137-142) -/
structure Cfg where
  units : Nat
  lat : Nat → Nat → Option Nat

/-- the scoreboard with its views and scheduled updates. `byUnit u` is `unit_id_to_scoreboard_views_[u]`,
`consumers p` is `producer_to_consumer_scoreboard_views_[p]` (Scoreboard.hpp:148-158). `dangling` records that a
view whose construction failed stayed registered. -/
structure World where
  mask : Mask
  views : List View
  byUnit : Nat → List Nat
  consumers : Nat → List (Nat × Nat)
  flight : List Update
  now : Nat
  dangling : Bool

def World.init : World := ⟨initMask, [], fun _ => [], fun _ => [], [], 0, false⟩

/-- what a call returns: its value and the ready callbacks it ran, in order, with their view -/
inductive Res where
  | done (fired : List (Nat × Fired))
  | bool (b : Bool)
  | threw
  | ub
deriving DecidableEq, Repr

/-- deliver an update to the views in a list, in order; stops at the first failed assertion -/
def deliver (bits : Mask) : List Nat → List View → Option (List View × List (Nat × Fired))
  | [], vs => some (vs, [])
  | i :: is, vs =>
    match vs[i]? with
    | none => none
    | some v =>
      match v.receive bits with
      | none => none
      | some (v', f) =>
        match deliver bits is (vs.set i v') with
        | none => none
        | some (vs', fs) => some (vs', f.map (fun x => (i, x)) ++ fs)

/-- views of all units, in the order of `unit_id_to_scoreboard_views_` -/
def World.allViews (cfg : Cfg) (w : World) : List Nat := (List.range cfg.units).flatMap w.byUnit

/-- `Scoreboard::set(bits)` (Scoreboard.cpp:150-161) -/
def World.setAll (cfg : Cfg) (w : World) (bits : Mask) : World × Res :=
  if w.dangling then (w, .ub)
  else
    match deliver bits (w.allViews cfg) w.views with
    | none => (w, .threw)
    | some (vs, fs) => ({ w with views := vs, mask := w.mask ||| bits }, .done fs)

/-- the loop of `Scoreboard::set(bits, producer)` (Scoreboard.cpp:168-176) -/
def World.forward (w : World) (bits : Mask) : List (Nat × Nat) → Option (World × List (Nat × Fired))
  | [] => some (w, [])
  | (i, l) :: cs =>
    if l ≠ 0 then World.forward { w with flight := w.flight ++ [⟨w.now + l, bits, i⟩] } bits cs
    else
      match deliver bits [i] w.views with
      | none => none
      | some (vs, f) =>
        match World.forward { w with views := vs } bits cs with
        | none => none
        | some (w', fs) => some (w', f ++ fs)

/-- `Scoreboard::set(bits, producer)` (Scoreboard.cpp:163-178) -/
def World.setFrom (cfg : Cfg) (w : World) (bits : Mask) (p : Nat) : World × Res :=
  if w.dangling then (w, .ub)
  else if p < cfg.units then
    match w.forward bits (w.consumers p) with
    | none => (w, .threw)
    | some (w', fs) => ({ w' with mask := w'.mask ||| bits }, .done fs)
  else (w, .threw)

/-- `Scoreboard::clearBits` (Scoreboard.cpp:180-191) -/
def World.clearBits (cfg : Cfg) (w : World) (bits : Mask) : World × Res :=
  if w.dangling then (w, .ub)
  else ({ w with mask := w.mask &&& ~~~bits,
                 views := (w.allViews cfg).foldl (fun vs i => vs.modify i (·.clearBits bits)) w.views }, .done [])

/-- `Scoreboard::registerView` as called by the constructor of a view of unit `u`
(Scoreboard.cpp:197-220, 231-240, 358-359) -/
def World.createView (cfg : Cfg) (w : World) (u : Nat) : World × Res :=
  if u < cfg.units then
    let i := w.views.length
    match View.receive ⟨u, initMask, []⟩ w.mask with
    | none => ({ w with dangling := true }, .threw)
    | some (v, _) =>
      ({ w with views := w.views ++ [v], byUnit := upd w.byUnit u (w.byUnit u ++ [i]),
                consumers := fun p =>
                  match cfg.lat p u with
                  | some l => w.consumers p ++ [(i, l)]
                  | none => w.consumers p }, .done [])
  else (w, .threw)

/-- delivery of scheduled updates (Scoreboard.cpp:224-227), in order; a failed assertion leaves the scheduler -/
def deliverAll : List Update → List View → Option (List View × List (Nat × Fired))
  | [], vs => some (vs, [])
  | u :: us, vs =>
    match deliver u.bits [u.view] vs with
    | none => none
    | some (vs', f) =>
      match deliverAll us vs' with
      | none => none
      | some (vs'', fs) => some (vs'', f ++ fs)

/-- one cycle passes and the updates due in the new cycle are delivered -/
def World.tick (w : World) : World × Res :=
  let due := w.flight.filter (fun u => u.due == w.now + 1)
  let rest := w.flight.filter (fun u => !(u.due == w.now + 1))
  match deliverAll due w.views with
  | none => ({ w with now := w.now + 1, flight := rest }, .threw)
  | some (vs, fs) => ({ w with now := w.now + 1, flight := rest, views := vs }, .done fs)

inductive Op where
  | createView (u : Nat)
  | setAll (bits : Mask)
  | setFrom (bits : Mask) (p : Nat)
  | setReady (v : Nat) (bits : Mask)
  | clearBits (bits : Mask)
  | isSet (bits : Mask)
  | viewIsSet (v : Nat) (bits : Mask)
  | register (v : Nat) (c : Cb)
  | clearCallbacks (v : Nat) (inst : Nat)
  | tick
deriving DecidableEq

/-- one call. A view that does not exist cannot be named by a client; the model throws. -/
def step (cfg : Cfg) (w : World) : Op → World × Res
  | .createView u => w.createView cfg u
  | .setAll b => w.setAll cfg b
  | .setFrom b p => w.setFrom cfg b p
  -- `setReady` (Scoreboard.cpp:243-250)
  | .setReady v b =>
    match w.views[v]? with
    | none => (w, .threw)
    | some x => if b = 0 then (w, .done []) else w.setFrom cfg b x.unit
  | .clearBits b => w.clearBits cfg b
  -- `Scoreboard::isSet` (Scoreboard.cpp:193-195)
  | .isSet b => (w, .bool ((w.mask &&& b) == b))
  | .viewIsSet v b =>
    match w.views[v]? with
    | none => (w, .threw)
    | some x => (w, .bool (x.isSet b))
  | .register v c =>
    match w.views[v]? with
    | none => (w, .threw)
    | some x => ({ w with views := w.views.set v (x.register c) }, .done [])
  | .clearCallbacks v k =>
    match w.views[v]? with
    | none => (w, .threw)
    | some x => ({ w with views := w.views.set v (x.clearCallbacks k) }, .done [])
  | .tick => w.tick

/-! ### printBitSet -/

/-- pieces of the printed text; the conversion of numbers to digits is left out -/
inductive Tok where
  | open_
  | close
  | comma
  | dash
  | num (n : Nat)
deriving DecidableEq, Repr

/-- the loop of `printBitSet` (Scoreboard.cpp:375-402), `k` positions before the end of `n` bits -/
def printLoop (bit : Nat → Bool) (n : Nat) : Nat → Bool → Bool → Nat → List Tok
  | 0, _, _, _ => []
  | k + 1, inRange, comma, start =>
    let v := n - (k + 1)
    if bit v then
      if inRange then printLoop bit n k inRange comma start
      else (if comma then [Tok.comma] else []) ++ .num v :: printLoop bit n k true true v
    else
      if inRange then
        (if start + 1 ≠ v then [Tok.dash, .num (v - 1)] else []) ++ printLoop bit n k false comma start
      else printLoop bit n k inRange comma start

/-- `printBitSet` (Scoreboard.cpp:367-405) for a bit set of `n` bits -/
def printBitSet (n : Nat) (bit : Nat → Bool) : List Tok :=
  .open_ :: (printLoop bit n n false false 0 ++ [.close])

end Sparta.Scoreboard
