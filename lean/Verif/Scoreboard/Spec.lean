import Verif.Scoreboard.Model
/-!
Specification of ready callbacks, per view: a view sees a sequence of events, and the fate of a callback is
decided by the events after its registration.
-/
namespace Sparta.Scoreboard

/-- what can happen to a view -/
inductive VEv where
  | update (bits : Mask)
  | clear (bits : Mask)
  | register (c : Cb)
  | cancel (inst : Nat)
deriving DecidableEq, Repr

/-- the registers a view holds ready after an event -/
def maskStep (m : Mask) : VEv → Mask
  | .update b => m ||| b
  | .clear b => m &&& ~~~b
  | _ => m

/-- all registers of `b` are ready in `m` -/
def allReady (b m : Mask) : Bool := (List.range 512).all (fun i => !b.getLsbD i || m.getLsbD i)

/-- `Fires m c t k`: a callback `c` registered when the view held `m` is called in event number `k` of the
events `t` that follow: event `k` is the first update after which all registers of `c` are ready, and `c` was
not cancelled before. -/
def Fires (m : Mask) (c : Cb) : List VEv → Nat → Bool
  | [], _ => false
  | .update b :: _, 0 => allReady c.needed (m ||| b)
  | .update b :: t, k + 1 => !allReady c.needed (m ||| b) && Fires (m ||| b) c t k
  | .cancel i :: t, k + 1 => c.inst != i && Fires m c t k
  | e :: t, k + 1 => Fires (maskStep m e) c t k
  | _ :: _, 0 => false

/-- registrations among the events: position, callback and the registers ready at that time -/
def registrations : Mask → List VEv → List (Nat × Cb × Mask)
  | _, [] => []
  | m, .register c :: t => (0, c, m) :: (registrations m t).map (fun x => (x.1 + 1, x.2))
  | m, e :: t => (registrations (maskStep m e) t).map (fun x => (x.1 + 1, x.2))

/-- the calls that event number `j` must make: the callbacks registered before and due at `j`, in the order
of registration -/
def expected (m : Mask) (t : List VEv) (j : Nat) : List Cb :=
  ((registrations m t).filter (fun x => decide (x.1 < j) && Fires x.2.2 x.2.1 (t.drop (x.1 + 1)) (j - x.1 - 1))).map (fun x => x.2.1)

/-! ### which events a view sees -/

/-- the units of the views in the order of their creation, the clock, the scoreboard's own registers, and for every view the
updates under way to it with their arrival time -/
structure Net where
  units : List Nat
  now : Nat
  mask : Mask
  pend : Nat → List (Nat × Mask)

def Net.init : Net := ⟨[], 0, initMask, fun _ => []⟩

/-- latency from producer `p` to view `i`, if it is a consumer -/
def Net.latTo (cfg : Cfg) (s : Net) (p i : Nat) : Option Nat := (s.units[i]?).bind (cfg.lat p)

/-- updates put under way for view `i` by a `set` of producer `p` -/
def Net.posted (cfg : Cfg) (s : Net) (b : Mask) (p i : Nat) : List (Nat × Mask) :=
  match s.latTo cfg p i with
  | some (l + 1) => [(s.now + (l + 1), b)]
  | _ => []

/-- the updates view `i` sees at once in a `set` of producer `p` -/
def Net.atOnce (cfg : Cfg) (s : Net) (b : Mask) (p i : Nat) : List VEv :=
  if s.latTo cfg p i = some 0 then [.update b] else []

def Net.send (cfg : Cfg) (s : Net) (b : Mask) (p : Nat) : Net :=
  { s with mask := s.mask ||| b, pend := fun i => s.pend i ++ s.posted cfg b p i }

/-- a `setReady` of view `v`: nothing for an empty set -/
def Net.ready (cfg : Cfg) (s : Net) (v : Nat) (b : Mask) : Net :=
  if b = 0 then s else ((s.units[v]?).map (s.send cfg b)).getD s

def Net.readyAtOnce (cfg : Cfg) (s : Net) (v : Nat) (b : Mask) (i : Nat) : List VEv :=
  if b = 0 then [] else ((s.units[v]?).map (fun p => s.atOnce cfg b p i)).getD []

def Net.step (cfg : Cfg) (s : Net) : Op → Net
  | .createView u => if u < cfg.units then { s with units := s.units ++ [u] } else s
  | .setAll b => { s with mask := s.mask ||| b }
  | .setFrom b p => if p < cfg.units then s.send cfg b p else s
  | .setReady v b => s.ready cfg v b
  | .clearBits b => { s with mask := s.mask &&& ~~~b }
  | .tick => { s with now := s.now + 1, pend := fun i => (s.pend i).filter (fun x => !(x.1 == s.now + 1)) }
  | _ => s

/-- the events view `i` sees in one call -/
def Net.evs (cfg : Cfg) (s : Net) (i : Nat) : Op → List VEv
  | .setAll b => [.update b]
  | .setFrom b p => if p < cfg.units then s.atOnce cfg b p i else []
  | .setReady v b => s.readyAtOnce cfg v b i
  | .clearBits b => [.clear b]
  | .register v c => if v = i then [.register c] else []
  | .clearCallbacks v k => if v = i then [.cancel k] else []
  | .tick => ((s.pend i).filter (fun x => x.1 == s.now + 1)).map (fun x => .update x.2)
  | _ => []

/-- sets are not empty, and a view is not created while no register is ready -/
def Net.legal (s : Net) : Op → Prop
  | .setAll b | .setFrom b _ => b ≠ 0
  | .createView _ => s.mask ≠ 0
  | _ => True

instance (s : Net) (o : Op) : Decidable (s.legal o) := by
  cases o <;> simp only [Net.legal] <;> infer_instance

/-- allowed calls for agreement with the scoreboard: no register is cleared while an update for it is under way, and
views are created only while all registers of the initial value are ready -/
def Net.calm (s : Net) : Op → Prop
  | .setAll b | .setFrom b _ => b ≠ 0
  | .clearBits b => ∀ i < s.units.length, ∀ x ∈ s.pend i, x.2 &&& b = 0
  | .createView _ => allReady initMask s.mask = true
  | _ => True

instance (s : Net) (o : Op) : Decidable (s.calm o) := by
  cases o <;> simp only [Net.calm] <;> infer_instance

def Net.run (cfg : Cfg) (s : Net) : List Op → Net
  | [] => s
  | o :: os => Net.run cfg (s.step cfg o) os

/-- every call of a history is allowed -/
def Net.legalAll (cfg : Cfg) (P : Net → Op → Prop) (s : Net) : List Op → Prop
  | [] => True
  | o :: os => P s o ∧ Net.legalAll cfg P (s.step cfg o) os

instance Net.legalAll.decidable (cfg : Cfg) (P : Net → Op → Prop) [inst : ∀ s o, Decidable (P s o)] :
    (s : Net) → (os : List Op) → Decidable (Net.legalAll cfg P s os)
  | _, [] => isTrue trivial
  | s, o :: os =>
    have := Net.legalAll.decidable cfg P (s.step cfg o) os
    inferInstanceAs (Decidable (P s o ∧ Net.legalAll cfg P (s.step cfg o) os))

/-- all events view `i` sees in a history -/
def Net.trace (cfg : Cfg) (s : Net) (i : Nat) : List Op → List VEv
  | [] => []
  | o :: os => s.evs cfg i o ++ Net.trace cfg (s.step cfg o) i os

/-- the calls of callbacks of view `i` in a result, in order -/
def Res.firedOf (i : Nat) : Res → List Fired
  | .done fs => (fs.filter (fun x => x.1 == i)).map Prod.snd
  | _ => []

/-- the number of cycles that pass in a history -/
def ticks (os : List Op) : Nat := os.countP (fun o => o == .tick)

/-- the call may set register `k` -/
def Op.sets (k : Nat) : Op → Bool
  | .setAll b | .setFrom b _ | .setReady _ b => b.getLsbD k
  | _ => false

/-- the call clears register `k` -/
def Op.clears (k : Nat) : Op → Bool
  | .clearBits b => b.getLsbD k
  | _ => false

/-! ### lists of ranges -/

/-- `rs` are the maximal ranges of set bits at positions `a` to `n - 1`, in ascending order -/
def Ranges (bit : Nat → Bool) : Nat → Nat → List (Nat × Nat) → Prop
  | a, n, [] => ∀ i, a ≤ i → i < n → bit i = false
  | a, n, (x, y) :: rs =>
    a ≤ x ∧ x ≤ y ∧ y < n ∧ (∀ i, a ≤ i → i < x → bit i = false) ∧ (∀ i, x ≤ i → i ≤ y → bit i = true) ∧
    (y + 1 < n → bit (y + 1) = false) ∧ Ranges bit (y + 1) n rs

/-- one range: a single number or two numbers with a dash -/
def renderRange (r : Nat × Nat) : List Tok := if r.1 = r.2 then [.num r.1] else [.num r.1, .dash, .num r.2]

/-- ranges separated by commas, in brackets -/
def render (rs : List (Nat × Nat)) : List Tok :=
  [.open_] ++ ((rs.map renderRange).intersperse [.comma]).flatten ++ [.close]

end Sparta.Scoreboard
