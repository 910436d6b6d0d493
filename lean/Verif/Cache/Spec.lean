import Verif.Cache.Model
/-! Notions in which the cache properties are stated. -/
namespace Sparta.Cache

/-- a touch: way, and whether as most recently used -/
structure Touch where
  way : Nat
  mru : Bool

/-- The age of a way, the latest touch first in the history: the time of its last touch as MRU, minus the time of its
last touch as LRU, 0 if never touched. -/
def stamp : List Touch → Nat → Int
  | [], _ => 0
  | t :: ts, w => if t.way = w then (if t.mru then (ts.length : Int) + 1 else -((ts.length : Int) + 1)) else stamp ts w

/-- `a` is older than `b`; among untouched ways the lower number is older -/
def Older (h : List Touch) (a b : Nat) : Prop := stamp h a < stamp h b ∨ (stamp h a = stamp h b ∧ a < b)

/-- the policy state after the history (latest first) -/
def touchAll {σ} (p : Policy σ) : List Touch → σ
  | [] => p.init
  | t :: ts => if t.mru then p.touchMRU (touchAll p ts) t.way else p.touchLRU (touchAll p ts) t.way

/-- every state the policy can get into offers a way below `n` -/
def Policy.Legal {σ} (p : Policy σ) (n : Nat) : Prop :=
  ∃ P : σ → Prop, P p.init ∧ (∀ s w, P s → w < n → P (p.touchMRU s w) ∧ P (p.touchLRU s w)) ∧
    (∀ s, P s → P (p.reset s)) ∧ ∀ s, P s → p.lru s < n

/-! ### geometry -/

/-- sizes are powers of two, lines do not overlap, and an address has at least one tag bit -/
def Geo.Ok (g : Geo) : Prop :=
  ∃ l s k, g.line = 2 ^ l ∧ g.stride = 2 ^ s ∧ g.nSets = 2 ^ k ∧ l ≤ s ∧ s + k < 64

/-- a 64 bit address that belongs to an item: items are `line` bytes long and `stride` bytes apart (every address when
the stride equals the line size) -/
def Geo.Proper (g : Geo) (a : Nat) : Prop := a < 2 ^ 64 ∧ a % g.stride < g.line

/-! ### contents of a `SimpleCache2` -/

/-- the blocks held after an observation: the replaced block goes, the new one comes -/
def heldStep (h : List Nat) : Obs → List Nat
  | .fill b v => b :: h.filter (fun x => some x ≠ v)
  | .drop b => h.filter (· ≠ b)
  | .dropAll => []

/-- the blocks that were filled and neither replaced nor invalidated since -/
def held (tr : List Obs) : List Nat := tr.foldl heldStep []

/-- the user only fills on a miss; non-temporal fills need two ways -/
def Legal {σ} (g : Geo) (u : User σ) : Op → Prop
  | .fill a how => g.Proper a ∧ u.c.isHit g a = false ∧ (how = .nt true → 2 ≤ g.nWays)
  | .read a _ | .write a _ | .touchMRU a | .touchLRU a | .invalidate a => g.Proper a
  | .invalidateAll => True

/-- states a user program can reach -/
inductive Reach {σ} (g : Geo) (p : Policy σ) : User σ → Prop
  | init (d : Line) : d.valid = false → Reach g p ⟨Cache.init p d, []⟩
  | step {u} (o : Op) : Reach g p u → Legal g u o → Reach g p (u.step g p o)

/-! ### `SimpleCache` against a plain memory -/

/-- what a plain memory does -/
def flatStep (m : Nat → Nat) : SOp → (Nat → Nat) × Option (List Nat)
  | .read a n => (m, some (get m a n))
  | .write a bs => (put m a bs, none)
  | _ => (m, none)

/-- accesses stay inside one line -/
def Within (g : Geo) (_ : Nat → Nat) : SOp → Prop
  | .read a n => g.Proper a ∧ a % g.line + n ≤ g.line
  | .write a bs => g.Proper a ∧ a % g.line + bs.length ≤ g.line
  | .getLine a => g.Proper a
  | _ => True

end Sparta.Cache
