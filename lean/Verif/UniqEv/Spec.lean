import Verif.UniqEv.Model
/-! # What is expected of unique events -/
namespace Sparta.UniqEv

/-- The ticks in which the event is to fire, judged from the calls and their outcome: a request that is not
refused adds its tick, a cancellation takes those away in which it has not fired. -/
def U.want (u : U) (w : Nat → Bool) : UOp → (Nat → Bool)
  | .schedule rel late => if (u.step (.schedule rel late)).2 = none then upd w (u.q.now + rel) true else w
  | .cancel => fun t => w t && u.q.log.contains t
  | .cancelAt rel => upd w (u.q.now + rel) (w (u.q.now + rel) && u.q.log.contains (u.q.now + rel))
  | _ => w

def U.wants (u : U) (w : Nat → Bool) : List UOp → (Nat → Bool)
  | [] => w
  | op :: ops => U.wants (u.step op).1 (u.want w op) ops

/-- No asynchronous requests and no restart. -/
def UOp.plain : UOp → Prop
  | .drained _ => False
  | .restart _ => False
  | _ => True

instance (op : UOp) : Decidable op.plain := by cases op <;> unfold UOp.plain <;> infer_instance

def S.want (s : S) (w : Nat → Bool) : SOp → (Nat → Bool)
  | .schedule c late => if (s.step (.schedule c late)).2 = none then upd w (s.q.now + c * s.period) true else w
  | _ => w

def S.wants (s : S) (w : Nat → Bool) : List SOp → (Nat → Bool)
  | [] => w
  | op :: ops => S.wants (s.step op).1 (s.want w op) ops

/-- Requests are made at ticks of its clock; in tick 0 not for the present cycle after one for the next
cycle alone; nothing is cancelled and time is not set back. -/
def S.legal (s : S) (w : Nat → Bool) : SOp → Prop
  | .schedule c _ => s.period ∣ s.q.now ∧ (s.q.now = 0 → c = 0 → w s.period = true → w 0 = true)
  | .cancel => False
  | .restart _ => False
  | _ => True

instance (s : S) (w : Nat → Bool) (op : SOp) : Decidable (s.legal w op) := by
  cases op <;> unfold S.legal <;> infer_instance

def S.legals (s : S) (w : Nat → Bool) : List SOp → Prop
  | [] => True
  | op :: ops => s.legal w op ∧ S.legals (s.step op).1 (s.want w op) ops

instance : (s : S) → (w : Nat → Bool) → (ops : List SOp) → Decidable (s.legals w ops)
  | _, _, [] => isTrue trivial
  | s, w, op :: ops =>
    have : Decidable (S.legals (s.step op).1 (s.want w op) ops) :=
      instDecidableLegals (s.step op).1 (s.want w op) ops
    inferInstanceAs (Decidable (s.legal w op ∧ S.legals (s.step op).1 (s.want w op) ops))

end Sparta.UniqEv
