import Verif.Scheduler.Model
/-!
Specification vocabulary: everything here is a function of the trace of observations alone.
-/
namespace Sparta.Scheduler

/-- does this cancel call (or clear) withdraw the request? -/
def Obs.covers : Obs → Req → Bool
  | .cancel e, r => decide (r.ev = .user e)
  | .cancelAt e d, r => decide (r.ev = .user e ∧ r.due = d)
  | .clear, _ => true
  | _, _ => false

/-- the set of waiting requests after one more observation -/
def pendStep (p : List Req) (o : Obs) : List Req :=
  match o with
  | .accept r _ _ => r :: p
  | .fire r _ => p.filter (fun x => x ≠ r)
  | o => p.filter (fun x => !o.covers x)

/-- requests accepted but neither fired nor withdrawn -/
def pending (tr : List Obs) : List Req := tr.foldl pendStep []

/-- the requests whose handler ran, in order -/
def fires : List Obs → List Req
  | [] => []
  | .fire r _ :: tr => r :: fires tr
  | _ :: tr => fires tr

/-- earlier tick first, then smaller group, then older request -/
def Req.lt (a b : Req) : Prop :=
  a.due < b.due ∨ (a.due = b.due ∧ (a.grp < b.grp ∨ (a.grp = b.grp ∧ a.rid < b.rid)))

end Sparta.Scheduler

namespace Sparta.Scheduler

/-- The states between the call `run(n, exacting)` made in state `s0` and its return (and that final state):
machine steps, with asynchronous requests arriving at any moment. -/
inductive During (cfg : Cfg) (H : St → Nat → List Call) (s0 : St) (n : Option Nat) (exacting : Bool) : St → Prop
  | start : During cfg H s0 n exacting (s0.startRun cfg n exacting)
  | micro {s} (seen : Bool) : During cfg H s0 n exacting s → During cfg H s0 n exacting (s.micro cfg H seen)
  | async {s} (a : Async) : During cfg H s0 n exacting s →
      During cfg H s0 n exacting { s with async := s.async ++ [a] }

end Sparta.Scheduler
