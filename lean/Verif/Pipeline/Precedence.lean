import Verif.Common
/-!
Model of the precedence set-up of `sparta::Pipeline` (/repo/sparta/sparta/resources/Pipeline.hpp).
Handlers are numbered in the order in which they are registered; an edge `(a, b)` records a call
`a.precedes(b)` (see the Scheduler model for what edges mean). Not modelled: `setPrecedenceBetweenPipeline`,
producers and consumers of the update event.
-/
namespace Sparta.Pipeline.Prec

/-- Pipeline.hpp `Precedence` (NONE, FORWARD, BACKWARD) -/
inductive Dir where
  | none | forward | backward
deriving DecidableEq

/-- Pipeline.hpp 1100-1140 `event_list_at_stage_`, `event_matrix_at_stage_`, `default_precedence_`; `next`
numbers the handlers. `nph` is `NUM_SCHEDULING_PHASES`. -/
structure R where
  n : Nat
  nph : Nat
  count : Nat → Nat
  matrix : Nat → Nat → List Nat
  next : Nat
  dflt : Dir
  edges : List (Nat × Nat)

/-- Pipeline.hpp 216-283 constructor -/
def R.init (n nph : Nat) : R := ⟨n, nph, fun _ => 0, fun _ _ => [], 0, .none, []⟩

/-- Pipeline.hpp 292-343 `registerHandlerAtStage<ph>`; `none` = threw -/
def R.register (r : R) (id ph : Nat) : Option R :=
  if r.dflt = .none ∧ id < r.n then
    some { r with
      count := upd r.count id (r.count id + 1)
      matrix := upd r.matrix id (upd (r.matrix id) ph (r.matrix id ph ++ [r.next]))
      next := r.next + 1
      edges := r.edges ++ (match (r.matrix id ph).getLast? with | some p => [(p, r.next)] | none => []) }
  else none

/-- Pipeline.hpp 367-380: the loop over the phases -/
def R.link (r : R) (pid cid : Nat) : List Nat → List (Nat × Nat)
  | [] => []
  | ph :: phs =>
    (match (r.matrix pid ph).getLast?, (r.matrix cid ph).head? with
     | some a, some b => [(a, b)]
     | _, _ => []) ++ r.link pid cid phs

/-- Pipeline.hpp 354-382 `setPrecedenceBetweenStage` -/
def R.between (r : R) (pid cid : Nat) : Option R :=
  if r.dflt = .none ∧ pid ≠ cid ∧ pid < r.n ∧ r.count pid > 0 ∧ cid < r.n ∧ r.count cid > 0 then
    some { r with edges := r.edges ++ r.link pid cid (List.range r.nph) }
  else none

/-- Pipeline.hpp 438-458: the loop of `setDefaultStagePrecedence`; fuel 2 n suffices as each round advances
`pid` or `cid`; `none` = threw (or out of fuel) -/
def defaultLoop (fwd : Bool) : Nat → R → Nat → Nat → Option R
  | 0, _, _, _ => none
  | fuel + 1, r, pid, cid =>
    if cid < r.n then
      if r.count pid = 0 then
        let pid := pid + 1
        defaultLoop fwd fuel r pid (if pid = cid then cid + 1 else cid)
      else if r.count cid = 0 then
        let cid := cid + 1
        defaultLoop fwd fuel r pid (if pid = cid then cid + 1 else cid)
      else
        (if fwd then r.between pid cid else r.between cid pid).bind fun r =>
          defaultLoop fwd fuel r cid (cid + 1)
    else some r

/-- Pipeline.hpp 425-461 `setDefaultStagePrecedence` -/
def R.setDefault (r : R) (d : Dir) : Option R :=
  if d = .none then some r
  else (defaultLoop (d = .forward) (2 * r.n + 1) r 0 1).map fun q => { q with dflt := d }

/-- Set-up calls -/
inductive Op where
  | register (id ph : Nat)
  | between (pid cid : Nat)
  | setDefault (d : Dir)
deriving DecidableEq

/-- one call; `false` = threw -/
def R.step (r : R) : Op → R × Bool
  | .register id ph => match r.register id ph with | some q => (q, true) | none => (r, false)
  | .between p c => match r.between p c with | some q => (q, true) | none => (r, false)
  | .setDefault d => match r.setDefault d with | some q => (q, true) | none => (r, false)

end Sparta.Pipeline.Prec
