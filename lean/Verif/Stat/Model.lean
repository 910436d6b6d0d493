import Verif.Common
/-!
Statistics: expressions over counters and parameters, statistic instances with a window of time, and reports of them.

Code: sparta/src/StatisticInstance.cpp; sparta/sparta/statistics/StatisticInstance.hpp 93-605, Expression.hpp, ExpressionNodeTypes.hpp,
ExpressionNodeVariables.hpp; sparta/src/ExpressionGrammar.cpp 196-254; sparta/sparta/report/Report.hpp 131-275, 594-602, 740-866,
895-953, 1184-1214; sparta/src/Report.cpp 1235-1353, 1377-1384, 1437-1455.

Simplifications: numbers are the elements of any type `α`, with any functions for the operations (`Env`); in the code they are
doubles.  There is one scheduler.  Nodes are numbers.  `World` is what can change between two calls: the elapsed ticks (forwards or,
after a checkpoint is restored, backwards), the values of counters and parameters and which nodes still exist.  `INDEFINITE` is
`none`.  The text of an expression has been parsed, without cycles, into a tree `Def` that contains the definitions of the
statistics it mentions.  The operands of a C++ operator are computed from left to right.  Snapshot loggers, calculators given by the
user, triggers, styles and printing are left out.
-/
namespace Sparta.Stat

inductive Err
  | reversed
  | futureStart
  | futureEnd
  | expired
  | noContent
  | nullOp
  | unknownOp
  | outOfRange
  | noScheduler
  | duplicate
  | missing
  | ub
deriving DecidableEq, Repr

/-- ExpressionNode.hpp 25-37 `operation_t`; `other` is any other number -/
inductive OpT
  | null
  | add
  | sub
  | mul
  | div
  | negate
  | promote
  | forward
  | other
deriving DecidableEq, Repr

/-- The arithmetic of doubles, the functions an expression may call, which counters are `COUNT_LATEST`, and the sub-statistics
(names and counters) of each definition (StatisticDef.hpp 589-660). -/
structure Env (α : Type) where
  ofCount : Nat → α
  zero : α
  nan : α
  add : α → α → α
  sub : α → α → α
  mul : α → α → α
  div : α → α → α
  neg : α → α
  fn1 : Nat → α → α
  fn2 : Nat → α → α → α
  fn3 : Nat → α → α → α → α
  latest : Nat → Bool
  subs : Nat → List (String × Nat)

/-- What a statistic can observe: Scheduler.hpp 738 `getElapsedTicks`, `CounterBase::get`, `ParameterBase::getDoubleValue`, the
value of a simulation variable or of a referenced double, `node_ref_.expired()`, `TreeNode::getClock() != nullptr`. -/
structure World (α : Type) where
  now : Nat
  ctr : Nat → Nat
  par : Nat → α
  ref : Nat → α
  alive : Nat → Bool
  clocked : Nat → Bool

/-- StatisticInstance.hpp 477-496: which of the three pointers is set; `free`: none of them -/
inductive Kind
  | ctr (n : Nat)
  | par (n : Nat)
  | sdef (n : Nat)
  | free
deriving DecidableEq, Repr

/-- StatisticInstance.hpp 511-589: `start_tick_`, `end_tick_`, `initial_` (its value if valid, and `is_cumulative_`), `result_`, and
whether `scheduler_` is set -/
structure Win (α : Type) where
  start : Nat
  stop : Option Nat
  initial : Option α
  cumul : Bool
  result : α
  sched : Bool
deriving DecidableEq, Repr

/-! Expression.hpp 65 `content_` (`empty`: null); ExpressionNodeTypes.hpp 20 `Operation`, 226 `Constant`, 286 `UnaryFunction`, 391
`BinaryFunction`, 523 `TernaryFunction`; ExpressionNodeVariables.hpp 23 `StatVariable`, 125 `SimVariable` and 215
`ReferenceVariable` (`ref`) -/
mutual
inductive Expr (α : Type)
  | empty
  | const (v : α)
  | ref (i : Nat)
  | oper (t : OpT) (args : Args α)
  | fn1 (f : Nat) (a : Expr α)
  | fn2 (f : Nat) (a b : Expr α)
  | fn3 (f : Nat) (a b c : Expr α)
  | stat (k : Kind) (w : Win α) (body : Expr α)
inductive Args (α : Type)
  | nil
  | cons (e : Expr α) (rest : Args α)
end

variable {α : Type}

/-! ### values -/

/-- StatisticInstance.hpp 562-564 `InitialStatValue::getValue` -/
def initialValue (A : Env α) (w : Win α) : α := w.initial.getD A.zero

/-- StatisticInstance.hpp 566-574 `InitialStatValue::resetValue` -/
def resetInitial (w : Win α) (v : α) : Option α :=
  if w.cumul then
    if w.initial.isNone then some v else w.initial
  else some v

/-- StatisticInstance.cpp 539-564 `computeValue_`; `body` is what evaluating `stat_expr_` gives -/
def computeValue (A : Env α) (W : World α) (k : Kind) (w : Win α) (body : Except Err α) : Except Err α :=
  match k with
  | .sdef n => if !W.alive n then .ok A.nan else body
  | .ctr n =>
    if !W.alive n then .ok A.nan
    else if A.latest n then .ok (A.ofCount (W.ctr n))
    else .ok (A.sub (A.ofCount (W.ctr n)) (initialValue A w))
  | .par n => if !W.alive n then .ok A.nan else .ok (W.par n)
  | .free => body

/-- StatisticInstance.cpp 233-264 `getValue`; `live` is what `computeValue_` gives.  566-589 `getScheduler_`: an instance made from
a node has cached the scheduler; a free expression has no node to ask. -/
def getValue (W : World α) (w : Win α) (live : Except Err α) : Except Err α :=
  if (match w.stop with | none => false | some e => decide (e < w.start)) then .error .reversed
  else if !w.sched then .error .noScheduler
  else if w.start > W.now then .error .futureStart
  else match w.stop with
    | none => live
    | some e => if e > W.now then .error .futureEnd else .ok w.result

/-- `operands_.at(i)->evaluate()` -/
def operand (xs : List (Except Err α)) (i : Nat) : Except Err α :=
  match xs[i]? with
  | none => .error .outOfRange
  | some x => x

/-- two operands, from left to right -/
def both (f : α → α → α) (xs : List (Except Err α)) : Except Err α :=
  match operand xs 0 with
  | .error e => .error e
  | .ok x =>
    match operand xs 1 with
    | .error e => .error e
    | .ok y => .ok (f x y)

/-- one operand -/
def one (f : α → α) (x : Except Err α) : Except Err α :=
  match x with
  | .error e => .error e
  | .ok x => .ok (f x)

/-- ExpressionNodeTypes.hpp 90-111 `Operation::evaluate_` -/
def operate (A : Env α) (t : OpT) (xs : List (Except Err α)) : Except Err α :=
  match t with
  | .null => .error .nullOp
  | .add => both A.add xs
  | .sub => both A.sub xs
  | .mul => both A.mul xs
  | .div => both A.div xs
  | .negate => one A.neg (operand xs 0)
  | .promote => operand xs 0
  | .forward => operand xs 0
  | .other => .error .unknownOp

mutual
/-- Expression.hpp 437-444 `evaluate`; ExpressionNodeTypes.hpp 90, 245, 344, 469, 609; ExpressionNodeVariables.hpp 75, 164, 263
`evaluate_` -/
def eval (A : Env α) (W : World α) : Expr α → Except Err α
  | .empty => .error .noContent
  | .const v => .ok v
  | .ref i => .ok (W.ref i)
  | .oper t args => operate A t (evalArgs A W args)
  | .fn1 f a => one (A.fn1 f) (eval A W a)
  | .fn2 f a b => both (A.fn2 f) [eval A W a, eval A W b]
  | .fn3 f a b c =>
    match eval A W a with
    | .error e => .error e
    | .ok x => both (A.fn3 f x) [eval A W b, eval A W c]
  | .stat k w body => getValue W w (computeValue A W k w (eval A W body))

/-- the operands of an operation, in order -/
def evalArgs (A : Env α) (W : World α) : Args α → List (Except Err α)
  | .nil => []
  | .cons e rest => eval A W e :: evalArgs A W rest
end

/-! ### windows -/

/-- StatisticInstance.cpp 173-202 `start`; `body` the expression, `sb` the expression after `stat_expr_.start()` and its exception
if any -/
def startWin (A : Env α) (W : World α) (k : Kind) (w : Win α) (body : Expr α) (sb : Expr α × Option Err) :
    Win α × Expr α × Option Err :=
  if !w.sched then (w, body, some .noScheduler)
  else
    let w1 := { w with start := W.now, stop := none }
    match k with
    | .sdef n =>
      if !W.alive n then (w1, body, some .expired)
      else match sb.2 with
        | some e => (w1, sb.1, some e)
        | none => ({ w1 with initial := resetInitial w1 A.zero, result := A.nan }, sb.1, none)
    | .ctr n =>
      if !W.alive n then (w1, body, some .expired)
      else ({ w1 with initial := resetInitial w1 (A.ofCount (W.ctr n)), result := A.nan }, body, none)
    | .par n =>
      if !W.alive n then (w1, body, some .expired)
      else ({ w1 with initial := resetInitial w1 (W.par n), result := A.nan }, body, none)
    | .free =>
      match sb.2 with
      | some e => (w1, sb.1, some e)
      | none => ({ w1 with result := A.nan }, sb.1, none)

/-- StatisticInstance.cpp 230: `result_ = computeValue_()` -/
def storeResult (A : Env α) (W : World α) (k : Kind) (w : Win α) (body : Expr α) : Win α × Expr α × Option Err :=
  match computeValue A W k w (eval A W body) with
  | .error e => (w, body, some e)
  | .ok v => ({ w with result := v }, body, none)

/-- StatisticInstance.cpp 204-231 `end`; `sb` the expression after `stat_expr_.end()` and its exception if any -/
def endWin (A : Env α) (W : World α) (k : Kind) (w : Win α) (body : Expr α) (sb : Expr α × Option Err) :
    Win α × Expr α × Option Err :=
  if !w.sched then (w, body, some .noScheduler)
  else
    let w1 := { w with stop := some W.now }
    match k with
    | .sdef n =>
      if !W.alive n then (w1, body, some .expired)
      else match sb.2 with
        | some e => (w1, sb.1, some e)
        | none => storeResult A W k w1 sb.1
    | .ctr n => if !W.alive n then (w1, body, some .expired) else storeResult A W k w1 body
    | .par n => if !W.alive n then (w1, body, some .expired) else storeResult A W k w1 body
    | .free =>
      match sb.2 with
      | some e => (w1, sb.1, some e)
      | none => storeResult A W k w1 sb.1

mutual
/-- Expression.hpp 453-457; ExpressionNodeTypes.hpp 169-173, 254, 356, 483, 621; ExpressionNodeVariables.hpp 94, 177, 275: `start`.
An exception leaves the rest as it was. -/
def startExpr (A : Env α) (W : World α) : Expr α → Expr α × Option Err
  | .empty => (.empty, none)
  | .const v => (.const v, none)
  | .ref i => (.ref i, none)
  | .oper t args =>
    let (args', e) := startArgs A W args
    (.oper t args', e)
  | .fn1 f a =>
    let (a', e) := startExpr A W a
    (.fn1 f a', e)
  | .fn2 f a b =>
    match startExpr A W a with
    | (a', some e) => (.fn2 f a' b, some e)
    | (a', none) =>
      let (b', e) := startExpr A W b
      (.fn2 f a' b', e)
  | .fn3 f a b c =>
    match startExpr A W a with
    | (a', some e) => (.fn3 f a' b c, some e)
    | (a', none) =>
      match startExpr A W b with
      | (b', some e) => (.fn3 f a' b' c, some e)
      | (b', none) =>
        let (c', e) := startExpr A W c
        (.fn3 f a' b' c', e)
  | .stat k w body =>
    let (w', body', e) := startWin A W k w body (startExpr A W body)
    (.stat k w' body', e)

/-- ExpressionNodeTypes.hpp 170-172 -/
def startArgs (A : Env α) (W : World α) : Args α → Args α × Option Err
  | .nil => (.nil, none)
  | .cons e rest =>
    match startExpr A W e with
    | (e', some x) => (.cons e' rest, some x)
    | (e', none) =>
      let (rest', x) := startArgs A W rest
      (.cons e' rest', x)
end

mutual
/-- Expression.hpp 466-470; ExpressionNodeTypes.hpp 174-178, 257, 360, 488, 627; ExpressionNodeVariables.hpp 97, 181, 279: `end` -/
def endExpr (A : Env α) (W : World α) : Expr α → Expr α × Option Err
  | .empty => (.empty, none)
  | .const v => (.const v, none)
  | .ref i => (.ref i, none)
  | .oper t args =>
    let (args', e) := endArgs A W args
    (.oper t args', e)
  | .fn1 f a =>
    let (a', e) := endExpr A W a
    (.fn1 f a', e)
  | .fn2 f a b =>
    match endExpr A W a with
    | (a', some e) => (.fn2 f a' b, some e)
    | (a', none) =>
      let (b', e) := endExpr A W b
      (.fn2 f a' b', e)
  | .fn3 f a b c =>
    match endExpr A W a with
    | (a', some e) => (.fn3 f a' b c, some e)
    | (a', none) =>
      match endExpr A W b with
      | (b', some e) => (.fn3 f a' b' c, some e)
      | (b', none) =>
        let (c', e) := endExpr A W c
        (.fn3 f a' b' c', e)
  | .stat k w body =>
    let (w', body', e) := endWin A W k w body (endExpr A W body)
    (.stat k w' body', e)

/-- ExpressionNodeTypes.hpp 175-177 -/
def endArgs (A : Env α) (W : World α) : Args α → Args α × Option Err
  | .nil => (.nil, none)
  | .cons e rest =>
    match endExpr A W e with
    | (e', some x) => (.cons e' rest, some x)
    | (e', none) =>
      let (rest', x) := endArgs A W rest
      (.cons e' rest', x)
end

mutual
/-- StatisticInstance.hpp 236-243 `accumulateStatistic` on every statistic of an expression; ExpressionNodeTypes.hpp 217-223, 275, 378,
510, 653, ExpressionNodeVariables.hpp 113: `getStats_` -/
def accumulateExpr : Expr α → Expr α
  | .empty => .empty
  | .const v => .const v
  | .ref i => .ref i
  | .oper t args => .oper t (accumulateArgs args)
  | .fn1 f a => .fn1 f (accumulateExpr a)
  | .fn2 f a b => .fn2 f (accumulateExpr a) (accumulateExpr b)
  | .fn3 f a b c => .fn3 f (accumulateExpr a) (accumulateExpr b) (accumulateExpr c)
  | .stat k w body => .stat k { w with cumul := true } (accumulateExpr body)

/-- ExpressionNodeTypes.hpp 219-221 -/
def accumulateArgs : Args α → Args α
  | .nil => .nil
  | .cons e rest => .cons (accumulateExpr e) (accumulateArgs rest)
end

/-! ### instances -/

/-- StatisticInstance.hpp 477-599 -/
structure Inst (α : Type) where
  kind : Kind
  win : Win α
  body : Expr α
  subs : List (String × Nat)

/-- StatisticInstance.hpp 511-589: the window before `start` -/
def freshWin (A : Env α) (sched : Bool) : Win α :=
  { start := 0, stop := none, initial := none, cumul := false, result := A.nan, sched := sched }

/-- StatisticInstance.cpp 173-202 `start` -/
def Inst.start (A : Env α) (W : World α) (i : Inst α) : Inst α × Option Err :=
  let (w, b, e) := startWin A W i.kind i.win i.body (startExpr A W i.body)
  ({ i with win := w, body := b }, e)

/-- StatisticInstance.cpp 204-231 `end` -/
def Inst.stop (A : Env α) (W : World α) (i : Inst α) : Inst α × Option Err :=
  let (w, b, e) := endWin A W i.kind i.win i.body (endExpr A W i.body)
  ({ i with win := w, body := b }, e)

/-- StatisticInstance.cpp 233-264 `getValue` -/
def Inst.value (A : Env α) (W : World α) (i : Inst α) : Except Err α :=
  getValue W i.win (computeValue A W i.kind i.win (eval A W i.body))

/-- StatisticInstance.hpp 236-243 `accumulateStatistic` -/
def Inst.accumulate (i : Inst α) : Inst α :=
  { i with win := { i.win with cumul := true }, body := accumulateExpr i.body }

/-- StatisticInstance.hpp 439-452 `setContext` -/
def Inst.setContext (i : Inst α) : Inst α := { i with win := { i.win with sched := true } }

/-- StatisticInstance.cpp 266-289 `getRawLatest` -/
def Inst.rawLatest (A : Env α) (W : World α) (i : Inst α) : Except Err α :=
  match i.kind with
  | .sdef n => if !W.alive n then .ok A.nan else eval A W i.body
  | .ctr n => if !W.alive n then .ok A.nan else .ok (A.ofCount (W.ctr n))
  | .par n => if !W.alive n then .ok A.nan else .ok (W.par n)
  | .free => eval A W i.body

/-- Expression.hpp 238-247 `operator=(const Expression&)`: an expression without content is not assigned -/
def assignExpr (lhs rhs : Expr α) : Expr α :=
  match rhs with
  | .empty => lhs
  | e => e

/-- StatisticInstance.cpp 155-171 `operator=` -/
def Inst.assign (lhs rhs : Inst α) : Inst α :=
  { kind := rhs.kind, win := rhs.win, body := assignExpr lhs.body rhs.body, subs := rhs.subs }

/-- StatisticInstance.cpp 136-153: the new instance of the move constructor; `sub_statistics_` is not mentioned -/
def Inst.moved (rhs : Inst α) : Inst α := { rhs with subs := [] }

/-- StatisticInstance.cpp 136-153: what is left of the argument of the move constructor -/
def Inst.movedFrom (A : Env α) (rhs : Inst α) : Inst α :=
  { rhs with kind := .free, win := { rhs.win with result := A.nan }, body := .empty }

/-! ### definitions -/

/-- Operators with one operand: Expression.hpp 689-703 -/
inductive Op1
  | neg
  | promote
  | forward
deriving DecidableEq, Repr

/-- Operators with two operands: Expression.hpp 705-743 -/
inductive Op2
  | add
  | sub
  | mul
  | div
deriving DecidableEq, Repr

/-- A parsed expression.  `sdef n d`: the statistic of node `n`, whose definition is `d`. -/
inductive Def (α : Type)
  | const (v : α)
  | ref (i : Nat)
  | op1 (t : Op1) (a : Def α)
  | op2 (t : Op2) (a b : Def α)
  | fn1 (f : Nat) (a : Def α)
  | fn2 (f : Nat) (a b : Def α)
  | fn3 (f : Nat) (a b c : Def α)
  | ctr (n : Nat)
  | par (n : Nat)
  | sdef (n : Nat) (d : Def α)
deriving DecidableEq, Repr

/-- StatisticInstance.cpp 13-100: the constructor from a node whose expression, if it has one, is `body`.  The node must exist; 62-64
and 566-589: it must have a clock. -/
def construct (A : Env α) (W : World α) (k : Kind) (n : Nat) (body : Expr α) : Except Err (Win α × Expr α) :=
  if !W.alive n then .error .expired
  else
    match startWin A W k (freshWin A (W.clocked n)) body (startExpr A W body) with
    | (_, _, some e) => .error e
    | (w, b, none) => .ok (w, b)

/-- the operation of an operator: Expression.hpp 689-743 -/
def Op1.code : Op1 → OpT
  | .neg => .negate
  | .promote => .promote
  | .forward => .forward

/-- the operation of an operator: Expression.hpp 705-743 -/
def Op2.code : Op2 → OpT
  | .add => .add
  | .sub => .sub
  | .mul => .mul
  | .div => .div

/-- Expression.cpp 46-63 `parse_`, from the tree that was parsed: Expression.hpp 570-743; ExpressionGrammar.cpp 196-254: a name makes a
`StatVariable`; StatisticDef.hpp 679-686 `realizeExpression` -/
def build (A : Env α) (W : World α) : Def α → Except Err (Expr α)
  | .const v => .ok (.const v)
  | .ref i => .ok (.ref i)
  | .op1 t a =>
    match build A W a with
    | .error e => .error e
    | .ok x => .ok (.oper t.code (.cons x .nil))
  | .op2 t a b =>
    match build A W a with
    | .error e => .error e
    | .ok x =>
      match build A W b with
      | .error e => .error e
      | .ok y => .ok (.oper t.code (.cons x (.cons y .nil)))
  | .fn1 f a =>
    match build A W a with
    | .error e => .error e
    | .ok x => .ok (.fn1 f x)
  | .fn2 f a b =>
    match build A W a with
    | .error e => .error e
    | .ok x =>
      match build A W b with
      | .error e => .error e
      | .ok y => .ok (.fn2 f x y)
  | .fn3 f a b c =>
    match build A W a with
    | .error e => .error e
    | .ok x =>
      match build A W b with
      | .error e => .error e
      | .ok y =>
        match build A W c with
        | .error e => .error e
        | .ok z => .ok (.fn3 f x y z)
  | .ctr n =>
    match construct A W (.ctr n) n .empty with
    | .error e => .error e
    | .ok (w, b) => .ok (.stat (.ctr n) w b)
  | .par n =>
    match construct A W (.par n) n .empty with
    | .error e => .error e
    | .ok (w, b) => .ok (.stat (.par n) w b)
  | .sdef n d =>
    match build A W d with
    | .error e => .error e
    | .ok x =>
      match construct A W (.sdef n) n x with
      | .error e => .error e
      | .ok (w, b) => .ok (.stat (.sdef n) w b)

/-- StatisticInstance.hpp 136-138: an instance made from a node; StatisticInstance.cpp 82-85: it takes the sub-statistics of its
definition.  An expression that is not a node makes a free instance, StatisticInstance.hpp 128-130, which has no context. -/
def instance_ (A : Env α) (W : World α) (d : Def α) : Except Err (Inst α) :=
  match build A W d with
  | .error e => .error e
  | .ok (.stat k w b) =>
    .ok { kind := k, win := w, body := b, subs := match k with | .sdef n => A.subs n | _ => [] }
  | .ok e => .ok { kind := .free, win := freshWin A false, body := e, subs := [] }

/-! ### reports -/

/-- Report.hpp 1264-1334: `scheduler_ != nullptr`, `name_`, `start_tick_`, `end_tick_`, `stat_names_`, `stats_` -/
structure RepData (α : Type) where
  sched : Bool
  name : String
  start : Nat
  stop : Option Nat
  names : List String
  stats : List (String × Inst α)

mutual
/-- Report.hpp 1297 `subreps_` -/
inductive Rep (α : Type)
  | mk (d : RepData α) (subs : Reps α)
inductive Reps (α : Type)
  | nil
  | cons (r : Rep α) (rest : Reps α)
end

/-- Report.hpp 177-189: a report with a context or a scheduler -/
def RepData.new (sched : Bool) (name : String) : RepData α :=
  { sched := sched, name := name, start := 0, stop := none, names := [], stats := [] }

/-- Report.cpp 1236, 1255, 1274, ...: is the name taken -/
def RepData.taken (r : RepData α) (name : String) : Bool := name != "" && r.names.contains name

/-- Report.hpp 1184-1192 `addField_`: the instance is kept even if there is no scheduler to give it; Report.cpp 1247 -/
def RepData.addField (r : RepData α) (i : Inst α) (name : String) : RepData α × Option Err :=
  let r1 := { r with stats := r.stats ++ [(name, { i with win := { i.win with sched := r.sched } })] }
  if !r.sched then (r1, some .noScheduler)
  else (if name = "" then r1 else { r1 with names := name :: r1.names }, none)

/-- Report.cpp 1310-1326 `add(const TreeNode*, name)`; 1273-1308 are the same -/
def RepData.addNode (A : Env α) (W : World α) (r : RepData α) (d : Def α) (name : String) : RepData α × Option Err :=
  if r.taken name then (r, some .duplicate)
  else match instance_ A W d with
    | .error e => (r, some e)
    | .ok i => r.addField i name

/-- Report.hpp 1199-1214 `addSubStatistics_` -/
def RepData.addSubs (A : Env α) (W : World α) (r : RepData α) : List (String × Nat) → RepData α × Option Err
  | [] => (r, none)
  | (nm, n) :: rest =>
    match r.addNode A W (.ctr n) nm with
    | (r', some e) => (r', some e)
    | (r', none) => r'.addSubs A W rest

/-- Report.cpp 1235-1271 `add(const StatisticInstance&, name)` and `add(StatisticInstance&&, name)` -/
def RepData.addInst (A : Env α) (W : World α) (r : RepData α) (i : Inst α) (name : String) : RepData α × Option Err :=
  if r.taken name then (r, some .duplicate)
  else match r.addField i name with
    | (r', some e) => (r', some e)
    | (r', none) => r'.addSubs A W i.subs

/-- Report.hpp 215-217, 267-269, 599-601: the statistics of another report, one after the other -/
def RepData.addAll (A : Env α) (W : World α) (r : RepData α) : List (String × Inst α) → RepData α × Option Err
  | [] => (r, none)
  | (nm, i) :: rest =>
    match r.addInst A W i nm with
    | (r', some e) => (r', some e)
    | (r', none) => r'.addAll A W rest

/-- Report.hpp 763-776 `getStatistic(name)` -/
def RepData.get (r : RepData α) (name : String) : Except Err (Inst α) :=
  if !r.names.contains name then .error .missing
  else match r.stats.find? (fun p => p.1 == name) with
    | none => .error .ub
    | some p => .ok p.2

/-- Report.hpp 783-786 `hasStatistic` -/
def RepData.has (r : RepData α) (name : String) : Bool := r.names.contains name

/-- Report.hpp 196-218: the copy constructor, without the subreports -/
def RepData.copy (A : Env α) (W : World α) (r : RepData α) : RepData α × Option Err :=
  RepData.addAll A W { r with names := [], stats := [] } r.stats

/-- Report.hpp 224-242: the new report of the move constructor; `stat_names_` is not mentioned -/
def RepData.moved (r : RepData α) : RepData α := { r with names := [] }

/-- Report.hpp 251-275 `operator=`, without the subreports: `stat_names_` is not cleared -/
def RepData.assign (A : Env α) (W : World α) (l r : RepData α) : RepData α × Option Err :=
  match RepData.addAll A W { l with sched := r.sched, name := r.name, stats := [] } r.stats with
  | (l', some e) => (l', some e)
  | (l', none) => ({ l' with start := r.start, stop := r.stop }, none)

/-- Report.hpp 251-275 `operator=` with itself: 264 clears the statistics before 267 copies them -/
def RepData.assignSelf (r : RepData α) : RepData α := { r with stats := [] }

/-- Report.hpp 906-908, 931-933: a call on every statistic, in order -/
def eachStat (f : Inst α → Inst α × Option Err) : List (String × Inst α) → List (String × Inst α) × Option Err
  | [] => ([], none)
  | (nm, i) :: rest =>
    match f i with
    | (i', some e) => ((nm, i') :: rest, some e)
    | (i', none) =>
      let (rest', e) := eachStat f rest
      ((nm, i') :: rest', e)

mutual
/-- Report.hpp 895-912 `start` -/
def Rep.start (A : Env α) (W : World α) : Rep α → Rep α × Option Err
  | .mk d subs =>
    if !d.sched then (.mk d subs, some .ub)
    else match eachStat (Inst.start A W) d.stats with
      | (ss, some e) => (.mk { d with start := W.now, stop := none, stats := ss } subs, some e)
      | (ss, none) =>
        let (subs', e) := Reps.start A W subs
        (.mk { d with start := W.now, stop := none, stats := ss } subs', e)

/-- Report.hpp 909-911 -/
def Reps.start (A : Env α) (W : World α) : Reps α → Reps α × Option Err
  | .nil => (.nil, none)
  | .cons r rest =>
    match Rep.start A W r with
    | (r', some e) => (.cons r' rest, some e)
    | (r', none) =>
      let (rest', e) := Reps.start A W rest
      (.cons r' rest', e)
end

mutual
/-- Report.hpp 920-937 `end` -/
def Rep.stop (A : Env α) (W : World α) : Rep α → Rep α × Option Err
  | .mk d subs =>
    if !d.sched then (.mk d subs, some .ub)
    else match eachStat (Inst.stop A W) d.stats with
      | (ss, some e) => (.mk { d with stop := some W.now, stats := ss } subs, some e)
      | (ss, none) =>
        let (subs', e) := Reps.stop A W subs
        (.mk { d with stop := some W.now, stats := ss } subs', e)

/-- Report.hpp 934-936 -/
def Reps.stop (A : Env α) (W : World α) : Reps α → Reps α × Option Err
  | .nil => (.nil, none)
  | .cons r rest =>
    match Rep.stop A W r with
    | (r', some e) => (.cons r' rest, some e)
    | (r', none) =>
      let (rest', e) := Reps.stop A W rest
      (.cons r' rest', e)
end

mutual
/-- Report.cpp 1377-1384 `accumulateStats` -/
def Rep.accumulate : Rep α → Rep α
  | .mk d subs => .mk { d with stats := d.stats.map fun p => (p.1, p.2.accumulate) } (Reps.accumulate subs)

/-- Report.cpp 1381-1383 -/
def Reps.accumulate : Reps α → Reps α
  | .nil => .nil
  | .cons r rest => .cons (Rep.accumulate r) (Reps.accumulate rest)
end

end Sparta.Stat
