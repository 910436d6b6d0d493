import Verif.Counter.Model
/-!
Model of counters with contexts (sparta/sparta/statistics/ContextCounter.hpp, WeightedContextCounter.hpp).

The contexts are `sparta::Counter`s, of which the value is kept. Weights, averages and maxima are `double`s in the code; here they are
exact rational numbers, so rounding, infinities and NaN are not modelled. Not modelled: the tree, the printed forms, triggers and
aggregate functions registered by the user, contexts of other types than `Counter`, more than 2^32 contexts.
-/
namespace Sparta.CtxCounter
open Sparta.Counter (word)

/-- ContextCounter.hpp:437 `internal_counters_` and WeightedContextCounter.hpp:92 `weights_` -/
structure Ctx where
  vals : List Nat
  weights : List Rat

/-- ContextCounter.hpp:344-392 and WeightedContextCounter.hpp:25-44, the constructors. `none`: without contexts `front()` and `back()` of an
empty vector are taken, which is undefined. -/
def mk (n : Nat) : Option Ctx :=
  if n = 0 then none else some ⟨List.replicate n 0, List.replicate n 1⟩

/-- ContextCounter.hpp:431-433 `numContexts` -/
def Ctx.num (c : Ctx) : Nat := c.vals.length

/-- ContextCounter.hpp:398-411 `context(idx)` and Counter.hpp:232-234 `operator+=` on the result; `none`: the assertion fails -/
def Ctx.charge (c : Ctx) (i k : Nat) : Option Ctx :=
  match c.vals[i]? with
  | none => none
  | some v => some { c with vals := c.vals.set i ((v + k) % word) }

/-- WeightedContextCounter.hpp:55-62: the part of `assignContextWeights` for weights that are not empty; `none`: it throws -/
def Ctx.take (c : Ctx) (ws : List Rat) : Option Ctx :=
  if ws.length > 1 ∧ ws.length ≠ c.num then none else some { c with weights := ws }

/-- WeightedContextCounter.hpp:63-66: one weight is for all contexts -/
def Ctx.spread (c : Ctx) : Ctx :=
  match c.weights with
  | [w] => { c with weights := List.replicate c.num w }
  | _ => c

/-- WeightedContextCounter.hpp:54-67 `assignContextWeights`; `none`: it throws -/
def Ctx.assign (c : Ctx) (ws : List Rat) : Option Ctx :=
  if ws = [] then some c.spread else (c.take ws).map Ctx.spread

/-- WeightedContextCounter.hpp:78-80, the loop of `weightedAvg_`; `none`: `weight_iter` goes past the end of the weights -/
def weighted : List Nat → List Rat → Rat → Option Rat
  | [], _, acc => some acc
  | _ :: _, [], _ => none
  | v :: vs, w :: ws, acc => weighted vs ws (acc + (v : Rat) * w)

/-- WeightedContextCounter.hpp:69-72, 75-82 `calculateWeightedAverage` -/
def Ctx.average (c : Ctx) : Option Rat := (weighted c.vals c.weights 0).map (· / (c.num : Rat))

/-- `std::numeric_limits<double>::min()`: the least positive normal number -/
def tiny : Rat := 1 / (2 ^ 1022 : Nat)

/-- WeightedContextCounter.hpp:87-89, the loop of `max_` -/
def maxLoop : List Nat → Rat → Rat
  | [], m => m
  | v :: vs, m => maxLoop vs (if m < (v : Rat) then (v : Rat) else m)

/-- WeightedContextCounter.hpp:84-90 `max_`; `none`: the assertion fails -/
def Ctx.maximum (c : Ctx) : Option Rat := if c.num = 0 then none else some (maxLoop c.vals tiny)

/-- the names of the contexts, ContextCounter.hpp:364-368 -/
def names (ctx : String) (n : Nat) : List String := (List.range n).map fun i => ctx ++ i.repr

/-- ContextCounter.hpp:222-229 the loop of `generateExprArg_`: the names added, `i` the number of the next one -/
def exprLoop (ctx : String) : Nat → Nat → List String
  | 0, _ => []
  | k + 1, i => (ctx ++ i.repr) :: exprLoop ctx k (i + 1)

/-- ContextCounter.hpp:220-231 `generateExprArg_`: the names in the sum; the first is there whatever the number of contexts -/
def exprArg (ctx : String) (n : Nat) : List String := (ctx ++ (0 : Nat).repr) :: exprLoop ctx (n - 1) 1

/-- the value of a name: that of the child with the name; `none`: there is none -/
def lookup : List String → List Nat → String → Option Nat
  | x :: xs, v :: vs, y => if x = y then some v else lookup xs vs y
  | _, _, _ => none

/-- the value of the sum; `none`: a name is not resolved -/
def evalSum (ns : List String) (vs : List Nat) : List String → Option Nat
  | [] => some 0
  | y :: ys =>
    match lookup ns vs y, evalSum ns vs ys with
    | some a, some b => some (a + b)
    | _, _ => none

/-- the value of the aggregate statistic of a counter whose contexts are named after `ctx` -/
def Ctx.aggregate (c : Ctx) (ctx : String) : Option Nat := evalSum (names ctx c.num) c.vals (exprArg ctx c.num)

inductive Op where
  | charge (i k : Nat)
  | assign (ws : List Rat)

/-- one call; the result tells whether it was accepted. A refused call changes nothing. -/
def Ctx.step (c : Ctx) : Op → Ctx × Bool
  | .charge i k => match c.charge i k with | some c' => (c', true) | none => (c, false)
  | .assign ws => match c.assign ws with | some c' => (c', true) | none => (c, false)

end Sparta.CtxCounter
