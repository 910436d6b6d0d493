import Verif.Stat.Model
/-! What a statistic is supposed to say: the definition, with each counter replaced by how much it counted in the window. -/
namespace Sparta.Stat
variable {α : Type}

/-- the meaning of an operator with one operand -/
def Op1.apply (A : Env α) : Op1 → α → α
  | .neg, x => A.neg x
  | .promote, x => x
  | .forward, x => x

/-- the meaning of an operator with two operands -/
def Op2.apply (A : Env α) : Op2 → α → α → α
  | .add, x, y => A.add x y
  | .sub, x, y => A.sub x y
  | .mul, x, y => A.mul x y
  | .div, x, y => A.div x y

/-- The value of a definition over the window from `B` to `W`. -/
def meaning (A : Env α) (B W : World α) : Def α → α
  | .const v => v
  | .ref i => W.ref i
  | .op1 t a => t.apply A (meaning A B W a)
  | .op2 t a b => t.apply A (meaning A B W a) (meaning A B W b)
  | .fn1 f a => A.fn1 f (meaning A B W a)
  | .fn2 f a b => A.fn2 f (meaning A B W a) (meaning A B W b)
  | .fn3 f a b c => A.fn3 f (meaning A B W a) (meaning A B W b) (meaning A B W c)
  | .ctr n => if A.latest n then A.ofCount (W.ctr n) else A.sub (A.ofCount (W.ctr n)) (A.ofCount (B.ctr n))
  | .par n => W.par n
  | .sdef _ d => meaning A B W d

/-- the nodes a definition refers to -/
def Def.nodes : Def α → List Nat
  | .const _ => []
  | .ref _ => []
  | .op1 _ a => a.nodes
  | .op2 _ a b => a.nodes ++ b.nodes
  | .fn1 _ a => a.nodes
  | .fn2 _ a b => a.nodes ++ b.nodes
  | .fn3 _ a b c => a.nodes ++ (b.nodes ++ c.nodes)
  | .ctr n => [n]
  | .par n => [n]
  | .sdef n d => n :: d.nodes

/-- all its nodes exist -/
def Def.Exists (d : Def α) (W : World α) : Prop := ∀ n ∈ d.nodes, W.alive n = true

/-- all its nodes have a clock -/
def Def.Clocked (d : Def α) (W : World α) : Prop := ∀ n ∈ d.nodes, W.clocked n = true

/-- a definition that is a node: a counter, a parameter or a statistic -/
def Def.isNode : Def α → Bool
  | .ctr _ => true
  | .par _ => true
  | .sdef _ _ => true
  | _ => false

/-- What happens to an instance. -/
inductive Call (α : Type)
  | start
  | stop
  | accumulate
  | world (W : World α)

/-- the instance and the world it is in -/
def step (A : Env α) (s : World α × Inst α) : Call α → (World α × Inst α) × Option Err
  | .start => let (i, e) := s.2.start A s.1; ((s.1, i), e)
  | .stop => let (i, e) := s.2.stop A s.1; ((s.1, i), e)
  | .accumulate => ((s.1, s.2.accumulate), none)
  | .world W => ((W, s.2), none)

/-- The window that the calls describe: it goes from `base` to `till`, or to `now` if it is open.  `since` is where it was last
started; once the instance accumulates, `base` stays where it was. -/
structure Span (α : Type) where
  now : World α
  base : World α
  since : World α
  till : Option (World α)
  cumul : Bool

def Span.init (W : World α) : Span α := { now := W, base := W, since := W, till := none, cumul := false }

def Span.next (p : Span α) : Call α → Span α
  | .start => { p with base := if p.cumul then p.base else p.now, since := p.now, till := none }
  | .stop => { p with till := some p.now }
  | .accumulate => { p with cumul := true }
  | .world W => { p with now := W }

def spanOf (W : World α) (cs : List (Call α)) : Span α := cs.foldl Span.next (Span.init W)

/-- The ticks never go back and the nodes of the definition exist all the time. -/
def Steady (d : Def α) : World α → List (Call α) → Prop
  | _, [] => True
  | V, .world W :: cs => V.now ≤ W.now ∧ d.Exists W ∧ Steady d W cs
  | V, .start :: cs => Steady d V cs
  | V, .stop :: cs => Steady d V cs
  | V, .accumulate :: cs => Steady d V cs

end Sparta.Stat
