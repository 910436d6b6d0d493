import Verif.DataPort.Spec
/-!
What an observer of a history of calls sees, and what follows from it for one port: the vocabulary of the claims.
-/
namespace Sparta.DataPort

variable {α : Type}

inductive Ev (α : Type) where
  /-- out port `o` was bound to in port `i` -/
  | bound (o i : Nat)
  /-- `send` accepted data for in port `i`, to arrive in cycle `u` -/
  | sent (i u : Nat) (x : α)
  /-- `send` called the handler of in port `i` itself in cycle `u` -/
  | direct (i u : Nat) (x : α)
  /-- the delivery event of in port `i` called the handler in cycle `u` -/
  | got (i u : Nat) (x : α)
  /-- the handler called by the delivery event of in port `i` returned -/
  | ended (i : Nat)
  /-- the data for the in ports `is` that satisfy `f` were cancelled -/
  | cancel (is : List Nat) (f : α → Bool)
  /-- the data held by in port `i` was pulled or cleared -/
  | taken (i : Nat)

/-- the event of one call: its result, with the cycle, the bindings and the running `send` at the call -/
def evOf (now : Nat) (cfg : Config) (outs : Nat → List Nat) (stack : List (Frame α)) : Op α → Res α → List (Ev α)
  | .bind o i, .done => [.bound o i]
  | .cont, .done => match stack with
    | .sending x d (i :: _) :: _ => [.sent i (now + (d + cfg.delay i)) x]
    | _ => []
  | .cont, .deliver i x => [.direct i now x]
  | .fire _, .deliver i x => [.got i now x]
  | .ret, .done => match stack with
    | .event i :: _ => [.ended i]
    | _ => []
  | .cancelIn i, .num _ => [.cancel [i] fun _ => true]
  | .cancelIfIn i f, .num _ => [.cancel [i] f]
  | .cancelOut o, .num _ => [.cancel (outs o) fun _ => true]
  | .cancelIfOut o f, .num _ => [.cancel (outs o) f]
  | .pull i, .data _ => [.taken i]
  | .clear i, .done => [.taken i]
  | _, _ => []

/-- the events of a history of calls -/
def hist (s : Sys α) : List (Op α) → List (Ev α)
  | [] => []
  | o :: os => evOf s.now s.cfg s.outs s.stack o (s.step o).2 ++ hist (s.step o).1 os

/-- in port `i` as the observer of a history knows it: the data on their way with the cycles they are due, in the order they were sent; the data the
running handler was called with by the delivery event, unless cancelled since; the data held for `pullData`, with the cycle of its arrival -/
structure View (α : Type) where
  way : List (Nat × α)
  cur : Option α
  held : Option (α × Nat)

def View.ev (i : Nat) (v : View α) : Ev α → View α
  | .sent j u x => if j = i then { v with way := v.way ++ [(u, x)] } else v
  | .direct j u x => if j = i then { v with held := some (x, u) } else v
  | .got j u x => if j = i then ⟨v.way.eraseP fun e => e.1 == u, some x, some (x, u)⟩ else v
  | .ended j => if j = i then { v with cur := none } else v
  | .cancel js f => if i ∈ js then { v with way := v.way.filter fun e => !f e.2, cur := v.cur.filter fun x => !f x } else v
  | .taken j => if j = i then { v with held := none } else v
  | .bound .. => v

def view (i : Nat) (l : List (Ev α)) : View α := l.foldl (View.ev i) ⟨[], none, none⟩

/-- the in ports out port `o` was bound to -/
def boundTo (o : Nat) (l : List (Ev α)) : List Nat :=
  l.filterMap fun e => match e with | .bound p i => if p = o then some i else none | _ => none

/-- the data sent to in port `i` for cycle `u` -/
def sentAt (i u : Nat) (l : List (Ev α)) : List α :=
  l.filterMap fun e => match e with | .sent j w x => if j = i ∧ w = u then some x else none | _ => none

/-- the data delivered by the event of in port `i` in cycle `u` -/
def gotAt (i u : Nat) (l : List (Ev α)) : List α :=
  l.filterMap fun e => match e with | .got j w x => if j = i ∧ w = u then some x else none | _ => none

end Sparta.DataPort
