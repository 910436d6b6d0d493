import Verif.DataPort.Model
/-!
Specification of data ports. An in port has a list of the data on its way, in the order of the sends, each with the cycle it
is due.
-/
namespace Sparta.DataPort

structure SIn (α : Type) where
  pending : List (Nat × α)
  /-- the data the handler called by the event was given, unless it was cancelled since -/
  cur : Option α
  past : Bool
  fired : Bool
  data : Option (α × Nat)
  bound : List Nat
  cont : Bool

structure Spec (α : Type) where
  cfg : Config
  now : Nat
  phase : Nat
  outs : Nat → List Nat
  ocont : Nat → Bool
  ins : Nat → SIn α
  stack : List (Frame α)

variable {α : Type}

def SIn.init (α : Type) : SIn α := ⟨[], none, false, false, none, [], true⟩

def Spec.init (α : Type) (cfg : Config) : Spec α :=
  ⟨cfg, 0, 0, fun _ => [], fun _ => true, fun _ => .init α, []⟩

def Spec.setIn (s : Spec α) (i : Nat) (p : SIn α) : Spec α := { s with ins := upd s.ins i p }

/-- the number of data on their way or just being delivered -/
def SIn.count (p : SIn α) : Nat := p.pending.length + p.cur.toList.length

/-- data is sent to in port `i`: refused for a port whose phase is over when it should arrive in this cycle, handed over at once
when it should arrive in this phase, else put on its way -/
def Spec.sendTo (s : Spec α) (x : α) (d i : Nat) : Spec α × Bool × Bool :=
  let p := s.ins i
  let total := d + s.cfg.delay i
  if total = 0 ∧ s.cfg.phase i < s.phase then (s, false, false)
  else if total = 0 ∧ s.cfg.phase i = s.phase then (s.setIn i { p with data := some (x, s.now) }, true, true)
  else if p.count + 1 < s.cfg.cap then
    (s.setIn i { p with pending := p.pending ++ [(s.now + total, x)] }, false, true)
  else (s, false, false)

def Spec.send (s : Spec α) : Spec α × Res α :=
  match s.stack with
  | .sending x d (i :: rest) :: st =>
    match s.sendTo x d i with
    | (s', _, false) => ({ s' with stack := st }, .threw)
    | (s', true, true) => ({ s' with stack := .direct i :: .sending x d rest :: st }, .deliver i x)
    | (s', false, true) => ({ s' with stack := .sending x d rest :: st }, .done)
  | .sending _ _ [] :: st => ({ s with stack := st }, .done)
  | _ => (s, .busy)

/-- the first of the data due in cycle `t`, and the others -/
def takeDue (t : Nat) : List (Nat × α) → Option (α × List (Nat × α))
  | [] => none
  | e :: l => if e.1 = t then some (e.2, l) else (takeDue t l).map fun r => (r.1, e :: r.2)

def Spec.fire (s : Spec α) (i : Nat) : Spec α × Res α :=
  if i < s.cfg.n ∧ s.cfg.phase i = s.phase ∧ (s.ins i).past = false then
    match takeDue s.now (s.ins i).pending with
    | none => (s, .idle)
    | some (x, l) =>
      ({ s.setIn i { s.ins i with pending := l, cur := some x, fired := true, data := some (x, s.now) } with
          stack := .event i :: s.stack }, .deliver i x)
  else (s, .busy)

def Spec.ret (s : Spec α) : Spec α × Res α :=
  match s.stack with
  | .direct _ :: st => ({ s with stack := st }, .done)
  | .event i :: st => ({ s.setIn i { s.ins i with cur := none } with stack := st }, .done)
  | _ => (s, .busy)

/-- nothing is due in this cycle -/
def SIn.over (p : SIn α) (now : Nat) : Bool := p.pending.all fun e => e.1 != now

def Spec.over (s : Spec α) (f : Nat → Bool) : Bool := (List.range s.cfg.n).all fun i => !f i || (s.ins i).over s.now

def Spec.toPhase (s : Spec α) (k : Nat) : Spec α × Res α :=
  if s.phase ≤ k ∧ s.over (fun i => decide (s.cfg.phase i < k)) then
    ({ s with ins := fun i => if s.cfg.phase i < k then { s.ins i with past := true } else s.ins i, phase := k }, .done)
  else (s, .busy)

def Spec.pass (s : Spec α) (i : Nat) : Spec α × Res α :=
  if s.cfg.phase i = s.phase ∧ (s.ins i).over s.now then (s.setIn i { s.ins i with past := true }, .done) else (s, .busy)

def Spec.next (s : Spec α) : Spec α × Res α :=
  if s.over (fun _ => true) then
    ({ s with ins := fun i => { s.ins i with past := false, fired := false }, now := s.now + 1, phase := 0 }, .done)
  else (s, .busy)

/-- the data that satisfy `f` are taken away; the data just being delivered counts -/
def SIn.cancel (p : SIn α) (f : α → Bool) : SIn α :=
  { p with pending := p.pending.filter (fun e => !f e.2), cur := p.cur.filter fun x => !f x }

def SIn.cancelCount (p : SIn α) (f : α → Bool) : Nat := p.pending.countP (fun e => f e.2) + p.cur.toList.countP f

def Spec.cancelOut (s : Spec α) (o : Nat) (f : α → Bool) : Spec α × Res α :=
  ({ s with ins := fun i => if i ∈ s.outs o then (s.ins i).cancel f else s.ins i },
    .num (((s.outs o).map fun i => (s.ins i).cancelCount f).sum % half))

def SIn.driven (p : SIn α) : Bool := !p.pending.isEmpty || p.cur.isSome

def SIn.drivenAt (p : SIn α) (t : Nat) : Bool := p.pending.any fun e => e.1 == t

def dataOf : Option (α × Nat) → Res α
  | some (x, _) => .data x
  | none => .threw

def Spec.user (s : Spec α) : Op α → Spec α × Res α
  | .bind o i =>
    if s.cfg.ifreq i ≠ s.cfg.ofreq o then (s, .threw)
    else if i ∈ s.outs o then (s, .threw)
    else ({ s.setIn i { s.ins i with cont := s.ocont o, bound := (s.ins i).bound ++ [o] } with
              outs := upd s.outs o (s.outs o ++ [i]) }, .done)
  | .send o x d => if s.outs o = [] then (s, .threw) else ({ s with stack := .sending x d (s.outs o) :: s.stack }, .done)
  | .cancelIn i => (s.setIn i ((s.ins i).cancel fun _ => true), .num ((s.ins i).cancelCount fun _ => true))
  | .cancelIfIn i f => (s.setIn i ((s.ins i).cancel f), .num ((s.ins i).cancelCount f))
  | .cancelOut o => s.cancelOut o fun _ => true
  | .cancelIfOut o f => s.cancelOut o f
  | .drivenIn i => (s, .yes (s.ins i).driven)
  | .drivenInAt i rel => (s, .yes ((s.ins i).drivenAt (s.now + rel)))
  | .drivenOut o => (s, .yes ((s.outs o).any fun i => (s.ins i).driven))
  | .drivenOutAt o rel => (s, .yes ((s.outs o).any fun i => (s.ins i).drivenAt (s.now + rel)))
  | .received i => (s, .yes (s.ins i).data.isSome)
  | .receivedNow i => (s, .yes ((s.ins i).data.any fun e => e.2 == s.now))
  | .pull i => (s.setIn i { s.ins i with data := none }, dataOf (s.ins i).data)
  | .peek i => (s, dataOf (s.ins i).data)
  | .clear i => (s.setIn i { s.ins i with data := none }, .done)
  | .stamp i => (s, match (s.ins i).data with | some e => .num e.2 | none => .threw)
  | .setContOut o b => ({ s with ocont := upd s.ocont o b }, .done)
  | .setContIn i b => (s.setIn i { s.ins i with cont := b }, .done)
  | .isCont i => (s, .yes (s.ins i).cont)
  | .numBound o => (s, .num (s.outs o).length)
  | _ => (s, .busy)

def Spec.step (s : Spec α) : Op α → Spec α × Res α
  | .cont => s.send
  | .ret => s.ret
  | .fire i => if s.stack.isEmpty then s.fire i else (s, .busy)
  | .toPhase k => if s.stack.isEmpty then s.toPhase k else (s, .busy)
  | .pass i => if s.stack.isEmpty then s.pass i else (s, .busy)
  | .next => if s.stack.isEmpty then s.next else (s, .busy)
  | op => if sending s.stack then (s, .busy) else s.user op

/-- Ports are in ports of the system; the total delay of a send is below 2^32; asking about the current cycle only where no event has
delivered in it. -/
def Spec.legal (s : Spec α) : Op α → Prop
  | .bind _ i => i < s.cfg.n
  | .send o _ d => ∀ i ∈ s.outs o, d + s.cfg.delay i < half
  | .drivenInAt i rel => rel ≠ 0 ∨ (s.ins i).fired = false
  | .drivenOutAt o rel => rel ≠ 0 ∨ ∀ i ∈ s.outs o, (s.ins i).fired = false
  | _ => True

instance [DecidableEq α] (s : Spec α) (o : Op α) : Decidable (s.legal o) := by
  cases o <;> unfold Spec.legal <;> infer_instance

end Sparta.DataPort
