import Verif.Notify.Model
import Verif.PTree.Spec
/-!
What the user of notifications and logging relies on, told from the calls and their results alone.
-/
namespace Sparta.Notify
open Sparta.Strings (Str)
open Sparta.PTree (Glob OkName)

/-- `a` is the node `i` or a node above it -/
inductive Above (par : Nat → Option Nat) (a : Nat) : Nat → Prop
  | refl : Above par a a
  | up {i p : Nat} : par i = some p → Above par a p → Above par a i

/-- a name or pattern given by an observer fits the name of a source: the empty one fits all -/
def Fits (pat name : Str) : Prop := pat = [] ∨ pat = name ∨ Glob pat name

/-- a tap as the user knows it -/
structure STap where
  cat : Str
  dest : Nat
  node : Option Nat
deriving DecidableEq

/-- what the user knows: parents, sources (payload type and name), registrations in force, taps, the number of log messages
posted, the posts that have not returned (with their payload types, the innermost first), the number of posts of each source -/
structure World where
  par : Nat → Option Nat
  srcs : Nat → Option (Nat × Str)
  regs : List Del
  taps : List STap
  msgs : Nat
  pending : List Nat
  posts : Nat → Nat

def World.init : World := ⟨fun _ => none, fun _ => none, [], [], 0, [], fun _ => 0⟩

/-- the registration of a tap -/
def tapDel (k : Nat) (t : STap) : List Del :=
  match t.node with
  | none => []
  | some n => [⟨.tap k, 0, n, t.cat⟩]

/-- a call that succeeded changes what the user knows -/
def World.step (w : World) : Op × Res → World
  | (.source p ty name, .made i) => { w with par := upd w.par i (some p), srcs := upd w.srcs i (some (ty, name)) }
  | (.addChild p c, .ok) => { w with par := upd w.par c (some p) }
  | (.register n k ty name _ _, .events _) => { w with regs := w.regs ++ [⟨.user k, ty, n, name⟩] }
  | (.deregister n k ty name _, .events _) => { w with regs := w.regs.erase ⟨.user k, ty, n, name⟩ }
  | (.tap cat dest, .made _) => { w with taps := w.taps ++ [⟨cat, dest, none⟩] }
  | (.tapReset _ _, .error) => w
  | (.tapReset _ _, .undefined) => w
  | (.tapReset k n, _) => match w.taps[k]? with
    | none => w
    | some t => { w with taps := w.taps.set k { t with node := n },
                         regs := w.regs.filter (fun d => d.cb != .tap k) ++ tapDel k { t with node := n } }
  | (.post i _, .ok) => match w.srcs i with
    | none => w
    | some x => { w with msgs := if x.1 = 0 then w.msgs + 1 else w.msgs, pending := x.1 :: w.pending,
                         posts := upd w.posts i (w.posts i + 1) }
  | (.deliver, .returned _) => { w with pending := w.pending.tail }
  | _ => w

/-- what the user knows after a history of calls -/
def world (ops : List Op) : World := (ops.zip (runOps step init ops).2).foldl World.step World.init

/-- a registration is for source `i` -/
def World.Covers (w : World) (d : Del) (i : Nat) : Prop :=
  ∃ nm, w.srcs i = some (d.ty, nm) ∧ (d.pt = 0 ∨ Above w.par d.pt i) ∧ Fits d.name nm

/-- some tap writes the messages of source `i` to destination `D` -/
def World.Wants (w : World) (i D : Nat) : Prop :=
  ∃ (k : Nat) (t : STap) (n : Nat), w.taps[k]? = some t ∧ t.dest = D ∧ t.node = some n ∧ w.Covers ⟨.tap k, 0, n, t.cat⟩ i

/-- one name or pattern (or none), not a list -/
def Single (s : Str) : Prop := OkName s ∧ ∀ c ∈ s, c ≠ ',' ∧ c ≠ ' ' ∧ c ≠ '\t'

instance (s : Str) : Decidable (Single s) := by unfold Single; infer_instance

/-- no children of the virtual global node, no lists of names -/
def Op.Plain : Op → Prop
  | .source p _ _ => p ≠ 0
  | .addChild p _ => p ≠ 0
  | .register _ _ _ name _ _ => Single name
  | .deregister _ _ _ name _ => Single name
  | .tap cat _ => Single cat
  | _ => True

instance (o : Op) : Decidable o.Plain := by cases o <;> simp only [Op.Plain] <;> infer_instance

def Op.isPrivate : Op → Bool
  | .makePrivate _ => true
  | _ => false

/-- registration that also reaches private nodes (that of taps does) -/
def Op.reachesAll : Op → Bool
  | .register _ _ _ _ _ all => all
  | .deregister _ _ _ _ all => all
  | _ => true

/-- a history of plain calls, without private subtrees or with observers of all nodes only -/
def Legal (ops : List Op) : Prop :=
  (∀ o ∈ ops, o.Plain) ∧ ((∀ o ∈ ops, o.isPrivate = false) ∨ (∀ o ∈ ops, o.reachesAll = true))

instance (ops : List Op) : Decidable (Legal ops) := by unfold Legal; infer_instance

/-- the result that shows the call of an observer -/
def callOf (m : Msg) (d : Del) : Res :=
  match d.cb with
  | .user k => .called k d.pt m
  | .tap k => .tapped k

/-- no log message is posted while another one is delivered -/
def NoNesting (ops : List Op) : Prop :=
  ∀ pre i x post, ops = pre ++ .post i x :: post → (∃ nm, (world pre).srcs i = some (0, nm)) → 0 ∉ (world pre).pending

/-- the history posts log message `m`, and at that time some tap wants it written to destination `D` -/
def Logged (ops : List Op) (D : Nat) (m : Msg) : Prop :=
  ∃ pre i x rest nm, ops = pre ++ .post i x :: rest ∧ (world pre).srcs i = some (0, nm) ∧ m = ⟨0, (world pre).msgs, i, x⟩ ∧
    (world pre).Wants i D

/-- node `n` was made (the virtual global node always exists) -/
def Made (ops : List Op) (n : Nat) : Prop :=
  n = 0 ∨ ∃ o, (o, Res.made n) ∈ ops.zip (runOps step init ops).2 ∧ (o = .node ∨ ∃ p ty name, o = .source p ty name)

/-- the observers source `i` has, each once -/
def World.Observers (w : World) (i : Nat) (l : List Del) : Prop := l.Nodup ∧ ∀ d, d ∈ l ↔ d ∈ w.regs ∧ w.Covers d i

/-- a list of names as a user may write it: each with blanks before and after, commas between -/
def listText : List (Str × Str × Str) → Str
  | [] => []
  | [(a, n, b)] => a ++ n ++ b
  | (a, n, b) :: r => a ++ n ++ b ++ ',' :: listText r

def Blanks (s : Str) : Prop := ∀ c ∈ s, c = ' ' ∨ c = '\t'

/-- names with blanks around them -/
def Names (l : List (Str × Str × Str)) : Prop := ∀ x ∈ l, Blanks x.1 ∧ Single x.2.1 ∧ x.2.1 ≠ [] ∧ Blanks x.2.2

/-- the callbacks a source makes when it gets one more observer and had `n` -/
def gainEvents (i n : Nat) : List Ev := (if n = 0 then [.sole i 1] else []) ++ [.added i (n + 1)]

/-- the callbacks a source makes when it loses an observer and had `n` -/
def lossEvents (i n : Nat) : List Ev := .removed i (n - 1) :: (if n = 1 then [.none i 0] else [])

end Sparta.Notify
