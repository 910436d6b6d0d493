import Verif.Checkpoint.Model
/-!
Model of `FastCheckpointer::squashCurrentBranch` (/repo/sparta/sparta/serialization/checkpoint/FastCheckpointer.hpp
538-759) and of `CherryPickFastCheckpointer` (CherryPickFastCheckpointer.hpp, /repo/sparta/src/
CherryPickFastCheckpointer.cpp): committing the current branch of checkpoints to a database and loading checkpoints
from it. `H` stands for CherryPickFastCheckpointer.hpp, `C` for the .cpp file and `F` for FastCheckpointer.hpp.

It is built on the model of `FastCheckpointer` in Verif/Checkpoint. Simplified: the pipeline threads, compression,
archives and SQLite deliver every record once and in order, so the queues are the tables; integers do not wrap.
An outcome `none` of a function is an exception or undefined behaviour; what is left then is not modelled.
-/
namespace Sparta.Cherry
open Sparta.Checkpoint
open Sparta.ArchData (AD)

/-- What is archived of a checkpoint: CheckpointBase.hpp 92-96, DeltaCheckpoint.hpp 541-550 -/
structure Saved where
  id : Nat
  tick : Nat
  snap : Bool
  data : Stream

/-- the keys of `chkpts_` -/
def live (c : CP) : List Nat := (List.range c.next).filter fun i => (c.chk i).isSome

def isDead (chk : Map) (i : Nat) : Bool := match chk i with | some n => n.deleted | none => false

def isSnap (chk : Map) (i : Nat) : Bool := match chk i with | some n => n.snap | none => false

/-- DeltaCheckpoint.hpp 319-331 `getRestoreChain` as ids, newest first; `none`: a null pointer is followed. The
first number bounds the length. -/
def restoreIds (chk : Map) : Nat → Nat → Option (List Nat)
  | 0, _ => none
  | fuel + 1, id =>
    match chk id with
    | none => none
    | some n =>
      if n.snap then some [id]
      else match n.prev with
        | none => none
        | some p => (restoreIds chk fuel p).map (id :: ·)

/-- the checkpoints moved out of `chkpts_`; F 594 `hasCheckpoint` -/
def pick (chk : Map) : List Nat → Option (List Saved)
  | [] => some []
  | i :: is =>
    match chk i, pick chk is with
    | some n, some l => some (⟨i, n.tick, n.snap, n.data⟩ :: l)
    | _, _ => none

/-- Only `keep` stays in `chkpts_`. Destroying a checkpoint links those after it to the one before it
(Checkpoint.hpp 57-70). Here all that is not kept goes, so what stays loses its links to the rest. -/
def restrict (chk : Map) (keep : List Nat) : Map := fun i =>
  if i ∈ keep then (chk i).map fun n => { n with nexts := n.nexts.filter (· ∈ keep) } else none

/-- F 708-730: the branch, oldest first, against the stack of the restore chain: what is saved, what is kept, and
the head -/
def walk (chk : Map) : List Nat → List Nat → Option Nat → Option (List Nat × List Nat × Option Nat)
  | [], _, h => some ([], [], h)
  | _ :: _, [], _ => none
  | id :: ids, r :: rs, h =>
    if id ≠ r then (walk chk ids (r :: rs) h).map fun w => (id :: w.1, w.2)
    else
      let h' := if isSnap chk r then some r else h
      match rs with
      | [] => some ([], [r], h')
      | _ :: _ => (walk chk ids rs h').map fun w => (w.1, r :: w.2.1, w.2.2)

/-- Checkpointer.hpp 671-677 `setHead_`, Checkpoint.hpp 175-180 `makeHeadCheckpoint` -/
def makeHead (chk : Map) (h : Option Nat) : Map :=
  match h with
  | none => chk
  | some r => match chk r with | none => chk | some n => upd chk r (some { n with prev := none })

/-- `num_alive_checkpoints_--` and `num_alive_snapshots_--`, each asserted to be positive before, for every
checkpoint in `gone` (F 597-600, 667-670, 712-715, 743-746) -/
def countDown (c : CP) (gone : List Nat) : Option CP :=
  if c.alive < gone.length ∨ c.snaps < gone.countP (isSnap c.chk) then none
  else some { c with alive := c.alive - gone.length, snaps := c.snaps - gone.countP (isSnap c.chk) }

/-- F 572-759 `squashCurrentBranch_`: the checkpoints to save. If any checkpoint in `chkpts_` is flagged deleted it
fails: on the branch it has the unidentified id, which is not in `chkpts_` (594, 710) or is not kept, and whatever
is not kept is flagged deleted, which asserts that it was not before (607, 659, 741; DeltaCheckpoint.hpp 430-432). -/
def squash (c : CP) (force : Bool) : Option (CP × List Saved) :=
  match c.cur with
  | none => some (c, [])
  | some cur =>
    if (live c).any (isDead c.chk) then none
    else
      let branch := (chainIds c.chk (cur + 1) cur).reverse
      if force then
        match pick c.chk branch, countDown c branch with
        | some saved, some c' =>
          (CP.newNode { c' with chk := fun _ => none } none true).map fun c'' => ({ c'' with head := some c.next }, saved)
        | _, _ => none
      else
        match restoreIds c.chk (cur + 1) cur with
        | none => none
        | some rc =>
          if branch.length = rc.length then
            match countDown c ((live c).filter (· ∉ branch)) with
            | none => none
            | some c' => some ({ c' with chk := restrict c.chk branch }, [])
          else
            match walk c.chk branch rc.reverse c.head with
            | none => none
            | some (out, keep, head) =>
              match pick c.chk out, countDown c ((live c).filter (· ∉ keep)) with
              | some saved, some c' =>
                some ({ c' with chk := restrict (makeHead c.chk head) keep, head := head }, saved)
              | _, _ => none

/-! ### the database -/

/-- H 147-151 `ArchIdsForTick`, also the rows of TickRuns (C 40-43) -/
structure Run where
  first : Nat
  last : Nat
  tick : Nat
deriving DecidableEq

/-- H 270-275 `ChkptWindow`, also the rows of ChkptWindows (C 31-38) -/
structure Window where
  first : Nat
  last : Nat
  tick0 : Nat
  tick1 : Nat
  chk : List Saved

/-- C 198-218: one checkpoint added to the runs -/
def addRun (runs : List Run) (a t : Nat) : List Run :=
  match runs.getLast? with
  | none => [⟨a, a, t⟩]
  | some r => if r.tick = t then runs.dropLast ++ [{ r with last := a }] else runs ++ [⟨a, a, t⟩]

def addRuns (runs : List Run) (a : Nat) : List Nat → List Run
  | [] => runs
  | t :: ts => addRuns (addRun runs a t) (a + 1) ts

/-- H 322-330 with the tables -/
structure Cherry where
  cp : CP
  runs : List Run
  arch : Nat
  wins : List Window
  dbRuns : List Run

def Cherry.init (ads : List AD) : Cherry := ⟨CP.init ads, [], 0, [], []⟩

/-- C 174-241 `saveCheckpoints` -/
def Cherry.save (k : Cherry) (l : List Saved) : Option Cherry :=
  match l with
  | [] => none
  | s :: _ =>
    if s.snap = false then none
    else
      let w : Window := ⟨k.arch, k.arch + l.length - 1, l.foldl (fun m c => min m c.tick) (2 ^ 64 - 1),
        l.foldl (fun m c => max m c.tick) 0, l⟩
      let runs := addRuns k.runs k.arch (l.map (·.tick))
      some { k with arch := k.arch + l.length, runs := runs.drop (runs.length - 1),
                    dbRuns := k.dbRuns ++ runs.take (runs.length - 1), wins := k.wins ++ [w] }

/-- C 243-250 `preTeardown` -/
def Cherry.teardown (k : Cherry) : Cherry := { k with dbRuns := k.dbRuns ++ k.runs, runs := [] }

inductive Op where
  /-- a call of the `FastCheckpointer` (H 97-99) or of the simulated system -/
  | base (o : Checkpoint.Op)
  | commit (force : Bool)
  | stored

inductive Res where
  | base (r : Checkpoint.Res)
  | committed (ids : List Nat)
  | failed
  | num (n : Nat)
deriving DecidableEq

def Cherry.step (k : Cherry) : Op → Cherry × Res
  | .base o => ({ k with cp := (k.cp.step o).1 }, .base (k.cp.step o).2)
  /- C 164-172 `commitCurrentBranch`, F 552-558 -/
  | .commit force =>
    match squash k.cp force with
    | none => (k, .failed)
    | some (cp, l) =>
      if l.isEmpty then ({ k with cp := cp }, .committed [])
      else match ({ k with cp := cp } : Cherry).save l with
        | none => (k, .failed)
        | some k' => (k', .committed (l.map (·.id)))
  /- C 439-455 `getNumCheckpoints` -/
  | .stored => (k, .num ((k.wins.map fun w => w.last - w.first + 1).sum))

/-! ### loading -/

/-- H 189-210 `DatabaseCheckpointLoader` -/
structure Loader where
  wins : List Window
  runs : List Run
  num : Nat
  cache : Option Window
  ads : List AD

/-- C 252-273 -/
def Loader.start (k : Cherry) (ads : List AD) : Option Loader :=
  if k.dbRuns.isEmpty then none
  else some ⟨k.wins, k.dbRuns, (k.dbRuns.map fun r => r.last - r.first + 1).sum, none, ads⟩

/-- C 397-409: arch id and tick of an index -/
def locate (idx : Nat) : List Run → Nat → Option (Nat × Nat)
  | [], _ => none
  | r :: rs, cur =>
    if idx < cur + (r.last - r.first + 1) then some (r.first + (idx - cur), r.tick)
    else locate idx rs (cur + (r.last - r.first + 1))

/-- C 311-328 `getChkptFromWindow_`: the position in the window -/
def inWindow (a t : Nat) (w : Window) : Option Nat :=
  if w.first ≤ a then
    match w.chk[a - w.first]? with
    | none => none
    | some s => if s.tick = t then some (a - w.first) else none
  else none

/-- C 374-379: `addNext` throws if a checkpoint has a smaller tick than the one before (Checkpoint.hpp 117-120) -/
def ordered : List Saved → Bool
  | a :: b :: l => decide (a.tick ≤ b.tick) && ordered (b :: l)
  | _ => true

/-- C 336-392 `getChkptFromDisk_`: the window of the one matching row -/
def fromDisk (wins : List Window) (a t : Nat) : Option Window :=
  match wins.filter fun w => decide (w.first ≤ a ∧ a ≤ w.last ∧ w.tick0 ≤ t ∧ t ≤ w.tick1) with
  | [w] => if (inWindow a t w).isSome && ordered w.chk then some w else none
  | _ => none

/-- C 369-379: the links set after reading a window; ids are positions in it -/
def winMap (l : List Saved) : Map := fun i =>
  l[i]?.map fun s => ⟨if i = 0 then none else some (i - 1), if i + 1 < l.length then [i + 1] else [], s.snap, false, s.tick, s.data⟩

inductive LOp where
  | access (k : Nat) (o : ArchData.Op)
  | load (idx : Nat)
  | count

/-- H 176-183 `loadCheckpoint`, C 394-426 `loadCheckpoint_` -/
def Loader.load (l : Loader) (idx : Nat) : Loader × Checkpoint.Res :=
  if l.num ≤ idx then (l, .threw)
  else match locate idx l.runs 0 with
    | none => (l, .threw)
    | some (a, t) =>
      match l.cache.bind fun w => (inWindow a t w).map fun p => (w, p) with
      | some (w, p) =>
        match Checkpoint.load (winMap w.chk) p l.ads with
        | none => (l, .died)
        | some ads => ({ l with ads := ads }, .done)
      | none =>
        match fromDisk l.wins a t with
        | none => (l, .threw)
        | some w =>
          match (inWindow a t w).bind fun p => Checkpoint.load (winMap w.chk) p l.ads with
          | none => (l, .died)
          | some ads => ({ l with ads := ads, cache := some w }, .done)

def Loader.step (l : Loader) : LOp → Loader × Res
  | .access k o =>
    match l.ads[k]? with
    | none => (l, .base .threw)
    | some m => ({ l with ads := l.ads.set k (m.step o).1 }, .base (.mem (m.step o).2))
  | .load idx => ((l.load idx).1, .base (l.load idx).2)
  | .count => (l, .num l.num)

/-- H 216-246 `DatabaseCheckpointReplayer` -/
structure Replayer where
  loader : Loader
  next : Nat

def Replayer.start (k : Cherry) (ads : List AD) : Option Replayer :=
  match Loader.start k ads with
  | none => none
  | some l => if (l.load 0).2 = .done then some ⟨(l.load 0).1, 1⟩ else none

/-- C 428-437 `step` -/
def Replayer.step (r : Replayer) : Replayer × Checkpoint.Res :=
  if r.loader.num ≤ r.next then (r, .yes false)
  else match r.loader.load r.next with
    | (l, .done) => (⟨l, r.next + 1⟩, .yes true)
    | (l, e) => (⟨l, r.next⟩, e)

end Sparta.Cherry
