import Verif.Common
/-!
Pipeline collection: collectables, the collector with its heartbeats, and the records it writes for the viewer.

Code: sparta/sparta/collection/Collectable.hpp 34-369 (annotations), 440-893 (pairs), CollectableTreeNode.hpp 74-129,
IterableCollector.hpp 213-320, PipelineCollector.hpp 122-151, 203-616; sparta/sparta/pipeViewer/Outputter.hpp 92-132;
sparta/src/ArgosOutputter.cpp 21-72.

Simplifications: a collectable is its number (its location).  A value is the text that `operator<<` writes, for pairs the text of
their fields; the empty text is "no data".  The clocks of the collectables have period 1, so durations are in ticks.  The sets of
collectables (ordered by address in the code) are lists.  A file is the list of what was written: records and, in the
index file, the marks that point between them; the mark of the last record written when a file is closed is left out.  Ticks and ids
are natural numbers.  Automatic collection has one phase, after all that the users of a tick do.  Location and clock files, the
layout of records in bytes, parent and display ids are left out.
-/
namespace Sparta.Collect

abbrev Val := List Char

/-- transaction_structures.hpp 35-46, 78-80: location, start, end, id, `CONTINUE_FLAG`, the annotation -/
structure Rec where
  loc : Nat
  start : Nat
  stop : Nat
  id : Nat
  cont : Bool
  val : Val
deriving DecidableEq, Repr

/-- ArgosOutputter.cpp 68-72: an entry of the index; Outputter.hpp 92-101: a record -/
inductive Item
  | index
  | record (r : Rec)
deriving DecidableEq, Repr

/-- the assertions: no collector (Collectable.hpp 269), the collector is not active (PipelineCollector.hpp 513), start not before end
(Collectable.hpp 296), outside the interval (PipelineCollector.hpp 516-517), still active (326); undefined behaviour: a null pointer
is followed (Collectable.hpp 824) -/
inductive Err
  | noCollector
  | inactive
  | order
  | window
  | stillActive
  | ub
deriving DecidableEq, Repr

/-- Collectable.hpp 346-368, 868-886 and CollectableTreeNode.hpp 129: whether it is a collectable of pairs (440-893), whether it
has a collected object and collects it automatically, `*collected_object_` (`none`: the pointer is null), `is_collected_`,
`pipeline_col_ != nullptr`, `record_closed_`, `prev_annot_` (for pairs the vectors of values), `time_Start` -/
structure Obj where
  pair : Bool
  auto : Bool
  var : Option Val
  collected : Bool
  attached : Bool
  closed : Bool
  val : Val
  start : Nat
deriving DecidableEq, Repr

/-- PipelineCollector.hpp 618-659: the tick of the scheduler, `heartbeat_interval_`, `last_heartbeat_`, the ticks for which
`ev_heartbeat_` is scheduled, `collection_active_`, `last_transaction_id_`, `filepath_`, the files, `registered_collectables_`; the
collectables and the events that will close their records; 158-164 `enabled_ctns_` and the ticks for which `ev_collect_` is
scheduled -/
structure Sys where
  now : Nat
  H : Nat
  last : Nat
  hbs : List Nat
  active : Bool
  ids : Nat
  path : Nat
  disk : Nat → List Item
  reg : List Nat
  objs : Nat → Obj
  closes : List (Nat × Nat)
  enabled : List Nat
  pend : List Nat

/-- Collectable.hpp 61-140: a collectable that has not been started -/
def Obj.new (pair auto : Bool) : Obj :=
  { pair := pair, auto := auto, var := none, collected := false, attached := false, closed := true, val := [], start := 0 }

/-- PipelineCollector.hpp 203-292: a new collector with interval `H`; 284 asserts `H > 1` -/
def Sys.new (H : Nat) (pair auto : Nat → Bool) : Sys :=
  { now := 0, H := H, last := 0, hbs := [], active := false, ids := 0, path := 0, disk := fun _ => [], reg := []
    objs := fun i => Obj.new (pair i) (auto i), closes := [], enabled := [], pend := [] }

/-- the collectable `i` becomes `o` -/
def Sys.set (s : Sys) (i : Nat) (o : Obj) : Sys := { s with objs := upd s.objs i o }

/-- Outputter.hpp 92-101, ArgosOutputter.cpp 68-72: written at the end of the file -/
def Sys.put (s : Sys) (x : Item) : Sys := { s with disk := upd s.disk s.path (s.disk s.path ++ [x]) }

/-- Collectable.hpp 283: `length` has 16 bits and Outputter.hpp 130-131 writes that many characters -/
def cut (v : Val) : Val := v.take (v.length % 65536)

/-- PipelineCollector.hpp 511-535 `writeRecord`.  523-527 compare with `closing_time_`, which is never changed: always true. -/
def Sys.write (s : Sys) (r : Rec) : Sys × Option Err :=
  if !s.active then (s, some .inactive)
  else if !decide (r.stop ≤ s.last + s.H) then (s, some .window)
  else if !decide (r.start ≥ s.last) then (s, some .window)
  else (s.put (.record r), none)

/-- Collectable.hpp 267-302, 790-818 `writeRecord_`: was something written -/
def Sys.writeRecord (s : Sys) (i : Nat) (cont ending : Bool) : Sys × Except Err Bool :=
  if !(s.objs i).attached then (s, .error .noCollector)
  else if (s.objs i).start = s.now then (s, .ok false)
  else
    let s1 := { s with ids := s.ids + 1 }
    let stop := s.now + (if ending then 1 else 0)
    if !decide ((s.objs i).start < stop) then (s1, .error .order)
    else match s1.write { loc := i, start := (s.objs i).start, stop := stop, id := s.ids + 1, cont := cont
                          val := if (s.objs i).pair then (s.objs i).val else cut (s.objs i).val } with
      | (s2, some e) => (s2, .error e)
      | (s2, none) => (s2, .ok true)

/-- Collectable.hpp 239-248, 697-709 `closeRecord` -/
def Sys.closeRecord (s : Sys) (i : Nat) (ending : Bool) : Sys × Option Err :=
  if !(s.objs i).collected then (s, none)
  else if (s.objs i).closed then (s, none)
  else match s.writeRecord i false ending with
    | (s1, .error e) => (s1, some e)
    | (s1, .ok true) => (s1.set i { s1.objs i with closed := true, val := [] }, none)
    | (s1, .ok false) => (s1.set i { s1.objs i with closed := true }, none)

/-- Collectable.hpp 305-308 and 172-173, 821-825 and 594-595: `startNewRecord_` and the flag that is set after it -/
def Sys.openRecord (s : Sys) (i : Nat) : Sys × Option Err :=
  if !(s.objs i).attached then (s, some .ub)
  else (s.set i { s.objs i with start := s.now, closed := false }, none)

/-- Collectable.hpp 156-176 (annotations: only if it is collected), 574-597 (pairs: always) `collect(val)` -/
def Sys.collect (s : Sys) (i : Nat) (v : Val) : Sys × Option Err :=
  if !(s.objs i).pair && !(s.objs i).collected then (s, none)
  else
    match (if v ≠ (s.objs i).val ∧ (s.objs i).closed = false then s.closeRecord i false else (s, none)) with
    | (s1, some e) => (s1, some e)
    | (s1, none) =>
      let s2 := s1.set i { s1.objs i with val := v }
      if v ≠ [] ∧ (s2.objs i).closed = true then s2.openRecord i else (s2, none)

/-- Collectable.hpp 188-197, 623-633 `collectWithDuration` -/
def Sys.collectFor (s : Sys) (i : Nat) (v : Val) (d : Nat) : Sys × Option Err :=
  if !(s.objs i).collected then (s, none)
  else (if d = 0 then s else { s with closes := s.closes ++ [(i, s.now + d)] }).collect i v

/-- Collectable.hpp 148-152 (annotations), 551-557 (pairs) `initialize` -/
def Sys.initialize (s : Sys) (i : Nat) (v : Val) : Sys × Option Err :=
  if (s.objs i).pair then
    if (s.objs i).collected then s.collect i v else (s, none)
  else (s.set i { s.objs i with val := v }, none)

/-- Collectable.hpp 227-235, 684-693 `restartRecord` -/
def Sys.restart (s : Sys) (i : Nat) : Sys × Option Err :=
  if (s.objs i).closed then (s, none)
  else match s.writeRecord i true false with
    | (s1, .error e) => (s1, some e)
    | (s1, .ok _) => (s1.set i { s1.objs i with start := s1.now }, none)

/-- a tick joins those for which a unique event is scheduled -/
def insertNew (t : Nat) (l : List Nat) : List Nat := if t ∈ l then l else l ++ [t]

/-- CollectableTreeNode.hpp 74-77 `startCollecting`; Collectable.hpp 312-344, 828-867 `setCollecting_(true)`; PipelineCollector.hpp
122-127 `enable`; 392-393 -/
def Sys.startOne (s : Sys) (i : Nat) : Sys :=
  let o := { s.objs i with collected := true, attached := true }
  let s1 := s.set i (if o.val ≠ [] then { o with start := s.now } else o)
  let s2 := if o.auto then { s1 with enabled := insertNew i s1.enabled, pend := insertNew (s1.now + 1) s1.pend } else s1
  { s2 with reg := insertNew i s2.reg }

/-- CollectableTreeNode.hpp 83-87 `stopCollecting`; Collectable.hpp 312-344: `setCollecting_(false)` closes the record; 828-867: for
pairs it does not; PipelineCollector.hpp 129-131 `disable` -/
def Sys.stopOne (s : Sys) (i : Nat) : Sys × Option Err :=
  let s0 := s.set i { s.objs i with attached := true }
  let s1 := if (s.objs i).auto then { s0 with enabled := s0.enabled.erase i } else s0
  match (if (s1.objs i).pair = false ∧ (s1.objs i).closed = false then s1.closeRecord i false else (s1, none)) with
  | (s2, some e) => (s2, some e)
  | (s2, none) => (s2.set i { s2.objs i with collected := false }, none)

/-- a call for each of several collectables, until one throws -/
def each (f : Sys → Nat → Sys × Option Err) : Sys → List Nat → Sys × Option Err
  | s, [] => (s, none)
  | s, i :: is =>
    match f s i with
    | (s1, some e) => (s1, some e)
    | (s1, none) => each f s1 is

/-- PipelineCollector.hpp 347-380: the first part of `startCollection`, when nothing is active.  ArgosOutputter.cpp 22-23: the files
are opened anew.  351, 366-371: one index, and one for each interval that is over. -/
def Sys.activate (s : Sys) : Sys :=
  { s with disk := upd s.disk s.path (List.replicate (s.now / s.H + 1) .index), last := s.now / s.H * s.H
           hbs := insertNew (s.now + ((s.now / s.H + 1) * s.H - s.now)) s.hbs, active := true }

/-- PipelineCollector.hpp 343-404 `startCollection` of a node below which the collectables `is` are -/
def Sys.start (s : Sys) (is : List Nat) : Sys :=
  is.foldl Sys.startOne (if s.active then s else s.activate)

/-- PipelineCollector.hpp 415-423 -/
def Sys.stopErase (s : Sys) (i : Nat) : Sys × Option Err :=
  match s.stopOne i with
  | (s1, some e) => (s1, some e)
  | (s1, none) => ({ s1 with reg := s1.reg.erase i }, none)

/-- PipelineCollector.hpp 412-440 `stopCollection(node)` -/
def Sys.stop (s : Sys) (is : List Nat) : Sys × Option Err :=
  match each Sys.stopErase s is with
  | (s1, some e) => (s1, some e)
  | (s1, none) => ({ s1 with active := !s1.reg.isEmpty }, none)

/-- PipelineCollector.hpp 447-452 `stopCollection()` -/
def Sys.stopAll (s : Sys) : Sys × Option Err :=
  match each Sys.stopOne s s.reg with
  | (s1, some e) => (s1, some e)
  | (s1, none) => ({ s1 with reg := [] }, none)

/-- PipelineCollector.hpp 314-316 -/
def Sys.endOne (s : Sys) (i : Nat) : Sys × Option Err :=
  if (s.objs i).collected then s.closeRecord i true else (s, none)

/-- PipelineCollector.hpp 309-322 `destroy` -/
def Sys.destroy (s : Sys) : Sys × Option Err :=
  match (if s.active then each Sys.endOne s s.reg else (s, none)) with
  | (s1, some e) => (s1, some e)
  | (s1, none) => ({ s1 with reg := [], active := false }, none)

/-- PipelineCollector.hpp 324-329 `reactivate` -/
def Sys.reactivate (s : Sys) (path : Nat) : Sys × Option Err :=
  if s.active then (s, some .stillActive) else ({ s with path := path }, none)

/-- PipelineCollector.hpp 602-604 -/
def Sys.restartOne (s : Sys) (i : Nat) : Sys × Option Err :=
  if (s.objs i).collected then s.restart i else (s, none)

/-- PipelineCollector.hpp 597-616 `performHeartBeat_` -/
def Sys.heartbeat (s : Sys) : Sys × Option Err :=
  if !s.active then (s, none)
  else match each Sys.restartOne s s.reg with
    | (s1, some e) => (s1, some e)
    | (s1, none) =>
      let s2 := s1.put .index
      ({ s2 with last := s2.now, hbs := insertNew (s2.now + s2.H) s2.hbs }, none)

/-- Collectable.hpp 202-209, 659-666 `collect()`; PipelineCollector.hpp 144-146 -/
def Sys.autoOne (s : Sys) (i : Nat) : Sys × Option Err :=
  if (s.objs i).collected then
    match (s.objs i).var with
    | none => s.closeRecord i false
    | some v => s.collect i v
  else (s, none)

/-- PipelineCollector.hpp 137-151 `performCollection`: the event has a delay of one cycle (79) -/
def Sys.performCollection (s : Sys) : Sys × Option Err :=
  match each Sys.autoOne s s.enabled with
  | (s1, some e) => (s1, some e)
  | (s1, none) => (if s1.enabled.isEmpty then s1 else { s1 with pend := insertNew (s1.now + 1) s1.pend }, none)

/-- the end of a tick: automatic collection, and after everything else the heartbeat (PipelineCollector.hpp 218-227) -/
def Sys.endTick (s : Sys) : Sys × Option Err :=
  match (if s.now ∈ s.pend then { s with pend := s.pend.filter (fun t => t ≠ s.now) }.performCollection else (s, none)) with
  | (s1, some e) => (s1, some e)
  | (s1, none) =>
    if s1.now ∈ s1.hbs then { s1 with hbs := s1.hbs.filter (fun t => t ≠ s1.now) }.heartbeat else (s1, none)

/-- the handler of the event of `collectWithDuration` (Collectable.hpp 70, 193): the payload is `false` -/
def Sys.closeOne (s : Sys) (i : Nat) : Sys × Option Err := s.closeRecord i false

/-- Collectable.hpp 362: the events that close records come in the Trigger phase, before everything else -/
def Sys.beginTick (s : Sys) : Sys × Option Err :=
  each Sys.closeOne { s with closes := s.closes.filter (fun p => p.2 ≠ s.now) }
    ((s.closes.filter (fun p => p.2 = s.now)).map Prod.fst)

/-- to the next tick -/
def Sys.next (s : Sys) : Sys × Option Err :=
  match s.endTick with
  | (s1, some e) => (s1, some e)
  | (s1, none) => { s1 with now := s1.now + 1 }.beginTick

/-- IterableCollector.hpp 293-298, 313-317: one position, the elements that are left -/
def Sys.position (s : Sys) (i : Nat) : List (Option Val) → Sys × Option Err
  | some v :: _ => s.collect i v
  | _ => s.closeRecord i false

/-- IterableCollector.hpp 285-300 `collectImpl_` for containers with `begin` and `end`: the first `n` elements in the positions from
`base` on, the other positions are closed.  305-320: for containers with invalid entries (`none`).  219: only if the collector itself
is collected, which is so if its positions are. -/
def Sys.collectAll (s : Sys) (base : Nat) : Nat → List (Option Val) → Sys × Option Err
  | 0, _ => (s, none)
  | n + 1, xs =>
    match s.position base xs with
    | (s1, some e) => (s1, some e)
    | (s1, none) => s1.collectAll (base + 1) n xs.tail

/-- the interface; `assign`: the collected object of an automatic collectable changes -/
inductive Op
  | collect (i : Nat) (v : Val)
  | collectFor (i : Nat) (v : Val) (d : Nat)
  | collectAll (base n : Nat) (xs : List (Option Val))
  | close (i : Nat)
  | initialize (i : Nat) (v : Val)
  | assign (i : Nat) (v : Option Val)
  | start (is : List Nat)
  | stop (is : List Nat)
  | stopAll
  | destroy
  | reactivate (path : Nat)
  | next
deriving DecidableEq, Repr

/-- one call of the interface -/
def step (s : Sys) : Op → Sys × Option Err
  | .collect i v => s.collect i v
  | .collectFor i v d => s.collectFor i v d
  | .collectAll b n xs => s.collectAll b n xs
  | .close i => s.closeRecord i false
  | .initialize i v => s.initialize i v
  | .assign i v => (s.set i { s.objs i with var := v }, none)
  | .start is => (s.start is, none)
  | .stop is => s.stop is
  | .stopAll => s.stopAll
  | .destroy => s.destroy
  | .reactivate p => s.reactivate p
  | .next => s.next

end Sparta.Collect
