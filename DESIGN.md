# Formal model of sparcians/map (sparta) in Lean 4

The C++ sources in /repo are read as text; nothing of them is built or run. Each modelled class is written again
in Lean as a small total computable model: a state structure plus one function per C++ member function. Theorems
are about those functions, for all inputs and all histories of calls.

## Conventions

* A failing `sparta_assert` and an explicit `throw` are distinct outcomes (`none`, `threw`, `Except.error`).
  Undefined behaviour (reading storage without an object, use after free, indices out of range, shifts by the
  width or more) is a failing outcome too, so "never fails" includes "never undefined". Calls that do not return
  run out of fuel in the model and give a failing outcome; theorems show that the fuel given is enough.
* Machine integers are `Nat` where the code cannot wrap on the states in question (the comment of the definition
  says so) and `BitVec` or `Nat` with explicit `% 2^w` where wrapping matters.
* `std::vector`, `std::list`, `std::map` are `List` or functions of an index; pointers are indices or numbers of
  objects; `std::function` handlers are Lean functions or recorded calls.
* Each component has `Verif/<Component>/Model.lean` (the code, with file and line numbers), usually `Spec.lean` (the
  specification, which does not use the model's functions), helper files, and `Props.lean` with the theorems
  and an `example` beside each that shows a concrete non-trivial case meeting the hypotheses.
* The usual proof: a relation `Rep` between model and specification states, shown to hold initially and to be
  kept by every legal call with equal answers; `runOps_simulation_legal` (Common.lean) lifts this to every history.
* Where the code violates a property the violation is a theorem (`..._violated`, or a `_partial` companion) with a
  concrete witness evaluated in the model, and the part that holds is a theorem ending in `_partial`.

## Trusted base

* The Lean 4.33.0 kernel. No axioms are added. No `sorry`, `native_decide` or `bv_decide`. The claimed theorems depend
  at most on `propext`, `Classical.choice` and `Quot.sound`; AXIOMS.md lists the axioms of every claimed theorem.
* That the model definitions say what the C++ says. Each one cites file and lines; simplifications are stated there.
* That the standard library containers and algorithms used by the code behave as documented, that the host is
  little-endian with 32-bit `int` and two's complement, and that programs are single-threaded (except that the
  asynchronous scheduler interface is modelled as requests arriving between steps of the loop).
* That the statements in `Props.lean` (with the definitions in `Spec.lean` that they mention) express the English
  properties. They are meant to be read.

## What is modelled, component by component

### Queue

* Code: sparta/resources/Queue.hpp
* Modelled: push, pop, pop_back, clear, read, front, back, begin/end, increment, decrement, validity and dereference of iterators; 64-bit ids truncated to 32 bits by the iterator constructor
* Not modelled: utilization counters, collection

### MathUtils

* Code: sparta/utils/MathUtils.hpp
* Modelled: floor_log2, ceil_log2, pow2, ones, is_power_of_2, next_power_of_2, gcd, lcm, safe_power, log2_lsb, abs
* Not modelled: double versions, approximatelyEqual

### Array, FrontArray

* Code: sparta/resources/Array.hpp, FrontArray.hpp
* Modelled: write, erase, access, aged list and its queries, capacity and validity; writeFront/writeBack/readValid
* Not modelled: utilization counter, collection

### Pipe, Pipeline

* Code: sparta/resources/Pipe.hpp, Pipeline.hpp
* Modelled: append, writePS, update, shift, flush functions, isValid, numValid; Pipeline with stall, bubble crushing, suppression, handlers, own updates, stage precedence
* Not modelled: iterators, collection, resize, setProducerForPipelineUpdate and its twin

### FastList, PriorityQueue

* Code: sparta/utils/FastList.hpp, sparta/resources/PriorityQueue.hpp
* Modelled: node array with free list, insert/emplace/erase/pop, iteration; priority insertion, pop, remove, clear, forceFront
* Not modelled: printers

### DAG

* Code: sparta/kernel/DAG.hpp, Vertex.hpp, src/DAG.cpp, Vertex.cpp, Scheduleable.cpp
* Modelled: link, unlink, sort, getCyclicPath (detectCycle, printCycles search), the ordering points of the phases, precedes between Scheduleables
* Not modelled: labels, printing

### Scheduler

* Code: sparta/kernel/Scheduler.hpp, src/Scheduler.cpp
* Modelled: scheduleEvent, scheduleAsyncEvent, cancel functions, run (loop as small steps), stopRunning, restartAt, clearEvents, isScheduled, nextEventTick, unique events; handlers are arbitrary functions from the state to calls
* Not modelled: watchdog, timers, call trace, SystemC, wrap-around of ticks, run called inside handlers

### Cache

* Code: cache/*.hpp
* Modelled: tree PLRU and LRU replacement, address decoder, lines, sets, Cache, SimpleCache2, SimpleCache with a memory behind it
* Not modelled: statistics, exclusive/shared flags, setAddrDecoder

### Buffer

* Code: sparta/resources/Buffer.hpp
* Modelled: push_back, insert, erase, clear, access, infinite mode growth, iterators and their validity
* Not modelled: statistics, move construction, capacity 0

### BitArray, Rational, ByteOrder

* Code: sparta/utils/BitArray.hpp, Rational.hpp, ByteOrder.hpp
* Modelled: all public operations
* Not modelled: conversion to double

### Values

* Code: sparta/utils/BoundedValue.hpp, LockedValue.hpp, ValidValue.hpp, Utils.hpp
* Modelled: BoundedValue (integral), bounded_int, LockedValue, ValidValue, AssignOnceObject, OneWayBool
* Not modelled: BoundedValue of floating point

### Strings, Lexical

* Code: sparta/utils/StringUtils.hpp, Utils.hpp, SmartLexicalCast.hpp, LexicalCast.hpp
* Modelled: tokenize family, strip, pattern matching helpers, LevenshteinDistance, replaceSubstring; smartLexicalCast for integers
* Not modelled: double, message texts

### Tag

* Code: sparta/utils/Tag.hpp
* Modelled: construction, copies, children, comparison, global number
* Not modelled: assignment, destruction of parents

### TieredMap

* Code: sparta/utils/TieredMap.hpp
* Modelled: constructor, operator[], tryGet, find, iteration, clear
* Not modelled: memory use estimate, node count

### SharedPtr

* Code: sparta/utils/SpartaSharedPointer.hpp, SpartaSharedPointerAllocator.hpp
* Modelled: shared and weak pointers with control blocks, allocator with watermark and maximum
* Not modelled: destructors that use pointers of the model, overflow of counts

### CircularBuffer

* Code: sparta/resources/CircularBuffer.hpp
* Modelled: push_back, insert, erase, clear, iterators with window check
* Not modelled: utilization counters

### SharedData

* Code: sparta/resources/SharedData.hpp, sparta/events/GlobalEvent.hpp
* Modelled: write, writePS, read, readNS, access, update, copies and assignments
* Not modelled: moves

### Scoreboard

* Code: sparta/resources/Scoreboard.hpp, src/Scoreboard.cpp
* Modelled: set, clear, ready checks, callbacks, views with forwarding latencies, printBitSet
* Not modelled: parsing of the latency matrix, destruction of views

### ArchData

* Code: sparta/functional/ArchData.hpp, sparta/memory/MemoryObject.hpp
* Modelled: lines, fill pattern, read, peek, write, clean, reset, updateFrom; layout with subsets
* Not modelled: line size 0, typed accesses, printing

### Checkpoint

* Code: sparta/serialization/checkpoint/FastCheckpointer.hpp, DeltaCheckpoint.hpp, Checkpointer.hpp, VectorStorage.hpp
* Modelled: createHead, createCheckpoint, loadCheckpoint, deleteCheckpoint with cleanup, lists, chain, threshold
* Not modelled: squashCurrentBranch_, accounting of memory, tree nodes

### PayloadEvent

* Code: sparta/events/PhasedPayloadEvent.hpp, PayloadEvent.hpp, Scheduleable.hpp (ScheduleableHandle, cancel), src/Scheduler.cpp (cancelEvent)
* Modelled: preparePayload with pool of proxies, handles with reference counts, schedule, cancel in all forms, confirmIf, counts, delivery with an arbitrary handler
* Not modelled: phases other than the own group, proxies made before finalization, setContinuing, handlers that throw

### Clock

* Code: sparta/simulation/Clock.hpp, src/Clock.cpp, ClockManager.hpp
* Modelled: setRatio, calcNorm, setPeriod, normalize without explicit frequencies, getCycle, getTick, getAbsoluteTick, isPosedge, both clock-crossing functions
* Not modelled: explicit frequencies (floating point), fractional cycles, counters, the tree of nodes

### SyncPort

* Code: sparta/ports/SyncPort.hpp
* Modelled: send and sendAndAllowSlide, isReady, isReadyPS, isDriven of both ports, computeNextAvailableCycleForSend, setReady/getReady and latching, delivery with resending to a receiver that is not ready
* Not modelled: two output ports on one input port, cancellation, flushing of the pipe, collection, explicit frequencies, 64-bit overflow of ticks

### Register

* Code: sparta/functional/RegisterBits.hpp, Register.hpp
* Modelled: RegisterBits: construction, the operators, set, fill, ==, none, any, dataAs; registers: write mask, field masks, read, peek, write, poke and the unmasked variants, fields, what observers of writes are told
* Not modelled: views that alias other storage, banks, aliases and groups, subset registers, readWithCheck/writeWithCheck callbacks, read notifications, printing, big-endian machines

### MemoryMap

* Code: sparta/memory/SimpleMemoryMap.hpp
* Modelled: the constructor, addMapping with its tree of nodes on a heap (child and parent pointers, colours, rotations, fixup), findMapping, findInterface, mapAddress, verifyHasMapping, getMappings, getNumMappings
* Not modelled: dumping, the destructor, SimpleMemoryMapNode, what the memory interfaces do

### MemIf

* Code: sparta/memory/{DebugMemoryIF,BlockingMemoryIF,BlockingMemoryIFNode,MemoryObject,SimpleMemoryMapNode,DMIBlockingMemoryIF}.hpp
* Modelled: tryRead, tryWrite, tryPeek, tryPoke and the throwing read, write, peek, poke of interfaces on memories and on (nested) maps, the window and span checks in 64 bits, read and post-write notifications, access counters, getDMI, accesses through a DMI, invalidateAllDMI; on the models of ArchData and SimpleMemoryMap
* Not modelled: supplements, translation interfaces, tree nodes and names, the dirty flags of lines, peek and poke through a DMI, observers that act on the memory

### CachedMem

* Code: sparta/memory/CachedMemory.hpp
* Modelled: CachedMemory with StoreData: tryRead, tryWrite, tryPeek, tryPoke, commitWrite, dropWrite, mergeWrite, the pending writes; several caches on a coherency point as in test/CachedMemory/CachedMemory_test.cpp; the memory of a cache is the ArchData model, its window and block loops those of MemIf
* Not modelled: the downstream memory is an array of bytes with a window and a block size; other write types, supplements, the wrap of write identities, the state left by an exception

### Counter

* Code: sparta/statistics/{Counter,CycleCounter}.hpp
* Modelled: Counter: set, increment, operators, get; CycleCounter: startCounting, startCountingWithMultiplier, stopCounting, updateCountingMultiplier, get with the cycle of the clock
* Not modelled: names, visibility, tree, moves, printing; clocks other than a number that grows

### Histogram

* Code: sparta/statistics/{Histogram,CycleHistogram}.hpp
* Modelled: HistogramBase: constructor, addValue, the greatest values, limits in the names of bins, cumulative display; CycleHistogramBase: constructor, addValue, setValue, all counters
* Not modelled: averages, probabilities, standard deviation (double), strings other than the limits, the rounding of the bin number to double (it does not matter for the comparison, see the model)

### DataPort

* Code: sparta/ports/DataPort.hpp, Port.hpp, sparta/utils/DataContainer.hpp
* Modelled: bind, send with the loop over in ports and handlers that call back, delivery through the PayloadEvent model, cancel, cancelIf, isDriven, setContinuing, DataContainer
* Not modelled: precedence between producers and consumers, collection, registration of handlers, data types, exceptions thrown by handlers

### PTree

* Code: sparta/simulation/ParameterTree.hpp, src/TreeNode.cpp 1492-1536, src/sparta.cpp 134-152
* Modelled: set, create, tryGet, isRequired, isRead, getUnreadValueNodes, unrequire, merge, copy, assignment, clear, Node::set, operator[]; the translation of a name to a regular expression and the matching of it
* Not modelled: extractVirtualNode and other uses of the tree, user data, printing, conversion of values to types, the iterators over matches; node addresses are positions among the children; std::regex is a matcher for characters, `.`, and the postfix operators *, ? and +; names with ( ) [ ] are outside of the histories

### Notify

* Code: sparta/log/NotificationSource.hpp, src/TreeNode.cpp 1634-1823 and 2430-2690, simulation/TreeNode.hpp 2963-3430 and 3949 and 4322-4438, simulation/VirtualGlobalTreeNode.hpp, src/MessageSource.cpp, log/Tap.hpp, log/Destination.hpp
* Modelled: sources, registration and deregistration with their propagation through the tree, joining of trees, private subtrees, observation state callbacks, lists of names, posting call by call (observers may post), taps, destinations with their filter for duplicates
* Not modelled: destruction of nodes, ANY_TYPE observers, mirror sources, changing observers or trees while a notification is delivered, several threads, the formats of destinations, names and groups of nodes; lists of observers of different payload types are one list

### TrigMan

* Code: trigger/TriggerManager.hpp, trigger/ManagedTrigger.hpp, trigger/SingleTrigger.hpp 1-424, src/Trigger.cpp
* Modelled: construction, copying, assignment, destruction, set, deactivate, reset of counter triggers; the handlers per clock with their deferred lists; ticks with arbitrary callbacks that may depend on everything that happened; registration at startup; deletion of a handler while its event is pending
* Not modelled: ContextCounterTrigger, expired counters, exceptions caught inside a callback, the time between ticks, groups of the events; the callbacks of a tick that fails are not in the history

### CycTrig

* Code: trigger/SingleTrigger.hpp 432-679 (CycleTrigger), 33-75, 201-205, with simulation/Clock.hpp 159-172, 207-210
* Modelled: one cycle trigger with its flags, the computation of the delay, registration at startup or scheduling of the event, callbacks that may depend on everything that happened
* Not modelled: several triggers on one event queue, overflow of ticks (but for absolute cycles in the past), TimeTrigger, exceptions caught inside a callback; destruction of a trigger with a pending event

### TNode

* Code: src/TreeNode.cpp 90-150, 318-393, 520-660, 736-1157, 1205-1332, 1368-1375, 1677-1858, 2123-2148, 2371-2425; simulation/TreeNode.hpp 55-86, 302, 369, 2203, 3949-3956, 4300-4305; simulation/RootTreeNode.hpp 526-532
* Modelled: construction with validation of names and groups, aliases, attaching, privacy levels, destruction with orphans, locations, lookup by path, search with wildcards and the captured replacements, matching of locations, deepest path, the way up
* Not modelled: phases after the building of the tree, tags, moving of nodes, expected parents, the global node above the roots, hooks of derived classes, regular expression operators in patterns other than the wildcards

### Param

* Code: sparta/simulation/Parameter.hpp 240-970, 985-1105, 1120-2545, src/Parameter.cpp 16-86, simulation/ParameterSet.hpp 116-222, 420-490, utils/Printing.hpp 79-170, simulation/TreeNode.hpp 429-437
* Modelled: scalars and vectors of any depth: reading, peeking, assignment, writing from text, items, insertion, restoring, resizing, clearing, overriding of defaults, access counts, volatility, ignoring, lockdown, validation callbacks, modifier callbacks (any strategy that calls the same interface, nested) with the stack of locks, final configurations, phases
* Not modelled: conversions from and to text (arbitrary functions), parameters outside a set, the virtual tree (parameter trees are in PTree), display bases, log output, `lock` and `unlock` called by the user, overflow of counts and indices

### Stat

* Code: src/StatisticInstance.cpp, statistics/StatisticInstance.hpp 93-605, Expression.hpp, ExpressionNodeTypes.hpp, ExpressionNodeVariables.hpp, src/ExpressionGrammar.cpp 196-254, report/Report.hpp 131-275, 594-602, 740-866, 895-953, 1184-1214, src/Report.cpp 1235-1353, 1377-1384, 1437-1455
* Modelled: statistic instances of counters, parameters, statistics and free expressions: construction, start, end, value, accumulation, raw value, assignment and moves; evaluation of expression trees over any numbers; reports with subreports, names, sub-statistics, copies, moves and assignment; worlds in which ticks, counts and nodes change in any way
* Not modelled: floating point (numbers are any type with any operations), parsing of expressions, snapshot loggers, user calculators, report triggers, styles and output; several schedulers

### Collect

* Code: collection/Collectable.hpp 34-369, 440-893, CollectableTreeNode.hpp 74-129, IterableCollector.hpp 213-320, PipelineCollector.hpp 122-151, 203-616, pipeViewer/Outputter.hpp 92-132, src/ArgosOutputter.cpp 21-72
* Modelled: pipeline collection: collectables of annotations and of pairs, values with a duration, containers, automatic collection, start, stop, destroy and reactivate, heartbeats, ids, the records and the index as they are written to files
* Not modelled: values are texts; clocks of period 1; location and clock files, byte layout, parent ids and display ids are left out; sets of collectables are lists; automatic collection has one phase

### STimer

* Code: simulation/StateTimerUnit.hpp 44-261, 275-433, 439-529, 546-579, 607-774
* Modelled: state timers: the unit with its enum classes, the pool of timers, entering and leaving states, queries, handles and their deleter, destruction of the unit, the values put into the histograms
* Not modelled: cycle numbers are unbounded; what a histogram does with a value and the strings shown are left out; a handle stands for all its copies; the unordered map of active timers is a list

### StateM

* Code: simulation/State.hpp 34-39, 174-193, 248-393, 405-560, 600-740; StateTracker.hpp 108-118, 211-339, 464-481, 564-683; Audience.hpp 29-69
* Modelled: states: value, markers, thresholds, observers, monitors, resets, the trackers with their pool and the residency report
* Not modelled: ticks are unbounded natural numbers; a monitor does nothing, sets a value or resets the state; meta data, copies of states, averages and the text of the report are left out

### UniqEv

* Code: events/PhasedUniqueEvent.hpp 90-136; PhasedSingleCycleUniqueEvent.hpp 88-93, 119-163, 188-209; Scheduler.cpp 272-292, 353-430, 567-580, 732-797
* Modelled: unique events and single cycle unique events with their entries in the queue
* Not modelled: ticks are unbounded natural numbers; the order of groups in a tick appears as a flag of the request; the scheduler is used through what is proved in Scheduler

### TFilter

* Code: tree/filter/Expression.hpp 33-90, 281-366; Grammar.hpp 201-284; Parser.hpp 54-69; src/TreeFilterExpressionGrammar.cpp 18-210; src/TreeFilterExpression.cpp 27-300
* Modelled: tree filter expressions: parser, evaluation, operators
* Not modelled: Boost.Spirit.Qi is modelled by its documented meaning (skipping before each literal, ordered alternatives, greedy repetition, rules without skipper); std::regex is an arbitrary set of patterns that compile and an arbitrary relation; the null node, tracing and dump are left out; visibilities are natural numbers as returned by smartLexicalCast (Lexical)

### Cherry

* Code: serialization/checkpoint/CherryPickFastCheckpointer.hpp 97-330; src/CherryPickFastCheckpointer.cpp 31-455; FastCheckpointer.hpp 538-759
* Modelled: committing checkpoints to a database, loading and replaying them
* Not modelled: Built on the model of FastCheckpointer. Threads, compression, archives and SQLite are taken to deliver every record once and in order; integers do not wrap; what is left after an exception in a commit is not modelled.

### Argos

* Code: pipeViewer/Outputter.hpp 44-262; transaction_structures.hpp 16-133; src/ArgosOutputter.cpp 21-72; helios/pipeViewer/pipe_view/transactiondb/src/Reader.hpp 104-1162
* Modelled: the pipeline database: writing records, indexes and the text files, opening, windows, updates
* Not modelled: Files are lists of bytes on a little endian machine; characters are numbers; writing never fails; hash maps and sets are lists searched from the front; the older versions of the format, the dump functions and the assertions against concurrent use are left out; std::stoull and hexadecimal strings in text files are modelled for the texts the Outputter writes; a stream that has failed stays so.

### RegView

* Code: functional/RegisterBits.hpp 65-202, 491-521, 634-637, 646-689, 707, 729-733
* Modelled: where register bits keep their bytes: own storage, views, copies, moves
* Not modelled: Data lies in named buffers and views start at the beginning of a buffer; bytes are natural numbers; uninitialised members hold arbitrary bytes (an argument of the call); |= acts on bytes, the words are modelled in Register; pointers got from data() are used at once.

### PFile

* Code: serialization/checkpoint/PersistentFastCheckpointer.hpp 27-271, functional/ArchData.hpp 249-266, 1001-1051
* Modelled: checkpoint files: writing, reading, damaged files, together with checkpoints in memory
* Not modelled: Files are lists of bytes on a little-endian machine; names and opening of files, errors while writing and text-mode conversion are left out; lines are written in order of allocation (the results do not depend on the order).

### DView

* Code: functional/DataView.hpp 149-470, functional/ArchData.hpp 315-382
* Modelled: data views: typed accesses, padded reads, truncating writes, assignment, texts, initial values
* Not modelled: Views are placed: layout (ArchData) is not modelled here, a view is a line, an offset and a size that is a power of 2 inside the line; lines always exist; typed accesses are on a little-endian machine; assertions and exceptions are one outcome; an access of a line outside its bytes is that outcome too.

### BHist

* Code: statistics/BasicHistogram.hpp 52-119, utils/Bits.hpp 26-47
* Modelled: basic histograms and bit counts
* Not modelled: Bucket values are integers; std::upper_bound is the first greater value; names and descriptions of counters are modelled by what they say; two counters of the same name cannot be added to a statistic set; counters wrap at 2^64. The bit counts are the expressions of the source on UInt32 and UInt64.

### SigPort

* Code: ports/SignalPort.hpp 158-356, events/PhasedUniqueEvent.hpp 90-136, utils/DataContainer.hpp, ports/Port.hpp 456-474
* Modelled: signal ports: sends, delivery by unique events or directly, what in ports hold
* Not modelled: One clock, time in its cycles; the scheduler is used through what Scheduler and UniqEv prove: it does not go past a waiting event; calls made by handlers are calls after the one that called them; precedence and collection are not modelled.

### Intern

* Code: utils/StringManager.hpp 95-214
* Modelled: interned strings: internString, findString, hasString, isInterned, getNumStrings, dumpStrings
* Not modelled: Pointers are indexes of a list of all strings allocated; strings are never freed (static destruction is not modelled); the printed form of addresses is not modelled.

### StHist

* Code: statistics/StateHistogram.hpp 73-237 (with the cycle counters of Counter)
* Modelled: state histograms: construction, setState, setNextState, the counters
* Not modelled: One clock, time in its cycles; names, the tree, probabilities and the printed form are not modelled; `total` is the sum of the counters; enumerations with fewer than 2^32 - 1 values, cycles below 2^64.

### EnumT

* Code: utils/Enum.hpp 24-204, statistics/EnumHistogram.hpp 76-224
* Modelled: names and values of enumerations; histograms over enumerations
* Not modelled: Values below 2^32; the array of names has `__LAST + 1` entries as its users define it; the tree, names of bins and probabilities are not modelled; counters are values.

### CtxCounter

* Code: statistics/ContextCounter.hpp 220-231, 317-434, statistics/WeightedContextCounter.hpp 22-95
* Modelled: counters with contexts, their sum, weighted averages and maxima
* Not modelled: Contexts are `Counter`s, kept as values; doubles are exact rational numbers; the tree, printed forms, triggers and registered aggregate functions are not modelled; the aggregate expression is the list of the names added.

### GOP

* Code: events/GlobalOrderingPoint.hpp 71-79, events/Precedence.hpp 136-177 and 293-301, kernel/DAG.hpp 151-184, src/Scheduleable.cpp 50-98, src/Vertex.cpp 159-165
* Modelled: named ordering points and precedences between them and events, on top of DAG
* Not modelled: Early cycle detection, calls after finalization (refused), ports and groups of events are not modelled; events are numbered as they are made; the points of the phases are vertices 0..6.

### Backoff

* Code: utils/SpartaExpBackoff.hpp 53-62
* Modelled: exponential backoff
* Not modelled: One use of the macro; the action is not modelled; one thread.

### RegBank

* Code: functional/RegisterBankTable.hpp 37-366, 483-547
* Modelled: bank tables of registers
* Not modelled: A register is its group number, group index, bank membership and an identity; unordered maps are lists of pairs; warnings, dump and null pointers are not modelled.

### Bus

* Code: ports/Bus.hpp 47-103, 223-255
* Modelled: binding of buses
* Not modelled: A port is its name and the type of its data; binding two ports succeeds exactly if the types agree; other kinds of ports and ports already bound are not modelled; maps are lists.

### ExPort

* Code: src/ExportedPort.cpp 13-78; utils/TreeUtils.hpp 35-49
* Modelled: exported ports
* Not modelled: The tree is a finite tree of nodes with identity, name and kind; binding, exported ports given their internal port, missing search paths and second attempts after a failed one are not modelled.

## Properties

Status `partial` means that the theorem has a hypothesis the English statement does not have, or that the code violates the statement; the column says which. Theorem names are in MANIFEST.json and carry the property id.

| id | property | how it is proved | status | remarks |
|----|----------|------------------|--------|---------|
| C01 | Events fire exactly at the tick they were scheduled for, ticks never go back | invariants over all small-step executions of the run loop with arbitrary handlers | proved | ticks are unbounded naturals; handlers are an arbitrary function from the state to calls |
| C02 | Within one tick events fire in priority order, first-in first-out inside a priority | invariants over all small-step executions of the run loop with arbitrary handlers | proved |  |
| C03 | No scheduled event is lost and none fires twice | invariants over all small-step executions of the run loop with arbitrary handlers | proved |  |
| C04 | Scheduling backwards in the current tick is rejected | invariants over all small-step executions of the run loop with arbitrary handlers | partial | proved during firing; after an exception and the documented recovery a zero-delay request is wrongly rejected (witness proved) |
| C05 | Cancelled events never fire and cancelling leaves other events alone | invariants over all small-step executions of the run loop with arbitrary handlers | proved |  |
| C06 | run(n) with an exact run advances the clock by exactly n ticks | invariants over all small-step executions of the run loop with arbitrary handlers | partial | proved when no stop event of an earlier run is left in the queue and no stop/exception happens; a left-over stop event of an earlier inexact run ends a later run early (witness proved) |
| C07 | A run only stops early when no continuing event is left | invariants over all small-step executions of the run loop with arbitrary handlers | partial | as for C06: a left-over stop event ends an unlimited run while continuing events wait (witness proved) |
| C08 | Ordering groups respect every declared precedence | loop invariants of the sort and of the depth-first search; cycles as paths of the edge relation | proved | a precedence of an event to itself is ignored by the code |
| C09 | Finalizing fails exactly for cyclic precedence | loop invariants of the sort and of the depth-first search; cycles as paths of the edge relation | proved |  |
| C10 | detectCycle agrees with the existence of a cycle | loop invariants of the sort and of the depth-first search; cycles as paths of the edge relation | proved |  |
| C11 | Queue is a bounded first-in first-out sequence | refinement of the ring to a list of numbered items | proved | capacity up to 2^30 |
| C12 | Queue iterators stay attached to their element | refinement of the ring to a list of numbered items | partial | proved for histories with fewer than 2^32 pushes; beyond that the code violates the claim (ids are truncated to 32 bits), shown by a witness |
| C13 | Buffer is a bounded sequence with erase in the middle | refinement of pool, pointer list and free list to a list | proved |  |
| C14 | Buffer storage never aliases two entries | refinement of pool, pointer list and free list to a list | proved |  |
| C15 | A growing Buffer keeps its contents | refinement of pool, pointer list and free list to a list | partial | holds when nothing is inserted before the end; otherwise growing corrupts the contents, and growing always loses the positions used by iterators (witnesses proved) |
| C16 | Array behaves as an indexed partial map | refinement to a partial map and a recency list | proved | both NORMAL and AGED arrays |
| C17 | Aged Array reports true age order | refinement to a partial map and a recency list | proved |  |
| C18 | CircularBuffer keeps the most recent entries in order | refinement to a list with window positions | partial | Proved for every capacity and every history without an insert into a full buffer, as long as fewer than 2^32 window positions are consumed. Violated otherwise: an insert into a full buffer exceeds the capacity and every later append grows the buffer; after 2^32 + capacity appends every read throws. |
| C19 | Pipe is an exact delay line | refinement of the ring of stages to a stage function | proved | stage arguments below 2^31 |
| C20 | Pipe reports the true number of valid entries | refinement of the ring of stages to a stage function | partial | false when flushIf matches the item appended in the same cycle (witness proved) |
| C21 | A stalled Pipeline neither loses nor duplicates nor reorders data | refinement to a stage function with stall state | partial | Every history in which the stalling stage itself is not invalidated (flushing it is allowed). Violated otherwise: with own updates the stall then never ends by itself. |
| C22 | PriorityQueue is sorted and stable | list theorems over histories | proved | order holds for histories without forceFront, which by design bypasses the order |
| C23 | FastList is a bounded list with stable positions | refinement of the linked nodes to a list | proved | iterator arguments must denote elements of the list |
| C24 | FrontArray finds the n-th valid entry | on top of the Array refinement | partial | writeFront/writeBack proved; readValid never returns when a position at or below n is free (witness proved) |
| C25 | Scoreboard ready callback fires exactly once, exactly when all its bits are ready | refinement to register sets with updates in flight | proved | For every latency table and every history with non-empty sets and no view created while no register is ready (both fail an assertion in the code). |
| C26 | Scoreboard view agrees with the master when no update is in flight | refinement to register sets with updates in flight | partial | Proved when every latency is defined, no register is cleared while an update for it is under way and views are created while the initially ready registers are ready. Violated otherwise, with one theorem per case. |
| C27 | SharedData exposes a write from the next cycle on | refinement to present and next values | partial | Proved for any number of objects and histories with at most one write() per object and cycle, no write() to an object that was assigned to, and no copy between a write and the end of the cycle; for manually updated objects every history is covered. Violated otherwise: two writes in a cycle lose the data; a copy made after a write never shows the value; an update after an assignment uses a destroyed temporary. |
| C28 | floor_log2 and log2_lsb are exact | bit and number arithmetic on BitVec for all widths/values | proved |  |
| C29 | gcd and lcm are the mathematical gcd and lcm | bit and number arithmetic on BitVec for all widths/values | partial | gcd fully proved; lcm proved except lcm(0,0), where the code divides by zero (witness theorem) |
| C30 | Power of two helpers are exact | bit and number arithmetic on BitVec for all widths/values | proved | ones/pow2 for exponents below 64; larger exponents are undefined behaviour in C++ |
| C31 | safe_power reports every overflow | bit and number arithmetic on BitVec for all widths/values | partial | representable powers are returned exactly; the overflow check is unsound (witness) |
| C32 | BitArray operators are the integer operators | arithmetic on the represented numbers | partial | shift amounts of more than the size (rounded up to bytes) are undefined behaviour in the code (the model returns none, proved in the second half of the shift theorems); everything else is proved for all inputs |
| C33 | Rational arithmetic is exact | arithmetic on the represented numbers | partial | the absolute difference is wrong when it is at least half the range of the type (witness proved); everything else is proved |
| C34 | TieredMap is a finite map | induction over the tiers; refinement to a finite map | proved | node size 1 is accepted by the constructor but storing any key other than 0 never returns (proved) |
| C35 | SpartaSharedPointer destroys its object exactly once, when the last owner goes | invariant over heap, pointers and control blocks for every history | proved | Every history of shared pointer calls; weak pointers and allocations may be mixed in as long as lock() is called only on weak pointers that are empty or not expired (see the violations under C36). Destructors of the managed objects use no pointers of the model; counts do not overflow. |
| C36 | A weak pointer never resurrects a destroyed object | invariant over heap, pointers and control blocks for every history | partial | Without lock() on expired pointers an object without owners never gets one again; lock() on an expired pointer to an object not from an allocator is empty and harmless if dropped at once. Violated otherwise: lock() on an expired pointer to an allocator object returns the destroyed object, two calls un-expire it, and keeping the empty pointer longer than the weak one is a use after free. |
| C37 | Shared pointer allocator never hands out memory in use | invariant over heap, pointers and control blocks for every history | proved | For constructors that do not throw and histories legal in the sense of C35. Two defects are stated beside it: with watermark equal to the maximum the custom over-allocation callback is never called; a constructor that throws loses a reused block. |
| C38 | Byte swapping reverses the bytes | arithmetic on byte lists | partial | all types except int16_t; byte_swap of a negative int16_t is wrong (witness proved) |
| C39 | Tokenizing loses nothing | induction over the string | proved |  |
| C40 | smartLexicalCast never returns a wrong value for a narrow type | induction over the digits and summands | partial | proved: decimal and prefixed literals with separators, units and several summands whose value fits give their value; unsigned and 32-bit types reject exactly the values that do not fit. Not: values over 2^64 after the unit wrap, fractions with zeros or many places, the smallest int64, int16 and int8 near their range (witnesses proved) |
| C41 | Tags identify their origin | invariant over all constructed tags | partial | proved for histories in which copies do not become parents and the global number is not reset; otherwise different tags compare equal (witnesses proved) |
| C42 | A BoundedValue never leaves its bounds | case analysis over the integer types, induction over histories | partial | the constructor does not compare the lower bound with the type when all signs agree, and += can overflow a signed difference (witnesses proved); otherwise proved |
| C43 | A LockedValue never changes once locked | case analysis over the integer types, induction over histories | partial | proved for histories that do not write through the non-const reference, which changes a locked value (witness proved) |
| C44 | Tree PLRU protects the most recently used way | invariants over touch histories | proved |  |
| C45 | True LRU replacement evicts the least recently touched way | invariants over touch histories | proved |  |
| C46 | A cache never holds a block twice and hits exactly what it holds | invariants over histories of the cache; address arithmetic | proved |  |
| C47 | Address decoding is a bijection on blocks | invariants over histories of the cache; address arithmetic | partial | holds when the stride is at most the line size, or for addresses inside items, and for power-of-two numbers of sets; the constructor also accepts other geometries, for which two blocks share tag and index (witnesses proved) |
| C48 | Non-temporal fills replace the older non-temporal way | invariants over histories of the cache; address arithmetic | partial | when both ways are non-temporal the code offers the one filled last, against its own comment (witness proved) |
| C49 | Loading a checkpoint restores the state at its creation | every checkpoint restores the contents recorded at creation: invariant over tree, memories and counts | partial | Proved for any number of memories and every history of reads, writes, ticks, creations (forced or by threshold), loads along any branch and deletions in which, once there is a checkpoint, memories are not cleaned, reset or written through raw pointers and forgetCurrent is not called, deleted ids are not used again, and while the current checkpoint is itself deleted others are deleted only if there was never a load. Each excluded case has a theorem with a history that restores wrong bytes. |
| C50 | Deleting checkpoints never breaks the others | every checkpoint restores the contents recorded at creation: invariant over tree, memories and counts | partial | Same histories as C49. Violated otherwise: deleting the current checkpoint and then a sibling frees deltas that later checkpoints depend on; deleted ids that are still needed are found and loaded; deleting the head does not throw. |
| C51 | Snapshot threshold bounds the restore chain | every checkpoint restores the contents recorded at creation: invariant over tree, memories and counts | partial | Same histories as C49. The documentation also says a threshold of 1 makes all checkpoints snapshots; they alternate (witness proved). |
| C52 | Architectural memory reads return the last write | refinement of lines to a byte function; layout by induction over the segments | partial | Every line size, fill pattern, size up to 2^63 and history of reads, peeks, writes, cleans and resets, with buffers below 2^63 bytes. Violated: an access that begins inside the memory but ends past its size is accepted when the last line is long enough (the memory object, whose size is a multiple of the line, is not affected). |
| C53 | ArchData layout never overlaps independent segments | refinement of lines to a byte function; layout by induction over the segments | partial | Proved for every list of segments with subset offsets below 2^62 and a total size below 2^62. Violated otherwise: a subset offset near 2^64 passes the check and the segment lands on an unrelated one; mutual subsets recurse without end. |
| C54 | abs of unsigned types is the two's complement magnitude | arithmetic on BitVec | proved |  |
| C55 | A Pipe that performs its own updates advances every cycle | as C19, with the update event | partial | false when flushIf matches the item appended in the same cycle (witness proved) |
| C56 | Scheduling phases are ordered | as C08; longest paths by induction over the sort order | proved |  |
| C57 | A reported precedence cycle is real | as C08; longest paths by induction over the sort order | proved |  |
| C58 | Ordering numbers depend only on the precedences | as C08; longest paths by induction over the sort order | proved |  |
| C59 | A unique event is in the queue at most once per tick | as C01 | proved | the stronger reading of the property is shown false |
| C60 | Queries about waiting events are exact | as C01 | proved | inside a handler only one direction holds: isScheduled may also report an event that already ran in the current group |
| C61 | Elapsed ticks follow the current tick | as C01 | partial | fails after restartAt(t) with t > 0 on a scheduler that has run (witness proved) |
| C62 | Restarting or clearing the scheduler forgets everything | as C01 | proved |  |
| C63 | Declared precedence is firing order | as C01 | proved |  |
| C64 | Requests from other threads are delivered exactly once | as C01 | partial | fails when one request is a zero-delay request for an earlier group: run throws and the list is not cleared (witness proved) |
| C65 | A cache in front of a memory is transparent | invariants over histories of the caches | proved | for accesses inside a line; a crossing write miss without allocation is not rejected and breaks transparency (witness proved) |
| C66 | Invalidation and castout prediction are exact | invariants over histories of the caches | proved |  |
| C67 | Cold misses and open ways are reported correctly | invariants over histories of the caches | proved |  |
| C68 | Bytes written to a cache line are the bytes read back | invariants over histories of the caches | proved |  |
| C69 | A Buffer iterator stays with its entry | as C13 | partial | everything except: an iterator to an erased entry becomes valid again when the slot is reused, erase through it removes another entry, and insert(end()) always throws (proved) |
| C70 | BitArray objects are independent values | objects with storage references | partial | proved for histories without assignment; assignment makes the two objects share storage (witness proved) |
| C71 | A ValidValue is readable exactly while valid | induction over histories | partial | comparison with a right-hand side that is not valid uses its old value, and a move assignment leaves the source valid (witness proved) |
| C72 | bounded_int accepts exactly the values in its range | induction over histories | partial | proved for argument types of the same signedness; mixed signs convert before comparing (witnesses proved) |
| C73 | An AssignOnceObject changes at most once | induction over histories | proved |  |
| C74 | Stripping and splitting on blanks keep exactly the text between blanks | induction over the strings | partial | strip_whitespace and tokenize_strip_whitespace throw std::out_of_range for a string or piece that is empty or blank (witnesses proved); everything else is proved |
| C75 | replaceSubstring replaces every occurrence once, from left to right | induction over the strings | partial | proved for a nonempty searched text; with an empty one the call never ends (proved) |
| C76 | LevenshteinDistance is the edit distance | induction over the strings | partial | the function is not the edit distance: the first row and column are zero and one of the three moves is missing (witnesses proved); proved are only: 0 for equal strings, at most the shorter length |
| C77 | CircularBuffer iterators | as C18 | partial | Proved for all histories that do not use a past-the-end iterator after a later change, do not insert into a full buffer and consume fewer than 2^32 window positions. Violated: an end() iterator becomes "valid" after an append (or clear and append) and dereferencing it is undefined; operators < and > are reversed. |
| C78 | A scoreboard set reaches a consumer after exactly the configured latency | as C25; printBitSet by induction over positions | proved | Every latency table; histories as in C25. |
| C79 | printBitSet prints exactly the set registers | as C25; printBitSet by induction over positions | partial | Proved for all sets in which no range of two or more bits reaches the last position. Violated otherwise: such a range is printed like its first element alone. |
| C80 | A Pipeline runs exactly the handlers of occupied active stages | as C21; paths of declared precedences | partial | Proved when the user does not (de)activate handlers of stages affected by a stall. Violated otherwise: the end of a stall re-enables deactivated handlers, and with bubble crushing a stuck item runs its handler every cycle. |
| C81 | Default stage precedence of a Pipeline orders all handlers of a phase | as C21; paths of declared precedences | partial | Proved when every stage with handlers between the two stages has one in that phase; acyclicity and the rest without that assumption. Violated otherwise: a stage whose handlers are all in another phase breaks the chain. |
| C82 | Copying one memory over another makes them equal | as C52, C53 | partial | Lines that exist in the source are copied exactly and all others are unchanged; lines the source never touched are not copied, so the memories can differ (witness proved). |
| C83 | Reported layout waste accounts for every unused byte | as C52, C53 | partial | Under the conditions of C53 and for sizes below 2^32; beyond, the 32-bit line waste counter overflows (witness proved). |
| C84 | The checkpoint chain lists a checkpoint and its predecessors up to the head | as C49 | partial | Proved in the reverse order, for the histories of C49; the documented order is violated. |
| C85 | Payload events deliver every payload once, unaltered, on time and in order | Refinement of a specification that numbers payloads by preparation; then induction over histories with a log made only of calls and results. | partial | Every history in which handles are used only while held and are not moved or self-assigned, the calls for a given cycle are not made for the current one after a delivery in it, and the handler does not read its argument after giving up or cancelling the payload. Each excluded case has a witness. |
| C86 | Cancelling and asking about payload events is exact | Same refinement and log; for cancelIf an invariant that bars the cancelled payloads. | partial | Same histories as C85. Violated: calls for the current cycle after a delivery act on another payload; cancel(rel_cycle) returns the number in flight. |
| C87 | Normalized clock periods stand in exactly the declared ratios | Induction on the clock tree: exact root ratios, the norm as least common multiple of their denominators, from the Rational and lcm theorems. | partial | Every clock tree whose products of ratios stay below 2^32 (hypothesis Fits); beyond, periods are silently wrong (witness proved). |
| C88 | Clock crossing lands on the first possible receiver edge | Direct arithmetic on 64-bit values. | proved | All ticks, delays and periods without 64-bit overflow. |
| C89 | Conversions between cycles and ticks are consistent | Direct arithmetic on 64-bit values. | partial | getAbsoluteTick gives a tick of the cycle before (witness proved); the rest holds. |
| C90 | Sync ports deliver each item once and on time | Inductions over histories with a log made only of calls and results; invariants that tie the queue, the previous arrival and the previous send to it. The clock-crossing functions are proved equal to the 64-bit ones of Clock. | partial | Delivery and ticks for every history without exceptions; order only while the receiver is ready whenever data comes. Violated otherwise: held data is overtaken; data is lost when it cannot be sent again; an exception leaves the data in flight. |
| C91 | Asking a sync port before sending is reliable | Inductions over histories with a log made only of calls and results; invariants that tie the queue, the previous arrival and the previous send to it. The clock-crossing functions are proved equal to the 64-bit ones of Clock. | partial | isDriven for a sender not slower than the receiver. isReady alone does not protect from exceptions (witnesses proved); together with isDriven it does, for equal periods and port delay 0 or 1. |
| C92 | computeNextAvailableCycleForSend predicts sends | Inductions over histories with a log made only of calls and results; invariants that tie the queue, the previous arrival and the previous send to it. The clock-crossing functions are proved equal to the 64-bit ones of Clock. | partial | For a sender not slower than the receiver; violated from a slow to a fast clock. |
| C93 | Operations on register bits act bit by bit | Bit lemmas for each loop over words, for lists of any length; statements in terms of bytes only. | partial | >> needs an assumption on the undefined -1 >> k for values of more than 8 bytes; <<= is wrong for values of more than 16 bytes shifted by 64 or more; none is true for any value whose bytes are all equal (witnesses proved). |
| C94 | Writes change exactly the writable bits addressed | Invariant over histories that ties the masks to the definition; then the bit lemmas. | partial | Writes of 1, 2, 4, 8 or 8k bytes; other sizes are undefined (witness). For registers of more than 8 bytes it is assumed that -1 >> k gives -1. |
| C95 | Fields of registers read and write their own bits | Invariant over histories that ties the masks to the definition; then the bit lemmas. | partial | Not for fields of registers of 32 bytes or more whose low bit is at 64 or above and below half the register (they use other bits, witness). Values that do not fit are rejected except in the low byte of 8-byte registers and when the excess bits lie beyond the register (witnesses). |
| C96 | Register observers see the value before and after each write | Invariant over histories that ties the masks to the definition; then the bit lemmas. | partial | Register::writeUnmasked<T> tells no observer and takes its index as a byte offset (witness). |
| C97 | Memory map lookups find the mapping that contains the address | The heap is related to an inductive tree with paths; every pointer write, rotation and insertion is proved to refine the tree operation, rotations keep the order of the nodes; then an invariant over histories on the ordered list of separators and destinations. | proved | On the heap of nodes with parent pointers, rotations and colours as in the code. |
| C98 | Memory mappings are accepted exactly under the documented conditions | From the invariant of C97 and the checks. | partial | For block sizes that are powers of two and size plus destination below 2^64. Violated: the range test wraps, block sizes that are not powers of two are accepted and then tested with another alignment, block sizes from 2^31 on are undefined behaviour (witnesses proved). |
| C99 | Memory map lookups take logarithmic time | Red-black invariants kept by the fixup; height against number of nodes. | proved | From the red-black invariants of the tree. |
| C100 | verifyHasMapping accepts exactly the accesses inside one mapping | From C97. | partial | For accesses that end below 2^64; beyond, the end wraps and a huge access is accepted (witness proved). |
| C101 | Memory accesses reach the bytes the address map designates | Simulation between the system of interfaces and flat memories with lists of mappings (`rep_step`), by induction over the depth of maps and over the blocks of an access; then read-over-write lemmas on the flat memories, an erasure argument for observers, and invariants for direct interfaces. | proved | Refinement of memories that are functions from offsets to bytes, with addresses resolved through the list of accepted mappings; on the red-black tree of the map and the lazily allocated lines of the memory. |
| C102 | Observers of memory accesses are told exactly the successful reads and writes, and do not influence them | Simulation between the system of interfaces and flat memories with lists of mappings (`rep_step`), by induction over the depth of maps and over the blocks of an access; then read-over-write lemmas on the flat memories, an erasure argument for observers, and invariants for direct interfaces. | partial | Results are independent of observers; the write counters behind an observed interface are not (a failed write is not passed on, witness). |
| C103 | Reads, peeks and refused accesses leave memory unchanged | Simulation between the system of interfaces and flat memories with lists of mappings (`rep_step`), by induction over the depth of maps and over the blocks of an access; then read-over-write lemmas on the flat memories, an erasure argument for observers, and invariants for direct interfaces. | partial | A poke that fails may have written the bytes before the first unmapped address (witness), and exactly those. |
| C104 | Direct memory interfaces are coherent with the memory | Simulation between the system of interfaces and flat memories with lists of mappings (`rep_step`), by induction over the depth of maps and over the blocks of an access; then read-over-write lemmas on the flat memories, an erasure argument for observers, and invariants for direct interfaces. | partial | Requests at addresses that denote a byte. Violated: outside the memory getDMI throws; a map hands out an interface in the addresses of the memory; after an invalidation the invalid interface is handed out for ever (witnesses proved). |
| C105 | Memory accesses succeed exactly when allowed and give the right reason otherwise | Simulation between the system of interfaces and flat memories with lists of mappings (`rep_step`), by induction over the depth of maps and over the blocks of an access; then read-over-write lemmas on the flat memories, an erasure argument for observers, and invariants for direct interfaces. | partial | For accesses that end below 2^64; a wrapping access passes the window check (witness). |
| C106 | A cache shows memory with its own pending writes on top | The state machine of all caches simulates a specification with one memory and a list of pending writes per cache; a cache shows the fold of its writes over memory. The invariant relates every held line of a cache to that view, and every stored previous value to the view of the older writes. Merging a byte below pending writes changes the previous value of the oldest write over it: by induction on the list of writes. C110 is an invariant of all calls, without preconditions. | proved | On the MemoryObject of the cache with its lazily allocated lines; C106_single: with one cache and without pokes every history is covered. |
| C107 | Only commits change memory, one write at a time in the order they were done | The state machine of all caches simulates a specification with one memory and a list of pending writes per cache; a cache shows the fold of its writes over memory. The invariant relates every held line of a cache to that view, and every stored previous value to the view of the older writes. Merging a byte below pending writes changes the previous value of the oldest write over it: by induction on the list of writes. C110 is an invariant of all calls, without preconditions. | proved | C107_commit_violated is outside the quantifier: with smaller blocks downstream the commit succeeds and the write is lost. |
| C108 | Dropping a write undoes it and all newer ones | The state machine of all caches simulates a specification with one memory and a list of pending writes per cache; a cache shows the fold of its writes over memory. The invariant relates every held line of a cache to that view, and every stored previous value to the view of the older writes. Merging a byte below pending writes changes the previous value of the oldest write over it: by induction on the list of writes. C110 is an invariant of all calls, without preconditions. | proved |  |
| C109 | Caches see the commits of other caches, except under their own pending writes | The state machine of all caches simulates a specification with one memory and a list of pending writes per cache; a cache shows the fold of its writes over memory. The invariant relates every held line of a cache to that view, and every stored previous value to the view of the older writes. Merging a byte below pending writes changes the previous value of the oldest write over it: by induction on the list of writes. C110 is an invariant of all calls, without preconditions. | partial | Only when every other cache holds the block (it has written in it before). Otherwise the merge makes a line of zeros and the cache shows 0 for bytes nobody wrote (witness); a write over two blocks of the cache throws (witness). |
| C110 | The list of pending writes is exact | The state machine of all caches simulates a specification with one memory and a list of pending writes per cache; a cache shows the fold of its writes over memory. The invariant relates every held line of a cache to that view, and every stored previous value to the view of the older writes. Merging a byte below pending writes changes the previous value of the oldest write over it: by induction on the list of writes. C110 is an invariant of all calls, without preconditions. | proved |  |
| C111 | A poke through a cache changes exactly the bytes poked | The state machine of all caches simulates a specification with one memory and a list of pending writes per cache; a cache shows the fold of its writes over memory. The invariant relates every held line of a cache to that view, and every stored previous value to the view of the older writes. Merging a byte below pending writes changes the previous value of the oldest write over it: by induction on the list of writes. C110 is an invariant of all calls, without preconditions. | partial | Only when this cache holds the blocks, has no pending write over the bytes, and no other cache holds them. Otherwise: the rest of the block is erased in memory, other caches are stale, a later drop brings back the old byte (witnesses). |
| C112 | A counter shows the exact sum of what was added to it | Induction over the history. | partial | The value is the sum modulo 2^64. Overflow is not detected although the documentation says so: the counter wraps (witness). |
| C113 | A cycle counter counts exactly the cycles between start and stop | Simulation of a list of periods; per cycle: a second simulation by a log of cycles. | proved | C113_cycles: without delays, the sum over the ended cycles of the multiplier in force. |
| C114 | A histogram counts every value in exactly one bin | Invariant that ties every counter to the number of values in its range; the bins are counted by shifts, the names by a loop that adds, both are proved to be the same ranges. | partial | Not for the histogram of all 64 bit numbers with one value per bin: it is constructed without bins and every value throws (witness). |
| C115 | Bins are named by the values they count and the cumulative display adds up | Invariant that ties every counter to the number of values in its range; the bins are counted by shifts, the names by a loop that adds, both are proved to be the same ranges. | partial | Not when upper limit plus width exceeds 2^64: the end in the name of the last bin wraps (witness). |
| C116 | A histogram keeps the greatest values | Invariant: what is shown and a rest is a permutation of the values. | proved |  |
| C117 | A cycle histogram gives every cycle to the bin of its value | Simulation of a specification that records the value of each cycle. Each counter is either stopped, running since a cycle, or started and stopped by an add in this cycle, and shows the number of recorded cycles in its range. | proved |  |
| C118 | The bins of a cycle histogram add up to the cycles | Simulation of a specification that records the value of each cycle. Each counter is either stopped, running since a cycle, or started and stopped by an add in this cycle, and shows the number of recorded cycles in its range. | proved |  |
| C119 | Data sent through a port arrives at every bound in port exactly once, in its cycle and phase | Simulation of lists of data on their way, on top of the simulation of payload events; user code, handlers and scheduler are interleaved calls with a stack of running ones. The claims are stated on the list of events an observer of the history sees (Trace.lean): an account of what was sent and delivered for each in port and cycle is kept by induction over the history. | partial | For total delays below 2^32 and fewer than 1098 data on their way to an in port (the capacity of payload events). Violated: the total delay is kept in 32 bits; data handed over at once overtakes data sent earlier for the same cycle; when one in port refuses, those bound earlier keep the data (witnesses proved). |
| C120 | Cancelling on a port takes away exactly the chosen data | Simulation of lists of data on their way, on top of the simulation of payload events; user code, handlers and scheduler are interleaved calls with a stack of running ones. The claims are stated on the list of events an observer of the history sees (Trace.lean): an account of what was sent and delivered for each in port and cycle is kept by induction over the history. | partial | Violated: cancelling on an out port also takes away what other out ports sent to the same in port; inside the handler its own argument is counted (witnesses). |
| C121 | isDriven tells whether data will arrive | Simulation of lists of data on their way, on top of the simulation of payload events; user code, handlers and scheduler are interleaved calls with a stack of running ones. The claims are stated on the list of events an observer of the history sees (Trace.lean): an account of what was sent and delivered for each in port and cycle is kept by induction over the history. | partial | isDriven() outside of handlers; isDriven(0) only where nothing was delivered in the cycle yet. Otherwise isDriven(0) says yes for data due later (witness). |
| C122 | Ports are bound once and at the same frequency | Simulation of lists of data on their way, on top of the simulation of payload events; user code, handlers and scheduler are interleaved calls with a stack of running ones. The claims are stated on the list of events an observer of the history sees (Trace.lean): an account of what was sent and delivered for each in port and cycle is kept by induction over the history. | partial | Binding overwrites setContinuing of the in port (witness). |
| C123 | An in port keeps the data received last | Simulation of lists of data on their way, on top of the simulation of payload events; user code, handlers and scheduler are interleaved calls with a stack of running ones. The claims are stated on the list of events an observer of the history sees (Trace.lean): an account of what was sent and delivered for each in port and cycle is kept by induction over the history. | proved |  |
| C124 | A name of a parameter path matches exactly the texts of its pattern | What happened to a tree is a list of events on paths (Spec.lean), independent of nodes; an invariant by induction over the history relates the tree to that list: the first node in order of priority for a path holds the value of the last matching write, every node names the write it stems from, read and required counts name the lookup or write they stem from. The pattern matcher is proved equal to an inductive relation Glob. | partial | For names without ( ) [ ] . | ^ $ { } and backslash; those keep their meaning in regular expressions, so that a name with one of the last six need not match itself (witness). |
| C125 | A parameter lookup shows the value set last for the path | What happened to a tree is a list of events on paths (Spec.lean), independent of nodes; an invariant by induction over the history relates the tree to that list: the first node in order of priority for a path holds the value of the last matching write, every node names the write it stems from, read and required counts name the lookup or write they stem from. The pattern matcher is proved equal to an inductive relation Glob. | partial | Everything but the sentence on exists: an inner node without value is found directly under the root but not deeper (witness). |
| C126 | Merging and copying parameter trees keeps the values | What happened to a tree is a list of events on paths (Spec.lean), independent of nodes; an invariant by induction over the history relates the tree to that list: the first node in order of priority for a path holds the value of the last matching write, every node names the write it stems from, read and required counts name the lookup or write they stem from. The pattern matcher is proved equal to an inductive relation Glob. | partial | Violated: a tree in which an inner node got a value after its children cannot be copied, even into an empty tree; a failed merge leaves a part behind; self-assignment loses everything (witnesses). |
| C127 | The report of unread parameters names exactly the values nobody looked up | What happened to a tree is a list of events on paths (Spec.lean), independent of nodes; an invariant by induction over the history relates the tree to that list: the first node in order of priority for a path holds the value of the last matching write, every node names the write it stems from, read and required counts name the lookup or write they stem from. The pattern matcher is proved equal to an inductive relation Glob. | partial | Reported values are unread; a path never looked up is reported. Violated: a value written over one that was read is not reported; the root is reported after get("") showed it (witnesses). |
| C128 | A parameter is required when the last set for its path said so | What happened to a tree is a list of events on paths (Spec.lean), independent of nodes; an invariant by induction over the history relates the tree to that list: the first node in order of priority for a path holds the value of the last matching write, every node names the write it stems from, read and required counts name the lookup or write they stem from. The pattern matcher is proved equal to an inductive relation Glob. | partial | Required: for paths at and below which nothing else was created. Violated: "not required" does not take back an earlier "required"; unrequiring a subtree misses older patterns; a failed set creates nodes that hide the requirement (witnesses). |
| C129 | Setting a parameter affects exactly the paths its pattern matches | What happened to a tree is a list of events on paths (Spec.lean), independent of nodes; an invariant by induction over the history relates the tree to that list: the first node in order of priority for a path holds the value of the last matching write, every node names the write it stems from, read and required counts name the lookup or write they stem from. The pattern matcher is proved equal to an inductive relation Glob. | proved | For names as in C124. |
| C130 | Chained indexing of a parameter tree finds what a lookup finds | What happened to a tree is a list of events on paths (Spec.lean), independent of nodes; an invariant by induction over the history relates the tree to that list: the first node in order of priority for a path holds the value of the last matching write, every node names the write it stems from, read and required counts name the lookup or write they stem from. The pattern matcher is proved equal to an inductive relation Glob. | partial | A value reached is the right one. Violated: indexing takes the newest matching child at every level and throws where get finds a value (witness). |
| C131 | A notification reaches exactly the observers registered for its source, each once | What the user knows (parents, sources, registrations, taps) is computed from the calls and their answers (Spec.lean, World). An invariant by induction over the history says that every source has exactly the registrations that cover it; it is kept by broadcasts, by determining the observers anew when trees are joined, and by posts. For destinations a second invariant: written messages and those still owed by pending calls are exactly the messages logged. | partial | For single names, no children of the virtual global node, and either no private subtrees or only observers of all nodes. Violated: an observer of a list of names misses sources made later; sources directly under the virtual global node call its observers twice or never; observers of public nodes get private sources attached later, and stay called after deregistering if the subtree became private in between (witnesses). |
| C132 | A notification source knows its observers | What the user knows (parents, sources, registrations, taps) is computed from the calls and their answers (Spec.lean, World). An invariant by induction over the history says that every source has exactly the registrations that cover it; it is kept by broadcasts, by determining the observers anew when trees are joined, and by posts. For destinations a second invariant: written messages and those still owed by pending calls are exactly the messages logged. | partial | For the histories of C131. |
| C133 | Registrations are refused only for good reason and then change nothing | What the user knows (parents, sources, registrations, taps) is computed from the calls and their answers (Spec.lean, World). An invariant by induction over the history says that every source has exactly the registrations that cover it; it is kept by broadcasts, by determining the observers anew when trees are joined, and by posts. For destinations a second invariant: written messages and those still owed by pending calls are exactly the messages logged. | partial | For the histories of C131; the check always fails at the virtual global node. Violated: a malformed list of names fails but leaves the observer registered for ever; a list is refused by the check though every name has its source (witnesses). |
| C134 | Observation state callbacks tell when observers come and go | What the user knows (parents, sources, registrations, taps) is computed from the calls and their answers (Spec.lean, World). An invariant by induction over the history says that every source has exactly the registrations that cover it; it is kept by broadcasts, by determining the observers anew when trees are joined, and by posts. For destinations a second invariant: written messages and those still owed by pending calls are exactly the messages logged. | partial | For the histories of C131. Violated: a source that is attached below an observer becomes observed without a callback (witness). |
| C135 | A log destination gets each wanted message exactly once and in order | What the user knows (parents, sources, registrations, taps) is computed from the calls and their answers (Spec.lean, World). An invariant by induction over the history says that every source has exactly the registrations that cover it; it is kept by broadcasts, by determining the observers anew when trees are joined, and by posts. For destinations a second invariant: written messages and those still owed by pending calls are exactly the messages logged. | partial | For the histories of C131 in which no observer posts a log message while one is delivered. Violated otherwise: the outer message is dropped as a duplicate (witness). That nothing else is written, nothing twice and everything in order holds in any case. |
| C136 | The counters of taps and destinations are exact | What the user knows (parents, sources, registrations, taps) is computed from the calls and their answers (Spec.lean, World). An invariant by induction over the history says that every source has exactly the registrations that cover it; it is kept by broadcasts, by determining the observers anew when trees are joined, and by posts. For destinations a second invariant: written messages and those still owed by pending calls are exactly the messages logged. | partial | Destinations: any history; taps: the histories of C131. |
| C137 | An observer of a list of names observes the sources that fit one of them | What the user knows (parents, sources, registrations, taps) is computed from the calls and their answers (Spec.lean, World). An invariant by induction over the history says that every source has exactly the registrations that cover it; it is kept by broadcasts, by determining the observers anew when trees are joined, and by posts. For destinations a second invariant: written messages and those still owed by pending calls are exactly the messages logged. | partial | Violated: a comma at the end stands for all names (witness). |
| C138 | Counter triggers behave as their documentation says | TrigMan: a reference (Spec.lean) keeps only the list of active triggers in order of activation; it also notes whether each call is proper (the obligations of the program) and safe (clear of what the code mishandles). C138 is a refinement by a coupling invariant (Inv.lean) that relates every handler with its deferred lists, in and out of ticks, to that list; each call (Acts, Acts2), the loop of a tick and the end of a tick (Steps) keep it. C140 reads off the answers. C139 does not use the refinement: it is an invariant of the code for every program (Safety.lean): a trigger marked active is active according to the replay of the history. C141, C142, C144 speak of the replay of the history, which Track.lean relates to the reference. C143 has no condition. | partial | For programs that stay clear of the calls the code mishandles: before startup only construction; taking a trigger off the manager only if another of its clock stays active, in a tick of its clock only if it was neither activated in that tick nor is still to be looked at; no self-assignment. Violated otherwise (witnesses). |
| C139 | No callback of a counter trigger without cause | TrigMan: a reference (Spec.lean) keeps only the list of active triggers in order of activation; it also notes whether each call is proper (the obligations of the program) and safe (clear of what the code mishandles). C138 is a refinement by a coupling invariant (Inv.lean) that relates every handler with its deferred lists, in and out of ticks, to that list; each call (Acts, Acts2), the loop of a tick and the end of a tick (Steps) keep it. C140 reads off the answers. C139 does not use the refinement: it is an invariant of the code for every program (Safety.lean): a trigger marked active is active according to the replay of the history. C141, C142, C144 speak of the replay of the history, which Track.lean relates to the reference. C143 has no condition. | partial | For every program that, before startup, only constructs triggers. Violated: a trigger deactivated before startup runs nevertheless (witness). |
| C140 | Counter triggers never make a tick fail | TrigMan: a reference (Spec.lean) keeps only the list of active triggers in order of activation; it also notes whether each call is proper (the obligations of the program) and safe (clear of what the code mishandles). C138 is a refinement by a coupling invariant (Inv.lean) that relates every handler with its deferred lists, in and out of ticks, to that list; each call (Acts, Acts2), the loop of a tick and the end of a tick (Steps) keep it. C140 reads off the answers. C139 does not use the refinement: it is an invariant of the code for every program (Safety.lean): a trigger marked active is active according to the replay of the history. C141, C142, C144 speak of the replay of the history, which Track.lean relates to the reference. C143 has no condition. | partial | For the programs of C138. Violated otherwise: five witnesses, two of them calls into a deleted object. |
| C141 | No due counter trigger is missed | TrigMan: a reference (Spec.lean) keeps only the list of active triggers in order of activation; it also notes whether each call is proper (the obligations of the program) and safe (clear of what the code mishandles). C138 is a refinement by a coupling invariant (Inv.lean) that relates every handler with its deferred lists, in and out of ticks, to that list; each call (Acts, Acts2), the loop of a tick and the end of a tick (Steps) keep it. C140 reads off the answers. C139 does not use the refinement: it is an invariant of the code for every program (Safety.lean): a trigger marked active is active according to the replay of the history. C141, C142, C144 speak of the replay of the history, which Track.lean relates to the reference. C143 has no condition. | partial | For the programs of C138 that build, finalize, start, and then go on in any way. |
| C142 | A counter trigger reports its state truthfully | TrigMan: a reference (Spec.lean) keeps only the list of active triggers in order of activation; it also notes whether each call is proper (the obligations of the program) and safe (clear of what the code mishandles). C138 is a refinement by a coupling invariant (Inv.lean) that relates every handler with its deferred lists, in and out of ticks, to that list; each call (Acts, Acts2), the loop of a tick and the end of a tick (Steps) keep it. C140 reads off the answers. C139 does not use the refinement: it is an invariant of the code for every program (Safety.lean): a trigger marked active is active according to the replay of the history. C141, C142, C144 speak of the replay of the history, which Track.lean relates to the reference. C143 has no condition. | partial | For the programs of C141. Violated otherwise: the two answers can differ (witness). |
| C143 | Counter triggers made while the simulator is built start with the simulation | TrigMan: a reference (Spec.lean) keeps only the list of active triggers in order of activation; it also notes whether each call is proper (the obligations of the program) and safe (clear of what the code mishandles). C138 is a refinement by a coupling invariant (Inv.lean) that relates every handler with its deferred lists, in and out of ticks, to that list; each call (Acts, Acts2), the loop of a tick and the end of a tick (Steps) keep it. C140 reads off the answers. C139 does not use the refinement: it is an invariant of the code for every program (Safety.lean): a trigger marked active is active according to the replay of the history. C141, C142, C144 speak of the replay of the history, which Track.lean relates to the reference. C143 has no condition. | proved |  |
| C144 | A tick runs only the triggers of its clock, each once | TrigMan: a reference (Spec.lean) keeps only the list of active triggers in order of activation; it also notes whether each call is proper (the obligations of the program) and safe (clear of what the code mishandles). C138 is a refinement by a coupling invariant (Inv.lean) that relates every handler with its deferred lists, in and out of ticks, to that list; each call (Acts, Acts2), the loop of a tick and the end of a tick (Steps) keep it. C140 reads off the answers. C139 does not use the refinement: it is an invariant of the code for every program (Safety.lean): a trigger marked active is active according to the replay of the history. C141, C142, C144 speak of the replay of the history, which Track.lean relates to the reference. C143 has no condition. | partial | For the programs of C141. |
| C145 | A cycle trigger holds at most one time | CycTrig: the reference (Spec.lean) is a slot with at most one time, and the time of an event that was switched off; it also notes whether each call is proper (documented obligations) and safe. C145 is a refinement by a coupling invariant (Lemmas.lean). C146 is an invariant of the code alone (Hist.lean), for every program. C147 and C148 speak of the setting in force according to the history (`cfg`), which an invariant of the reference relates to the slot; C147 then computes with the periods. | partial | For programs that keep the documented obligation (not set again while the event of a deactivated setting is pending) and stay clear of what the code mishandles: a trigger is always relative or always absolute, an absolute cycle is not over, an aligned delay is not 0, callbacks only set and deactivate, a trigger set before startup is not deactivated before it. Violated otherwise (a witness for each). |
| C146 | No callback of a cycle trigger without a setting | CycTrig: the reference (Spec.lean) is a slot with at most one time, and the time of an event that was switched off; it also notes whether each call is proper (documented obligations) and safe. C145 is a refinement by a coupling invariant (Lemmas.lean). C146 is an invariant of the code alone (Hist.lean), for every program. C147 and C148 speak of the setting in force according to the history (`cfg`), which an invariant of the reference relates to the slot; C147 then computes with the periods. | partial | For every program that deactivates nothing before startup. Violated otherwise (witness). |
| C147 | A cycle trigger runs in its cycle | CycTrig: the reference (Spec.lean) is a slot with at most one time, and the time of an event that was switched off; it also notes whether each call is proper (documented obligations) and safe. C145 is a refinement by a coupling invariant (Lemmas.lean). C146 is an invariant of the code alone (Hist.lean), for every program. C147 and C148 speak of the setting in force according to the history (`cfg`), which an invariant of the reference relates to the slot; C147 then computes with the periods. | partial | For the programs of C145. |
| C148 | A set cycle trigger runs and reports its state | CycTrig: the reference (Spec.lean) is a slot with at most one time, and the time of an event that was switched off; it also notes whether each call is proper (documented obligations) and safe. C145 is a refinement by a coupling invariant (Lemmas.lean). C146 is an invariant of the code alone (Hist.lean), for every program. C147 and C148 speak of the setting in force according to the history (`cfg`), which an invariant of the reference relates to the slot; C147 then computes with the periods. | partial | For the programs of C145. |
| C149 | The device tree is a forest | TNode: invariants by induction over the history (Shape.lean: parents, children, levels; Names.lean: the name map of a parent against the names of its children; Names2.lean: names are valid, privacy does not decrease downwards). Lookups and searches are compared with paths (`Down`, `Reach`), which are inductive relations over parents and names; the loops over parents are shown to end within their bound. C157 has its own invariant for a node that was made private (Search2.lean). | proved |  |
| C150 | addChild accepts exactly what fits | TNode: invariants by induction over the history (Shape.lean: parents, children, levels; Names.lean: the name map of a parent against the names of its children; Names2.lean: names are valid, privacy does not decrease downwards). Lookups and searches are compared with paths (`Down`, `Reach`), which are inductive relations over parents and names; the loops over parents are shown to end within their bound. C157 has its own invariant for a node that was made private (Search2.lean). | partial | Exact, for histories in which no node with a group is destroyed while it has a parent. Violated: group and index of the new child are not compared (accepted or refused depending on the order); a child with another parent is entered before the call fails (witnesses). |
| C151 | Locations lead back to the node | TNode: invariants by induction over the history (Shape.lean: parents, children, levels; Names.lean: the name map of a parent against the names of its children; Names2.lean: names are valid, privacy does not decrease downwards). Lookups and searches are compared with paths (`Down`, `Reach`), which are inductive relations over parents and names; the loops over parents are shown to end within their bound. C157 has its own invariant for a node that was made private (Search2.lean). | partial | For nodes with names on the way, histories as in C150; existence without destructions. Violated: anonymous nodes share locations; an orphan attached to a new parent has no location; a destroyed node is found under its group and index (witnesses). |
| C152 | getChild follows names | TNode: invariants by induction over the history (Shape.lean: parents, children, levels; Names.lean: the name map of a parent against the names of its children; Names2.lean: names are valid, privacy does not decrease downwards). Lookups and searches are compared with paths (`Down`, `Reach`), which are inductive relations over parents and names; the loops over parents are shown to end within their bound. C157 has its own invariant for a node that was made private (Search2.lean). | partial | For histories as in C150 (walking in parts and dots: any history). Violated otherwise (witness). |
| C153 | findChildren finds exactly what the pattern designates | TNode: invariants by induction over the history (Shape.lean: parents, children, levels; Names.lean: the name map of a parent against the names of its children; Names2.lean: names are valid, privacy does not decrease downwards). Lookups and searches are compared with paths (`Down`, `Reach`), which are inductive relations over parents and names; the loops over parents are shown to end within their bound. C157 has its own invariant for a node that was made private (Search2.lean). | partial | Exact without destructions; with destructions as in C150, complete for names and aliases. |
| C154 | findChildren reports the replacements of the wildcards | TNode: invariants by induction over the history (Shape.lean: parents, children, levels; Names.lean: the name map of a parent against the names of its children; Names2.lean: names are valid, privacy does not decrease downwards). Lookups and searches are compared with paths (`Down`, `Reach`), which are inductive relations over parents and names; the loops over parents are shown to end within their bound. C157 has its own invariant for a node that was made private (Search2.lean). | partial | The texts are right and complete; their order is, if there is at most one wildcard after the first level. Violated otherwise (witness). |
| C155 | locationMatchesPattern agrees with findChildren | TNode: invariants by induction over the history (Shape.lean: parents, children, levels; Names.lean: the name map of a parent against the names of its children; Names2.lean: names are valid, privacy does not decrease downwards). Lookups and searches are compared with paths (`Down`, `Reach`), which are inductive relations over parents and names; the loops over parents are shown to end within their bound. C157 has its own invariant for a node that was made private (Search2.lean). | partial | Exact in terms of names and aliases; agrees with a search that may see private nodes if there are no groups. Violated: group with index, leading dots (witness). |
| C156 | Valid node names | TNode: invariants by induction over the history (Shape.lean: parents, children, levels; Names.lean: the name map of a parent against the names of its children; Names2.lean: names are valid, privacy does not decrease downwards). Lookups and searches are compared with paths (`Down`, `Reach`), which are inductive relations over parents and names; the loops over parents are shown to end within their bound. C157 has its own invariant for a node that was made private (Search2.lean). | partial | Both directions but for names with adjacent underscores that do not begin with them. Violated there (witness). |
| C157 | Private subtrees | TNode: invariants by induction over the history (Shape.lean: parents, children, levels; Names.lean: the name map of a parent against the names of its children; Names2.lean: names are valid, privacy does not decrease downwards). Lookups and searches are compared with paths (`Down`, `Reach`), which are inductive relations over parents and names; the loops over parents are shown to end within their bound. C157 has its own invariant for a node that was made private (Search2.lean). | partial | For descendants, histories as in C150. Violated for paths that go up: privacy is a number (witness). |
| C158 | getDeepestMatchingPath | TNode: invariants by induction over the history (Shape.lean: parents, children, levels; Names.lean: the name map of a parent against the names of its children; Names2.lean: names are valid, privacy does not decrease downwards). Lookups and searches are compared with paths (`Down`, `Reach`), which are inductive relations over parents and names; the loops over parents are shown to end within their bound. C157 has its own invariant for a node that was made private (Search2.lean). | partial | For paths of names that end before the path given does, in trees without groups. Violated: if the whole path exists, its last name comes twice; a leading dot at the top (witnesses). |
| C159 | The way up | TNode: invariants by induction over the history (Shape.lean: parents, children, levels; Names.lean: the name map of a parent against the names of its children; Names2.lean: names are valid, privacy does not decrease downwards). Lookups and searches are compared with paths (`Down`, `Reach`), which are inductive relations over parents and names; the loops over parents are shown to end within their bound. C157 has its own invariant for a node that was made private (Search2.lean). | proved |  |
| C160 | Calls on parameters come to an end | Param: calls on one parameter are functions of the parameter (One.lean); callbacks are arbitrary strategies. C160: the parameters on the stack of locks increase, so nesting is bounded by their number (Stack.lean). Properties of whole runs are invariants kept by every call and every callback (`Closed`, Basic.lean); C165 and C166 are frame properties by induction on the nesting (Order.lean); C170 by induction on the depth (Items.lean). | proved |  |
| C161 | A parameter that has been read keeps its value | Param: calls on one parameter are functions of the parameter (One.lean); callbacks are arbitrary strategies. C160: the parameters on the stack of locks increase, so nesting is bounded by their number (Stack.lean). Properties of whole runs are invariants kept by every call and every callback (`Closed`, Basic.lean); C165 and C166 are frame properties by induction on the nesting (Order.lean); C170 by induction on the depth (Items.lean). | partial | For assignment, writing from text, insertion and restoring. Violated: an item is changed before the call throws; clearing (and resizing, poking) is not checked (witnesses). |
| C162 | Access counts | Param: calls on one parameter are functions of the parameter (One.lean); callbacks are arbitrary strategies. C160: the parameters on the stack of locks increase, so nesting is bounded by their number (Stack.lean). Properties of whole runs are invariants kept by every call and every callback (`Closed`, Basic.lean); C165 and C166 are frame properties by induction on the nesting (Order.lean); C170 by induction on the depth (Items.lean). | proved | The write is that of a parameter without callback, without a final configuration. |
| C163 | Unread parameters are found | Param: calls on one parameter are functions of the parameter (One.lean); callbacks are arbitrary strategies. C160: the parameters on the stack of locks increase, so nesting is bounded by their number (Stack.lean). Properties of whole runs are invariants kept by every call and every callback (`Closed`, Basic.lean); C165 and C166 are frame properties by induction on the nesting (Order.lean); C170 by induction on the depth (Items.lean). | proved |  |
| C164 | A failed write changes nothing | Param: calls on one parameter are functions of the parameter (One.lean); callbacks are arbitrary strategies. C160: the parameters on the stack of locks increase, so nesting is bounded by their number (Stack.lean). Properties of whole runs are invariants kept by every call and every callback (`Closed`, Basic.lean); C165 and C166 are frame properties by induction on the nesting (Order.lean); C170 by induction on the depth (Items.lean). | partial | The value, for SpartaExceptions and calls that replace it. Violated: other exceptions leave the new value, a failed item write grows the vector, the write has been counted (witnesses). |
| C165 | An accepted write takes effect | Param: calls on one parameter are functions of the parameter (One.lean); callbacks are arbitrary strategies. C160: the parameters on the stack of locks increase, so nesting is bounded by their number (Stack.lean). Properties of whole runs are invariants kept by every call and every callback (`Closed`, Basic.lean); C165 and C166 are frame properties by induction on the nesting (Order.lean); C170 by induction on the depth (Items.lean). | partial | For callbacks that write by assignment or from text. Violated: a callback that inserts into its own parameter (witness). |
| C166 | Callbacks write later parameters only | Param: calls on one parameter are functions of the parameter (One.lean); callbacks are arbitrary strategies. C160: the parameters on the stack of locks increase, so nesting is bounded by their number (Stack.lean). Properties of whole runs are invariants kept by every call and every callback (`Closed`, Basic.lean); C165 and C166 are frame properties by induction on the nesting (Order.lean); C170 by induction on the depth (Items.lean). | partial | For callbacks that write by assignment or from text. Violated: insertion (restoring, clearing, items) into earlier parameters is not checked; of several announced parameters only the first is looked at (witnesses). |
| C167 | The lock is released | Param: calls on one parameter are functions of the parameter (One.lean); callbacks are arbitrary strategies. C160: the parameters on the stack of locks increase, so nesting is bounded by their number (Stack.lean). Properties of whole runs are invariants kept by every call and every callback (`Closed`, Basic.lean); C165 and C166 are frame properties by induction on the nesting (Order.lean); C170 by induction on the depth (Items.lean). | partial | For calls that return. Violated: a callback that throws leaves the set locked, for ever, and the first parameter cannot be written again. |
| C168 | Lockdown of special parameters | Param: calls on one parameter are functions of the parameter (One.lean); callbacks are arbitrary strategies. C160: the parameters on the stack of locks increase, so nesting is bounded by their number (Stack.lean). Properties of whole runs are invariants kept by every call and every callback (`Closed`, Basic.lean); C165 and C166 are frame properties by induction on the nesting (Order.lean); C170 by induction on the depth (Items.lean). | partial | Unless the vector is cleared. Violated there (witness). |
| C169 | Defaults and overrides | Param: calls on one parameter are functions of the parameter (One.lean); callbacks are arbitrary strategies. C160: the parameters on the stack of locks increase, so nesting is bounded by their number (Stack.lean). Properties of whole runs are invariants kept by every call and every callback (`Closed`, Basic.lean); C165 and C166 are frame properties by induction on the nesting (Order.lean); C170 by induction on the depth (Items.lean). | partial | Violated: an override after a read throws but has changed the default; resizing and clearing a default does not mark it (witnesses). |
| C170 | Items of nested vectors | Param: calls on one parameter are functions of the parameter (One.lean); callbacks are arbitrary strategies. C160: the parameters on the stack of locks increase, so nesting is bounded by their number (Stack.lean). Properties of whole runs are invariants kept by every call and every callback (`Closed`, Basic.lean); C165 and C166 are frame properties by induction on the nesting (Order.lean); C170 by induction on the depth (Items.lean). | partial | For accepted item writes. Violated: a resizing that throws has grown the vector (witness). |
| C171 | Final configurations | Param: calls on one parameter are functions of the parameter (One.lean); callbacks are arbitrary strategies. C160: the parameters on the stack of locks increase, so nesting is bounded by their number (Stack.lean). Properties of whole runs are invariants kept by every call and every callback (`Closed`, Basic.lean); C165 and C166 are frame properties by induction on the nesting (Order.lean); C170 by induction on the depth (Items.lean). | proved |  |
| C172 | isDefault | Param: calls on one parameter are functions of the parameter (One.lean); callbacks are arbitrary strategies. C160: the parameters on the stack of locks increase, so nesting is bounded by their number (Stack.lean). Properties of whole runs are invariants kept by every call and every callback (`Closed`, Basic.lean); C165 and C166 are frame properties by induction on the nesting (Order.lean); C170 by induction on the depth (Items.lean). | partial | Exact for scalars whose values print differently; for equal values unless it is a vector of strings without quote. Violated for every non-empty vector of strings, and in the other direction (witness). |
| C173 | Validation | Param: calls on one parameter are functions of the parameter (One.lean); callbacks are arbitrary strategies. C160: the parameters on the stack of locks increase, so nesting is bounded by their number (Stack.lean). Properties of whole runs are invariants kept by every call and every callback (`Closed`, Basic.lean); C165 and C166 are frame properties by induction on the nesting (Order.lean); C170 by induction on the depth (Items.lean). | partial | For callbacks that leave the value they are shown alone. Violated otherwise: they share one copy (witness). |
| C174 | No writing after finalization | Param: calls on one parameter are functions of the parameter (One.lean); callbacks are arbitrary strategies. C160: the parameters on the stack of locks increase, so nesting is bounded by their number (Stack.lean). Properties of whole runs are invariants kept by every call and every callback (`Closed`, Basic.lean); C165 and C166 are frame properties by induction on the nesting (Order.lean); C170 by induction on the depth (Items.lean). | partial | From teardown on, for the counted writes. Violated: writing is accepted in a finalized tree; clearing and poking are accepted in teardown (witnesses). |
| C175 | The value of a statistic | Stat: a relation between an instance (with its whole expression tree) and the window described by the calls is kept by every call (`Tracks`, by induction on the expression; `Follows`, by induction on the calls); the value of a related instance is the meaning of its definition. Reports: start and end are maps over all statistics, by induction on the tree of reports; names by an invariant of additions. | proved |  |
| C176 | The window of a statistic | Stat: a relation between an instance (with its whole expression tree) and the window described by the calls is kept by every call (`Tracks`, by induction on the expression; `Follows`, by induction on the calls); the value of a related instance is the meaning of its definition. Reports: start and end are maps over all statistics, by induction on the tree of reports; names by an invariant of additions. | proved |  |
| C177 | Ended windows stay | Stat: a relation between an instance (with its whole expression tree) and the window described by the calls is kept by every call (`Tracks`, by induction on the expression; `Follows`, by induction on the calls); the value of a related instance is the meaning of its definition. Reports: start and end are maps over all statistics, by induction on the tree of reports; names by an invariant of additions. | proved |  |
| C178 | Time that goes back | Stat: a relation between an instance (with its whole expression tree) and the window described by the calls is kept by every call (`Tracks`, by induction on the expression; `Follows`, by induction on the calls); the value of a related instance is the meaning of its definition. Reports: start and end are maps over all statistics, by induction on the tree of reports; names by an invariant of additions. | proved |  |
| C179 | Accumulating statistics | Stat: a relation between an instance (with its whole expression tree) and the window described by the calls is kept by every call (`Tracks`, by induction on the expression; `Follows`, by induction on the calls); the value of a related instance is the meaning of its definition. Reports: start and end are maps over all statistics, by induction on the tree of reports; names by an invariant of additions. | partial | It counts from the last start before it was told to accumulate. Violated: not from the first start (witness). |
| C180 | Statistics of destroyed nodes | Stat: a relation between an instance (with its whole expression tree) and the window described by the calls is kept by every call (`Tracks`, by induction on the expression; `Follows`, by induction on the calls); the value of a related instance is the meaning of its definition. Reports: start and end are maps over all statistics, by induction on the tree of reports; names by an invariant of additions. | partial | Violated: a start that throws loses the value of the window that had ended (witness). |
| C181 | Windows one after the other | Stat: a relation between an instance (with its whole expression tree) and the window described by the calls is kept by every call (`Tracks`, by induction on the expression; `Follows`, by induction on the calls); the value of a related instance is the meaning of its definition. Reports: start and end are maps over all statistics, by induction on the tree of reports; names by an invariant of additions. | proved |  |
| C182 | Raw values | Stat: a relation between an instance (with its whole expression tree) and the window described by the calls is kept by every call (`Tracks`, by induction on the expression; `Follows`, by induction on the calls); the value of a related instance is the meaning of its definition. Reports: start and end are maps over all statistics, by induction on the tree of reports; names by an invariant of additions. | partial | For counters and parameters. Violated for statistics with an expression (witness). |
| C183 | Copies of statistics | Stat: a relation between an instance (with its whole expression tree) and the window described by the calls is kept by every call (`Tracks`, by induction on the expression; `Follows`, by induction on the calls); the value of a related instance is the meaning of its definition. Reports: start and end are maps over all statistics, by induction on the tree of reports; names by an invariant of additions. | partial | For instances that have something to compute. Violated: an empty expression is not assigned; a move loses the sub-statistics (witnesses). |
| C184 | Statistics without a context | Stat: a relation between an instance (with its whole expression tree) and the window described by the calls is kept by every call (`Tracks`, by induction on the expression; `Follows`, by induction on the calls); the value of a related instance is the meaning of its definition. Reports: start and end are maps over all statistics, by induction on the tree of reports; names by an invariant of additions. | proved |  |
| C185 | Windows of reports | Stat: a relation between an instance (with its whole expression tree) and the window described by the calls is kept by every call (`Tracks`, by induction on the expression; `Follows`, by induction on the calls); the value of a related instance is the meaning of its definition. Reports: start and end are maps over all statistics, by induction on the tree of reports; names by an invariant of additions. | proved |  |
| C186 | Names in a report | Stat: a relation between an instance (with its whole expression tree) and the window described by the calls is kept by every call (`Tracks`, by induction on the expression; `Follows`, by induction on the calls); the value of a related instance is the meaning of its definition. Reports: start and end are maps over all statistics, by induction on the tree of reports; names by an invariant of additions. | partial | Violated: an addition that throws for want of a scheduler or for the name of a sub-statistic has added the statistic (witnesses). |
| C187 | Copies of reports | Stat: a relation between an instance (with its whole expression tree) and the window described by the calls is kept by every call (`Tracks`, by induction on the expression; `Follows`, by induction on the calls); the value of a related instance is the meaning of its definition. Reports: start and end are maps over all statistics, by induction on the tree of reports; names by an invariant of additions. | partial | For statistics without sub-statistics. Violated: with them the copy throws or has more statistics (witnesses). |
| C188 | Moved reports | Stat: a relation between an instance (with its whole expression tree) and the window described by the calls is kept by every call (`Tracks`, by induction on the expression; `Follows`, by induction on the calls); the value of a related instance is the meaning of its definition. Reports: start and end are maps over all statistics, by induction on the tree of reports; names by an invariant of additions. | partial | Violated for every report: no name is found after a move. |
| C189 | Assigned reports | Stat: a relation between an instance (with its whole expression tree) and the window described by the calls is kept by every call (`Tracks`, by induction on the expression; `Follows`, by induction on the calls); the value of a related instance is the meaning of its definition. Reports: start and end are maps over all statistics, by induction on the tree of reports; names by an invariant of additions. | partial | For disjoint names and no sub-statistics. Violated: common names throw, old names stay, self-assignment loses everything. |
| C190 | Ids of pipeline records | Collect: the system is related to a picture (file, collectable, tick to value) that the calls paint; every legal call keeps the relation and does not throw (`Inv.step`), so that what the records show is the picture (`Inv.run`). Ids, intervals and continued records are separate invariants of the files (`Pres`, `Steady`, `Frames`, `Conts`), the first two for all calls. Durations and automatic collection: by induction over the calls that do not concern the collectable. | proved |  |
| C191 | The viewer shows what was collected | Collect: the system is related to a picture (file, collectable, tick to value) that the calls paint; every legal call keeps the relation and does not throw (`Inv.step`), so that what the records show is the picture (`Inv.run`). Ids, intervals and continued records are separate invariants of the files (`Pres`, `Steady`, `Frames`, `Conts`), the first two for all calls. Durations and automatic collection: by induction over the calls that do not concern the collectable. | partial | Under the conditions on the calls. Violated without them: a second start loses values, initialize changes the past or is not shown, long annotations are cut (witnesses). |
| C192 | Intervals of the index | Collect: the system is related to a picture (file, collectable, tick to value) that the calls paint; every legal call keeps the relation and does not throw (`Inv.step`), so that what the records show is the picture (`Inv.run`). Ids, intervals and continued records are separate invariants of the files (`Pres`, `Steady`, `Frames`, `Conts`), the first two for all calls. Durations and automatic collection: by induction over the calls that do not concern the collectable. | partial | If collection begins again only at ticks that are not multiples of the interval. Violated otherwise (witness). |
| C193 | Collection does not throw | Collect: the system is related to a picture (file, collectable, tick to value) that the calls paint; every legal call keeps the relation and does not throw (`Inv.step`), so that what the records show is the picture (`Inv.run`). Ids, intervals and continued records are separate invariants of the files (`Pres`, `Steady`, `Frames`, `Conts`), the first two for all calls. Durations and automatic collection: by induction over the calls that do not concern the collectable. | proved | For the calls described by View.legal; C196 says what happens outside it. |
| C194 | Continued records | Collect: the system is related to a picture (file, collectable, tick to value) that the calls paint; every legal call keeps the relation and does not throw (`Inv.step`), so that what the records show is the picture (`Inv.run`). Ids, intervals and continued records are separate invariants of the files (`Pres`, `Steady`, `Frames`, `Conts`), the first two for all calls. Durations and automatic collection: by induction over the calls that do not concern the collectable. | proved |  |
| C195 | Collection with a duration | Collect: the system is related to a picture (file, collectable, tick to value) that the calls paint; every legal call keeps the relation and does not throw (`Inv.step`), so that what the records show is the picture (`Inv.run`). Ids, intervals and continued records are separate invariants of the files (`Pres`, `Steady`, `Frames`, `Conts`), the first two for all calls. Durations and automatic collection: by induction over the calls that do not concern the collectable. | partial | If no end of an earlier collection is pending. Violated otherwise (witness). |
| C196 | Destroying the collector | Collect: the system is related to a picture (file, collectable, tick to value) that the calls paint; every legal call keeps the relation and does not throw (`Inv.step`), so that what the records show is the picture (`Inv.run`). Ids, intervals and continued records are separate invariants of the files (`Pres`, `Steady`, `Frames`, `Conts`), the first two for all calls. Durations and automatic collection: by induction over the calls that do not concern the collectable. | partial | If no open value began in the same tick and the tick is not a multiple of the interval. Violated otherwise: throws or loses values; collecting afterwards throws (witnesses). |
| C197 | Stopping and starting again | Collect: the system is related to a picture (file, collectable, tick to value) that the calls paint; every legal call keeps the relation and does not throw (`Inv.step`), so that what the records show is the picture (`Inv.run`). Ids, intervals and continued records are separate invariants of the files (`Pres`, `Steady`, `Frames`, `Conts`), the first two for all calls. Durations and automatic collection: by induction over the calls that do not concern the collectable. | partial | Other files are kept. Violated: starting again into the same file loses it, stopCollection() leaves collection active, pairs lose their open record and are undefined before the start (witnesses). |
| C198 | Collecting containers | Collect: the system is related to a picture (file, collectable, tick to value) that the calls paint; every legal call keeps the relation and does not throw (`Inv.step`), so that what the records show is the picture (`Inv.run`). Ids, intervals and continued records are separate invariants of the files (`Pres`, `Steady`, `Frames`, `Conts`), the first two for all calls. Durations and automatic collection: by induction over the calls that do not concern the collectable. | proved |  |
| C199 | Automatic collection | Collect: the system is related to a picture (file, collectable, tick to value) that the calls paint; every legal call keeps the relation and does not throw (`Inv.step`), so that what the records show is the picture (`Inv.run`). Ids, intervals and continued records are separate invariants of the files (`Pres`, `Steady`, `Frames`, `Conts`), the first two for all calls. Durations and automatic collection: by induction over the calls that do not concern the collectable. | proved |  |
| C200 | State timers count every cycle once | STimer: the unit is related to books kept from the calls and their results alone, in which time is counted as it passes (`Rel`, and `Done` after the unit has gone); every legal call keeps the relation (`Rel.step`, `Inv.step`). The sum of the histograms and the cycles waiting in the active timers is an invariant over the permutation of active timers and live handles (`Ok.sum`). | partial | If no state outside its enum class is entered. Violated otherwise: the refused call has already given the current state its time, which is counted twice (witness). |
| C201 | Each timer gives one value per state | STimer: the unit is related to books kept from the calls and their results alone, in which time is counted as it passes (`Rel`, and `Done` after the unit has gone); every legal call keeps the relation (`Rel.step`, `Inv.step`). The sum of the histograms and the cycles waiting in the active timers is an invariant over the permutation of active timers and live handles (`Ok.sum`). | partial | The value is the time since the last query; all the time if there was none. Violated: a query splits it into several values (witness). |
| C202 | State timers are independent and fresh | STimer: the unit is related to books kept from the calls and their results alone, in which time is counted as it passes (`Rel`, and `Done` after the unit has gone); every legal call keeps the relation (`Rel.step`, `Inv.step`). The sum of the histograms and the cycles waiting in the active timers is an invariant over the permutation of active timers and live handles (`Ok.sum`). | proved |  |
| C203 | Refused calls of a state timer | STimer: the unit is related to books kept from the calls and their results alone, in which time is counted as it passes (`Rel`, and `Done` after the unit has gone); every legal call keeps the relation (`Rel.step`, `Inv.step`). The sum of the histograms and the cycles waiting in the active timers is an invariant over the permutation of active timers and live handles (`Ok.sum`). | partial | Refused calls change nothing if the state exists (otherwise C200_violated). Violated: a state entered in cycle 0 cannot be followed by another; classes are told apart by 32 bits of a hash (witnesses). |
| C204 | Taking state timers | STimer: the unit is related to books kept from the calls and their results alone, in which time is counted as it passes (`Rel`, and `Done` after the unit has gone); every legal call keeps the relation (`Rel.step`, `Inv.step`). The sum of the histograms and the cycles waiting in the active timers is an invariant over the permutation of active timers and live handles (`Ok.sum`). | partial | For units made with at least one timer. Violated for units made with none: undefined behaviour (witness). |
| C205 | State timers and the life of their unit | STimer: the unit is related to books kept from the calls and their results alone, in which time is counted as it passes (`Rel`, and `Done` after the unit has gone); every legal call keeps the relation (`Rel.step`, `Inv.step`). The sum of the histograms and the cycles waiting in the active timers is an invariant over the permutation of active timers and live handles (`Ok.sum`). | proved |  |
| C206 | Querying state timers again | STimer: the unit is related to books kept from the calls and their results alone, in which time is counted as it passes (`Rel`, and `Done` after the unit has gone); every legal call keeps the relation (`Rel.step`, `Inv.step`). The sum of the histograms and the cycles waiting in the active timers is an invariant over the permutation of active timers and live handles (`Ok.sum`). | proved |  |
| C207 | Joint transitions by markers | StateM: the number of marks is an invariant of every marker set (`MOk`, kept by every call unless a monitor resets the state: `SOk.step`); single calls are computed from it. The trackers are related to a ghost that counts ticks as they pass (`Rel`): the ticks of the pool and of the living trackers add up to the time spent (`Rel.sum`), through reuse of trackers. For observers the number of schedulings plus the enrolments left is bounded by the enrolments made (`budget_step`). | partial | If no monitor resets the state. Violated: the threshold is the number of markers that may be missing, not the number that must call in (witness). |
| C208 | Counting marks | StateM: the number of marks is an invariant of every marker set (`MOk`, kept by every call unless a monitor resets the state: `SOk.step`); single calls are computed from it. The trackers are related to a ghost that counts ticks as they pass (`Rel`): the ticks of the pool and of the living trackers add up to the time spent (`Rel.sum`), through reuse of trackers. For observers the number of schedulings plus the enrolments left is bounded by the enrolments made (`budget_step`). | partial | If no monitor resets the state. Violated otherwise: clearing a marked marker throws (witness). |
| C209 | Values that were taken | StateM: the number of marks is an invariant of every marker set (`MOk`, kept by every call unless a monitor resets the state: `SOk.step`); single calls are computed from it. The trackers are related to a ghost that counts ticks as they pass (`Rel`): the ticks of the pool and of the living trackers add up to the time spent (`Rel.sum`), through reuse of trackers. For observers the number of schedulings plus the enrolments left is bounded by the enrolments made (`budget_step`). | partial | For changes by setting and by markers. Violated: the initial value and the value of a reset do not count as set (witness). |
| C210 | Observers of a state | StateM: the number of marks is an invariant of every marker set (`MOk`, kept by every call unless a monitor resets the state: `SOk.step`); single calls are computed from it. The trackers are related to a ghost that counts ticks as they pass (`Rel`): the ticks of the pool and of the living trackers add up to the time spent (`Rel.sum`), through reuse of trackers. For observers the number of schedulings plus the enrolments left is bounded by the enrolments made (`budget_step`). | proved |  |
| C211 | Residency of states | StateM: the number of marks is an invariant of every marker set (`MOk`, kept by every call unless a monitor resets the state: `SOk.step`); single calls are computed from it. The trackers are related to a ghost that counts ticks as they pass (`Rel`): the ticks of the pool and of the living trackers add up to the time spent (`Rel.sum`), through reuse of trackers. For observers the number of schedulings plus the enrolments left is bounded by the enrolments made (`budget_step`). | partial | If all states have gone by the time of the report and no state is changed by markers or a reset. Violated otherwise (witnesses). |
| C212 | Time in the state | StateM: the number of marks is an invariant of every marker set (`MOk`, kept by every call unless a monitor resets the state: `SOk.step`); single calls are computed from it. The trackers are related to a ghost that counts ticks as they pass (`Rel`): the ticks of the pool and of the living trackers add up to the time spent (`Rel.sum`), through reuse of trackers. For observers the number of schedulings plus the enrolments left is bounded by the enrolments made (`budget_step`). | partial | If no state is changed by markers or a reset. Violated otherwise (witness). |
| C213 | Monitors | StateM: the number of marks is an invariant of every marker set (`MOk`, kept by every call unless a monitor resets the state: `SOk.step`); single calls are computed from it. The trackers are related to a ghost that counts ticks as they pass (`Rel`): the ticks of the pool and of the living trackers add up to the time spent (`Rel.sum`), through reuse of trackers. For observers the number of schedulings plus the enrolments left is bounded by the enrolments made (`budget_step`). | partial | Violated: monitors are signalled for every marker, also when no transition is due (witness). |
| C214 | Making and resetting states | StateM: the number of marks is an invariant of every marker set (`MOk`, kept by every call unless a monitor resets the state: `SOk.step`); single calls are computed from it. The trackers are related to a ghost that counts ticks as they pass (`Rel`): the ticks of the pool and of the living trackers add up to the time spent (`Rel.sum`), through reuse of trackers. For observers the number of schedulings plus the enrolments left is bounded by the enrolments made (`budget_step`). | partial | For enums. Violated for bool: the initial value true is ignored (witness). |
| C215 | A unique event fires once in every tick it was scheduled for | UniqEv: the waiting entries and the calls made are related to the set of ticks asked for (`QOk`); for the single cycle event the two remembered ticks determine which of the present and the next cycle are asked for, using that two ticks of a clock less than a period apart are equal (`SOk.schedule`). | partial | Without asynchronous requests and restarts. Violated otherwise (witnesses). |
| C216 | A single cycle unique event fires once in every cycle it was scheduled for | UniqEv: the waiting entries and the calls made are related to the set of ticks asked for (`QOk`); for the single cycle event the two remembered ticks determine which of the present and the next cycle are asked for, using that two ticks of a clock less than a period apart are equal (`SOk.schedule`). | partial | For requests at ticks of its clock, without cancellation or restart, and in tick 0 not for the present cycle after the next. Violated otherwise (witnesses). |
| C217 | Tree filter expressions are parsed according to their grammar | TFilter: the parser is sound for a context-free grammar (`parse_sound`, by induction on fuel) and complete (`parse_complete`: induction on derivations, showing that earlier alternatives fail on each text, what may follow each level, and that the fuel of repetitions does not matter); evaluation by induction on expressions. | partial | The grammar proved is that of the code. The documented one differs (witnesses): statdef and statisticdef are refused, a pattern takes a parenthesis or ^^ that follows it, - is refused in patterns, blanks inside numbers are dropped and a leading zero means octal, double inversion is refused. |
| C218 | Evaluating a tree filter expression tells whether a node fits it | TFilter: the parser is sound for a context-free grammar (`parse_sound`, by induction on fuel) and complete (`parse_complete`: induction on derivations, showing that earlier alternatives fail on each text, what may follow each level, and that the fuel of repetitions does not matter); evaluation by induction on expressions. | proved | C218_ne_violated shows that != on visibility or type is not the inversion of ==. |
| C219 | Operators on tree filter expressions combine them | TFilter: the parser is sound for a context-free grammar (`parse_sound`, by induction on fuel) and complete (`parse_complete`: induction on derivations, showing that earlier alternatives fail on each text, what may follow each level, and that the fuel of repetitions does not matter); evaluation by induction on expressions. | partial | For two different objects. Violated: && and ! change their operand; an expression combined with itself cannot be evaluated (witnesses). |
| C220 | Committing the current branch of checkpoints | Cherry: refinement of the tree of checkpoints (each kept checkpoint with its path from the head) through a relation preserved by creation, loading and both kinds of commit (`keep_rep`: restriction to the last snapshot and what follows; `batch_of`: what is saved is self-contained); the tables are an ordered list of windows and runs (`WinsOk`, `Cover`), from which exactly one window is found for each index. | partial | For histories without deletions and wipes of memories. Violated: after deleting a checkpoint that others need, commits fail; checkpoints discarded by a forced commit are still counted (witnesses). |
| C221 | Loading committed checkpoints | Cherry: refinement of the tree of checkpoints (each kept checkpoint with its path from the head) through a relation preserved by creation, loading and both kinds of commit (`keep_rep`: restriction to the last snapshot and what follows; `batch_of`: what is saved is self-contained); the tables are an ordered list of windows and runs (`WinsOk`, `Cover`), from which exactly one window is found for each index. | partial | For loaders opened after preTeardown. Violated before it: the checkpoints of the last tick are missing (witness). |
| C222 | Replaying committed checkpoints | Cherry: refinement of the tree of checkpoints (each kept checkpoint with its path from the head) through a relation preserved by creation, loading and both kinds of commit (`keep_rep`: restriction to the last snapshot and what follows; `batch_of`: what is saved is self-contained); the tables are an ordered list of windows and runs (`WinsOk`, `Cover`), from which exactly one window is found for each index. | proved |  |
| C223 | Transactions written to a pipeline database are read back | Argos: the bytes of each kind of record are parsed back (`record_read`, by induction on the fields; `records_read`, by induction on the records), the text files line by line (`Parse`: the maps built contain exactly the schema of the records written); the index file is the list of sizes of what was written before each index (`marks`), so that every position found is the boundary of a record (`findPos_eq`, `findPos_live`); with times from the collector (`Timed`) the records between two indexes are those whose ends lie between (`between_timed`). | partial | For the first Outputter of a process, if some value has a string, and names and strings have no colons or line breaks, values fit their sizes and there is one string per value. Violated: a database without strings cannot be opened; that of a second Outputter cannot be read (witnesses). |
| C224 | A window of a pipeline database holds the transactions of its time | Argos: the bytes of each kind of record are parsed back (`record_read`, by induction on the fields; `records_read`, by induction on the records), the text files line by line (`Parse`: the maps built contain exactly the schema of the records written); the index file is the list of sizes of what was written before each index (`marks`), so that every position found is the boundary of a record (`findPos_eq`, `findPos_live`); with times from the collector (`Timed`) the records between two indexes are those whose ends lie between (`between_timed`). | partial | For ends up to 2^64 minus an interval. Violated: the documented inclusion of transactions that end at start; a range up to the last tick is empty (witnesses). |
| C225 | First and last cycle of a pipeline database | Argos: the bytes of each kind of record are parsed back (`record_read`, by induction on the fields; `records_read`, by induction on the records), the text files line by line (`Parse`: the maps built contain exactly the schema of the records written); the index file is the list of sizes of what was written before each index (`marks`), so that every position found is the boundary of a record (`findPos_eq`, `findPos_live`); with times from the collector (`Timed`) the records between two indexes are those whose ends lie between (`between_timed`). | partial | The last cycle, if the ends of the transactions do not decrease. Violated: the first cycle is the start of the transaction written first (witness). |
| C226 | Texts of the values of pair transactions | Argos: the bytes of each kind of record are parsed back (`record_read`, by induction on the fields; `records_read`, by induction on the records), the text files line by line (`Parse`: the maps built contain exactly the schema of the records written); the index file is the list of sizes of what was written before each index (`marks`), so that every position found is the boundary of a record (`findPos_eq`, `findPos_live`); with times from the collector (`Timed`) the records between two indexes are those whose ends lie between (`between_timed`). | partial | For values below 2^64-1 that fit their sizes, one string per value, no colons. Violated otherwise (witnesses). |
| C227 | Reading a pipeline database while it is written | Argos: the bytes of each kind of record are parsed back (`record_read`, by induction on the fields; `records_read`, by induction on the records), the text files line by line (`Parse`: the maps built contain exactly the schema of the records written); the index file is the list of sizes of what was written before each index (`marks`), so that every position found is the boundary of a record (`findPos_eq`, `findPos_live`); with times from the collector (`Timed`) the records between two indexes are those whose ends lie between (`between_timed`). | partial | For windows before the last but one index, locations, kinds and strings known when the database was opened, and a transaction after the last index. Violated otherwise (witnesses). |
| C228 | A RegisterBits shows its data and modifies its own copy | RegView: refinement between objects with pointers into two storages and buffers, and objects that own a value, view a buffer or write a buffer (`ORel`); `convert_` and the write are two steps of the relation (`convert_rel`, `put_rel`). Constant data and independence are frame theorems without conditions on the calls (`step_bufs`, `step_frame`). | partial | For data handed over as constant. Violated: data handed over by a pointer that is not constant is changed in place, and setting more bytes than the size changes what follows (witnesses). |
| C229 | Copies of a RegisterBits are equal and independent | RegView: refinement between objects with pointers into two storages and buffers, and objects that own a value, view a buffer or write a buffer (`ORel`); `convert_` and the write are two steps of the relation (`convert_rel`, `put_rel`). Constant data and independence are frame theorems without conditions on the calls (`step_bufs`, `step_frame`). | partial | Violated: copies of objects made for up to 8 bytes of data that is not constant show uninitialised bytes (witness). |
| C230 | Moving a RegisterBits hands its bytes over | RegView: refinement between objects with pointers into two storages and buffers, and objects that own a value, view a buffer or write a buffer (`ORel`); `convert_` and the write are two steps of the relation (`convert_rel`, `put_rel`). Constant data and independence are frame theorems without conditions on the calls (`step_bufs`, `step_frame`). | partial | Violated: objects made for data that is not constant lose it when moved (witness). |
| C231 | A checkpoint file restores what was saved | PFile: the writer emits `body` of the lines, and the reader is run over it by induction on the lines (`restoreLoop_spec`), also when cut (`restoreLoop_cut`: a short index, a short line or a missing mark each make the next control character fail). That memories keep their parameters and stay well formed is an invariant of all calls, including restores of arbitrary bytes (`all_step`); reads depend only on parameters and bytes. After restores before the first checkpoint the relation of the Checkpoint component holds initially. | proved |  |
| C232 | A checkpoint file that was cut short is refused | PFile: the writer emits `body` of the lines, and the reader is run over it by induction on the lines (`restoreLoop_spec`), also when cut (`restoreLoop_cut`: a short index, a short line or a missing mark each make the next control character fail). That memories keep their parameters and stay well formed is an invariant of all calls, including restores of arbitrary bytes (`all_step`); reads depend only on parameters and bytes. After restores before the first checkpoint the relation of the Checkpoint component holds initially. | partial | Every proper prefix is refused. Violated: the memories are not left as they were (witness). |
| C233 | Checkpoints created after a file was restored | PFile: the writer emits `body` of the lines, and the reader is run over it by induction on the lines (`restoreLoop_spec`), also when cut (`restoreLoop_cut`: a short index, a short line or a missing mark each make the next control character fail). That memories keep their parameters and stay well formed is an invariant of all calls, including restores of arbitrary bytes (`all_step`); reads depend only on parameters and bytes. After restores before the first checkpoint the relation of the Checkpoint component holds initially. | partial | For files restored before the first checkpoint and histories covered by C49. Violated: a delta checkpoint created after a restore leaves out the restored lines (witness). |
| C234 | Views of architectural data read back what was written to them | DView: a typed access of a line is characterised as the value of its bytes in the order (`lineRead_eq`, `lineWrite_eq`, on top of ByteOrder); histories keep all bytes outside the views written through (`run_frame`); texts by induction on words with `hex_num`. | partial | Not for big-endian int16_t. Violated: big-endian int16_t is not read back; assigning overlapping views is undefined (witnesses). |
| C235 | Padded reads and truncating writes stay in their view | DView: a typed access of a line is characterised as the value of its bytes in the order (`lineRead_eq`, `lineWrite_eq`, on top of ByteOrder); histories keep all bytes outside the views written through (`run_frame`); texts by induction on words with `hex_num`. | partial | At index 0, for little-endian reads or types as wide as the view. Violated: at other indexes another view is read and written; narrower types read the wrong bytes or clear the bytes after the value (witnesses). |
| C236 | Texts and initial values of views | DView: a typed access of a line is characterised as the value of its bytes in the order (`lineRead_eq`, `lineWrite_eq`, on top of ByteOrder); histories keep all bytes outside the views written through (`run_frame`); texts by induction on words with `hex_num`. | proved |  |
| C237 | Counting set bits | BHist: each step of the bit count keeps the sum of fields (`fsum_pairs`) while no field overflows (`pairs_small`), by induction on the number of fields; the last steps by linear arithmetic on bytes. Histograms: `counts_iff` characterises the place of the upper bound, then induction over the added values. | proved |  |
| C238 | Every value added to a basic histogram is counted once | BHist: each step of the bit count keeps the sum of fields (`fsum_pairs`) while no field overflows (`pairs_small`), by induction on the number of fields; the last steps by linear arithmetic on bytes. Histograms: `counts_iff` characterises the place of the upper bound, then induction over the added values. | partial | Violated without buckets: adding a value is undefined (witness); proved with at least one. |
| C239 | Counters of a basic histogram hold what they are described as | BHist: each step of the bit count keeps the sum of fields (`fsum_pairs`) while no field overflows (`pairs_small`), by induction on the number of fields; the last steps by linear arithmetic on bytes. Histograms: `counts_iff` characterises the place of the upper bound, then induction over the added values. | partial | Holds for values that are bucket values or below the first. Violated for all values between bucket values: the counter below is charged (witness). |
| C240 | Signals arrive once in their cycle | SigPort: an invariant of each in port (`Good`: waiting cycles are not past, the event has not fired in a cycle it waits for, calls of the event are in order) kept by every call (`ok_step`); each call changes an in port in one of five ways (`change_step`), from which the histories follow by induction. | partial | For delays below 2^32. Violated: longer delays are cut to 32 bits; a port can receive the event and a direct call in one cycle; a refused send has reached some ports (witnesses). |
| C241 | What a signal in port holds | SigPort: an invariant of each in port (`Good`: waiting cycles are not past, the event has not fired in a cycle it waits for, calls of the event are in order) kept by every call (`ok_step`); each call changes an in port in one of five ways (`change_step`), from which the histories follow by induction. | proved |  |
| C242 | Interned strings can be compared by pointer | Intern: the map is sorted by key, pointers are in range and belong to one entry (`Inv`); the entries after a history are those before and one for each string interned, with the pointer that call returned (`run_spec`), from which all theorems follow. | partial | That the pointer is to an equal string holds as long as the caller does not assign to it, which the type of the pointer allows (witness). |
| C243 | Interned strings are counted and listed once | Intern: the map is sorted by key, pointers are in range and belong to one entry (`Inv`); the entries after a history are those before and one for each string interned, with the pointer that call returned (`run_spec`), from which all theorems follow. | partial | The number modulo 2^32; the columns for strings shorter than 2^31 - 4. |
| C244 | A state histogram counts each cycle for the state it was spent in | StHist: an invariant of all counters against a log of the state of each cycle (`Ok`, `BinOk`) is kept by every allowed call (`tick_ok`, `change_ok`); the sum over all counters by induction on the log (`sum_count`). | partial | Proved for histories in which states are values of the enumeration and the state is not set in a cycle in which the next state was changed. Violated: enumerations of one value are refused; after setNextState the current cycle is counted before it ends; setState after setNextState in the same cycle throws; a refused value leaves a histogram that counts nothing (witnesses). |
| C245 | Names and values of an enumeration | EnumT: what one construction leaves in the array of names (`setNames_spec`) and then all (`run_spec`), the search loop by induction (`search_spec`); histograms by an invariant against the list of values added (`HOk`, `add_ok`), running sums by induction on the bins (`sums_spec`). | partial | Values are got back from names that only they have; the size for enumerations that start at 0. Violated: two values can have one name, values without names are found by the empty name, the size counts from 0 (witnesses). |
| C246 | A histogram over an enumeration counts each value once | EnumT: what one construction leaves in the array of names (`setNames_spec`) and then all (`run_spec`), the search loop by induction (`search_spec`); histograms by an invariant against the list of values added (`HOk`, `add_ok`), running sums by induction on the bins (`sums_spec`). | partial | For enumerations of at least two values; C246_make shows that one value is refused. |
| C247 | Each context of a counter has what was charged to it, and the aggregate is their sum | Induction over histories gives contexts and weights as functions of the history (charged, weightsOf). The aggregate: the generated names are those of the contexts and decimal numerals are different for different numbers, so each name finds its context. Averages by induction over contexts and weights. | proved | For at least one context; the constructor is undefined for none. |
| C248 | Weighted average and maximum of contexts | Induction over histories gives contexts and weights as functions of the history (charged, weightsOf). The aggregate: the generated names are those of the contexts and decimal numerals are different for different numbers, so each name finds its context. Averages by induction over contexts and weights. | partial | In exact arithmetic. The average lies between the contexts if the weights are not negative and add up to the number of contexts; violated for others, as the sum of the weights is not divided by (witness). The maximum is right once something is charged; before, it is the least positive double and not 0 (witness). |
| C249 | A global ordering point orders the events of all blocks that use its name | GOP: every history is translated to a history of the graph; an invariant says that events and names have different vertices and that the precedences of the graph are exactly those said about events and names. C08 and C09 are then used for the graph. | partial | Without early cycle detection and before finalization. That every name can be used is violated: the names of the seven phases denote the points of the phases (witness). |
| C250 | Exponential backoff | Backoff: by induction over the encounters, the threshold is the least power not yet reached. | partial | Holds for multipliers of at least 2 up to the last power below 2^32. Violated beyond: the 32-bit threshold overflows, with multiplier 2 to 0, so that the action is performed at every encounter (witnesses). With multiplier 1 it is performed at every encounter that is no multiple of 2^32. |
| C251 | Registers are found in exactly the banks they belong to | RegBank: simulation of the list of accepted registers; the content of each group of each bank is the filtered list. | partial | For registers that name no bank twice. Violated otherwise: adding such a register fails in an internal assertion after it was put into the bank, where it is found (witness). |
| C252 | The counts of a bank table are those of its registers | RegBank: simulation of the list of accepted registers; the content of each group of each bank is the filtered list. | partial | For registers that name no bank twice; the number of registers modulo 2^32. Requiring the bank with the largest index makes no bank (witness). |
| C253 | Binding two buses binds every port to its equivalent, or nothing | Bus: the maps made from the ports are characterised by induction over the ports; names by the theorem on strip_string_pattern (C74). | partial | For data ports that are not yet bound. That nothing is bound after a failure holds if equivalent ports have the same type; violated otherwise: the ports before the first mismatch stay bound (witness). |
| C254 | An exported port stands for the one port of its internal name | ExPort: the search is characterised by mutual induction over trees and lists of trees; the choice by cases on the number of matches. | partial | That there is no other candidate holds if the exported port has the internal name and lies below the search path. Violated otherwise: of two ports of the internal name the last is taken (witness). |

## Findings: where the code does not do what its documentation or a user expects

Those marked (T) are theorems with a witness; the others were found while reading and lie outside the model.

Scheduler
* (T) The stop event of an earlier inexact run stays in the queue and cuts a later run short.
* (T) After an exception from a handler, the documented recovery leaves the current group non-zero, so zero-delay requests are rejected.
* (T) An asynchronous zero-delay request for an earlier group throws out of `run`, and the list is not cleared.
* (T) `getElapsedTicks` is wrong after `restartAt(t)` with t > 0. (T) A unique event can run twice in a tick after cancel and reschedule.
* (T) `isScheduled` sees entries of the current group that already fired (so does `addEventIfNotScheduled`); `cancel` does not lower the latest continuing tick.
* Payload events: (T) `cancel(0)` and `isScheduled(0)` after a delivery in the same cycle see the entry that already fired; when its proxy was reused, another payload is lost, the event throws "deliver twice" later, or a third payload is delivered early. (T) cancelling, or giving up the last handle, inside the handler destroys the handler's own argument. (T) `cancel(rel_cycle)` returns the number in flight. (T) moved or self-assigned handles lose their payload. Proxies allocated before finalization keep group 0; `setContinuing` does not reach proxies already allocated.
* Clocks: (T) products of ratios above 2^32 give wrong periods without an error. (T) `getAbsoluteTick(c)` is a tick of cycle c-1, and wraps for cycle 0.
* Sync ports: `couldAccept_` (SyncPort.hpp 859) passes the current tick as a delay, so (T) `isReady` is true although a send throws. Data that finds the receiver not ready waits 1 + port delay cycles (the documentation says 1), so (T) later data overtakes it, and (T) it is lost if that cycle is taken. (T) From a slow to a fast clock a second send with sliding in one cycle throws but is delivered, and computeNextAvailableCycleForSend reports the current cycle although sends throw. isDriven() answers for a send of delay 0, not whether something is in flight.
* Registers: (T) `RegisterBits::none` compares the bytes with themselves shifted by one, so it is true for all-ones and for every single byte; hence (T) writing 0x0202020202020202 to a one-bit field of an 8-byte register is accepted and overwrites the other fields. (T) `<<=` moves words in place in the wrong order; hence (T) fields of 32-byte registers with low bit 64..127 use bits 192.. instead. (T) `>>` of more than 8 bytes shifts an `int` by up to 63 and leaves the array for large shifts. (T) `Register::writeUnmasked<T>(v, idx)` takes a byte offset and notifies nobody. Writes of 3 bytes are undefined (T). Not modelled: adding a read-only field after construction does not update the write mask; reset() without an initial value dereferences null; subset registers neither mask nor notify for the register they are part of; the masks of invalid fields are computed, with undefined shifts, before they are rejected.
* SimpleMemoryMap: (T) the range test of addMapping adds in 64 bits, so a mapping can reach outside its interface; (T) verifyHasMapping wraps likewise; (T) block sizes that are not powers of two are accepted and checked with the next lower power; (T) block sizes from 2^31 on shift an `int` too far.
* Memory interfaces: (T) a poke over several blocks that fails at an unmapped one has already written the blocks before it. (T) `getDMI` on a memory asserts on addresses outside it instead of returning null; (T) on a map it returns an interface in the addresses of the memory; (T) after `invalidateAllDMI` the invalid interface is returned for ever. (T) accesses whose end wraps around 2^64 pass the window check. (T) a failed write is counted behind a map only when the map is not observed. A failed write throws MemoryReadError; writes through a DMI do not mark the line dirty, and an invalid DMI still allows peeks and pokes; `out_supplement` is not set before read notifications.
* CachedMemory: (T) a poke of a block that is not cached pokes a block of zeros downstream (the code calls `poke` where a write calls `peek`) and destroys the block; (T) a commit or device write merged into a cache that does not hold the block makes a line of zeros there, so the cache shows 0 for the other bytes; (T) a poke over a pending write is undone by a later drop; (T) a poke is not seen by other caches that hold the block; (T) a commit that downstream memory refuses (smaller blocks) is dropped silently; (T) a device write over two blocks of a cache throws.
* Counters: (T) a Counter wraps at 2^64, the documented overflow detection does not exist.
* Histograms: (T) a histogram of all 64 bit numbers with width 1 is accepted and has no bins, every value throws; (T) the name of the last bin wraps near 2^64. In a CycleHistogram a second addValue or setValue in the same cycle fails an assertion.
* Data ports: (T) the total delay of a send is kept in 32 bits, a delay of 2^32 arrives at once; (T) a send without delay in the phase of the in port overtakes data sent earlier for that cycle; (T) a send that is refused by one in port was already given to those bound earlier; (T) cancel on an out port takes away data sent through other out ports; (T) cancel in a handler counts the argument of the handler; (T) isDriven(0) says yes after a delivery in this cycle when other data is on its way; (T) binding overwrites setContinuing of the in port. setContinuing after the first send does not concern the payload proxies already allocated (16 at a time, copied from the prototype; not modelled).
* Parameter trees: (T) exists of an inner node is true at depth one and false deeper; (T) a tree with a value at a node that got children before cannot be copied or merged; (T) a failing merge leaves a part behind; (T) self-assignment empties the tree; (T) a value written over a read one is not reported as unread; (T) get("") does not count as a read; (T) set with required=false does not clear an earlier requirement; (T) unrequire of a subtree misses paths covered by an older pattern; (T) a set that fails for an empty name leaves nodes behind that change isRequired of other paths; (T) chained operator[] throws where get finds a value; (T) the characters | ^ $ { } and backslash in names act as regular expressions. The read count of a node goes up several times per lookup; exists and hasValue count as reads.
* Notifications: (T) an observer of a list of names misses sources made after it registered; (T) sources directly under the virtual global node call its observers twice or never; (T) public observers get private sources attached later, and are still called after deregistering from a subtree that became private; (T) a malformed list of names fails but leaves an observer that cannot be removed; (T) ensure_possible refuses lists; (T) a comma at the end of a list observes everything; (T) a source attached below an observer makes no callback; (T) an observer that logs makes the destination drop the message it was called for. A moved-from LogObject still writes its message: both the old and the new object emit.
* Counter triggers: (T) a callback that deactivates another trigger of its clock that is still to be looked at makes the tick throw; (T) one that sets and then deactivates its trigger makes the next tick throw; (T) taking the last trigger of a clock off the manager outside its tick deletes the handler while its event is pending, and the next tick calls into it; (T) so does destroying a trigger that has run when no other is active; (T) a trigger deactivated before startup runs, one set before startup makes the startup throw; (T) self-assignment switches a trigger off. By reading only: operator= does not copy the weak reference to the counter.
* Cycle triggers: (T) a trigger that was relative once and then gets `setAbsolute` runs after the old relative delay (the flags of the earlier preparation are never cleared); (T) after both kinds of preparation `set` throws for ever. (T) An absolute cycle that is over is documented never to occur, but the unsigned difference wraps and the event is inserted before the present tick. (T) An aligned trigger with delay 0 divides by zero. (T) `set` after `deactivate` while the old event is pending is documented as forbidden but not refused: the callback runs at the old time, not at the new one. (T) In the callback only `set` works; `prep...`, `alignRelative`, `setRelative` and `setAbsolute` throw. (T) `deactivate` before startup has no effect. Not modelled: destroying a trigger whose event or startup handler is pending leaves a call into a deleted object (`Trigger::setTriggerStart...` called twice does that); `Trigger::forceStopRecurring` inside the repeat callback is undone after it returns.
* Device tree: (T) `addChild` does not compare the group and index of the new child, under which it is entered too, with what is there: whether two nodes can be siblings depends on their order. (T) A child that has a parent is entered in the children of the second one before the assertion fails. (T) The destructor leaves the entry under group and index: `getChild` returns a destroyed node. (T) An orphan attached to a new parent: `getLocation` fails its assertion. (T) `findChildren` returns the replacements of the levels below the first in reverse order. (T) `locationMatchesPattern` disagrees with `findChildren` for group names and leading dots. (T) `validateName` accepts "ab__cd" and "ab__", documented as invalid. (T) `getDeepestMatchingPath` of an existing path repeats the last name, and dereferences a null parent for a leading dot at the top. (T) Privacy levels of unrelated private subtrees are compared as numbers.
* Parameters: (T) a modifier callback that throws leaves the set locked for ever. (T) `operator<<`, `restoreValueFromDefault`, items, resizing and clearing do not look at the lock: callbacks change earlier parameters by them. (T) Of the parameters announced for modification only the first is checked; the list is never consulted. (T) Only a SpartaException undoes an assignment; (T) one that is undone has counted as a write. (T) Item writes and resizings change the vector before they throw (after a read, for bad text, for too many indices). (T) Clearing and resizing check neither reads nor phase, clearing not even the lockdown. (T) Overriding a default after a read throws after changing it; resized and cleared defaults do not count as overridden. (T) Non-empty vectors of strings are never `isDefault`, because value and default are printed with different quotes, and a different vector can be. (T) Validation callbacks share one mutable copy of the value. (T) Writing is accepted in a finalized tree. By reading only: `getValueAsStringAt` past the end counts a read before it throws; a parameter without a set dereferences a null set when written; index 2^32-1 wraps in resizing.
* Statistics: (T) `accumulateStatistic` counts from the last start before it, not the first. (T) A start that throws has already reset the window. (T) `getRawLatest` of a statistic with an expression depends on the window. (T) Assigning an instance without an expression keeps the old expression; (T) a moved one loses its sub-statistics. By reading only: a calculator given by the user is never used to compute the value; assignment copies neither it nor the snapshot loggers; after a rollback and replay an ended window returns the value of the first run; an expression in a report definition that names a statistic of the report gets an empty expression.
* Reports: (T) a moved report finds nothing by its name. (T) Assignment does not clear the names: a common name throws, an old name is reported as present and its lookup dereferences the end of the list. (T) Self-assignment loses all statistics. (T) Copying a report that has a statistic with sub-statistics throws or adds them again. (T) Adding a statistic to a report without a scheduler, or whose sub-statistics clash, throws after adding it.
* Pipeline collection: (T) starting a collectable that has an open record loses what was collected before; (T) `initialize` on an open one changes the value shown for the past, and before the start is never shown; (T) annotations of 65536 characters are written empty. (T) Stopping and starting again truncates the file, and at a multiple of the interval puts one entry too many into the index. (T) `destroy` at a multiple of the interval throws when a value is open; (T) a value that began in the same tick is lost; (T) collecting after it throws. (T) `stopCollection()` leaves `isCollectionActive` true; (T) collectables of pairs lose the open record when stopped, and follow a null pointer when collected before the start. (T) The end of one `collectWithDuration` ends a later value.
* State timers: (T) entering a state outside its enum class is refused only after the current state has been given its time, so that time is counted twice; (T) a state entered in cycle 0 cannot be followed by another one without leaving it first; (T) an enum class the unit was not made for is accepted if its hash ends in the same 32 bits; (T) a query splits the time of a timer into several histogram values; (T) a unit made with no timers takes the back of an empty vector. The limit of 10000 timers can be passed by up to the number made at once.
* States: (T) the marker threshold is the number of markers that may be missing, not the documented minimum that must call in; (T) a joint transition and a reset are not told to the tracker, so ticks go to the wrong value; (T) living states are missing from the residency report, with the time of earlier states whose tracker they reuse; (T) getRawAccumulatedTime includes the time of earlier states; (T) making a state after the report uses a freed pool; (T) a monitor is signalled for every marker, not when the transition is due; (T) a monitor that resets the state leaves a marker that cannot be cleared; (T) State<bool>(true) starts as false; (T) isSet is false for the initial value.
* Unique events: (T) an asynchronous request bypasses the check and the event fires twice in a tick; (T) after a restart at the tick it fired in last, a request is refused. Single cycle unique events: (T) in tick 0 a request for the present cycle after one for the next is lost; (T) after cancel() requests for the same cycles are ignored; (T) called at ticks that are not ticks of its clock, or after a restart at an earlier tick, it fires twice in a tick.
* Tree filter expressions: (T) `type:statdef` and `type:statisticdef` are refused, as `stat` and `statistic` are tried first; (T) `(tag:foo)` and `name:a^^name:b` are refused, as parentheses and ^ are characters of patterns; (T) `-` is refused in patterns, also in quotes: in the set of characters `\-\` is a range of one backslash; (T) `vis:1 0 k` is 10000, `vis:010` is 8, `vis:0xff` is refused; (T) blanks after an opening quote are dropped; (T) `not not true` and `NOT true` are refused; (T) `!= vis:x` is false for nodes that are no instrumentation, as `== vis:x` is; (T) `a && b`, `a || b` and `!a` change `a`; (T) after `a &= a`, evaluating `a` throws; (T) a pattern that is no regular expression throws even when compared with == (C218_throws).
* (T) Committing checkpoints: after deleting a checkpoint that is kept for others, every commit fails an assertion; checkpoints discarded by a forced commit stay in the numbers of checkpoints and snapshots; a loader opened before preTeardown misses the checkpoints of the last tick, though getNumCheckpoints counts them.
* (T) Pipeline database: a database in which no value of a pair transaction has a string cannot be opened (one file is empty); the sets of known locations, kinds and strings are static, so the second Outputter of a process leaves them out of its files; a string or a name with a colon is cut or makes the database unreadable; values that do not fit their size are cut; 2^64-1 is shown as an empty text; one string is shown for equal values even if others or none were given; a window to the last tick is empty; transactions that end exactly at the start of a window are documented as included but are not if it is a multiple of the interval; getCycleFirst is the start of the transaction that ended first; on updates the size of the record file is rounded down to a multiple of the number of ticks of an interval, new locations make windows throw, and an index without a transaction after it makes all windows empty.
* (T) RegisterBits: an object made for data by a pointer that is not constant changes that data in place, though the class says it is copied; its copy (up to 8 bytes) shows uninitialised bytes; its move has a null pointer (above 8 bytes) or shows uninitialised bytes; set of a wider type writes beyond the object.
* (T) PersistentFastCheckpointer: restore() clears the dirty flags of the lines it changes without making a checkpoint the base of the next one, so a delta checkpoint created afterwards misses the restored contents and loading it brings back older data (C233).
* (T) PersistentFastCheckpointer: a restore that throws has already cleaned and overwritten memories (C232). Line bytes and indexes that are cut short are applied before the error is noticed.
* (T) DataView: readPadded and writeTruncated at an index other than 0 scale the index by the width chosen from what is left of the view instead of that of the type: uint16_t at index 2 of a view of 8 bytes accesses 4 bytes after the view, and so writes its neighbour (C235). If what is left is not a power of 2 an assertion fails. Narrower types read the wrong half of big-endian views and clear the bytes after the value.
* (T) DataView: assigning overlapping views is a memcpy of overlapping bytes, which is undefined; the stated preconditions do not exclude it (C234).
* (T) BasicHistogram: values between two bucket values are charged to the lower one, but the descriptions of the counters (and the example of the class) say the upper one (C239). Without buckets addValue is undefined (C238).
* (T) SignalPort: the total delay is kept in 32 bits, so a send 2^32 cycles ahead is received now; a port that waits for its event in this cycle also receives a direct call by a sender in its phase, so its handler runs twice; a send that is refused by one in port has already reached the ports bound before it (C240).
* (T) StringManager: `internString` returns a pointer to a string that is not const; assigning to it makes the pointer for a string one to a different string (C242).
* (T) StateHistogram: the constructor refuses enumerations of one value (C244).
* (T) StateHistogram: `setNextState` counts the current cycle at once, so until it ends the counters add up to one cycle too many (C244).
* (T) StateHistogram: `setState` throws in a cycle in which `setNextState` changed the state, also if it would take the change back (C244).
* (T) StateHistogram: a value outside the enumeration is refused only after the counter of the state was stopped; afterwards no counter counts and every change of the state throws (C244).
* (T) Enum: two values can be given one name, and values without a name are found by the empty name (C245).
* (T) Enum: `size` is `__LAST`, and `populateNames` starts at 0, also if `__FIRST` is not 0 (C245).
* (T) EnumHistogram: the constructor refuses enumerations of one value (C246).
* (C248) `WeightedContextCounter` divides the weighted sum by the number of contexts and not by the sum of the weights: with weights 1 and 3 the average of two contexts that both have 2 is 4. Its maximum starts from `numeric_limits<double>::min()`, the least positive normal number, so the maximum of contexts without counts is not 0. A `ContextCounter` without contexts takes `front()` of an empty vector.
* (C249) Global ordering points are looked up in the same map as the points of the phases, so a point named like a phase ("Tick", "Update", ...) is the point of that phase: using it to order two events of phase Tick makes a cycle.
* (C250) `SPARTA_EXPONENTIAL_BACKOFF` multiplies its 32-bit threshold without a check: with multiplier 2 it is 0 after encounter 2^31 and the action is then performed at every encounter; with multiplier 10 it is performed at encounters 1410065408 and 1410065409.
* (T) A register whose bank membership names a bank twice passes all checks of `RegisterBankTable::addRegister`, is put into the bank and then fails in the assertion of line 513 (the comment says it should never throw); the register stays in the table without being counted.
* (T) `setMinimumBankIndex` with the largest index overflows to 0 and does nothing.
* (T) `Bus::bind` is documented to bind all ports or none, but if the data of two equivalent ports differ in type it throws in the middle and the ports before stay bound.
* (T) An exported port with a name of its own takes the last of two ports of its internal name without an error; three are refused.

Resources
* Buffer: (T) in infinite mode, insert before the end followed by growth corrupts contents; (T) stale iterators become valid when the slot is reused; (T) `insert(end())` always throws. Capacity 0 underflows.
* CircularBuffer: (T) insert into a full buffer exceeds the capacity for ever; (T) after 2^32 + capacity appends every read throws; (T) past-the-end iterators become valid; (T) `<` and `>` are reversed.
* Queue: (T) iterator ids are truncated to 32 bits. Array: getNextOldestIndex with a stale index returns the oldest.
* FrontArray: (T) `readValid` does not return when a position at or below n is free.
* Pipe: (T) `flushIf` of the appended item decrements the valid count wrongly. `writePS(uint32_t(-1))` counts twice.
* Pipeline: (T) invalidating the stalling stage leaves the stall active; (T) the end of a stall re-enables handlers that were deactivated; (T) an item stuck behind a stall with bubble crushing runs its handler every cycle; (T) default precedence skips stages whose handlers are all in another phase. `flushAllStages` does not flush the append slot.
* SharedData: (T) two writes in a cycle lose the data; (T) copies made between write and update never show the value; (T) an assigned object updates through a destroyed temporary.
* Scoreboard: (T) clearing a register with an update in flight leaves the view ready; (T) views created late show wrong registers; (T) undefined latencies never update; (T) printBitSet does not close a range that reaches bit 511.

Utilities
* (T) lcm(0,0) divides by zero; (T) safe_power misses overflows; (T) Rational absolute difference from half the range on; (T) byte_swap of negative int16_t; (T) BitArray assignment shares storage. Large BitArray shifts are undefined.
* (T) BoundedValue does not check the lower bound against the type, `+=` overflows; (T) bounded_int with mixed signs; (T) LockedValue can be written through its non-const reference; (T) ValidValue compares with invalid values. A moved-from ValidValue stays valid.
* (T) strip_whitespace and tokenize_strip_whitespace throw on blank input; (T) replaceSubstring with an empty pattern never ends; (T) LevenshteinDistance is not the edit distance.
* (T) smartLexicalCast: wraps at 2^64 after the unit, leading zeros are octal after a fraction or separator ("019" is 10), fractions with zeros fail, int8/int16 are not range-checked, the smallest int64 fails.
* (T) Tag: children of copies equal children of the original, and duplicates after the global number is reset.
* (T) TieredMap with node size 1 never returns. Node sizes of 2^31 and more overflow; 0 is accepted.
* (T) Weak pointers: `lock()` on an expired pointer resurrects the object, destroys it twice or uses freed memory; (T) with watermark equal to the maximum the over-allocation callback is never called; (T) a throwing constructor loses a reused block.

Caches
* (T) With two non-temporal ways the most recently filled one is offered; (T) strides above the line size and set counts that are not a power of two make blocks share tag and index; (T) a write miss without allocation that crosses a line is not rejected. invalidateAll does not clear the non-temporal flags; LRUReplacement::reset does nothing.

Memory and checkpoints
* ArchData: (T) accesses that end past the size are accepted; (T) a subset offset near 2^64 lands on an unrelated segment; (T) mutual subsets recurse without end; (T) the waste counter overflows; (T) updateFrom skips lines the source never touched. Fill with offset 0 and line size 0 shift by the full width; raw pointers dangle after clean or load.
* Checkpoints: (T) clean, raw writes or forgetCurrent between checkpoints make deltas restore wrong bytes; (T) deleting the current checkpoint and then a sibling frees deltas that are needed; (T) deleted ids are still found and loadable; (T) threshold 1 alternates snapshots and deltas; (T) the chain is in the reverse of the documented order. Deleting the head does not throw, deleting the current one does not move back.


## Mutation log

seeded/LOG.jsonl has one line per wrong program tried: the definition edited, the edit, the claim it breaks, the
theorems that failed and the theorems tightened. What a line shows is limited: it records that the build failed, and
a helper lemma that follows the shape of the model can fail although the edit changes nothing a user sees. Where this was noticed
the line says that no claim is broken. For the checkpoint edits the difference was confirmed by running random legal
histories against the specification (`note`). Edits that survived led to new or stronger theorems (`tightened`).
