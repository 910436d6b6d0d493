{"id": "C01", "title": "Events fire exactly at the tick they were scheduled for, ticks never go back", "statement": "While Scheduler::run executes, an event scheduled with relative delay d when the current tick is t fires only when the current tick equals t+d, and the sequence of ticks at which events fire is non-decreasing.", "quantifier": "every set of events, every assignment of delays, priorities and handler behaviours (handlers may schedule further events), every sequence of schedule and run calls", "why_tests_cant": "The order emerges from an unbounded interleaving of handler-driven scheduling; tests only fix a few schedules.", "anchors": ["sparta/sparta/kernel/Scheduler.hpp", "sparta/src/Scheduler.cpp", "Scheduler::scheduleEvent", "Scheduler::determineTickQuantum_", "Scheduler::run"]}
{"id": "C02", "title": "Within one tick events fire in priority order, first-in first-out inside a priority", "statement": "Within a tick, an event whose ordering group is smaller fires before any event of a larger group, and two events of one group fire in the order in which they were scheduled.", "quantifier": "every run, every pair of events fired in the same tick, including events scheduled by handlers during that tick", "why_tests_cant": "Needs every interleaving of handler scheduling; a test observes one order.", "anchors": ["sparta/sparta/kernel/Scheduler.hpp", "sparta/src/Scheduler.cpp", "Scheduler::run", "Scheduler::TickQuantum::addEvent"]}
{"id": "C03", "title": "No scheduled event is lost and none fires twice", "statement": "The multiset of (event, tick) pairs that fired together with those still pending equals the multiset of accepted schedule requests: each accepted request fires once or remains pending for a tick not yet reached.", "quantifier": "every history of schedule/run calls and handler behaviours", "why_tests_cant": "Loss or duplication could hide in any rare interleaving; conservation is a statement about all histories.", "anchors": ["sparta/sparta/kernel/Scheduler.hpp", "sparta/src/Scheduler.cpp", "Scheduler::scheduleEvent", "Scheduler::run"]}
{"id": "C04", "title": "Scheduling backwards in the current tick is rejected", "statement": "Scheduling with zero delay an event whose group is smaller than the group being fired throws, and otherwise a zero delay request made during firing is accepted and fires later in the same tick.", "quantifier": "every state during firing, every event and group", "why_tests_cant": "Depends on the exact firing position; tests check a few positions.", "anchors": ["sparta/sparta/kernel/Scheduler.hpp", "sparta/src/Scheduler.cpp", "Scheduler::scheduleEvent"]}
{"id": "C05", "title": "Cancelled events never fire and cancelling leaves other events alone", "statement": "After cancelEvent(e), no pending occurrence of e fires unless e is scheduled again, and every other pending event fires exactly as it would have without the cancel.", "quantifier": "every pending set, every cancelled event, every handler behaviour", "why_tests_cant": "Requires comparing two full executions for every pending set.", "anchors": ["sparta/sparta/kernel/Scheduler.hpp", "sparta/src/Scheduler.cpp", "Scheduler::cancelEvent", "Scheduler::isScheduled"]}
{"id": "C06", "title": "run(n) with an exact run advances the clock by exactly n ticks", "statement": "A call run(n, exacting=true) that is not interrupted leaves the current tick exactly n larger than before, whatever events were pending.", "quantifier": "every n > 0, every pending set of events, every prior history of run calls", "why_tests_cant": "A leftover of one run call influences a later one only for particular histories.", "anchors": ["sparta/sparta/kernel/Scheduler.hpp", "sparta/src/Scheduler.cpp", "Scheduler::run", "Scheduler::getCurrentTick"]}
{"id": "C07", "title": "A run only stops early when no continuing event is left", "statement": "Scheduler::run without tick limit returns only when the queue is empty or every remaining event is later than the latest continuing event; it never returns while a continuing event is due, and a run limited to n ticks fires every event due in those n ticks.", "quantifier": "every mix of continuing and non continuing events, every handler behaviour and history of runs", "why_tests_cant": "Requires all mixes and histories.", "anchors": ["sparta/sparta/kernel/Scheduler.hpp", "sparta/src/Scheduler.cpp", "Scheduler::run", "Scheduler::stopRunning", "Scheduler::isFinished"]}
{"id": "C08", "title": "Ordering groups respect every declared precedence", "statement": "When finalizing succeeds, for every precedence a before b that was declared, the ordering number given to a is strictly smaller than the one given to b, and every ordering number does not exceed the reported number of groups.", "quantifier": "every finite set of event nodes and every set of precedence links", "why_tests_cant": "The number of graphs is infinite; tests sort a handful.", "anchors": ["sparta/sparta/kernel/DAG.hpp", "sparta/src/DAG.cpp", "sparta/sparta/kernel/Vertex.hpp", "sparta/src/Vertex.cpp", "DAG::sort", "Vertex::link"]}
{"id": "C09", "title": "Finalizing fails exactly for cyclic precedence", "statement": "Sorting the precedence graph throws if and only if the declared precedences contain a cycle.", "quantifier": "every finite precedence graph", "why_tests_cant": "Tests cannot enumerate all cyclic and acyclic graphs.", "anchors": ["sparta/sparta/kernel/DAG.hpp", "sparta/src/DAG.cpp", "sparta/sparta/kernel/Vertex.hpp", "sparta/src/Vertex.cpp", "DAG::sort", "CycleException"]}
{"id": "C10", "title": "detectCycle agrees with the existence of a cycle", "statement": "detectCycle returns true exactly when the graph has a directed cycle.", "quantifier": "every finite graph and every traversal order", "why_tests_cant": "Colouring bugs show only on particular graphs and orders.", "anchors": ["sparta/sparta/kernel/DAG.hpp", "sparta/src/DAG.cpp", "sparta/sparta/kernel/Vertex.hpp", "sparta/src/Vertex.cpp", "DAG::detectCycle", "Vertex::detectCycle"]}
{"id": "C11", "title": "Queue is a bounded first-in first-out sequence", "statement": "For every sequence of push, pop, pop_back and clear accepted by the Queue, size(), read(i), front() and back() return what a plain list of the same operations returns, and push throws exactly when size() equals the capacity.", "quantifier": "every capacity and every history of operations (circular positions wrap arbitrarily often)", "why_tests_cant": "Wrap-around of positions depends on unbounded histories.", "anchors": ["sparta/sparta/resources/Queue.hpp", "Queue::push", "Queue::pop", "Queue::pop_back", "Queue::read"]}
{"id": "C12", "title": "Queue iterators stay attached to their element", "statement": "An iterator to an element of a Queue reports valid and yields that element until exactly that element leaves the queue, and afterwards reports invalid for ever, even if its storage slot is reused.", "quantifier": "every history of operations after the iterator was made", "why_tests_cant": "Slot reuse (ABA) needs arbitrarily long histories.", "anchors": ["sparta/sparta/resources/Queue.hpp", "Queue::QueueIterator::isValid", "Queue::determineIteratorValidity_"]}
{"id": "C13", "title": "Buffer is a bounded sequence with erase in the middle", "statement": "For every sequence of push_back, insert, erase and clear accepted by a Buffer of fixed capacity, size() and read(i) agree with a plain list, later entries shift down after erase, and appending throws exactly when size equals capacity.", "quantifier": "every capacity and every history", "why_tests_cant": "Internal pool and free list states are unbounded.", "anchors": ["sparta/sparta/resources/Buffer.hpp", "Buffer::push_back", "Buffer::insert", "Buffer::erase", "Buffer::read"]}
{"id": "C14", "title": "Buffer storage never aliases two entries", "statement": "Two different live entries of a Buffer never share a storage slot, all slots in use are within the storage, and storage never runs out while size is below capacity.", "quantifier": "every history of operations on a fixed capacity Buffer", "why_tests_cant": "A free list corruption may appear only after a long history.", "anchors": ["sparta/sparta/resources/Buffer.hpp", "Buffer::push_backImpl_", "Buffer::erase", "Buffer::clear"]}
{"id": "C15", "title": "A growing Buffer keeps its contents", "statement": "With makeInfinite, growing the storage never changes the contents: size() and every read(i) after the growth equal those before.", "quantifier": "every history of insert, erase, push_back with an infinite Buffer", "why_tests_cant": "Depends on the operation history before growth.", "anchors": ["sparta/sparta/resources/Buffer.hpp", "Buffer::makeInfinite", "Buffer::resizeInternalContainers_", "Buffer::insertImpl_"]}
{"id": "C16", "title": "Array behaves as an indexed partial map", "statement": "isValid(i) and read(i) return what the last write or erase of position i determines, other positions are untouched, and the number of valid entries equals the number of valid positions.", "quantifier": "every size, every history of write, erase and clear", "why_tests_cant": "All histories.", "anchors": ["sparta/sparta/resources/Array.hpp", "Array::write", "Array::erase", "Array::isValid", "Array::numValid"]}
{"id": "C17", "title": "Aged Array reports true age order", "statement": "In an aged Array getOldestIndex(n) is the (n+1)-th oldest valid entry and getYoungestIndex(n) the (n+1)-th youngest, where the age of an entry is the time of its last write, for every valid n.", "quantifier": "every history of write, erase and clear", "why_tests_cant": "Age order depends on the whole history.", "anchors": ["sparta/sparta/resources/Array.hpp", "Array::getOldestIndex", "Array::getYoungestIndex", "Array::writeImpl_", "Array::erase"]}
{"id": "C18", "title": "CircularBuffer keeps the most recent entries in order", "statement": "After any sequence of push_back (and erase) the CircularBuffer contains, in order, at most its capacity of the most recently appended entries that were not erased; size() never exceeds capacity.", "quantifier": "every capacity, every history including insert", "why_tests_cant": "All histories.", "anchors": ["sparta/sparta/resources/CircularBuffer.hpp", "CircularBuffer::push_back", "CircularBuffer::erase", "CircularBuffer::insert", "CircularBuffer::size"]}
{"id": "C19", "title": "Pipe is an exact delay line", "statement": "An item appended to a Pipe with n stages is in stage k-1 after k updates for k = 1..n, in order with all other items, and is gone after n+1 updates; stages without an appended item are invalid.", "quantifier": "every number of stages, every pattern of appends, stage invalidations and flushes over every number of cycles", "why_tests_cant": "Circular tail arithmetic over unbounded cycles.", "anchors": ["sparta/sparta/resources/Pipe.hpp", "Pipe::append", "Pipe::update", "Pipe::isValid", "Pipe::read"]}
{"id": "C20", "title": "Pipe reports the true number of valid entries", "statement": "numValid() always equals the number of stages whose isValid() is true.", "quantifier": "every history of append, update, shiftAppend, writePS, invalidatePS, flushPS, flushIf, flushAll and clear", "why_tests_cant": "The count is maintained incrementally by many operations.", "anchors": ["sparta/sparta/resources/Pipe.hpp", "Pipe::numValid", "Pipe::flushIf", "Pipe::internalUpdate_"]}
{"id": "C21", "title": "A stalled Pipeline neither loses nor duplicates nor reorders data", "statement": "While a stage is stalled the items at and before that stage stay where they are (with bubble crushing they may only move up into empty stages), items after it keep advancing one stage per update, the stall lasts exactly the requested number of updates unless cleared or flushed, and over any history no item is lost (except flushed, overwritten or leaving the last stage), duplicated or reordered.", "quantifier": "every pipeline length, every stall stage and duration, every append pattern", "why_tests_cant": "All combinations of stall and append over time.", "anchors": ["sparta/sparta/resources/Pipeline.hpp", "Pipeline::stall", "Pipeline::internalUpdate_", "Pipeline::flushStage"]}
{"id": "C22", "title": "PriorityQueue is sorted and stable", "statement": "After any inserts the entries are ordered by the comparison and entries that compare equal are in insertion order; pop removes the front; no entry is lost or duplicated.", "quantifier": "every strict weak order, every history of insert, pop and remove", "why_tests_cant": "All comparison functions and all histories.", "anchors": ["sparta/sparta/resources/PriorityQueue.hpp", "PriorityQueue::insert", "PriorityQueue::pop"]}
{"id": "C23", "title": "FastList is a bounded list with stable positions", "statement": "Every sequence of emplace, push_front, push_back, erase, pop and clear on a FastList gives the same sequence as a plain list; an operation never disturbs the value or position id of other elements; inserting throws exactly when size equals capacity.", "quantifier": "every capacity and history", "why_tests_cant": "Pointer manipulation of free and active chains over unbounded histories.", "anchors": ["sparta/sparta/utils/FastList.hpp", "FastList::emplace", "FastList::erase"]}
{"id": "C24", "title": "FrontArray finds the n-th valid entry", "statement": "readValid(n) of a FrontArray returns the (n+1)-th valid entry in index order whenever at least n+1 entries are valid, and writeFront / writeBack use the lowest / highest free position.", "quantifier": "every occupancy pattern and every n", "why_tests_cant": "Exponentially many occupancy patterns.", "anchors": ["sparta/sparta/resources/FrontArray.hpp", "FrontArray::readValid", "FrontArray::writeFront", "FrontArray::writeBack"]}
{"id": "C25", "title": "Scoreboard ready callback fires exactly once, exactly when all its bits are ready", "statement": "A callback registered with bits b fires in the first update after which all bits in b are ready in that view, fires at most once, is passed the bits of that update, and callbacks satisfied together fire in registration order.", "quantifier": "every history of set, clearBits, registrations and clearCallbacks", "why_tests_cant": "All interleavings.", "anchors": ["sparta/sparta/resources/Scoreboard.hpp", "sparta/src/Scoreboard.cpp", "ScoreboardView::registerReadyCallback", "ScoreboardView::receiveScoreboardUpdate_"]}
{"id": "C26", "title": "Scoreboard view agrees with the master when no update is in flight", "statement": "When no latency-delayed update is outstanding, every view reports a bit ready exactly when the Scoreboard does.", "quantifier": "every history of set with and without producer, clearBits, view creation, all latency tables", "why_tests_cant": "In-flight updates race with clears.", "anchors": ["sparta/sparta/resources/Scoreboard.hpp", "sparta/src/Scoreboard.cpp", "Scoreboard::set", "Scoreboard::clearBits", "ScoreboardView::isSet"]}
{"id": "C27", "title": "SharedData exposes a write from the next cycle on", "statement": "Data written with write() is not visible in the current cycle, becomes visible in the next cycle and stays visible until replaced or cleared; of several writes in one cycle the last one wins. This holds for copies and assigned objects too.", "quantifier": "every history of write, writePS, clear and cycle advance", "why_tests_cant": "All histories.", "anchors": ["sparta/sparta/resources/SharedData.hpp", "SharedData::write", "SharedData::isValid", "SharedData::read"]}
{"id": "C28", "title": "floor_log2 and log2_lsb are exact", "statement": "For every non-zero unsigned 64-bit (and 32-bit) value, floor_log2 returns the position of its highest set bit and log2_lsb the position of its lowest set bit.", "quantifier": "all 2^64 inputs", "why_tests_cant": "Cannot be enumerated; uses multiplication by a de Bruijn constant and lookup tables.", "anchors": ["sparta/sparta/utils/MathUtils.hpp", "floor_log2", "log2_lsb"]}
{"id": "C29", "title": "gcd and lcm are the mathematical gcd and lcm", "statement": "gcd(a,b) is the greatest common divisor, and lcm(a,b) the least common multiple whenever it is representable.", "quantifier": "all pairs of unsigned 64-bit values", "why_tests_cant": "All pairs.", "anchors": ["sparta/sparta/utils/MathUtils.hpp", "gcd", "lcm"]}
{"id": "C30", "title": "Power of two helpers are exact", "statement": "is_power_of_2(v) holds exactly for powers of two, next_power_of_2(v) is the least power of two that is at least v when representable, ceil_log2 is the least exponent e with v at most 2^e for v > 0, ones(n) has exactly the lowest n bits set.", "quantifier": "all unsigned 64-bit inputs", "why_tests_cant": "Cannot enumerate.", "anchors": ["sparta/sparta/utils/MathUtils.hpp", "is_power_of_2", "next_power_of_2", "ceil_log2", "pow2", "ones"]}
{"id": "C31", "title": "safe_power reports every overflow", "statement": "safe_power(n,e) returns n^e when it fits the type and throws otherwise.", "quantifier": "all bases, exponents and unsigned widths", "why_tests_cant": "Cannot enumerate.", "anchors": ["sparta/sparta/utils/MathUtils.hpp", "safe_power"]}
{"id": "C32", "title": "BitArray operators are the integer operators", "statement": "Shift left/right, and, or, complement and equality on a BitArray of n bytes act as the same operators on 8n-bit unsigned integers.", "quantifier": "every array size, every content, every shift amount", "why_tests_cant": "Infinite domain.", "anchors": ["sparta/sparta/utils/BitArray.hpp", "BitArray::operator<<", "BitArray::operator>>", "BitArray::operator&", "BitArray::operator|"]}
{"id": "C33", "title": "Rational arithmetic is exact", "statement": "Sum, product, quotient and absolute difference of Rational values denote the exact rational results, in lowest terms, as long as no intermediate product exceeds the integer type.", "quantifier": "all numerators and non-zero denominators", "why_tests_cant": "Infinite domain.", "anchors": ["sparta/sparta/utils/Rational.hpp", "Rational::operator+", "Rational::operator*", "Rational::simplify"]}
{"id": "C34", "title": "TieredMap is a finite map", "statement": "After any sequence of insertions and clear, looking up a key in a TieredMap returns the last value stored under exactly this key or reports absence, and iteration visits every stored pair once in insertion order.", "quantifier": "every node size that is a power of two from 2 to 2^30, every 64-bit key and every history", "why_tests_cant": "Tier growth depends on keys and order.", "anchors": ["sparta/sparta/utils/TieredMap.hpp", "TieredMap::find", "TieredMap::tryGet", "TieredMap::operator[]"]}
{"id": "C35", "title": "SpartaSharedPointer destroys its object exactly once, when the last owner goes", "statement": "For every history of creating, copying, moving, assigning and destroying SpartaSharedPointers, the managed object is alive while at least one pointer owns it, is destroyed exactly once when the last owner goes, and use_count equals the number of owners.", "quantifier": "every history over any number of pointers and objects", "why_tests_cant": "Ownership graphs and orders are unbounded.", "anchors": ["sparta/sparta/utils/SpartaSharedPointer.hpp", "SpartaSharedPointer::releaseRefCount_", "SpartaSharedPointer::unlink_", "SpartaSharedPointer::use_count"]}
{"id": "C36", "title": "A weak pointer never resurrects a destroyed object", "statement": "After the last SpartaSharedPointer to an object is gone, SpartaWeakPointer::expired() is true and lock() yields an empty pointer, for ever.", "quantifier": "every history of shared and weak pointer operations", "why_tests_cant": "All histories.", "anchors": ["sparta/sparta/utils/SpartaSharedPointer.hpp", "SpartaWeakPointer::lock", "SpartaWeakPointer::expired"]}
{"id": "C37", "title": "Shared pointer allocator never hands out memory in use", "statement": "SpartaSharedPointerAllocator never gives a block to two objects at once, never exceeds its maximum number of blocks, fails exactly if all its blocks are in use, reuses freed blocks before it takes new ones, reports in getNumAllocated the largest number of blocks that were in use at once, in hasOutstandingObjects whether any block is in use and in getOutstandingAllocatedObjects exactly the objects somebody owns.", "quantifier": "every history of allocation and release", "why_tests_cant": "All histories.", "anchors": ["sparta/sparta/utils/SpartaSharedPointerAllocator.hpp", "SpartaSharedPointerAllocator::allocate_", "SpartaSharedPointerAllocator::releaseBlock_"]}
{"id": "C38", "title": "Byte swapping reverses the bytes", "statement": "byte_swap of an integer reverses the order of its bytes, hence swapping twice gives the original; reading with an order what was written with the same order returns the value.", "quantifier": "all values of all supported integer widths, signed and unsigned", "why_tests_cant": "Cannot enumerate.", "anchors": ["sparta/sparta/utils/ByteOrder.hpp", "byte_swap", "reorder"]}
{"id": "C39", "title": "Tokenizing loses nothing", "statement": "tokenize(s, delim) yields exactly the non-delimiter runs of s in order: joining with the delimiter gives back s, and no token contains the delimiter.", "quantifier": "all strings and delimiters", "why_tests_cant": "Infinite domain.", "anchors": ["sparta/sparta/utils/StringUtils.hpp", "tokenize"]}
{"id": "C40", "title": "smartLexicalCast never returns a wrong value for a narrow type", "statement": "Casting a literal to an integer type returns the literal value if it fits the type and throws otherwise.", "quantifier": "all literals, all integer target types", "why_tests_cant": "Infinite domain.", "anchors": ["sparta/sparta/utils/SmartLexicalCast.hpp", "smartLexicalCast"]}
{"id": "C41", "title": "Tags identify their origin", "statement": "Two Tags compare equal exactly when they are the same tag or copies of one tag; their texts agree exactly when they compare equal; the n-th child of a tag has the text of its parent, a point and n.", "quantifier": "every history of creating, copying and resetting tags below the limit of the counters", "why_tests_cant": "All histories.", "anchors": ["sparta/sparta/utils/Tag.hpp", "Tag::operator==", "Tag::operator std::string"]}
{"id": "C42", "title": "A BoundedValue never leaves its bounds", "statement": "Every BoundedValue obtained by construction, assignment, increments and compound assignment lies within its bounds; an operation that would leave the bounds throws and keeps the old value.", "quantifier": "all values, bounds, histories and operand types", "why_tests_cant": "Infinite domain.", "anchors": ["sparta/sparta/utils/BoundedValue.hpp", "BoundedValue::operator+=", "BoundedValue::operator-=", "BoundedValue::operator++"]}
{"id": "C43", "title": "A LockedValue never changes once locked", "statement": "After lock() or setAndLock() every assignment throws and the observable value stays the same for ever.", "quantifier": "every history", "why_tests_cant": "All histories.", "anchors": ["sparta/sparta/utils/LockedValue.hpp", "LockedValue::operator=", "LockedValue::setAndLock", "LockedValue::lock"]}
{"id": "C44", "title": "Tree PLRU protects the most recently used way", "statement": "After touchMRU(w) the most recently used way is w and, with at least two ways, w is not the next victim; after touchLRU(w) the next victim is w; the victim is always a legal way.", "quantifier": "every power-of-two number of ways, every history of touches", "why_tests_cant": "Exponentially many tree states.", "anchors": ["sparta/cache/TreePLRUReplacement.hpp", "TreePLRUReplacement::touchMRU", "TreePLRUReplacement::touchLRU", "TreePLRUReplacement::getLRUWay", "TreePLRUReplacement::getMRUWay"]}
{"id": "C45", "title": "True LRU replacement evicts the least recently touched way", "statement": "The way returned by getLRUWay of LRUReplacement is the one whose last touch is the oldest (ways touched as LRU count as older than all), and every way appears exactly once in the recency order.", "quantifier": "every number of ways and every history of touches", "why_tests_cant": "All histories.", "anchors": ["sparta/cache/LRUReplacement.hpp", "LRUReplacement::touchMRU", "LRUReplacement::touchLRU", "LRUReplacement::getLRUWay"]}
{"id": "C46", "title": "A cache never holds a block twice and hits exactly what it holds", "statement": "If lines are only allocated on a miss, no two valid ways of a set ever hold the same block, and a lookup hits exactly when the block containing the address was allocated and neither evicted nor invalidated since.", "quantifier": "every geometry, every history of accesses, allocations and invalidations", "why_tests_cant": "All access histories.", "anchors": ["sparta/cache/Cache.hpp", "sparta/cache/BasicCacheSet.hpp", "sparta/cache/SimpleCache.hpp", "SimpleCache::read", "SimpleCache::write", "SimpleCache::isHit"]}
{"id": "C47", "title": "Address decoding is a bijection on blocks", "statement": "Tag, set index and block offset of the default address decoder identify an address uniquely: two addresses with equal tag, index and offset are equal, and the index is always below the number of sets.", "quantifier": "every power-of-two geometry, every 64-bit address", "why_tests_cant": "Cannot enumerate.", "anchors": ["sparta/cache/DefaultAddrDecoder.hpp", "DefaultAddrDecoder::calcTag", "DefaultAddrDecoder::calcIdx"]}
{"id": "C48", "title": "Non-temporal fills replace the older non-temporal way", "statement": "When both ways 0 and 1 hold non-temporal lines, the line offered for a non-temporal fill is the one filled earlier.", "quantifier": "every history of non-temporal and normal fills", "why_tests_cant": "History dependent.", "anchors": ["sparta/cache/SimpleCache2.hpp", "SimpleCache2::getLineForReplacement", "SimpleCache2::allocateWithMRUUpdate"]}
{"id": "C49", "title": "Loading a checkpoint restores the state at its creation", "statement": "For every checkpoint that was not deleted, FastCheckpointer::loadCheckpoint makes every byte of every registered ArchData equal to its value when that checkpoint was created.", "quantifier": "every history of memory writes, resets, checkpoint creation (delta or snapshot), loads along any branch, and deletions in any order", "why_tests_cant": "Delta chains with branches, deletions and dirty tracking have unboundedly many histories.", "anchors": ["sparta/sparta/serialization/checkpoint/FastCheckpointer.hpp", "sparta/sparta/serialization/checkpoint/DeltaCheckpoint.hpp", "sparta/sparta/functional/ArchData.hpp", "FastCheckpointer::loadCheckpoint", "FastCheckpointer::createCheckpoint", "FastCheckpointer::deleteCheckpoint", "ArchData::save", "ArchData::restore"]}
{"id": "C50", "title": "Deleting checkpoints never breaks the others", "statement": "Deleting a checkpoint never changes what loading any other, not deleted checkpoint restores, and the numbers reported by getNumCheckpoints and getNumSnapshots equal the numbers of not deleted checkpoints and snapshots.", "quantifier": "every checkpoint tree and every order of deletions", "why_tests_cant": "Infinitely many trees.", "anchors": ["sparta/sparta/serialization/checkpoint/FastCheckpointer.hpp", "sparta/sparta/serialization/checkpoint/DeltaCheckpoint.hpp", "sparta/sparta/functional/ArchData.hpp", "FastCheckpointer::deleteCheckpoint", "FastCheckpointer::cleanupChain_", "DeltaCheckpoint::canDelete"]}
{"id": "C51", "title": "Snapshot threshold bounds the restore chain", "statement": "With snapshot threshold n, restoring any checkpoint loads at most n delta checkpoints after one snapshot.", "quantifier": "every history with a constant threshold", "why_tests_cant": "All histories.", "anchors": ["sparta/sparta/serialization/checkpoint/FastCheckpointer.hpp", "sparta/sparta/serialization/checkpoint/DeltaCheckpoint.hpp", "sparta/sparta/functional/ArchData.hpp", "FastCheckpointer::getSnapshotThreshold", "FastCheckpointer::createCheckpoint_", "DeltaCheckpoint::getDistanceToPrevSnapshot"]}
{"id": "C52", "title": "Architectural memory reads return the last write", "statement": "Reading bytes of an ArchData returns the most recently written bytes at those addresses, or the fill value if never written, and accesses outside its size or across lines throw.", "quantifier": "every line size, every history of reads and writes at all addresses", "why_tests_cant": "Infinite domain.", "anchors": ["sparta/sparta/functional/ArchData.hpp", "ArchData::getLine", "ArchData::Line::read", "ArchData::Line::write"]}
{"id": "C53", "title": "ArchData layout never overlaps independent segments", "statement": "After layout, each independent segment lies within one line, is word aligned, does not overlap any other independent segment, and a subset segment lies inside its parent at the requested offset.", "quantifier": "every list of segments with power of two sizes", "why_tests_cant": "Infinite domain.", "anchors": ["sparta/sparta/functional/ArchData.hpp", "ArchData::layout", "ArchData::placeSegment_"]}
{"id": "C54", "title": "abs of unsigned types is the two's complement magnitude", "statement": "For the unsigned integer types, abs(x) is the magnitude of x read as a signed number of the same width.", "quantifier": "all values of every width", "why_tests_cant": "Cannot enumerate 2^64 values.", "anchors": ["sparta/sparta/utils/MathUtils.hpp", "abs"]}
{"id": "C55", "title": "A Pipe that performs its own updates advances every cycle", "statement": "After performOwnUpdates() a Pipe shows, at every cycle, exactly the contents that a pipe updated explicitly once per cycle would show; no entry is ever stuck in a stage.", "quantifier": "every number of stages, every history of append, writePS, invalidatePS, flush and cycle advance", "why_tests_cant": "Depends on the pipe rescheduling its update event in every state with pending data.", "anchors": ["sparta/sparta/resources/Pipe.hpp", "Pipe::performOwnUpdates", "Pipe::internalUpdate_", "Pipe::flushIf"]}
{"id": "C56", "title": "Scheduling phases are ordered", "statement": "An event placed in an earlier scheduling phase (Trigger, Update, PortUpdate, Flush, Collection, Tick, PostTick) gets a strictly smaller ordering number than an event placed in a later phase, whatever other precedences were declared.", "quantifier": "every finite set of events, every phase assignment, every set of additional precedences without a cycle", "why_tests_cant": "Must hold together with arbitrary other precedences.", "anchors": ["sparta/sparta/kernel/DAG.hpp", "sparta/src/DAG.cpp", "sparta/src/Vertex.cpp", "sparta/src/Scheduleable.cpp", "Scheduleable::setupDummyPrecedence_ThisMethodToGoAwayOnceDaveAddsPhaseSupportToDAG", "DAG::initializeDAG_"]}
{"id": "C57", "title": "A reported precedence cycle is real", "statement": "When sorting (or a link with early cycle detection) fails, the reported list of nodes is not empty, consecutive nodes are declared precedences, the last node precedes one of the listed nodes, and writing the report never fails. With early detection a link fails exactly when it closes a cycle.", "quantifier": "every finite precedence graph", "why_tests_cant": "Cycle reporting is exercised on a few hand made graphs only.", "anchors": ["sparta/sparta/kernel/DAG.hpp", "sparta/src/DAG.cpp", "sparta/src/Vertex.cpp", "sparta/src/Scheduleable.cpp", "Vertex::findCycle", "DAG::getCycles_", "CycleException::writeCycleAsText"]}
{"id": "C58", "title": "Ordering numbers depend only on the precedences", "statement": "The ordering number of an event is the length of the longest chain of precedences that ends in it; in particular it does not depend on the order in which events and precedences were declared.", "quantifier": "every finite acyclic precedence graph and every order of declaring it", "why_tests_cant": "Requires comparing all declaration orders.", "anchors": ["sparta/sparta/kernel/DAG.hpp", "sparta/src/DAG.cpp", "sparta/src/Vertex.cpp", "sparta/src/Scheduleable.cpp", "DAG::sort"]}
{"id": "C59", "title": "A unique event is in the queue at most once per tick", "statement": "Scheduling a unique event for a tick for which it is already waiting changes nothing; scheduling it outside of a run when it is not waiting for that tick adds exactly one request. (The stronger reading, that a unique event runs at most once per tick, is false: an event that ran, was cancelled and rescheduled within its own group runs twice.)", "quantifier": "every reachable scheduler state, every event, delay and handler behaviour", "why_tests_cant": "The duplicate check looks at the queue as it is during firing, which depends on the history.", "anchors": ["sparta/sparta/kernel/Scheduler.hpp", "sparta/src/Scheduler.cpp", "TickQuantum::addEventIfNotScheduled", "sparta/sparta/events/Scheduleable.hpp"]}
{"id": "C60", "title": "Queries about waiting events are exact", "statement": "Outside of a run isScheduled(e) and isScheduled(e, delay) are true exactly when e is waiting (for that tick), nothing waits for a tick before nextEventTick(), and an indefinite nextEventTick() means that nothing waits. Inside a handler isScheduled never misses a waiting event.", "quantifier": "every reachable scheduler state and every event", "why_tests_cant": "The answer depends on the whole history of schedule, cancel and run calls.", "anchors": ["sparta/sparta/kernel/Scheduler.hpp", "sparta/src/Scheduler.cpp", "Scheduler::isScheduled", "Scheduler::nextEventTick"]}
{"id": "C61", "title": "Elapsed ticks follow the current tick", "statement": "While handlers run getElapsedTicks() equals the current tick and between runs it is one less (both 0 at the start), whatever runs and events took place.", "quantifier": "every history of run calls and events", "why_tests_cant": "Every return path of run updates the count separately.", "anchors": ["sparta/sparta/kernel/Scheduler.hpp", "sparta/src/Scheduler.cpp", "Scheduler::getElapsedTicks", "Scheduler::run", "Scheduler::restartAt"]}
{"id": "C62", "title": "Restarting or clearing the scheduler forgets everything", "statement": "After clearEvents() or restartAt(t) nothing waits, no event is scheduled, nothing requested before ever runs, and after restartAt(t) the current tick is t.", "quantifier": "every scheduler state, every t", "why_tests_cant": "Needs all earlier histories.", "anchors": ["sparta/sparta/kernel/Scheduler.hpp", "sparta/src/Scheduler.cpp", "Scheduler::clearEvents", "Scheduler::restartAt"]}
{"id": "C63", "title": "Declared precedence is firing order", "statement": "If event a is declared to precede event b (directly or through other events), then in every tick in which both run, every run of a comes before every run of b; and while a runs, it can always schedule b without delay.", "quantifier": "every acyclic set of declared precedences, every simulated program, every history of scheduler calls", "why_tests_cant": "Combines the ordering computation with every possible run.", "anchors": ["sparta/sparta/kernel/Scheduler.hpp", "sparta/src/Scheduler.cpp", "sparta/sparta/kernel/DAG.hpp", "sparta/src/DAG.cpp", "sparta/src/Vertex.cpp", "sparta/src/Scheduleable.cpp", "Scheduler::finalize", "DAG::sort", "Scheduler::run"]}
{"id": "C64", "title": "Requests from other threads are delivered exactly once", "statement": "Events requested with scheduleAsyncEvent are accepted when a tick begins, in the order requested, each exactly once and relative to that tick; none is lost, and cancelAsyncEvent withdraws the event whether or not it was already delivered.", "quantifier": "every list of requests, every state of the run, every moment at which the running thread notices them", "why_tests_cant": "Depends on thread timing that a test cannot enumerate.", "anchors": ["sparta/sparta/kernel/Scheduler.hpp", "sparta/src/Scheduler.cpp", "Scheduler::scheduleAsyncEvent", "Scheduler::cancelAsyncEvent", "Scheduler::run"]}
{"id": "C65", "title": "A cache in front of a memory is transparent", "statement": "Reads through SimpleCache return exactly what a plain memory would return after the same writes, in every write mode; the memory behind it is current for every address whose line is not cached or not modified.", "quantifier": "every geometry, replacement policy, write mode (changed at any time), initial memory, and every history of reads, writes and line lookups that stay inside a line", "why_tests_cant": "Depends on the interleaving of fills, castouts and mode changes over unbounded histories.", "anchors": ["sparta/cache/SimpleCache.hpp", "sparta/cache/Cache.hpp", "sparta/cache/BasicCacheSet.hpp", "sparta/cache/LineData.hpp", "SimpleCache::read", "SimpleCache::write", "SimpleCache::getLine", "SimpleCache::replaceLine_"]}
{"id": "C66", "title": "Invalidation and castout prediction are exact", "statement": "invalidateLine(a) fails exactly on a miss and otherwise removes exactly the block of a; isHitWithCastout(a) reports hit or miss and, on a miss, exactly the block that a following read of a replaces and whether it has to be written back.", "quantifier": "every geometry, policy and history", "why_tests_cant": "Depends on the whole history of the set.", "anchors": ["sparta/cache/SimpleCache.hpp", "sparta/cache/Cache.hpp", "sparta/cache/BasicCacheSet.hpp", "sparta/cache/LineData.hpp", "SimpleCache::invalidateLine", "SimpleCache::isHitWithCastout"]}
{"id": "C67", "title": "Cold misses and open ways are reported correctly", "statement": "The cold-miss flag of a lookup is set exactly when the block is absent and its set has an invalid way; hasOpenWay tells whether there is one; a line chosen with the invalid check never replaces a valid block while there is one, and otherwise is the policy's victim.", "quantifier": "every geometry, policy and history", "why_tests_cant": "Depends on which of the ways are valid and in which order they are searched.", "anchors": ["sparta/cache/BasicCacheSet.hpp", "sparta/cache/SimpleCache2.hpp", "BasicCacheSet::getItem", "BasicCacheSet::hasOpenWay", "SimpleCache2::getLineForReplacementWithInvalidCheck"]}
{"id": "C68", "title": "Bytes written to a cache line are the bytes read back", "statement": "After writeWithMRUUpdate to a line a read of any part of the line returns the written bytes where they were written and the old bytes elsewhere; the line is marked modified and no other line changes.", "quantifier": "every line content, offset, length and cache state", "why_tests_cant": "All offsets and overlaps.", "anchors": ["sparta/cache/SimpleCache2.hpp", "sparta/cache/LineData.hpp", "SimpleCache2::writeWithMRUUpdate", "SimpleCache2::readWithMRUUpdate"]}
{"id": "C69", "title": "A Buffer iterator stays with its entry", "statement": "In a Buffer of fixed capacity, an iterator returned by push_back, insert, begin or ++ denotes its entry (value and position) until that entry is erased, whatever else is added or removed, and is reported invalid once the entry is gone; ++ and -- visit the entries in order; erase(it) and insert(it) act at that entry.", "quantifier": "every history, capacity, entry and iterator position", "why_tests_cant": "Slot reuse and index maintenance depend on the whole history.", "anchors": ["sparta/sparta/resources/Buffer.hpp", "Buffer::BufferIterator", "Buffer::erase", "Buffer::insert"]}
{"id": "C70", "title": "BitArray objects are independent values", "statement": "A BitArray constructed from another or assigned from another has its contents, and changing one of the two afterwards never changes the other.", "quantifier": "every history of construction, copy, assignment and modification of any number of arrays", "why_tests_cant": "All histories.", "anchors": ["sparta/sparta/utils/BitArray.hpp", "BitArray::BitArray", "BitArray::operator="]}
{"id": "C71", "title": "A ValidValue is readable exactly while valid", "statement": "getValue returns the last assigned value if the object is valid and throws otherwise; comparing with a value or with another valid object compares those values and throws if either side is not valid; moving from an object leaves it not valid.", "quantifier": "all values and states", "why_tests_cant": "Infinite domain.", "anchors": ["sparta/sparta/utils/ValidValue.hpp", "ValidValue::getValue", "ValidValue::operator==", "ValidValue::clearValid"]}
{"id": "C72", "title": "bounded_int accepts exactly the values in its range", "statement": "Constructing bounded_int<T, min, max> from an integer of any type succeeds exactly when the integer lies in [min, max], and then holds that integer.", "quantifier": "all types T and argument types, all bounds and all arguments", "why_tests_cant": "Infinite domain and all type combinations.", "anchors": ["sparta/sparta/utils/Utils.hpp", "bounded_int"]}
{"id": "C73", "title": "An AssignOnceObject changes at most once", "statement": "Reading throws before any assignment unless a default was given; the first assignment succeeds; every later assignment throws and leaves the value as it is.", "quantifier": "every history, with and without default", "why_tests_cant": "All histories.", "anchors": ["sparta/sparta/utils/Utils.hpp", "AssignOnceObject"]}
{"id": "C74", "title": "Stripping and splitting on blanks keep exactly the text between blanks", "statement": "strip_whitespace returns the text without leading and trailing blanks; tokenize_strip_whitespace does so for each piece; tokenize_on_whitespace returns exactly the nonempty pieces between blanks in order; eliminate_whitespace keeps exactly the other characters; strip_string_pattern removes the pattern at the beginning and at the end only.", "quantifier": "all strings, delimiters and patterns", "why_tests_cant": "Infinite domain; blank-only and empty pieces.", "anchors": ["sparta/sparta/utils/StringUtils.hpp", "strip_whitespace", "tokenize_on_whitespace", "strip_string_pattern"]}
{"id": "C75", "title": "replaceSubstring replaces every occurrence once, from left to right", "statement": "The result is the string with every occurrence of the searched text, found from left to right without overlap, replaced, text put in is not searched again, the number returned is the number of replacements, and the call ends.", "quantifier": "all strings, searched texts and replacements", "why_tests_cant": "Infinite domain; termination.", "anchors": ["sparta/sparta/utils/Utils.hpp", "replaceSubstring"]}
{"id": "C76", "title": "LevenshteinDistance is the edit distance", "statement": "The result is the least number of insertions, deletions and substitutions that turn one string into the other.", "quantifier": "all pairs of strings", "why_tests_cant": "Infinite domain.", "anchors": ["sparta/sparta/utils/StringUtils.hpp", "LevenshteinDistance"]}
{"id": "C77", "title": "CircularBuffer iterators", "statement": "A CircularBuffer iterator stays on its element while elements are appended, becomes invalid when that element is evicted or anything is inserted, erased or cleared, and using an invalid iterator throws and never touches freed memory; comparison follows the position in the buffer.", "quantifier": "every capacity, every history of buffer and iterator calls, any number of iterators", "why_tests_cant": "All interleavings of appends and iterator use.", "anchors": ["sparta/sparta/resources/CircularBuffer.hpp", "CircularBuffer::begin", "CircularBuffer::end", "CircularBuffer::erase", "CircularBuffer::insert"]}
{"id": "C78", "title": "A scoreboard set reaches a consumer after exactly the configured latency", "statement": "A register set by a producing unit becomes ready in the view of a consuming unit exactly as many cycles later as the latency table says (at once for latency 0), not earlier and not later, whatever else happens in between.", "quantifier": "every latency table, every history before and in between that does not touch the register", "why_tests_cant": "All latencies and interleavings with other sets, callbacks and new views.", "anchors": ["sparta/src/Scoreboard.cpp", "Scoreboard::set", "ScoreboardView::isSet"]}
{"id": "C79", "title": "printBitSet prints exactly the set registers", "statement": "The printed text lists exactly the maximal ranges of set bits in ascending order, so different sets print differently.", "quantifier": "all bit sets", "why_tests_cant": "2^512 inputs.", "anchors": ["sparta/src/Scoreboard.cpp", "printBitSet"]}
{"id": "C80", "title": "A Pipeline runs exactly the handlers of occupied active stages", "statement": "Each update schedules, in stage order, the handlers of exactly the stages that hold an item after the movement, have a registered handler, were not deactivated by the user and are not suppressed by a stall; each handler receives the item of its own stage.", "quantifier": "every pipeline length, every set of registered stages, every history of appends, writes, stalls, flushes and (de)activations", "why_tests_cant": "All interleavings of stalls with handler activation.", "anchors": ["sparta/sparta/resources/Pipeline.hpp", "Pipeline::scheduleEventForEachStage_", "Pipeline::deactivate_", "Pipeline::restart_"]}
{"id": "C81", "title": "Default stage precedence of a Pipeline orders all handlers of a phase", "statement": "After setDefaultStagePrecedence(FORWARD) (BACKWARD) handlers of a lower (higher) stage run before those of a higher (lower) stage in the same phase, handlers of one stage run in registration order, and the declared precedences are never cyclic; setPrecedenceBetweenStage orders the handlers of exactly the two stages.", "quantifier": "every pipeline length and every sequence of handler registrations over all phases", "why_tests_cant": "Unbounded number of registration sequences.", "anchors": ["sparta/sparta/resources/Pipeline.hpp", "Pipeline::setDefaultStagePrecedence", "Pipeline::setPrecedenceBetweenStage", "Pipeline::registerHandlerAtStage"]}
{"id": "C82", "title": "Copying one memory over another makes them equal", "statement": "After a.updateFrom(b) every address of a reads the same byte as in b.", "quantifier": "every pair of memories with the same line size and any history of writes to each", "why_tests_cant": "Unbounded histories; depends on which lines each side has allocated.", "anchors": ["sparta/sparta/functional/ArchData.hpp", "ArchData::updateFrom", "ArchData::Line::updateFrom"]}
{"id": "C83", "title": "Reported layout waste accounts for every unused byte", "statement": "After layout, the size of an ArchData equals the sizes of its independent segments plus the reported padding waste and line waste.", "quantifier": "every list of segments that lays out, every line size", "why_tests_cant": "Infinite domain.", "anchors": ["sparta/sparta/functional/ArchData.hpp", "ArchData::placeSegment_", "ArchData::layout"]}
{"id": "C84", "title": "The checkpoint chain lists a checkpoint and its predecessors up to the head", "statement": "getCheckpointChain(id) lists the head first and id last, in between the kept predecessors in order of creation, with the unidentified id in place of deleted ones.", "quantifier": "every history of checkpoint calls", "why_tests_cant": "Infinitely many trees.", "anchors": ["sparta/sparta/serialization/checkpoint/FastCheckpointer.hpp", "FastCheckpointer::getCheckpointChain"]}
{"id": "C85", "title": "Payload events deliver every payload once, unaltered, on time and in order", "statement": "Every payload that was prepared and successfully scheduled is handed to the handler exactly once per successful schedule call, in the cycle it was scheduled for, unaltered, and payloads due in one cycle come in the order of the schedule calls; cancelled ones do not come; nothing else comes. The argument stays valid while the handler runs.", "quantifier": "every history of preparing, copying, dropping, scheduling, cancelling and asking, inside and outside the handler, for every payload type", "why_tests_cant": "Unbounded histories; the pool of proxies is reused in data-dependent order.", "anchors": ["sparta/sparta/events/PhasedPayloadEvent.hpp", "sparta/sparta/events/Scheduleable.hpp", "PhasedPayloadEvent::preparePayload", "PayloadDeliveringProxy::deliverPayload_", "ScheduleableHandle"]}
{"id": "C86", "title": "Cancelling and asking about payload events is exact", "statement": "cancelIf stops exactly the payloads that satisfy the condition and returns their number; cancel, cancel(rel_cycle) and cancel of one handle stop exactly the payloads they name; getNumOutstandingEvents, isScheduled and confirmIf tell exactly what is outstanding.", "quantifier": "every history as in C85", "why_tests_cant": "Unbounded histories.", "anchors": ["sparta/sparta/events/PhasedPayloadEvent.hpp", "PhasedPayloadEvent::cancelIf", "PhasedPayloadEvent::cancel", "PhasedPayloadEvent::confirmIf", "PhasedPayloadEvent::getNumOutstandingEvents", "PhasedPayloadEvent::isScheduled"]}
{"id": "C87", "title": "Normalized clock periods stand in exactly the declared ratios", "statement": "After ClockManager::normalize every clock has a positive period in scheduler ticks, and period(child) * p = period(parent) * c for every makeClock(name, parent, p, c); the root period is the returned norm and the smallest for which such periods exist; ratios with a zero are rejected.", "quantifier": "every tree of clocks and all ratios", "why_tests_cant": "Infinitely many trees; needs exact rational arithmetic and lcm minimality.", "anchors": ["sparta/sparta/simulation/ClockManager.hpp", "sparta/sparta/simulation/Clock.hpp", "ClockManager::normalize", "Clock::calcNorm", "Clock::setPeriod"]}
{"id": "C88", "title": "Clock crossing lands on the first possible receiver edge", "statement": "calculateClockCrossingDelay called on a sender edge gives the delay to the first edge of the receiver clock at or after now plus both delays, and is refused off an edge; calculateReverseClockCrossingDelay gives back the last sender edge from which the arrival is still possible; the two agree.", "quantifier": "all ticks, delays and periods without 64-bit overflow", "why_tests_cant": "Infinite domain; two periods interleave arbitrarily.", "anchors": ["sparta/sparta/simulation/Clock.hpp", "calculateClockCrossingDelay", "calculateReverseClockCrossingDelay"]}
{"id": "C89", "title": "Conversions between cycles and ticks are consistent", "statement": "getTick(c) is the first tick of cycle c, getCycle(t) is the cycle containing t and never decreases, isPosedge says whether t is the first tick of its cycle, and getAbsoluteTick gives a tick of the cycle named.", "quantifier": "all periods, cycles and ticks without 64-bit overflow", "why_tests_cant": "Infinite domain.", "anchors": ["sparta/sparta/simulation/Clock.hpp", "Clock::getTick", "Clock::getCycle", "Clock::isPosedge", "Clock::getAbsoluteTick"]}
{"id": "C90", "title": "Sync ports deliver each item once and on time", "statement": "As long as no call throws, the consumer of a sync port receives every item sent exactly once and unaltered, on an edge of its own clock, at most one per cycle, in the tick that the send announced, or, if the receiver was not ready then, in the first later attempt in which it is ready; if the receiver is ready whenever data comes, items arrive in the order of the sends and each takes the first free edge.", "quantifier": "all clock periods, port delays and histories of sends, ready changes, deliveries and ticks", "why_tests_cant": "Unboundedly long histories over arbitrary pairs of clock periods and delays.", "anchors": ["sparta/sparta/ports/SyncPort.hpp", "SyncOutPort::send", "SyncOutPort::sendAndAllowSlide", "SyncInPort::receivePortData_", "SyncInPort::forwardData_"]}
{"id": "C91", "title": "Asking a sync port before sending is reliable", "statement": "isDriven(d) tells exactly whether a send with delay d would be refused; a false isReady means that a send would be refused or would find the receiver not ready; a sender that sends only when isReady is true and isDriven is false never gets an exception, and neither does a delivery; ready changes count from the next tick on.", "quantifier": "all histories; the last part for clocks of equal period and port delay zero or one", "why_tests_cant": "The answers depend on everything in flight.", "anchors": ["sparta/sparta/ports/SyncPort.hpp", "SyncOutPort::isReady", "SyncOutPort::isDriven", "SyncInPort::setReady", "SyncInPort::couldAccept_"]}
{"id": "C92", "title": "computeNextAvailableCycleForSend predicts sends", "statement": "The reported cycle is the one in which the last of the beats, sent with sliding one cycle apart, has to be sent to arrive when it will; sending the beats gives no exception; asking changes nothing.", "quantifier": "all histories, delays and numbers of beats, sender not slower than the receiver", "why_tests_cant": "Unbounded number of beats; interleaving of two clocks.", "anchors": ["sparta/sparta/ports/SyncPort.hpp", "SyncOutPort::computeNextAvailableCycleForSend"]}
{"id": "C93", "title": "Operations on register bits act bit by bit", "statement": "For values of 1, 2, 4, 8 or a multiple of 8 bytes the operators |, &, ~, |=, ==, << and <<= and >> of RegisterBits give in every bit what the operation says of the bits of the operands, at the size of the left operand; none() is true exactly if no bit is set and any() exactly if one is; dataAs gives the low bytes.", "quantifier": "all sizes, values and shift counts below the size", "why_tests_cant": "Infinitely many sizes, values and shifts; word boundaries interact with the shift.", "anchors": ["sparta/sparta/functional/RegisterBits.hpp", "RegisterBits::operator>>", "RegisterBits::operator<<=", "RegisterBits::none"]}
{"id": "C94", "title": "Writes change exactly the writable bits addressed", "statement": "After any history a write or poke of some bytes at an offset changes the bits in that range that no read-only field covers to the given ones and no other bit; the unmasked variants change all bits in the range; read and peek give the addressed bytes; accesses beyond the register throw and change nothing; with masked accesses read-only bits never change.", "quantifier": "all register definitions, initial values and histories of accesses", "why_tests_cant": "Unbounded histories, all sizes, offsets and layouts of fields.", "anchors": ["sparta/sparta/functional/Register.hpp", "RegisterBase::write", "RegisterBase::poke", "RegisterBase::computeWriteMask_"]}
{"id": "C95", "title": "Fields of registers read and write their own bits", "statement": "Reading a field gives the bits from its low to its high bit; writing a value that fits changes the writable bits of the field to it and nothing else, and it is read back; a value that does not fit is rejected and nothing changes.", "quantifier": "all register definitions, fields, values and histories", "why_tests_cant": "All positions and widths of fields in registers of any size, all 64-bit values.", "anchors": ["sparta/sparta/functional/Register.hpp", "Field::read", "Field::write", "Field::poke", "Field::pokeUnmasked", "Field::newRegisterValue_"]}
{"id": "C96", "title": "Register observers see the value before and after each write", "statement": "A notification of a write carries the value before and the value after it; every write that changes the value of an observed register is notified; pokes, peeks and reads never notify a write.", "quantifier": "all registers, values and accesses", "why_tests_cant": "All accesses in all states.", "anchors": ["sparta/sparta/functional/Register.hpp", "Register::write_", "Register::poke_", "Register::writeUnmasked"]}
{"id": "C97", "title": "Memory map lookups find the mapping that contains the address", "statement": "Adding mappings in any order never fails inside the search tree. Afterwards findMapping gives exactly the accepted mapping whose range contains the address and null if there is none, findInterface its interface, mapAddress its interface with the offset of the address in the mapping added to the destination offset; getMappings lists the accepted mappings in the order of addition and they are disjoint.", "quantifier": "all histories of addMapping calls, all addresses", "why_tests_cant": "The tree is rebalanced by pointer rotations; its shape depends on the whole history of insertions, and ends of adjacent mappings are shared nodes. Tests insert a few mappings in a few orders.", "anchors": ["sparta/sparta/memory/SimpleMemoryMap.hpp", "SimpleMemoryMap::addMapping", "SimpleMemoryMap::findMapping", "SimpleMemoryMap::findInterface", "SimpleMemoryMap::mapAddress", "SimpleMemoryMap::RBTreeFixup_", "SimpleMemoryMap::rotateLeft_", "SimpleMemoryMap::rotateRight_"]}
{"id": "C98", "title": "Memory mappings are accepted exactly under the documented conditions", "statement": "addMapping accepts a mapping exactly when the interface has the block size of the map, the range is not empty, start, end and destination are multiples of the block size, the destination lies within the range of the interface, and no accepted mapping overlaps; otherwise it throws and leaves the map as it was. Every address of an accepted mapping is mapped to an address within the range of its interface.", "quantifier": "all histories, all arguments, all block sizes", "why_tests_cant": "All histories and 64-bit arguments.", "anchors": ["sparta/sparta/memory/SimpleMemoryMap.hpp", "SimpleMemoryMap::addMapping", "SimpleMemoryMap::Mapping::overlaps"]}
{"id": "C99", "title": "Memory map lookups take logarithmic time", "statement": "A lookup in a map with n mappings visits at most 2 log2(3n+1) nodes, whatever the order in which the mappings were added.", "quantifier": "all histories of addMapping calls, all addresses", "why_tests_cant": "The worst path over all insertion orders cannot be tested.", "anchors": ["sparta/sparta/memory/SimpleMemoryMap.hpp", "SimpleMemoryMap::RBTreeFixup_", "SimpleMemoryMap::findMapping"]}
{"id": "C100", "title": "verifyHasMapping accepts exactly the accesses inside one mapping", "statement": "verifyHasMapping returns exactly when one mapping contains the whole access, throws \"spans\" when the first byte is mapped and the access leaves its mapping, and throws \"no mapping\" when the first address is not mapped.", "quantifier": "all histories, addresses and sizes", "why_tests_cant": "All histories and 64-bit accesses.", "anchors": ["sparta/sparta/memory/SimpleMemoryMap.hpp", "SimpleMemoryMap::verifyHasMapping"]}
{"id": "C101", "title": "Memory accesses reach the bytes the address map designates", "statement": "After any history of constructing memories, interfaces and nested memory maps, adding mappings and accessing them, every address of every interface denotes one byte of one memory or nothing, by following the accepted mappings. A read, peek, write or poke through an interface gives or changes exactly the bytes its addresses denote: what was written through one interface is read through every other interface and address that denotes the same byte, and nothing else changes. An access to a mapped range equals the access to the interface behind it at the translated address. No access ends in an unexpected exception or an endless loop.", "quantifier": "all histories and nestings of maps (a map is given interfaces constructed before it; block sizes are powers of two below 2^31; accesses have a size and end below 2^64), all addresses, sizes and data", "why_tests_cant": "Nested and aliasing maps, block boundaries and 64-bit addresses; tests use one memory and a few addresses.", "anchors": ["sparta/sparta/memory/BlockingMemoryIFNode.hpp", "sparta/sparta/memory/DebugMemoryIF.hpp", "sparta/sparta/memory/MemoryObject.hpp", "sparta/sparta/memory/SimpleMemoryMapNode.hpp", "DebugMemoryIF::tryPeek", "DebugMemoryIF::tryPoke", "BlockingMemoryIFNode::tryRead", "BlockingMemoryIFNode::tryWrite"]}
{"id": "C102", "title": "Observers of memory accesses are told exactly the successful reads and writes, and do not influence them", "statement": "Every successful read or write notifies, innermost first, each observed interface it passes, with the address there, the data read or the bytes before and after; failed accesses, peeks, pokes and direct accesses notify nobody. The bytes told are what the interface held. The results of all calls are the same as without observers.", "quantifier": "all histories, interfaces, observers, accesses", "why_tests_cant": "All histories and nestings of maps with any set of observers; with observers the code takes another path.", "anchors": ["sparta/sparta/memory/BlockingMemoryIFNode.hpp", "BlockingMemoryIFNode::tryRead", "BlockingMemoryIFNode::tryWrite", "BlockingMemoryIFNode::getReadNotificationSource", "BlockingMemoryIFNode::getPostWriteNotificationSource"]}
{"id": "C103", "title": "Reads, peeks and refused accesses leave memory unchanged", "statement": "A read, peek, registration of an observer, request or invalidation of a direct interface changes no byte that can be peeked; neither does a write or poke that is refused.", "quantifier": "all histories and accesses", "why_tests_cant": "All histories, all bytes of all interfaces.", "anchors": ["sparta/sparta/memory/DebugMemoryIF.hpp", "DebugMemoryIF::tryPoke", "sparta/sparta/memory/BlockingMemoryIFNode.hpp", "BlockingMemoryIFNode::tryWrite"]}
{"id": "C104", "title": "Direct memory interfaces are coherent with the memory", "statement": "A direct interface obtained for an address reads what a peek at the address gives, a write through it is seen at every address that denotes the byte, and nothing else changes; it refuses accesses outside its block; after invalidateAllDMI it refuses every access for ever. getDMI gives null exactly when the access crosses a block or is not mapped, and gives a usable interface otherwise.", "quantifier": "all histories, interfaces, accesses", "why_tests_cant": "All interleavings of accesses through interfaces, maps and direct interfaces.", "anchors": ["sparta/sparta/memory/DMIBlockingMemoryIF.hpp", "DMIBlockingMemoryIF::tryRead", "DMIBlockingMemoryIF::tryWrite", "DMIBlockingMemoryIF::setValid", "sparta/sparta/memory/MemoryObject.hpp", "BlockingMemoryObjectIFNode::getDMI", "BlockingMemoryObjectIFNode::invalidateAllDMI"]}
{"id": "C105", "title": "Memory accesses succeed exactly when allowed and give the right reason otherwise", "statement": "A read or write succeeds exactly when it lies in one block and every byte of it can be peeked; a peek or poke exactly when every byte of it can be peeked. On an interface of a memory the exception says that the access spans blocks exactly when it does, and otherwise that it is outside the access window.", "quantifier": "all histories, addresses and sizes", "why_tests_cant": "All histories, all 64-bit addresses and sizes, nested maps.", "anchors": ["sparta/sparta/memory/DebugMemoryIF.hpp", "DebugMemoryIF::verifyInAccessWindows", "DebugMemoryIF::verifyNoBlockSpan", "DebugMemoryIF::doesAccessSpan", "BlockingMemoryIFNode::read", "BlockingMemoryIFNode::write"]}
{"id": "C106", "title": "A cache shows memory with its own pending writes on top", "statement": "A peek or read through a cached memory returns for each byte the value of the newest uncommitted, undropped write of this cache that contains the byte, and otherwise what the downstream memory has. Peeks outside the range of the cache, and reads that cross a block or are outside, return false.", "quantifier": "every history of one cache without pokes; every history of several caches, devices and pokes in which a merged write finds the block in the caches and a poke finds no other copy of the byte; all addresses and sizes that end below 2^64", "why_tests_cant": "All interleavings of writes, commits and drops, overlapping in any way.", "anchors": ["sparta/sparta/memory/CachedMemory.hpp", "CachedMemory::tryRead_", "CachedMemory::tryPeek_", "CachedMemory::tryWrite_"]}
{"id": "C107", "title": "Only commits change memory, one write at a time in the order they were done", "statement": "A write through a cache does not change downstream memory nor what other caches show. A commit succeeds exactly for the oldest uncommitted write, puts exactly its bytes in downstream memory and removes it from the pending writes; out of order commits throw and change nothing. A write is refused exactly when it crosses a block or is outside, and throws exactly when the watermark is reached.", "quantifier": "the histories of C106; the blocks of downstream memory are multiples of those of the cache", "why_tests_cant": "All histories of several caches with overlapping writes.", "anchors": ["sparta/sparta/memory/CachedMemory.hpp", "CachedMemory::commitWrite", "CachedMemory::tryWrite_", "CachedMemory::getNumOutstandingWrites"]}
{"id": "C108", "title": "Dropping a write undoes it and all newer ones", "statement": "When a pending write is dropped, it and all newer writes of the cache are gone and the cache shows memory with the older writes on top, also where other caches committed in between; other caches and memory are not affected. After any writes of a cache, dropping the first of them makes every cache show what it showed before. The previous value reported with a pending write is memory with the older writes on top. Dropping an unknown write throws.", "quantifier": "the histories of C106; any sequence of writes", "why_tests_cant": "Any number of overlapping writes with commits of other caches in between.", "anchors": ["sparta/sparta/memory/CachedMemory.hpp", "CachedMemory::dropWrite", "CachedMemory::mergeWrite", "StoreData::getPrevDataPtr"]}
{"id": "C109", "title": "Caches see the commits of other caches, except under their own pending writes", "statement": "When a cache commits a write, or a device writes, every other cache shows the new bytes from then on, except the bytes for which it has a pending write itself; bytes that were not written do not change for any cache; the cache that commits shows the same as before.", "quantifier": "all histories of several caches on one coherency point, all writes", "why_tests_cant": "All interleavings of overlapping writes of several caches.", "anchors": ["sparta/sparta/memory/CachedMemory.hpp", "CachedMemory::mergeWrite", "CachedMemory::commitWrite", "sparta/test/CachedMemory/CachedMemory_test.cpp"]}
{"id": "C110", "title": "The list of pending writes is exact", "statement": "Pending writes are listed oldest first with growing identities, never more than the watermark; the writes reported for an address are exactly the pending ones that contain it, in order; the last one is that with the greatest identity, and asking for it when there is none throws; writes of caches with different write ids have different identities.", "quantifier": "every history whatever the calls; identities: fewer than 2^56 calls", "why_tests_cant": "All histories, including calls that throw.", "anchors": ["sparta/sparta/memory/CachedMemory.hpp", "CachedMemory::getOutstandingWrites", "CachedMemory::getOutstandingWritesForAddr", "CachedMemory::getLastOutstandingWrite"]}
{"id": "C111", "title": "A poke through a cache changes exactly the bytes poked", "statement": "After a poke through a cache every cache shows the poked bytes and, elsewhere, what it showed before; later drops do not bring the old bytes back.", "quantifier": "all histories, addresses and data", "why_tests_cant": "All histories of caches, cached and uncached blocks.", "anchors": ["sparta/sparta/memory/CachedMemory.hpp", "CachedMemory::tryPoke_", "DebugMemoryIF::tryPoke"]}
{"id": "C112", "title": "A counter shows the exact sum of what was added to it", "statement": "A counter returns the sum of all increments and additions since it was last set. It never decreases unless it is of the behavior that allows setting, and setting throws for the other behaviors; pre-increment and addition return the new value, post-increment the old one. Overflow is detected.", "quantifier": "all histories of increments, additions, sets and reads; all three behaviors", "why_tests_cant": "Sums near 2^64 and all histories.", "anchors": ["sparta/sparta/statistics/Counter.hpp", "Counter::increment", "Counter::set", "Counter::get"]}
{"id": "C113", "title": "A cycle counter counts exactly the cycles between start and stop", "statement": "The value of a cycle counter is the sum over the periods of counting of the number of cycles from start to stop, each with its delay, times the multiplier of the period; a period that has not ended counts to the current cycle. Reading does not change the value. Starting throws exactly while it counts, stopping exactly while it does not count or before a delayed start.", "quantifier": "all histories of starts, stops, changes of the multiplier and reads with any delays, up to cycle 2^64 - 2^32; values modulo 2^64", "why_tests_cant": "All interleavings of calls and cycles, with delays that reach over later calls.", "anchors": ["sparta/sparta/statistics/CycleCounter.hpp", "CycleCounter::startCounting", "CycleCounter::stopCounting", "CycleCounter::updateCounting", "CycleCounter::get"]}
{"id": "C114", "title": "A histogram counts every value in exactly one bin", "statement": "Each value added is counted in exactly one of underflow, overflow and the bins, the one whose range contains it. The total is the number of values and the sum their sum modulo 2^64. The bins partition the range from lower to upper limit in pieces of the given width.", "quantifier": "all limits and widths the constructor accepts, all sequences of fewer than 2^64 values", "why_tests_cant": "All limits, widths and sequences of values.", "anchors": ["sparta/sparta/statistics/Histogram.hpp", "HistogramBase::addValue", "HistogramBase::HistogramBase"]}
{"id": "C115", "title": "Bins are named by the values they count and the cumulative display adds up", "statement": "The limits in the name of a bin are the least and the greatest value counted in it. The cumulative display shows for each bin the number of values up to the end of the bin and in the end the total.", "quantifier": "all limits and widths the constructor accepts, all sequences of fewer than 2^64 values", "why_tests_cant": "All limits and widths, in particular ranges that are not a multiple of the width and ranges near 2^64.", "anchors": ["sparta/sparta/statistics/Histogram.hpp", "HistogramBase::HistogramBase", "HistogramBase::getDisplayStringCumulative_"]}
{"id": "C116", "title": "A histogram keeps the greatest values", "statement": "The counters for the maximum values show, ascending, the greatest of the values added, with repetitions, and zeros as long as there are fewer values than counters.", "quantifier": "every histogram of fewer than 2^64 bins, any number of counters, all sequences of values", "why_tests_cant": "All sequences of values and numbers of counters.", "anchors": ["sparta/sparta/statistics/Histogram.hpp", "HistogramBase::updateMaxValues_"]}
{"id": "C117", "title": "A cycle histogram gives every cycle to the bin of its value", "statement": "Each bin, underflow and overflow show the number of cycles whose value is in the range. The value of a cycle is the one added in it, or else the one set last and still in force at its end, or else the idle value. A value added in the current cycle counts at once. Adding throws exactly when a value was already added in the cycle, setting too unless the value is the one in force. Reading changes nothing.", "quantifier": "every cycle histogram the constructor accepts, all histories of adds, sets, reads and cycles up to cycle 2^64 - 2^32", "why_tests_cant": "All interleavings of values that last many cycles with values of one cycle.", "anchors": ["sparta/sparta/statistics/CycleHistogram.hpp", "CycleHistogramBase::addValue", "CycleHistogramBase::setValue", "sparta/test/Histogram/Histogram_test.cpp"]}
{"id": "C118", "title": "The bins of a cycle histogram add up to the cycles", "statement": "The total of a cycle histogram is the number of cycles since construction. Underflow, overflow and all bins add up to the total, and to one more after a value was added in the current cycle. The maximum is the greatest of the idle value and all values given.", "quantifier": "the histories of C117", "why_tests_cant": "All histories.", "anchors": ["sparta/sparta/statistics/CycleHistogram.hpp", "CycleHistogramBase::CycleHistogramBase", "CycleHistogramBase::updateMaxValues_"]}
{"id": "C119", "title": "Data sent through a port arrives at every bound in port exactly once, in its cycle and phase", "statement": "A send through a data out port with delay d gives the data to every in port bound to it, unaltered and exactly once, d plus the delay of the in port cycles later in the phase of the in port. Data due in the same cycle arrives in the order of the sends. With a total delay of zero it is handed to the handler at once when the current phase is that of the in port, arrives later in the cycle when that phase is still to come, and the send throws when that phase is over.", "quantifier": "any number of ports and bindings, all delays and phases, all histories of sends, also from handlers", "why_tests_cant": "All interleavings of sends with different delays, deliveries and handlers that send again.", "anchors": ["sparta/sparta/ports/DataPort.hpp", "DataOutPort::send", "DataInPort::send_", "DataInPort::receivePortData_", "sparta/test/Port/Port_test.cpp"]}
{"id": "C120", "title": "Cancelling on a port takes away exactly the chosen data", "statement": "After cancel or cancelIf none of the chosen data that was on its way is delivered, all other data arrives as if nothing had been cancelled, and the number of data taken away is returned. Cancelling on an out port concerns the data sent through it.", "quantifier": "all histories and predicates", "why_tests_cant": "All combinations of data on its way, delays and predicates.", "anchors": ["sparta/sparta/ports/DataPort.hpp", "DataOutPort::cancel", "DataOutPort::cancelIf", "DataInPort::cancel", "DataInPort::cancelIf"]}
{"id": "C121", "title": "isDriven tells whether data will arrive", "statement": "isDriven() of an in port says whether data is on its way to it, isDriven(n) whether data will arrive n cycles from now. On an out port both say so for any of the in ports it is bound to.", "quantifier": "all histories", "why_tests_cant": "All histories of sends, deliveries and cancels before the question.", "anchors": ["sparta/sparta/ports/DataPort.hpp", "DataOutPort::isDriven", "DataInPort::isDriven"]}
{"id": "C122", "title": "Ports are bound once and at the same frequency", "statement": "Binding succeeds exactly when the ports run at the same frequency and are not bound to each other yet; a refused binding changes nothing. No in port is bound to an out port twice. A send through an out port without binding throws. What was set for an in port stays set when it is bound.", "quantifier": "all histories of bindings and sends", "why_tests_cant": "All sequences of bindings, also after data was sent.", "anchors": ["sparta/sparta/ports/Port.hpp", "OutPort::bind", "InPort::bind", "sparta/sparta/ports/DataPort.hpp", "DataOutPort::bind"]}
{"id": "C123", "title": "An in port keeps the data received last", "statement": "After a delivery the in port holds the data and the cycle of its arrival until the next delivery, pullData or clearData. dataReceived, dataReceivedThisCycle, peekData, pullData and getDataTimeStamp tell of exactly that data. peekData, pullData and getDataTimeStamp throw when none is held.", "quantifier": "all histories", "why_tests_cant": "All histories of deliveries, direct calls and pulls.", "anchors": ["sparta/sparta/utils/DataContainer.hpp", "DataContainer::pullData", "DataContainer::peekData", "DataContainer::dataReceivedThisCycle"]}
{"id": "C124", "title": "A name of a parameter path matches exactly the texts of its pattern", "statement": "In a path given to a parameter tree each name between two dots is a pattern: `*` stands for any text, `?` for at most one character, `+` for at least one character, and every other character for itself. A name without wildcards matches itself only. Joining names with dots and splitting again gives the names.", "quantifier": "all names made of the characters of node names and wildcards, all texts", "why_tests_cant": "All patterns and texts.", "anchors": ["sparta/src/TreeNode.cpp", "TreeNode::createSearchRegex", "TreeNode::matchesGlobLike", "sparta/src/sparta.cpp", "TreeNode::getNextName"]}
{"id": "C125", "title": "A parameter lookup shows the value set last for the path", "statement": "A lookup in a parameter tree shows the value and the origin of the last set whose path, read as a pattern, matches the path asked for, made on this tree or on a tree merged into it; nothing when there is none. The node shown has a path that matches. Lookups do not change what later lookups show. exists is true for every node of the tree.", "quantifier": "all histories of sets, creates, merges, copies and lookups on any number of trees, all paths", "why_tests_cant": "All histories with overlapping patterns.", "anchors": ["sparta/sparta/simulation/ParameterTree.hpp", "ParameterTree::set", "ParameterTree::tryGet", "Node::recursTryGet", "sparta/test/ParameterTree/ParameterTree_test.cpp"]}
{"id": "C126", "title": "Merging and copying parameter trees keeps the values", "statement": "After a merge every path has the value it has in the other tree, or where that has none the value it had before; the other tree is unchanged. A copy and the target of an assignment have the values of the original. A merge fails only when one of the trees has a value at a path and the other names something below it. A failed merge changes nothing.", "quantifier": "all histories, all trees and paths", "why_tests_cant": "All pairs of trees that histories can build.", "anchors": ["sparta/sparta/simulation/ParameterTree.hpp", "ParameterTree::merge", "Node::appendTree", "ParameterTree::ParameterTree", "ParameterTree::operator="]}
{"id": "C127", "title": "The report of unread parameters names exactly the values nobody looked up", "statement": "getUnreadValueNodes reports a value exactly when no lookup made since it was written matches its path, and no node twice. isRead of a path is true exactly when a value for it was written and looked up.", "quantifier": "all histories and paths", "why_tests_cant": "All histories of writes, lookups and merges before the report.", "anchors": ["sparta/sparta/simulation/ParameterTree.hpp", "ParameterTree::getUnreadValueNodes", "ParameterTree::isRead", "Node::incRead"]}
{"id": "C128", "title": "A parameter is required when the last set for its path said so", "statement": "isRequired of a path is true exactly when the last set that matches the path said \"required\" and the path was not unrequired afterwards. Unrequiring a path concerns it and everything below. A set that fails changes nothing.", "quantifier": "all histories and paths", "why_tests_cant": "All histories of sets, creates and unrequires.", "anchors": ["sparta/sparta/simulation/ParameterTree.hpp", "ParameterTree::isRequired", "ParameterTree::unrequire", "Node::unrequire"]}
{"id": "C129", "title": "Setting a parameter affects exactly the paths its pattern matches", "statement": "set is refused only for a path below one that already has a value, and then changes nothing; otherwise it returns false exactly when the path has an empty name. After it returned true every path the pattern matches shows the new value, and all others the value they had. Setting through a node with a path below it is setting the joined path.", "quantifier": "all histories, all paths and values", "why_tests_cant": "All histories before the set and all paths after it.", "anchors": ["sparta/sparta/simulation/ParameterTree.hpp", "ParameterTree::set", "Node::create", "Node::set"]}
{"id": "C130", "title": "Chained indexing of a parameter tree finds what a lookup finds", "statement": "tree[\"a\"][\"b\"] shows the value that get(\"a.b\") shows, and throws when there is none.", "quantifier": "all histories and paths", "why_tests_cant": "All trees with overlapping patterns.", "anchors": ["sparta/sparta/simulation/ParameterTree.hpp", "Node::operator[]", "Node::getChild"]}
{"id": "C131", "title": "A notification reaches exactly the observers registered for its source, each once", "statement": "Posting a notification calls back every observer whose registration is in force, is for the payload type, was made at the source, at a node above it or at the virtual global node, and whose name (empty, equal or a pattern) fits the name of the source; each once; nobody else. It does not matter whether the registration, the source or the connection of their trees came first. Observers may post themselves: the calls of the first post then go on.", "quantifier": "all histories of making nodes, sources and taps, joining trees, registering, deregistering and posting; all names and patterns", "why_tests_cant": "All orders of registration and tree construction.", "anchors": ["sparta/sparta/log/NotificationSource.hpp", "NotificationSource::postNotification", "TreeNode::registerForNotification", "TreeNode::deregisterForNotification", "TreeNode::addChild", "sparta/test/Notification/Notification_test.cpp"]}
{"id": "C132", "title": "A notification source knows its observers", "statement": "observed() is true exactly when an observer covers the source, getNumObservers is the number of them, the observation points are the nodes they registered at, each once, and getNumPosts is the number of posts.", "quantifier": "all histories as in C131", "why_tests_cant": "All histories.", "anchors": ["sparta/sparta/log/NotificationSource.hpp", "NotificationSource::observed", "NotificationSource::getNumObservers", "NotificationSource::getObservationPoints", "NotificationSource::getNumPosts"]}
{"id": "C133", "title": "Registrations are refused only for good reason and then change nothing", "statement": "Registering is refused exactly when the same registration is in force already, or when the check for a matching source is asked for and there is none at or below the node. Deregistering is refused exactly when the registration is not in force. A refused call changes nothing. Attaching, moving and detaching a tap never fails.", "quantifier": "all histories as in C131, all names", "why_tests_cant": "All histories before the call.", "anchors": ["sparta/sparta/log/NotificationSource.hpp", "TreeNode::registerForNotification", "TreeNode::deregisterForNotification", "TreeNode::canSubtreeGenerateNotifications", "Tap::reset"]}
{"id": "C134", "title": "Observation state callbacks tell when observers come and go", "statement": "A registration makes exactly the sources it covers call back, with the number of observers they have then, and first with \"sole observer\" if they had none; a deregistration likewise, followed by \"no observers\" when the last is gone. A source does not become observed without a callback.", "quantifier": "all histories as in C131", "why_tests_cant": "All numbers of observers and sources.", "anchors": ["sparta/sparta/log/NotificationSource.hpp", "ObservationStateCallback", "TreeNode::registerForNotification", "TreeNode::deregisterForNotification"]}
{"id": "C135", "title": "A log destination gets each wanted message exactly once and in order", "statement": "When all posts have returned, a destination has received exactly the log messages for which a tap on it covered the source when the message was posted, each written once however many taps lead there, in the order of the posts.", "quantifier": "all histories of taps, sources and messages; any number of taps and destinations", "why_tests_cant": "All combinations of overlapping taps and all orders of messages.", "anchors": ["sparta/sparta/log/Destination.hpp", "sparta/sparta/log/Tap.hpp", "MessageSource::emit", "DestinationInstance::write", "sparta/test/Log/Log_test.cpp"]}
{"id": "C136", "title": "The counters of taps and destinations are exact", "statement": "The number of messages written by a destination is the number of messages in it, the number received is that plus the duplicates dropped; a tap counts the messages passed to it.", "quantifier": "all histories as in C135", "why_tests_cant": "All histories.", "anchors": ["sparta/sparta/log/Destination.hpp", "Destination::getNumMessagesWritten", "Destination::getNumMessagesReceived", "Destination::getNumMessageDuplicates", "Tap::getNumMessages"]}
{"id": "C137", "title": "An observer of a list of names observes the sources that fit one of them", "statement": "Registering with names separated by commas, with or without blanks around them, adds the observer to exactly the sources of the subtree that fit one of the names.", "quantifier": "all histories as in C131, all lists of names", "why_tests_cant": "All lists and trees.", "anchors": ["sparta/src/TreeNode.cpp", "TreeNode::parseNotificationNameString", "TreeNode::registerForNotification"]}
{"id": "C138", "title": "Counter triggers behave as their documentation says", "statement": "A counter trigger runs its callback at the first tick of its clock at which it is active and its counter has reached the trigger point, becomes inactive then, and can be set, deactivated, reset, copied, assigned and destroyed at any time. Every answer (isActive, hasFired, getTriggerPoint, TriggerManager::hasTrigger) and the whole sequence of callbacks agree with that.", "quantifier": "all programs, all callbacks (which may call anything, depending on all that happened before), any number of triggers, counters and clocks", "why_tests_cant": "All interleavings of calls from callbacks and from outside with ticks.", "anchors": ["sparta/sparta/trigger/TriggerManager.hpp", "sparta/sparta/trigger/ManagedTrigger.hpp", "sparta/sparta/trigger/SingleTrigger.hpp", "sparta/src/Trigger.cpp", "CounterTrigger"]}
{"id": "C139", "title": "No callback of a counter trigger without cause", "statement": "A callback runs only for a trigger that was activated and neither deactivated nor run since, and only with a counter value that is the present one and has reached the trigger point.", "quantifier": "all programs and callbacks as in C138", "why_tests_cant": "All programs, including those that do what the code mishandles.", "anchors": ["sparta/sparta/trigger/TriggerManager.hpp", "ManagedTrigger::check", "CounterTrigger::isTriggerReached_"]}
{"id": "C140", "title": "Counter triggers never make a tick fail", "statement": "As long as the program only uses triggers that exist, sets no active trigger in a callback and destroys no trigger in its own callback, no call and no tick fails, except that setting an active trigger is refused.", "quantifier": "all programs and callbacks as in C138", "why_tests_cant": "All interleavings.", "anchors": ["sparta/sparta/trigger/TriggerManager.hpp", "TriggerManager::removeTrigger", "ClockHandler::clockTick_", "ManagedTrigger::check"]}
{"id": "C141", "title": "No due counter trigger is missed", "statement": "At a tick, every active trigger of the clock whose counter has reached its point runs, unless a callback of the same tick touches the trigger or its counter. If callbacks make no calls, exactly the due ones run, in the order of activation.", "quantifier": "all programs and callbacks as in C138", "why_tests_cant": "All sets of triggers and all histories.", "anchors": ["sparta/sparta/trigger/TriggerManager.hpp", "ClockHandler::clockTick_", "ManagedTrigger::check"]}
{"id": "C142", "title": "A counter trigger reports its state truthfully", "statement": "isActive and TriggerManager::hasTrigger both say whether the trigger was activated and neither deactivated nor run since; getTriggerPoint is the point last given.", "quantifier": "all programs and callbacks as in C138", "why_tests_cant": "All histories.", "anchors": ["ManagedTrigger::isActive", "TriggerManager::hasTrigger", "CounterTrigger::getTriggerPoint", "sparta/sparta/trigger/TriggerManager.hpp"]}
{"id": "C143", "title": "Counter triggers made while the simulator is built start with the simulation", "statement": "Triggers constructed before the scheduler is finalized are inactive until startup; at startup all of them become active, in the order of construction.", "quantifier": "all sequences of constructions before finalization", "why_tests_cant": "All sequences.", "anchors": ["sparta/src/Trigger.cpp", "ManagedTrigger::registerSelf_", "CounterTrigger"]}
{"id": "C144", "title": "A tick runs only the triggers of its clock, each once", "statement": "The callbacks at a tick of a clock belong to triggers of that clock that were active before the tick, each at most once, in the order of activation; what a callback activates is looked at from the next tick on.", "quantifier": "all programs and callbacks as in C138", "why_tests_cant": "All programs.", "anchors": ["sparta/sparta/trigger/TriggerManager.hpp", "ClockHandler::clockTick_", "ClockHandler::addTrigger"]}
{"id": "C145", "title": "A cycle trigger holds at most one time", "statement": "Whatever is called, and whatever its callbacks call, a CycleTrigger answers and runs as a slot that holds at most one time: setting fills it (before the scheduler is finalized: from startup on), deactivating and running empty it, changing or setting it while it is full is refused.", "quantifier": "all programs over the calls prepAbsolute, prepRelative, alignRelative, set, setAbsolute, setRelative, deactivate, isActive, hasFired, outside and inside of callbacks, all clock periods; callbacks may do anything that depends on what happened", "why_tests_cant": "All interleavings of calls, callbacks and time.", "anchors": ["sparta/sparta/trigger/SingleTrigger.hpp", "CycleTrigger::set", "CycleTrigger::setAbsolute", "CycleTrigger::setRelative", "SingleTrigger::deactivate"]}
{"id": "C146", "title": "No callback of a cycle trigger without a setting", "statement": "A callback runs only if the trigger was set and neither deactivated nor run since.", "quantifier": "all programs and callbacks as in C145, also those that break the documented obligations", "why_tests_cant": "All programs.", "anchors": ["sparta/sparta/trigger/SingleTrigger.hpp", "SingleTrigger::invokeTrigger", "SingleTrigger::deactivate"]}
{"id": "C147", "title": "A cycle trigger runs in its cycle", "statement": "An absolute trigger runs in the cycle it was given; a relative one exactly the given number of cycles after it was set; an aligned one in the first cycle after the setting that is a multiple of the given number.", "quantifier": "all programs and callbacks as in C145, all clocks", "why_tests_cant": "All times, delays and periods.", "anchors": ["sparta/sparta/trigger/SingleTrigger.hpp", "CycleTrigger::set_", "CycleTrigger::alignRelative"]}
{"id": "C148", "title": "A set cycle trigger runs and reports its state", "statement": "Once the simulation has started, the next event of a trigger that is set is its callback. isActive says whether it is set and was neither deactivated nor run since. Nothing fails but the calls that are refused, and these change nothing.", "quantifier": "all programs and callbacks as in C145", "why_tests_cant": "All programs.", "anchors": ["sparta/sparta/trigger/SingleTrigger.hpp", "SingleTrigger::isActive", "CycleTrigger::check_safe_"]}
{"id": "C149", "title": "The device tree is a forest", "statement": "However nodes are constructed, attached, made private and destroyed: a node is among the children of another exactly if that is its parent, it is there once, no node is its own ancestor, the way up ends, and parents exist.", "quantifier": "all sequences of constructions, aliases, addChild, makeSubtreePrivate and destructions", "why_tests_cant": "All sequences.", "anchors": ["sparta/src/TreeNode.cpp", "TreeNode::addChild_", "TreeNode::~TreeNode", "TreeNode::setParent_"]}
{"id": "C150", "title": "addChild accepts exactly what fits", "statement": "addChild succeeds exactly if the child has no parent, is not the parent itself or above it, the parent knows nothing under its name, aliases and group with index, no sibling has the same place in the same group, and it is not a root. If it is refused, nothing changes. If it succeeds, it is the last child, its subtree gets the privacy of the parent on top, and nothing else changes.", "quantifier": "all states reachable as in C149, all pairs of nodes", "why_tests_cant": "All trees.", "anchors": ["sparta/src/TreeNode.cpp", "TreeNode::addChild_", "TreeNode::verifyUniqueChildIdentifier_"]}
{"id": "C151", "title": "Locations lead back to the node", "statement": "The location of a node is the location of any of its ancestors, a dot and a path by which the ancestor finds the node. Different nodes below an ancestor have different locations. Every node has a location.", "quantifier": "all states reachable as in C149, all nodes and ancestors", "why_tests_cant": "All trees.", "anchors": ["sparta/src/TreeNode.cpp", "TreeNode::getLocation_", "TreeNode::getChild_"]}
{"id": "C152", "title": "getChild follows names", "statement": "A path of names or aliases leads to the node that has them, what is found has the names of the path, a path may be walked in parts, a dot leads to the parent, hasChild says whether getChild finds something; nothing that was destroyed is found.", "quantifier": "all states reachable as in C149, all paths", "why_tests_cant": "All trees and paths.", "anchors": ["sparta/src/TreeNode.cpp", "TreeNode::getChild_", "TreeNode::hasChild_"]}
{"id": "C153", "title": "findChildren finds exactly what the pattern designates", "statement": "findChildren finds exactly the nodes that the pattern designates level by level (with the wildcards *, ? and +; by name, alias or group with index), each once; a leading dot starts at the parent.", "quantifier": "all states reachable as in C149, all patterns without other regular expression operators", "why_tests_cant": "All trees and patterns.", "anchors": ["sparta/src/TreeNode.cpp", "TreeNode::findChildren_", "TreeNode::findImmediateChildren_"]}
{"id": "C154", "title": "findChildren reports the replacements of the wildcards", "statement": "With every node found come as many texts as the pattern has wildcards; put in their places in order, they give the names that matched.", "quantifier": "all states reachable as in C149, all patterns as in C153", "why_tests_cant": "All trees and patterns.", "anchors": ["sparta/src/TreeNode.cpp", "sparta/sparta/simulation/TreeNode.hpp", "TreeNode::findChildren_", "TreeNode::identityMatchesPattern_"]}
{"id": "C155", "title": "locationMatchesPattern agrees with findChildren", "statement": "locationMatchesPattern says whether a search with the pattern from the starting node finds the node.", "quantifier": "all states reachable as in C149, all nodes, starting nodes and patterns", "why_tests_cant": "All trees and patterns.", "anchors": ["sparta/src/TreeNode.cpp", "TreeNode::locationMatchesPattern"]}
{"id": "C156", "title": "Valid node names", "statement": "A node can be given a name exactly if it is not empty, not reserved, consists of letters, digits and underscores, does not begin with a digit and has no two adjacent underscores.", "quantifier": "all texts", "why_tests_cant": "All texts.", "anchors": ["sparta/src/TreeNode.cpp", "sparta/sparta/simulation/TreeNode.hpp", "TreeNode::validateName"]}
{"id": "C157", "title": "Private subtrees", "statement": "Without access to private nodes, getChild, hasChild, findChildren and getChildren give exactly the nodes such that no node on the way is private to its parent. What was made private stays private to its ancestors, with everything below it, whatever is done later.", "quantifier": "all states reachable as in C149, all paths and patterns", "why_tests_cant": "All trees and histories.", "anchors": ["sparta/src/TreeNode.cpp", "sparta/sparta/simulation/TreeNode.hpp", "TreeNode::makeSubtreePrivate", "TreeNode::canSeeChild_", "TreeNode::incrementPrivacyLevel_"]}
{"id": "C158", "title": "getDeepestMatchingPath", "statement": "getDeepestMatchingPath gives the longest part of the path that leads to a node.", "quantifier": "all states reachable as in C149, all paths", "why_tests_cant": "All trees and paths.", "anchors": ["sparta/src/TreeNode.cpp", "TreeNode::getDeepestMatchingPath", "TreeNode::recursGetDeepestMatchingPath_"]}
{"id": "C159", "title": "The way up", "statement": "getRoot is the topmost ancestor, getLevel the number of ancestors, isDescendantOf says whether the other node is on the way up, at most the given number of steps away.", "quantifier": "all states reachable as in C149", "why_tests_cant": "All trees.", "anchors": ["sparta/src/TreeNode.cpp", "TreeNode::getRoot", "TreeNode::getLevel", "TreeNode::isDescendantOf"]}
{"id": "C160", "title": "Calls on parameters come to an end", "statement": "Whatever modifier callbacks do, including writing parameters that have callbacks themselves, every call on a parameter or its set returns or throws: callbacks do not nest without end and the lock is never released when it is not held.", "quantifier": "all sets of newly constructed parameters (scalars and vectors of any depth), all sequences of calls, all conversions from text, all modifier callbacks", "why_tests_cant": "All callbacks and sets; tests use a few callbacks.", "anchors": ["sparta/src/Parameter.cpp", "sparta/sparta/simulation/ParameterSet.hpp", "ParameterBase::invokeModifierCB_", "ParameterSet::canParameterBeModifiedByLockingParam"]}
{"id": "C161", "title": "A parameter that has been read keeps its value", "statement": "Once a parameter that is not volatile has been read, every call that would write it throws and changes nothing; two reads give the same value whatever is called in between, unless the parameter is explicitly marked as unread.", "quantifier": "all sets of newly constructed parameters (scalars and vectors of any depth), all sequences of calls, all conversions from text, all modifier callbacks", "why_tests_cant": "All histories between two reads.", "anchors": ["sparta/sparta/simulation/Parameter.hpp", "ParameterBase::incrementWriteCount_", "Parameter::operator="]}
{"id": "C162", "title": "Access counts", "statement": "Every read that is not a peek counts once, an accepted write of a parameter without modifier callback counts once and resets the reads (under a final configuration assignments are not writes); peeks and queries change nothing.", "quantifier": "all sets of newly constructed parameters (scalars and vectors of any depth), all sequences of calls, all conversions from text, all modifier callbacks", "why_tests_cant": "All states and calls.", "anchors": ["sparta/sparta/simulation/Parameter.hpp", "ParameterBase::incrementReadCount_", "ParameterBase::incrementWriteCount_", "Parameter::peekValue"]}
{"id": "C163", "title": "Unread parameters are found", "statement": "verifyAllRead succeeds exactly if every parameter is ignored or has been read since its last write.", "quantifier": "all sets of newly constructed parameters (scalars and vectors of any depth), all sequences of calls, all conversions from text, all modifier callbacks", "why_tests_cant": "All histories.", "anchors": ["sparta/sparta/simulation/ParameterSet.hpp", "sparta/sparta/simulation/Parameter.hpp", "ParameterSet::verifyAllRead"]}
{"id": "C164", "title": "A failed write changes nothing", "statement": "A call to write a parameter that throws leaves the value and the counts as they were.", "quantifier": "all sets of newly constructed parameters (scalars and vectors of any depth), all sequences of calls, all conversions from text, all modifier callbacks", "why_tests_cant": "All callbacks that fail, in all states.", "anchors": ["sparta/sparta/simulation/Parameter.hpp", "Parameter::operator=", "Parameter::setValueFromString_", "Parameter::setVectorItemValueFromString_"]}
{"id": "C165", "title": "An accepted write takes effect", "statement": "After a call to write a parameter that returns, the parameter has the value that was written (for text: its conversion).", "quantifier": "all sets of newly constructed parameters (scalars and vectors of any depth), all sequences of calls, all conversions from text, all modifier callbacks", "why_tests_cant": "All callbacks.", "anchors": ["sparta/sparta/simulation/Parameter.hpp", "Parameter::operator=", "Parameter::setValueFromString_", "Parameter::setValueFromStringVector_"]}
{"id": "C166", "title": "Callbacks write later parameters only", "statement": "A modifier callback can write only parameters that come after its own in the set; announcing others is refused.", "quantifier": "all sets of newly constructed parameters (scalars and vectors of any depth), all sequences of calls, all conversions from text, all modifier callbacks", "why_tests_cant": "All callbacks, nested in all ways.", "anchors": ["sparta/src/Parameter.cpp", "sparta/sparta/simulation/ParameterSet.hpp", "ParameterSet::hasModificationPermission", "ParameterBase::associateParametersForModification"]}
{"id": "C167", "title": "The lock is released", "statement": "After every call, whether it returns or throws, the set is locked exactly if it was before.", "quantifier": "all sets of newly constructed parameters (scalars and vectors of any depth), all sequences of calls, all conversions from text, all modifier callbacks", "why_tests_cant": "All callbacks that fail.", "anchors": ["sparta/src/Parameter.cpp", "sparta/sparta/simulation/ParameterSet.hpp", "ParameterBase::lock", "ParameterBase::unlock", "ParameterSet::isLocked"]}
{"id": "C168", "title": "Lockdown of special parameters", "statement": "After lockdownParameters the values and defaults of locked and hidden parameters never change again, and hidden ones are not visible.", "quantifier": "all sets of newly constructed parameters (scalars and vectors of any depth), all sequences of calls, all conversions from text, all modifier callbacks", "why_tests_cant": "All later histories.", "anchors": ["sparta/sparta/simulation/Parameter.hpp", "Parameter::checkModificationPermission_", "TreeNode::lockdownParameters", "Parameter::isVisibilityAllowed"]}
{"id": "C169", "title": "Defaults and overrides", "statement": "A default changes only by an accepted override, which marks it as overridden for ever; overrides change neither the value nor the counts, writes do not change the default.", "quantifier": "all sets of newly constructed parameters (scalars and vectors of any depth), all sequences of calls, all conversions from text, all modifier callbacks", "why_tests_cant": "All histories.", "anchors": ["sparta/sparta/simulation/Parameter.hpp", "Parameter::overrideDefaultFromString", "Parameter::overrideDefaultItemValueFromString", "ParameterBase::getDefaultOverride"]}
{"id": "C170", "title": "Items of nested vectors", "statement": "An item that was set reads as what was written; other items are unchanged; vectors grow only as far as the indices require.", "quantifier": "all sets of newly constructed parameters (scalars and vectors of any depth), all sequences of calls, all conversions from text, all modifier callbacks, all lists of indices", "why_tests_cant": "All depths, sizes and indices.", "anchors": ["sparta/sparta/simulation/Parameter.hpp", "Parameter::setItemValueFromString", "Parameter::getItemValueFromString", "Parameter::getVectorSizeAt"]}
{"id": "C171", "title": "Final configurations", "statement": "With a final configuration assignments to parameters that are not hidden are ignored and no modifier callbacks run.", "quantifier": "all sets of newly constructed parameters (scalars and vectors of any depth), all sequences of calls, all conversions from text, all modifier callbacks", "why_tests_cant": "All states.", "anchors": ["sparta/sparta/simulation/Parameter.hpp", "sparta/src/Parameter.cpp", "Parameter::operator=", "ParameterBase::invokeModifierCB_"]}
{"id": "C172", "title": "isDefault", "statement": "isDefault says whether the value equals the default.", "quantifier": "all sets of newly constructed parameters (scalars and vectors of any depth), all sequences of calls, all conversions from text, all modifier callbacks", "why_tests_cant": "All types, values and quotes.", "anchors": ["sparta/sparta/simulation/Parameter.hpp", "sparta/sparta/utils/Printing.hpp", "ParameterBase::isDefault", "Parameter::getValueAsString", "Parameter::getDefaultAsString"]}
{"id": "C173", "title": "Validation", "statement": "validateDependencies says whether every validation callback accepts the value and lists the names of those that do not, in the order they were added; it changes nothing.", "quantifier": "all sets of newly constructed parameters (scalars and vectors of any depth), all sequences of calls, all conversions from text, all modifier callbacks, all validation callbacks", "why_tests_cant": "All sets of callbacks.", "anchors": ["sparta/sparta/simulation/Parameter.hpp", "Parameter::validateDependencies", "ValidationCheckCallbackBase"]}
{"id": "C174", "title": "No writing after finalization", "statement": "Once the tree is finalized parameters cannot be written.", "quantifier": "all sets of newly constructed parameters (scalars and vectors of any depth), all sequences of calls, all conversions from text, all modifier callbacks", "why_tests_cant": "All later histories.", "anchors": ["sparta/sparta/simulation/Parameter.hpp", "ParameterBase::incrementWriteCount_"]}
{"id": "C175", "title": "The value of a statistic", "statement": "A statistic instance says what its expression means over its window: counters count from the last start to the last end after it or, if there is none, to now; parameters and COUNT_LATEST counters give their latest value. No call throws while time goes forwards and the nodes exist.", "quantifier": "all expressions, all sequences of starts, ends and accumulations in worlds that change in any way", "why_tests_cant": "All expressions (with statistics in statistics) and all histories.", "anchors": ["sparta/sparta/statistics/StatisticInstance.hpp", "sparta/src/StatisticInstance.cpp", "StatisticInstance::getValue", "StatisticInstance::start", "StatisticInstance::end"]}
{"id": "C176", "title": "The window of a statistic", "statement": "getStart and getEnd are the ticks of the last start and of the last end after it.", "quantifier": "all expressions, all sequences of starts, ends and accumulations in worlds that change in any way", "why_tests_cant": "All histories, also with checkpoints restored in between.", "anchors": ["sparta/sparta/statistics/StatisticInstance.hpp", "sparta/src/StatisticInstance.cpp", "StatisticInstance::getStart", "StatisticInstance::getEnd"]}
{"id": "C177", "title": "Ended windows stay", "statement": "Once a window is ended, its value stays that of the moment it ended, whatever the counters say later and even if the nodes are destroyed.", "quantifier": "all expressions, all sequences of starts, ends and accumulations in worlds that change in any way, all later worlds", "why_tests_cant": "All later states.", "anchors": ["sparta/sparta/statistics/StatisticInstance.hpp", "sparta/src/StatisticInstance.cpp", "StatisticInstance::end", "StatisticInstance::getValue"]}
{"id": "C178", "title": "Time that goes back", "statement": "Reading throws if the present is before the start or the end of the window, or if the end is before the start.", "quantifier": "all expressions, all sequences of starts, ends and accumulations in worlds that change in any way", "why_tests_cant": "All ticks.", "anchors": ["sparta/sparta/statistics/StatisticInstance.hpp", "sparta/src/StatisticInstance.cpp", "StatisticInstance::getValue"]}
{"id": "C179", "title": "Accumulating statistics", "statement": "A statistic that accumulates counts from the first start, however often it is started again.", "quantifier": "all expressions, all sequences of starts, ends and accumulations in worlds that change in any way", "why_tests_cant": "All histories.", "anchors": ["sparta/sparta/statistics/StatisticInstance.hpp", "StatisticInstance::accumulateStatistic", "StatisticInstance::start"]}
{"id": "C180", "title": "Statistics of destroyed nodes", "statement": "When its node is gone, an open window reads as NaN and starting or ending it throws; a call that throws changes nothing.", "quantifier": "all instances and worlds", "why_tests_cant": "All states.", "anchors": ["sparta/sparta/statistics/StatisticInstance.hpp", "sparta/src/StatisticInstance.cpp", "StatisticInstance::start", "StatisticInstance::getValue"]}
{"id": "C181", "title": "Windows one after the other", "statement": "Windows on a counter that follow each other give how much it counted in each; together they give all it counted: nothing is lost or counted twice.", "quantifier": "all counters, all numbers of windows and counts", "why_tests_cant": "All numbers of windows.", "anchors": ["sparta/sparta/statistics/StatisticInstance.hpp", "sparta/src/StatisticInstance.cpp", "StatisticInstance::start", "StatisticInstance::end"]}
{"id": "C182", "title": "Raw values", "statement": "getRawLatest gives the latest value of the node and does not depend on the window.", "quantifier": "all instances and worlds", "why_tests_cant": "All states.", "anchors": ["sparta/sparta/statistics/StatisticInstance.hpp", "sparta/src/StatisticInstance.cpp", "StatisticInstance::getRawLatest"]}
{"id": "C183", "title": "Copies of statistics", "statement": "An instance assigned or moved from another behaves as that one did, whatever is done next.", "quantifier": "all instances, all later histories", "why_tests_cant": "All later histories.", "anchors": ["sparta/sparta/statistics/StatisticInstance.hpp", "sparta/src/StatisticInstance.cpp", "StatisticInstance::operator=", "StatisticInstance::StatisticInstance", "sparta/sparta/statistics/Expression.hpp"]}
{"id": "C184", "title": "Statistics without a context", "statement": "An instance of an expression that is not a node throws when it is read, started or ended before it is given a context.", "quantifier": "all expressions and worlds", "why_tests_cant": "All expressions.", "anchors": ["sparta/sparta/statistics/StatisticInstance.hpp", "StatisticInstance::setContext"]}
{"id": "C185", "title": "Windows of reports", "statement": "Starting, ending and accumulating a report does so to all its statistics and to those of all its subreports; each then says what its expression means over the window of the report, and each report gives that window.", "quantifier": "all trees of reports, all sequences of calls", "why_tests_cant": "All nestings and histories.", "anchors": ["sparta/sparta/report/Report.hpp", "sparta/src/Report.cpp", "Report::start", "Report::end", "Report::accumulateStats"]}
{"id": "C186", "title": "Names in a report", "statement": "Every statistic with a name is found by it and no two have the same name; adding one puts it, and its sub-statistics, after the others; a call that throws changes nothing.", "quantifier": "all sequences of additions", "why_tests_cant": "All histories.", "anchors": ["sparta/sparta/report/Report.hpp", "sparta/src/Report.cpp", "Report::add", "Report::getStatistic", "Report::hasStatistic"]}
{"id": "C187", "title": "Copies of reports", "statement": "A copy of a report has the same statistics by the same names and the same window.", "quantifier": "all reports", "why_tests_cant": "All reports.", "anchors": ["sparta/sparta/report/Report.hpp", "Report::Report(const Report&)"]}
{"id": "C188", "title": "Moved reports", "statement": "A report moved from another has the same statistics by the same names and the same window.", "quantifier": "all reports and names", "why_tests_cant": "All reports.", "anchors": ["sparta/sparta/report/Report.hpp", "Report::Report(Report&&)"]}
{"id": "C189", "title": "Assigned reports", "statement": "A report assigned from another, or from itself, has the same statistics by the same names and the same window, and no others.", "quantifier": "all pairs of reports", "why_tests_cant": "All reports.", "anchors": ["sparta/sparta/report/Report.hpp", "Report::operator="]}
{"id": "C190", "title": "Ids of pipeline records", "statement": "Whatever is called, in every file of a pipeline collection the ids of the records grow, no id is used in two files, and every record begins before it ends and ends at the latest with the current tick.", "quantifier": "all sequences of calls, those that throw included", "why_tests_cant": "All histories.", "anchors": ["sparta/sparta/collection/Collectable.hpp", "sparta/sparta/collection/PipelineCollector.hpp", "PipelineCollector::getUniqueTransactionId", "Collectable::writeRecord_"]}
{"id": "C191", "title": "The viewer shows what was collected", "statement": "The value that a collectable has at the end of a tick while collection is on is what the file shows for it in that tick, exactly once, and nothing if it has no value; before the collectable is closed this holds for everything before the last heartbeat; the file never shows anything else.", "quantifier": "all sequences of calls that start closed collectables and initialize stopped ones, all ticks, intervals and collectables, annotations of less than 65536 characters", "why_tests_cant": "All histories.", "anchors": ["sparta/sparta/collection/Collectable.hpp", "sparta/sparta/collection/PipelineCollector.hpp", "Collectable::collect", "Collectable::closeRecord", "PipelineCollector::performHeartBeat_"]}
{"id": "C192", "title": "Intervals of the index", "statement": "A record that comes after k entries of the index lies between tick (k-1)*H and tick k*H, where H is the heartbeat interval, so that a viewer finds every record by its tick; the index has an entry for each interval up to the current one.", "quantifier": "all sequences of calls", "why_tests_cant": "All histories.", "anchors": ["sparta/sparta/collection/PipelineCollector.hpp", "PipelineCollector::startCollection", "PipelineCollector::performHeartBeat_", "sparta/src/ArgosOutputter.cpp"]}
{"id": "C193", "title": "Collection does not throw", "statement": "Starting, stopping, collecting, advancing time and destroying do not throw if the documented conditions hold.", "quantifier": "all legal sequences of calls", "why_tests_cant": "All histories.", "anchors": ["sparta/sparta/collection/Collectable.hpp", "sparta/sparta/collection/PipelineCollector.hpp", "PipelineCollector::writeRecord"]}
{"id": "C194", "title": "Continued records", "statement": "A record marked as continued ends at a heartbeat, and the value it has is shown from there on.", "quantifier": "all legal sequences of calls, all continued records", "why_tests_cant": "All histories.", "anchors": ["sparta/sparta/collection/Collectable.hpp", "sparta/sparta/collection/PipelineCollector.hpp", "Collectable::restartRecord", "CONTINUE_FLAG"]}
{"id": "C195", "title": "Collection with a duration", "statement": "A value collected for d ticks is shown in these d ticks and not after them, unless the collectable is given something else.", "quantifier": "all legal sequences of calls", "why_tests_cant": "All histories and durations.", "anchors": ["sparta/sparta/collection/Collectable.hpp", "Collectable::collectWithDuration"]}
{"id": "C196", "title": "Destroying the collector", "statement": "When the collector is destroyed everything collected up to now has been written, the current tick included, and the call does not throw; collecting afterwards does no harm.", "quantifier": "all legal sequences of calls", "why_tests_cant": "All histories.", "anchors": ["sparta/sparta/collection/PipelineCollector.hpp", "PipelineCollector::destroy"]}
{"id": "C197", "title": "Stopping and starting again", "statement": "A file is only changed while it is the current one; the file is only exchanged while collection is off; stopping writes what is open and starting again keeps it.", "quantifier": "all states and calls", "why_tests_cant": "All states.", "anchors": ["sparta/sparta/collection/PipelineCollector.hpp", "sparta/sparta/collection/Collectable.hpp", "PipelineCollector::reactivate", "PipelineCollector::stopCollection", "PipelineCollector::startCollection"]}
{"id": "C198", "title": "Collecting containers", "statement": "When a container is collected, each of its positions shows in that tick the element there, or nothing if there is none, and other collectables are not affected.", "quantifier": "all legal sequences of calls, all containers and positions", "why_tests_cant": "All contents.", "anchors": ["sparta/sparta/collection/IterableCollector.hpp", "IterableCollector::collect"]}
{"id": "C199", "title": "Automatic collection", "statement": "A collectable that collects a variable automatically shows in every tick after the one in which it was started the value that the variable has at the end of the tick, until it is stopped.", "quantifier": "all legal sequences of calls", "why_tests_cant": "All histories.", "anchors": ["sparta/sparta/collection/PipelineCollector.hpp", "sparta/sparta/collection/Collectable.hpp", "CollectablesByClock::performCollection"]}
{"id": "C200", "title": "State timers count every cycle once", "statement": "The values put into the histogram of a state add up, right after a query and once the unit is destroyed, to the cycles all timers of the unit together have been in that state, however they were taken, queried, dropped and reused.", "quantifier": "all units, all sequences of calls, all classes and states", "why_tests_cant": "All interleavings of timers, queries and time.", "anchors": ["sparta/sparta/simulation/StateTimerUnit.hpp", "StateTimer::startState", "StateTimer::endState", "StateTimer::endTimerState_", "StateTimer::queryStateTimer_", "StateTimer::releaseStateTimer_"]}
{"id": "C201", "title": "Each timer gives one value per state", "statement": "Dropping a timer puts exactly one value into the histogram of every state: the time that timer was in the state.", "quantifier": "all units, all sequences of calls", "why_tests_cant": "All histories.", "anchors": ["sparta/sparta/simulation/StateTimerUnit.hpp", "StateTimer::releaseStateTimer_", "StateTimerHistogram::updateHistogram"]}
{"id": "C202", "title": "State timers are independent and fresh", "statement": "Whether a timer accepts to enter or leave a state depends only on what was done through its own handle; a timer taken from the pool is in no state and has spent no time, even when it was used before.", "quantifier": "all units, all sequences of calls", "why_tests_cant": "All reuse patterns of the pool.", "anchors": ["sparta/sparta/simulation/StateTimerUnit.hpp", "StateTimerPool::allocateTimer", "StateTimerPool::releaseTimer", "StateTimer::startState"]}
{"id": "C203", "title": "Refused calls of a state timer", "statement": "A timer can always go from one state of a class to another, refuses enum classes that the unit was not made for, and a refused call changes nothing.", "quantifier": "all units, all sequences of calls", "why_tests_cant": "All states.", "anchors": ["sparta/sparta/simulation/StateTimerUnit.hpp", "StateTimer::startState", "StateTimer::endState"]}
{"id": "C204", "title": "Taking state timers", "statement": "A timer can be taken whenever fewer than 10000 are in use; the number in use is bounded.", "quantifier": "all units, all sequences of calls", "why_tests_cant": "All numbers of timers in flight.", "anchors": ["sparta/sparta/simulation/StateTimerUnit.hpp", "StateTimerPool::allocateTimer"]}
{"id": "C205", "title": "State timers and the life of their unit", "statement": "A handle may be dropped after its unit was destroyed and nothing is counted again; a handle works exactly while it has not been dropped and its unit exists.", "quantifier": "all units, all sequences of calls", "why_tests_cant": "All orders of destruction.", "anchors": ["sparta/sparta/simulation/StateTimerUnit.hpp", "StateTimer::CustomDeleter", "StateTimerUnit::~StateTimerUnit"]}
{"id": "C206", "title": "Querying state timers again", "statement": "A second query in the same cycle changes nothing.", "quantifier": "all units, all sequences of calls", "why_tests_cant": "All histories.", "anchors": ["sparta/sparta/simulation/StateTimerUnit.hpp", "StateTimer::queryStateTimer_", "StateTimerUnit::dynamicQuery"]}
{"id": "C207", "title": "Joint transitions by markers", "statement": "Setting a marker of a value that has no monitors marks that marker alone, and the state takes the value exactly when no more markers of the value are then missing than its threshold. Setting it again does nothing, and other states are not affected. The threshold is the minimum number of markers that must call in.", "quantifier": "all reachable states, all numbers of markers and thresholds", "why_tests_cant": "All orders of setting and clearing markers.", "anchors": ["sparta/sparta/simulation/State.hpp", "State::Marker::set", "MarkerSet::jointSet_", "State::setMarkedThreshold"]}
{"id": "C208", "title": "Counting marks", "statement": "numMarks() is the number of markers of the value that are marked, complete() says that none is missing, a marked or unmarked marker can always be cleared, and exactly the configured number of markers can be made.", "quantifier": "all sequences of calls", "why_tests_cant": "All interleavings of set, clear, reset and monitors.", "anchors": ["sparta/sparta/simulation/State.hpp", "State::numMarks", "State::complete", "State::Marker::clear", "MarkerSet::makeMarker"]}
{"id": "C209", "title": "Values that were taken", "statement": "isSet(v) says whether the state was ever set to v: it becomes true when the state changes to v, never otherwise, and stays true until the state is reset.", "quantifier": "all sequences of calls, all values", "why_tests_cant": "All histories of a state.", "anchors": ["sparta/sparta/simulation/State.hpp", "State::isSet", "State::isClear"]}
{"id": "C210", "title": "Observers of a state", "statement": "When a state takes a value, directly or jointly, every event enrolled on that value is scheduled once, in the order of enrolling, and is enrolled no more; events enrolled on other values or other states stay. Withdrawing takes one enrolment back, releasing cancels all. An event is never scheduled more often than it was enrolled.", "quantifier": "all sequences of calls, all events", "why_tests_cant": "All histories of enrolling and changing.", "anchors": ["sparta/sparta/simulation/State.hpp", "sparta/sparta/simulation/Audience.hpp", "State::observe", "State::withdraw", "State::release", "MarkerSet::notifyObservers_"]}
{"id": "C211", "title": "Residency of states", "statement": "With tracking enabled, the report gives for every value the ticks all states together were in that value, and the number of states.", "quantifier": "all numbers of states, all sequences of calls", "why_tests_cant": "All lifetimes of states and reuse of their trackers.", "anchors": ["sparta/sparta/simulation/State.hpp", "sparta/sparta/simulation/StateTracker.hpp", "StateTrackerUnit::startState", "StatePool::flush", "StateSet"]}
{"id": "C212", "title": "Time in the state", "statement": "With tracking enabled, getTimeInState() is the number of ticks since the state last changed its value, or since it was made; without tracking it is refused.", "quantifier": "all sequences of calls", "why_tests_cant": "All histories of a state.", "anchors": ["sparta/sparta/simulation/State.hpp", "sparta/sparta/simulation/StateTracker.hpp", "State::getTimeInState"]}
{"id": "C213", "title": "Monitors", "statement": "When a marker of a value with monitors is set, every monitor is signalled once in the order of attaching, and the state changes only if a monitor changes it. Monitors are signalled when the transition is due.", "quantifier": "all reachable states, all lists of monitors", "why_tests_cant": "All combinations of monitors, markers and thresholds.", "anchors": ["sparta/sparta/simulation/State.hpp", "State::attachMonitor", "State::detachMonitor", "State::Monitor::signalSet"]}
{"id": "C214", "title": "Making and resetting states", "statement": "A new state has its initial value and a reset gives it that value back (or the value asked for), clears all marks and forgets which values were taken; markers, observers, thresholds and monitors stay and nothing is scheduled.", "quantifier": "all states, all values", "why_tests_cant": "All states from which a reset is made.", "anchors": ["sparta/sparta/simulation/State.hpp", "State::State", "State::reset"]}
{"id": "C215", "title": "A unique event fires once in every tick it was scheduled for", "statement": "However often a UniqueEvent is scheduled for a tick, its handler is called exactly once in that tick, and in no tick for which it was not scheduled or for which that was cancelled. A request is refused exactly if the event already fired in that tick or its group has been passed, and then changes nothing.", "quantifier": "all sequences of requests, cancellations, firings and passing of time", "why_tests_cant": "All interleavings of requests from handlers before and after the event in a tick.", "anchors": ["sparta/sparta/events/PhasedUniqueEvent.hpp", "sparta/sparta/events/UniqueEvent.hpp", "PhasedUniqueEvent::scheduleRelativeTick", "PhasedUniqueEvent::deliverEvent_", "Scheduler::scheduleEvent", "Scheduler::scheduleAsyncEvent"]}
{"id": "C216", "title": "A single cycle unique event fires once in every cycle it was scheduled for", "statement": "A SingleCycleUniqueEvent scheduled any number of times and in any order for the present or the next cycle fires exactly once in every cycle it was scheduled for and in no other; requests further ahead are refused; the internal checks of debug builds never fail.", "quantifier": "all periods, all sequences of requests", "why_tests_cant": "The two remembered ticks must tell all orders of requests apart.", "anchors": ["sparta/sparta/events/PhasedSingleCycleUniqueEvent.hpp", "sparta/sparta/events/SingleCycleUniqueEvent.hpp", "PhasedSingleCycleUniqueEvent::schedule", "PhasedSingleCycleUniqueEvent::cancel"]}
{"id": "C217", "title": "Tree filter expressions are parsed according to their grammar", "statement": "The texts that the parser of tree filter expressions accepts are exactly those of the grammar, each with one meaning: conditions on visibility, type, tag or name with an optional comparison, constants, parentheses, inversion, and the operators &&, || and ^^ in this order of precedence, associating to the left, with white space allowed between all of them; a decimal number stands for its value; all else is refused with an exception.", "quantifier": "all texts", "why_tests_cant": "The set of texts is infinite and nests without bound; tests try single texts.", "anchors": ["sparta/sparta/tree/filter/Grammar.hpp", "sparta/sparta/tree/filter/Parser.hpp", "sparta/src/TreeFilterExpressionGrammar.cpp", "Grammar::Grammar", "Parser::parse"]}
{"id": "C218", "title": "Evaluating a tree filter expression tells whether a node fits it", "statement": "For every expression that the parser returned and every node, evaluating tells whether the node fits the expression, where a visibility or type condition fits only instrumentation nodes, a tag condition looks at all tags of the node, and a regular expression must match the whole tag or name; it throws exactly if some pattern of the expression is no regular expression, and never because operands are missing.", "quantifier": "all expressions, all nodes, all meanings of regular expressions", "why_tests_cant": "Expressions nest without bound; the outcome for each is needed for all nodes.", "anchors": ["sparta/sparta/tree/filter/Expression.hpp", "sparta/src/TreeFilterExpression.cpp", "Expression::valid"]}
{"id": "C219", "title": "Operators on tree filter expressions combine them", "statement": "Combining two expression objects with &=, |=, ^=, && or || makes the first one evaluate to the combination of the values of both, and inverting one inverts its value; no other expression changes. An operator that is no assignment leaves its operands as they are, and an expression may be combined with itself.", "quantifier": "all expressions, all nodes", "why_tests_cant": "The claim is about all pairs of expressions, also equal ones.", "anchors": ["sparta/sparta/tree/filter/Expression.hpp", "Expression::operator&=", "Expression::operator&&", "Expression::operator!"]}
{"id": "C220", "title": "Committing the current branch of checkpoints", "statement": "commitCurrentBranch() saves the checkpoints from the oldest uncommitted one to the last snapshot on the current branch, in the order of simulated time, and keeps the snapshot and what follows it; with force_new_head the whole branch is saved and a new head is made of the present state. All other uncommitted checkpoints are discarded. The memories do not change, every checkpoint kept can be loaded as before, and the lists and counts of checkpoints are those of the checkpoints kept.", "quantifier": "all memories, all sequences of accesses, creations, loads and commits", "why_tests_cant": "All shapes of checkpoint trees at the time of a commit, and all histories after it.", "anchors": ["sparta/sparta/serialization/checkpoint/CherryPickFastCheckpointer.hpp", "sparta/sparta/serialization/checkpoint/FastCheckpointer.hpp", "sparta/src/CherryPickFastCheckpointer.cpp", "CherryPickFastCheckpointer::commitCurrentBranch", "FastCheckpointer::squashCurrentBranch"]}
{"id": "C221", "title": "Loading committed checkpoints", "statement": "After the end of the simulation a loader on the database can be opened exactly if a checkpoint was committed. It reports the number of checkpoints committed, and loading index i works for exactly these indices and gives all memories the contents they had when the i-th committed checkpoint was created, in whatever order checkpoints are loaded and whatever is written in between. A loader opened earlier finds all checkpoints committed so far.", "quantifier": "all memories, all histories of commits without deletions of checkpoints, all sequences of loads and accesses", "why_tests_cant": "All divisions of the checkpoints into windows and runs of ticks, and all states of the window cache.", "anchors": ["sparta/sparta/serialization/checkpoint/CherryPickFastCheckpointer.hpp", "sparta/src/CherryPickFastCheckpointer.cpp", "DatabaseCheckpointLoader::loadCheckpoint", "DatabaseCheckpointLoader::getNumCheckpoints", "CherryPickFastCheckpointer::saveCheckpoints"]}
{"id": "C222", "title": "Replaying committed checkpoints", "statement": "A replayer starts with the memories of the first committed checkpoint, every step restores those of the next and returns true, and after the last one step returns false and changes nothing.", "quantifier": "all memories, all histories of commits without deletions of checkpoints", "why_tests_cant": "All numbers and divisions of checkpoints.", "anchors": ["sparta/sparta/serialization/checkpoint/CherryPickFastCheckpointer.hpp", "sparta/src/CherryPickFastCheckpointer.cpp", "DatabaseCheckpointReplayer::step"]}
{"id": "C223", "title": "Transactions written to a pipeline database are read back", "statement": "A database of transactions that an Outputter has written and closed can be opened by a Reader, and reading a range gives the transactions that were written between the indexes around the range, in the order in which they were written, with all their attributes, texts, values, names and strings unchanged.", "quantifier": "all sequences of transactions and indexes, all intervals, all ranges", "why_tests_cant": "Four kinds of records of variable length, six files that must fit each other, and every division of the transactions by indexes.", "anchors": ["sparta/sparta/pipeViewer/Outputter.hpp", "sparta/sparta/pipeViewer/transaction_structures.hpp", "sparta/src/ArgosOutputter.cpp", "helios/pipeViewer/pipe_view/transactiondb/src/Reader.hpp", "Outputter::writeTransaction", "Reader::getWindow", "Reader::Reader"]}
{"id": "C224", "title": "A window of a pipeline database holds the transactions of its time", "statement": "If transactions are written when they end and an index is written every interval, getWindow(start, end) gives exactly the transactions that end after start rounded down to an interval and not after end rounded up; every transaction with some time in [start, end) is among them. Annotations that end before start or start after end are left out.", "quantifier": "all databases written this way, all ranges", "why_tests_cant": "The positions of the indexes decide; boundaries of ranges, transactions and intervals coincide in all ways.", "anchors": ["sparta/sparta/pipeViewer/Outputter.hpp", "sparta/sparta/pipeViewer/transaction_structures.hpp", "sparta/src/ArgosOutputter.cpp", "helios/pipeViewer/pipe_view/transactiondb/src/Reader.hpp", "Reader::getWindow", "Reader::findRecordReadPos_", "Reader::roundUp_"]}
{"id": "C225", "title": "First and last cycle of a pipeline database", "statement": "getCycleFirst() is the lowest cycle of the transactions in a database, and getCycleLast() is the last cycle in which a transaction is not over.", "quantifier": "all databases", "why_tests_cant": "A statement about all transactions in a file.", "anchors": ["sparta/sparta/pipeViewer/Outputter.hpp", "sparta/sparta/pipeViewer/transaction_structures.hpp", "sparta/src/ArgosOutputter.cpp", "helios/pipeViewer/pipe_view/transactiondb/src/Reader.hpp", "Reader::getCycleFirst", "Reader::getCycleLast", "Outputter::~Outputter"]}
{"id": "C226", "title": "Texts of the values of pair transactions", "statement": "A field of a pair transaction is shown by the string that was given for its value, or if none was given by the number in the base of its format.", "quantifier": "all values, sizes, formats and strings", "why_tests_cant": "All values of up to 64 bits and all strings.", "anchors": ["sparta/sparta/pipeViewer/Outputter.hpp", "sparta/sparta/pipeViewer/transaction_structures.hpp", "sparta/src/ArgosOutputter.cpp", "helios/pipeViewer/pipe_view/transactiondb/src/Reader.hpp", "Reader::readPair", "Outputter::writeTransaction"]}
{"id": "C227", "title": "Reading a pipeline database while it is written", "statement": "After the files of an open database have grown isUpdated() returns true until ackUpdated() is called, and windows then give the transactions that were written up to now.", "quantifier": "all databases, all moments of opening and of asking for updates", "why_tests_cant": "Files grow between any two calls.", "anchors": ["helios/pipeViewer/pipe_view/transactiondb/src/Reader.hpp", "Reader::isUpdated", "Reader::ackUpdated", "Reader::checkIndexUpdates_"]}
{"id": "C228", "title": "A RegisterBits shows its data and modifies its own copy", "statement": "A RegisterBits made for some data shows the data as it is now until it is modified; it is then modified in a copy, and the data itself is never changed. One made with a size or a value has its own bytes. All results of reading, comparing and sizes are those of these values.", "quantifier": "all data, all sequences of constructions, copies, moves, modifications and reads", "why_tests_cant": "Who shares bytes with whom depends on the whole history.", "anchors": ["sparta/sparta/functional/RegisterBits.hpp", "RegisterBits::convert_", "RegisterBits::set", "RegisterBits::fill", "RegisterBits::data"]}
{"id": "C229", "title": "Copies of a RegisterBits are equal and independent", "statement": "A copy shows the same bytes as the original. An object with its own bytes shows them until it is modified itself; modifying its copies, the object it was copied from, or any data does not change it.", "quantifier": "all histories, all later calls", "why_tests_cant": "Two objects may share storage in ways that only long histories show.", "anchors": ["sparta/sparta/functional/RegisterBits.hpp", "RegisterBits::RegisterBits(const RegisterBits &)"]}
{"id": "C230", "title": "Moving a RegisterBits hands its bytes over", "statement": "An object that is made by moving another shows what that one showed; the original has no data any more.", "quantifier": "all histories", "why_tests_cant": "Depends on which of the storages is in use and on the size.", "anchors": ["sparta/sparta/functional/RegisterBits.hpp", "RegisterBits::RegisterBits(RegisterBits &&)"]}
{"id": "C231", "title": "A checkpoint file restores what was saved", "statement": "A file written by save() is accepted by restore() in every simulation with the same memories, whatever state that is in and whatever follows in the file, and afterwards every read of every memory answers as it did when the file was saved. Saving changes no read.", "quantifier": "all memories, contents, histories of both simulations", "why_tests_cant": "All contents, including bytes that look like control characters of the format or white space.", "anchors": ["sparta/sparta/serialization/checkpoint/PersistentFastCheckpointer.hpp", "PersistentFastCheckpointer::save", "PersistentFastCheckpointer::restore", "FileWriteAdapter", "FileReadAdapter", "sparta/sparta/functional/ArchData.hpp"]}
{"id": "C232", "title": "A checkpoint file that was cut short is refused", "statement": "restore() throws for every proper prefix of a file written by save(), and the memories are then as they were.", "quantifier": "all memories, histories, prefixes", "why_tests_cant": "Files can be cut at any byte.", "anchors": ["sparta/sparta/serialization/checkpoint/PersistentFastCheckpointer.hpp", "FileReadAdapter::getNextRestoreLine", "FileReadAdapter::copyLineBytes"]}
{"id": "C233", "title": "Checkpoints created after a file was restored", "statement": "Loading a checkpoint that was created after a file was restored makes every read answer as it did when the checkpoint was created.", "quantifier": "all memories, histories, files", "why_tests_cant": "What a delta checkpoint stores depends on everything since the previous one.", "anchors": ["sparta/sparta/serialization/checkpoint/PersistentFastCheckpointer.hpp", "PersistentFastCheckpointer::restore", "FastCheckpointer::createCheckpoint", "sparta/sparta/functional/ArchData.hpp"]}
{"id": "C234", "title": "Views of architectural data read back what was written to them", "statement": "A read or write of a view with a type and an index succeeds exactly if the element lies in the view. A read gives the value of the bytes at that place in the byte order asked for, a write changes those bytes and no others, and assigning a view to another of the same size copies its bytes. What was written is read back after any calls that write through views that share no byte with it.", "quantifier": "all placed views, types, byte orders, values, indexes and sequences of calls", "why_tests_cant": "Views share lines: whether a write reaches exactly its own bytes depends on sizes, offsets, widths and orders together.", "anchors": ["sparta/sparta/functional/DataView.hpp", "DataView::read", "DataView::write", "DataView::operator="]}
{"id": "C235", "title": "Padded reads and truncating writes stay in their view", "statement": "A padded read at an index gives the bytes of the view from that index on, as many as the type has, and zeros where the view has no more. A truncating write changes those bytes of the view only.", "quantifier": "all placed views, types, byte orders, values and indexes", "why_tests_cant": "The width of the access is chosen from what is left of the view; tests use index 0 with types as wide as the view.", "anchors": ["sparta/sparta/functional/DataView.hpp", "DataView::readPadded", "DataView::writeTruncated"]}
{"id": "C236", "title": "Texts and initial values of views", "statement": "The byte string of a view shows all bytes in the order of their addresses, and its value string shows all bytes from the most significant one on in the byte order asked for, two digits each. After layout a view shows its initial value, and the bytes of other views are as they were.", "quantifier": "all placed views, contents and byte orders", "why_tests_cant": "Views may be arbitrarily long; texts are put together from words.", "anchors": ["sparta/sparta/functional/DataView.hpp", "DataView::getByteString", "DataView::getValueAsString", "DataView::writeInitial_"]}
{"id": "C237", "title": "Counting set bits", "statement": "count_1_bits gives the number of bits that are set in its argument.", "quantifier": "all 32 bit and 64 bit values", "why_tests_cant": "The function adds fields in parallel inside one word; 2^64 arguments cannot be tried.", "anchors": ["sparta/sparta/utils/Bits.hpp", "count_1_bits"]}
{"id": "C238", "title": "Every value added to a basic histogram is counted once", "statement": "A basic histogram can be constructed exactly from sorted bucket values without repetition, and then every added value is counted by exactly one counter: that of the greatest bucket value not above it, or the first if there is none (or it is refused, if so configured).", "quantifier": "all bucket values and all sequences of added values", "why_tests_cant": "Depends on every position of a value relative to an arbitrary number of buckets.", "anchors": ["sparta/sparta/statistics/BasicHistogram.hpp", "BasicHistogram::addValue"]}
{"id": "C239", "title": "Counters of a basic histogram hold what they are described as", "statement": "Each counter of a basic histogram holds the number of added values that its description says it counts: those above the previous bucket value and up to its own.", "quantifier": "all bucket values and all sequences of added values", "why_tests_cant": "Tests look at the counts for a few values and not at the descriptions.", "anchors": ["sparta/sparta/statistics/BasicHistogram.hpp", "BasicHistogram::BasicHistogram", "BasicHistogram::addValue"]}
{"id": "C240", "title": "Signals arrive once in their cycle", "statement": "A signal sent through a signal port is received by every bound in port in the cycle and phase it is due, signals for the same cycle are received as one, nothing is received that was not sent, and a send is refused as a whole exactly if the port is unbound or the phase of an in port that is to receive it now is over.", "quantifier": "all numbers of ports, delays, phases, bindings and sequences of sends and steps of the scheduler", "why_tests_cant": "Depends on which sends wait when the scheduler goes on, over all interleavings.", "anchors": ["sparta/sparta/ports/SignalPort.hpp", "SignalOutPort::send", "SignalInPort::send_", "sparta/sparta/events/PhasedUniqueEvent.hpp"]}
{"id": "C241", "title": "What a signal in port holds", "statement": "A signal in port has data exactly if it received a signal after its data was last pulled or cleared, and the time it reports is that of the last signal.", "quantifier": "all sequences of sends, pulls, clears and steps of the scheduler", "why_tests_cant": "The flag and the time are set at delivery, long after the send.", "anchors": ["sparta/sparta/ports/SignalPort.hpp", "SignalInPort::receiveSignal_", "sparta/sparta/utils/DataContainer.hpp"]}
{"id": "C242", "title": "Interned strings can be compared by pointer", "statement": "Interning a string never gives null; strings interned at any times have the same pointer exactly if they are equal; that pointer is to a string equal to the one interned. Looking for a string finds this pointer exactly if it was interned, without adding it; a pointer counts as interned exactly if a string was interned to it.", "quantifier": "all strings and all sequences of calls, with other strings made and assigned to in between", "why_tests_cant": "Holds between any two calls however far apart, for all strings.", "anchors": ["sparta/sparta/utils/StringManager.hpp", "StringManager::internString", "StringManager::findString", "StringManager::isInterned"]}
{"id": "C243", "title": "Interned strings are counted and listed once", "statement": "The number reported is that of the different strings interned, the empty one included; the listing has each of them once, in order, with its pointer, and the pointers are in one column.", "quantifier": "all strings and all sequences of calls", "why_tests_cant": "The listing depends on all strings ever interned.", "anchors": ["sparta/sparta/utils/StringManager.hpp", "StringManager::getNumStrings", "StringManager::dumpStrings"]}
{"id": "C244", "title": "A state histogram counts each cycle for the state it was spent in", "statement": "A state histogram can be made for every enumeration with one of its values as the idle state. The counter of each state holds the number of cycles spent in it since then, all counters add up to the number of cycles, the state reported is the last one set, and setting a state or the next state to a value of the enumeration always works.", "quantifier": "all enumerations, idle states and sequences of calls and cycles", "why_tests_cant": "The counters depend on all changes of the state and on how they fall into cycles.", "anchors": ["sparta/sparta/statistics/StateHistogram.hpp", "StateHistogram::setState", "StateHistogram::setNextState", "sparta/sparta/statistics/CycleCounter.hpp"]}
{"id": "C245", "title": "Names and values of an enumeration", "statement": "The name of a value is the last one given to it; a name gives the least value with it and is refused exactly if no value has it; a value is got back from its name. Iteration visits all values once and in order, their number is the size, and the names are listed in the order of the values.", "quantifier": "all enumerations, names and numbers of objects that give names", "why_tests_cant": "The names are shared by all objects of an enumeration and depend on all constructions.", "anchors": ["sparta/sparta/utils/Enum.hpp", "Enum::setName_", "Enum::operator()", "Enum::iterator"]}
{"id": "C246", "title": "A histogram over an enumeration counts each value once", "statement": "A histogram can be made for every enumeration; each value added is counted once, in its own bin; in the cumulative listing the line of a value has the number of added values up to it.", "quantifier": "all enumerations and sequences of values", "why_tests_cant": "Sums over all values ever added.", "anchors": ["sparta/sparta/statistics/EnumHistogram.hpp", "EnumHistogram::addValue", "EnumHistogram::getDisplayStringCumulative"]}
{"id": "C247", "title": "Each context of a counter has what was charged to it, and the aggregate is their sum", "statement": "A context holds the sum of what was charged to it, modulo 2^64, independently of the other contexts; a context the counter does not have is refused; the default aggregate statistic is the sum of the contexts for every name the contexts are made from.", "quantifier": "all numbers of contexts, names and histories of charges and weights", "why_tests_cant": "Sums over all histories; the aggregate is an expression made from names, which must resolve to the right contexts for every name and number.", "anchors": ["sparta/sparta/statistics/ContextCounter.hpp", "ContextCounter::context", "ContextCounter::generateExprArg_"]}
{"id": "C248", "title": "Weighted average and maximum of contexts", "statement": "The weights in use are those last accepted, a single weight standing for all contexts, and weights are refused exactly if there are neither at most one nor one per context. The weighted average is always defined, is the weighted sum divided by the number of contexts, and lies between the least and the largest context. The maximum is the largest context.", "quantifier": "all numbers of contexts, weights and histories", "why_tests_cant": "Arithmetic over all weights and counts.", "anchors": ["sparta/sparta/statistics/WeightedContextCounter.hpp", "WeightedContextCounter::assignContextWeights", "WeightedContextCounter::calculateWeightedAverage"]}
{"id": "C249", "title": "A global ordering point orders the events of all blocks that use its name", "statement": "If an event is put before a point of some name and another event after a point of that name, anywhere in the simulation and in any order, the first is in an earlier group than the second. What is put before or after points can be satisfied exactly if no event or point is to come before itself, points being the same exactly if their names are; so points of different names do not affect each other, and every name can be used.", "quantifier": "all histories of creating events in phases and of precedences between events and named points", "why_tests_cant": "Points are shared by name between blocks that do not know each other; the result depends on everything said in the whole simulation.", "anchors": ["sparta/sparta/events/GlobalOrderingPoint.hpp", "sparta/sparta/events/Precedence.hpp", "DAG::getGOPoint", "Scheduleable::precedes", "Vertex::precedes"]}
{"id": "C250", "title": "Exponential backoff", "statement": "The action of an exponential backoff with multiplier m is performed at the encounters whose numbers are powers of m and at no others, and sees the number of the encounter.", "quantifier": "all multipliers and numbers of encounters", "why_tests_cant": "The interesting encounters are beyond 2^30.", "anchors": ["sparta/sparta/utils/SpartaExpBackoff.hpp", "SPARTA_EXPONENTIAL_BACKOFF"]}
{"id": "C251", "title": "Registers are found in exactly the banks they belong to", "statement": "A register is accepted into a bank table exactly if it has a group number or names no banks, names no bank beyond 255, and would not be seen in a bank together with an earlier register of the same group number and index; a register that names no bank is seen in all banks, also in those made later. After every history a register is found under a bank, group number and index exactly if it was accepted, has these numbers and is seen in the bank; a refused register is never found. The checked and unchecked lookups agree wherever the query says a lookup is possible.", "quantifier": "all histories of adding registers and of requiring banks, all lookups", "why_tests_cant": "The table copies unbanked registers into banks made later, so the result must not depend on the order in which registers and banks come.", "anchors": ["sparta/sparta/functional/RegisterBankTable.hpp", "RegisterBankTable::addRegister", "RegisterBankTable::canLookupRegister", "RegisterBankTable::lookupRegister", "RegisterBankTable::getRegister"]}
{"id": "C252", "title": "The counts of a bank table are those of its registers", "statement": "The number of banks is one more than the largest bank named by an accepted register or required, the size of a group in a bank is the number of accepted registers of the group seen there, the number of registers is the number of those accepted that have a group, and the number of groups is one more than the largest group number.", "quantifier": "all histories of adding registers and of requiring banks", "why_tests_cant": "Sums and maxima over all histories.", "anchors": ["sparta/sparta/functional/RegisterBankTable.hpp", "RegisterBankTable::setMinimumBankIndex", "RegisterBankTable::getGroupSize", "RegisterBankTable::getNumRegisters", "RegisterBankTable::getNumGroups"]}
{"id": "C253", "title": "Binding two buses binds every port to its equivalent, or nothing", "statement": "Two buses can be bound exactly if the ports of each bus and direction can be told apart by their names without the keywords \"in\" and \"out\" at the ends and without underscores, each port has an equivalent of the other direction with the same such name on the other bus, and equivalent ports have the same type of data. After a successful binding each port is bound to its equivalent and to nothing else; after a failed one nothing is bound.", "quantifier": "all pairs of buses, with any number of ports of any names and types", "why_tests_cant": "Names are unrestricted, and the claim is about all ports of both buses.", "anchors": ["sparta/sparta/ports/Bus.hpp", "Bus::bind", "Bus::populatePortMap_", "Bus::checkBinding_", "Bus::bindPorts_"]}
{"id": "C254", "title": "An exported port stands for the one port of its internal name", "statement": "An exported port that is given a search path and the name of its internal port stands for a port of that name below the path that is not itself; if there are several such ports, none is chosen and an error is reported.", "quantifier": "all trees, names and exported ports", "why_tests_cant": "Trees are unbounded; the wrong port may be chosen silently.", "anchors": ["sparta/src/ExportedPort.cpp", "sparta/sparta/utils/TreeUtils.hpp", "ExportedPort::resolvePort_", "recursiveTreeSearch"]}
