{"id": "C01", "title": "Bounded SPSC queue delivers in order, exactly once, under every schedule", "statement": "With one thread calling push and one thread calling pop on a SWSR_Ptr_Buffer, the sequence of values returned by successful pops is at every moment a prefix of the sequence of values accepted by successful pushes, and once both sides are idle and memory has settled, popping until empty returns exactly the remaining accepted values in order.", "quantifier": "every queue size >= 1, every sequence of push/pop calls, every interleaving of the individual memory accesses of the two threads, and every order in which pending stores become visible that the write barrier in push permits", "why_tests_cant": "a lost or duplicated element needs one specific interleaving and one specific store-visibility order; tests sample a handful and cannot force store-buffer states", "anchors": ["ff/buffer.hpp: SWSR_Ptr_Buffer::push, pop, inc, empty, available"]}
{"id": "C02", "title": "A popped object is fully published", "statement": "Whatever the producer wrote into an object before pushing its address is what the consumer reads from the object after popping that address.", "quantifier": "every interleaving and every store-visibility order allowed when only the WMB() in push orders the producer's stores", "why_tests_cant": "the failure is a memory-ordering effect, invisible on most test machines and schedules", "anchors": ["ff/buffer.hpp: SWSR_Ptr_Buffer::push (WMB), pop"]}
{"id": "C03", "title": "Bounded SPSC queue: capacity and answers are those of a bounded FIFO", "statement": "Executed call by call, push succeeds exactly when fewer than size elements are stored, pop succeeds exactly when at least one is stored and returns the oldest; empty() and available() tell exactly that; the indices never leave the buffer.", "quantifier": "every size >= 1 and every sequence of calls", "why_tests_cant": "index wrap-around interacts with the history of calls; only an induction over histories covers all wrap positions", "anchors": ["ff/buffer.hpp: SWSR_Ptr_Buffer::init, push, pop, empty, available, top, inc, reset, length"]}
{"id": "C04", "title": "multipush is equivalent to pushing its elements one after the other", "statement": "multipush(data,len) either rejects and changes nothing, or leaves the queue as if data[0..len) had been pushed in order.", "quantifier": "every size, every write position, every len <= size and every content", "why_tests_cant": "depends on the position of the write index relative to the wrap point, which a test fixture starting from an empty queue never exercises", "anchors": ["ff/buffer.hpp: SWSR_Ptr_Buffer::multipush"]}
{"id": "C05", "title": "mpush/flush keep stream order", "statement": "Elements given to mpush, followed by a flush, are delivered by pop in the order given, none lost and none duplicated.", "quantifier": "every sequence of mpush/flush/pop calls and every size", "why_tests_cant": "the local batch of 16 may be flushed partially at any point of any history", "anchors": ["ff/buffer.hpp: SWSR_Ptr_Buffer::mpush, flush, multipush"]}
{"id": "C06", "title": "length() is the number of stored elements", "statement": "On an idle queue length() returns the number of elements that have been pushed and not popped, for SWSR_Ptr_Buffer, Lamport_Buffer and the unbounded queue.", "quantifier": "every size and history of calls", "why_tests_cant": "wrong only at particular index configurations (equal indices, after reset) reached by specific histories", "anchors": ["ff/buffer.hpp: SWSR_Ptr_Buffer::length, Lamport_Buffer::length", "ff/ubuffer.hpp: uSWSR_Ptr_Buffer::length, reset"]}
{"id": "C07", "title": "Lamport queue is a FIFO of capacity size-1 under every interleaving", "statement": "With one producer and one consumer, pops return a prefix of the pushes in order; push succeeds whenever fewer than size-1 elements are present and never overwrites an unread element.", "quantifier": "every size >= 1, every interleaving of the two threads' accesses", "why_tests_cant": "needs all interleavings of the shared index accesses", "anchors": ["ff/buffer.hpp: Lamport_Buffer::push, pop, empty, available"]}
{"id": "C08", "title": "Unbounded SPSC queue never loses, duplicates or reorders, across segment switches", "statement": "With one producer and one consumer on uSWSR_Ptr_Buffer (not fixed-size), every push succeeds and the values popped are always a prefix of the values pushed; pop answers false only if, at some moment of the call, every pushed element had been popped.", "quantifier": "every segment size, every cache size, every interleaving of the two threads including segment switch, recycling and reuse", "why_tests_cant": "the dangerous window (consumer between the emptiness test and the switch to the next segment) is a few instructions wide", "anchors": ["ff/ubuffer.hpp: uSWSR_Ptr_Buffer::push, pop, BufferPool::next_w, next_r, release"]}
{"id": "C09", "title": "Segments are never recycled while readable", "statement": "A segment handed back by the consumer for reuse is empty, is not the segment the consumer is reading, and is never simultaneously in use by both sides for different stream positions.", "quantifier": "every interleaving of producer and consumer", "why_tests_cant": "a use-after-recycle shows only in one interleaving", "anchors": ["ff/ubuffer.hpp: BufferPool::release, next_w, uSWSR_Ptr_Buffer::pop"]}
{"id": "C10", "title": "Fixed-size unbounded queue is bounded", "statement": "A uSWSR_Ptr_Buffer built with fixedsize=true never holds more than size elements: push returns false when full and changes nothing.", "quantifier": "every size and every history of calls", "why_tests_cant": "capacity must hold along all histories", "anchors": ["ff/ubuffer.hpp: uSWSR_Ptr_Buffer::push, init"]}
{"id": "C11", "title": "Dynamic linked SPSC queue is a FIFO", "statement": "dynqueue: pops return a prefix of pushes in order, nodes are never freed or reused while still linked, under every interleaving of one producer and one consumer.", "quantifier": "every interleaving, every cache size", "why_tests_cant": "node recycling errors need a particular schedule", "anchors": ["ff/dynqueue.hpp: dynqueue::push, pop, allocnode"]}
{"id": "C12", "title": "MPMC queue: no loss, no duplication, ticket order, for any number of threads", "statement": "With any number of threads calling push and pop on MPMC_Ptr_Queue, every value accepted is returned by at most one pop, every value returned was accepted, pops return values in the order the pushes took their positions, and never more than capacity values are inside.", "quantifier": "every number of threads, every capacity, every interleaving of the individual atomic accesses", "why_tests_cant": "lock-free races among many threads cannot be enumerated by tests", "anchors": ["ff/mpmc/MPMCqueues.hpp: MPMC_Ptr_Queue::init, push, pop"]}
{"id": "C13", "title": "Spin lock gives mutual exclusion", "statement": "Between spin_lock and spin_unlock at most one thread is inside, and unlock by the holder lets some waiting thread in.", "quantifier": "every number of threads and every interleaving", "why_tests_cant": "mutual exclusion is a statement over all interleavings", "anchors": ["ff/spin-lock.hpp: spin_lock, spin_unlock, init_unlocked"]}
{"id": "C14", "title": "CLH lock gives mutual exclusion and first-come-first-served entry", "statement": "Between spin_lock(pid) and spin_unlock(pid) of a CLHSpinLock at most one thread is inside, and threads enter in the order in which they executed the atomic exchange.", "quantifier": "every number of threads <= the configured maximum, every interleaving, any number of re-acquisitions (node recycling)", "why_tests_cant": "node recycling across acquisitions makes the reachable state space unbounded", "anchors": ["ff/spin-lock.hpp: CLHSpinLock::init, spin_lock, spin_unlock"]}
{"id": "C15", "title": "Barrier separates phases and is reusable", "statement": "No thread returns from the k-th doBarrier before all threads of the group have entered their k-th doBarrier, for every k; when all have entered, every one can return.", "quantifier": "every number of threads, every number of rounds, every interleaving", "why_tests_cant": "the classic failure (a fast thread re-entering and resetting the counter early) needs a specific schedule over several rounds", "anchors": ["ff/barrier.hpp: spinBarrier::barrierSetup, doBarrier"]}
{"id": "C16", "title": "svector behaves as a sequence", "statement": "push_back, pop_back, resize, reserve, clear, erase, insert, assignment and indexing on svector have the effect of the same operation on a mathematical sequence and never touch memory outside the allocated block.", "quantifier": "every history of operations, every capacity chunk", "why_tests_cant": "errors appear only at particular length/capacity combinations", "anchors": ["ff/svector.hpp: svector::reserve, resize, push_back, pop_back, erase, insert, operator[]"]}
{"id": "C17", "title": "squeue behaves as a sequence open at both ends", "statement": "push_back, pop_back, pop_front, front, back and size on squeue behave as on a mathematical sequence.", "quantifier": "every chunk size and every history of calls", "why_tests_cant": "the defect needs the queue to be drained exactly at a chunk boundary", "anchors": ["ff/squeue.hpp: squeue::push_back, pop_front, front, back, size"]}
{"id": "C18", "title": "Hash table behaves as a finite map", "statement": "icl_hash_insert, find, update_insert and delete behave as the corresponding operations of a finite map on non-null keys, whatever the hash function and however keys collide; nentries is the number of keys.", "quantifier": "every hash function, number of buckets and history of operations", "why_tests_cant": "collision chains of arbitrary shape", "anchors": ["ff/icl_hash.h: icl_hash_insert, icl_hash_find, icl_hash_update_insert, icl_hash_delete"]}
{"id": "C19", "title": "A node delivers its results in order followed by exactly one end-of-stream", "statement": "A running node calls svc once per task popped from its input, in order; every result that is not a control value is sent downstream, in order; GO_ON results send nothing; when its inputs have ended (or svc returns EOS/NULL) it sends EOS downstream exactly once, after all results, and calls svc no more.", "quantifier": "every input stream, every user svc function, every number of expected EOS", "why_tests_cant": "depends on all streams and all service functions", "anchors": ["ff/node.hpp: ff_node::thWorker::svc, push, pop"]}
{"id": "C20", "title": "A pipeline computes the composition of its stages", "statement": "For stages without side effects on each other, the stream leaving a pipeline is, for every schedule, the composition of the stages' stream functions applied to the input stream; whatever has left so far is a prefix of it; and the pipeline cannot get stuck before everything has left.", "quantifier": "every number of stages, every per-stage stateful function, every channel capacity >= 1 and every schedule", "why_tests_cant": "all schedules and all capacities", "anchors": ["ff/pipeline.hpp: ff_pipeline::prepare, run", "ff/node.hpp: ff_node::thWorker::svc"]}
{"id": "C21", "title": "A farm processes each task exactly once", "statement": "Each task entering a farm is given to exactly one worker, processed once, and its result reaches the collector exactly once; the collector sees all results before it ends; per-worker order is kept.", "quantifier": "every number of workers, every queue capacity, every scheduling choice of the load balancer and collector and every interleaving", "why_tests_cant": "task loss/duplication depends on full-queue retries and schedules", "anchors": ["ff/lb.hpp: ff_loadbalancer::schedule_task, push_eos, svc", "ff/gt.hpp: ff_gatherer::svc, gather_task", "ff/farm.hpp: ff_farm::prepare"]}
{"id": "C22", "title": "Round-robin load balancing is fair", "statement": "With the default scheduling policy and workers that always accept, task k goes to worker k mod n (from the starting point); over any window of tasks no worker gets two more than another.", "quantifier": "every number of workers and every number of tasks", "why_tests_cant": "window fairness over unbounded histories", "anchors": ["ff/lb.hpp: ff_loadbalancer::selectworker, schedule_task"]}
{"id": "C23", "title": "Ordered farm keeps input order (round-robin version)", "statement": "A farm with set_ordered() whose workers return one result per task delivers results in the order of the input tasks, for every schedule.", "quantifier": "every number of workers, every stream, every schedule", "why_tests_cant": "orderings differ by schedule", "anchors": ["ff/farm.hpp: ofarm_lb, ofarm_gt"]}
{"id": "C24", "title": "Ordered on-demand farm keeps input order", "statement": "A farm with set_ordered() and on-demand scheduling delivers results in the order of the input tasks, whatever order workers finish in, and never buffers more than the memory it reserved.", "quantifier": "every assignment of tasks to workers, every completion order", "why_tests_cant": "all completion orders", "anchors": ["ff/ordering_policies.hpp: ordered_lb, ordered_gt, OrderedWorkerWrapper"]}
{"id": "C25", "title": "Broadcast reaches every worker exactly once", "statement": "broadcast_task puts exactly one copy of the task in every running worker's queue, in spite of any pattern of full queues and retries.", "quantifier": "every number of workers and every pattern of queue-full answers", "why_tests_cant": "all full/non-full patterns", "anchors": ["ff/lb.hpp: ff_loadbalancer::broadcast_task", "ff/farm.hpp: ofarm_lb::broadcast_task"]}
{"id": "C26", "title": "The collector ends exactly when all workers have ended", "statement": "A gatherer keeps receiving until every running worker has sent its end-of-stream, then propagates exactly one EOS; no result sent by a worker before its end-of-stream is dropped.", "quantifier": "every number of workers, every order of arrival and every kind of end-of-stream mark", "why_tests_cant": "arrival orders and mixes of end marks are schedule dependent", "anchors": ["ff/gt.hpp: ff_gatherer::svc, selectworker, gather_task"]}
{"id": "C27", "title": "All-to-all: a right-hand node ends only after all left-hand nodes have ended", "statement": "In an all-to-all every right-hand node receives every item any left-hand node sent to it, and ends exactly when all left-hand nodes have ended.", "quantifier": "every number of left and right nodes, every routing, every interleaving", "why_tests_cant": "all interleavings of many streams", "anchors": ["ff/all2all.hpp: ff_a2a::prepare", "ff/multinode.hpp: ff_minode, ff_monode", "ff/gt.hpp: ff_gatherer::svc"]}
{"id": "C28", "title": "Freeze/thaw hand-shake loses no wake-up", "statement": "A node started with run_then_freeze and later thawed runs its service loop once per thaw, wait_freezing returns only when the node is frozen (or gone), and no interleaving leaves the node asleep after a thaw.", "quantifier": "every interleaving of the controller's and the node's lock/condition operations, any number of rounds", "why_tests_cant": "lost wake-ups need a specific interleaving", "anchors": ["ff/node.hpp: ff_thread::thread_routine, freeze, thaw, wait_freezing"]}
{"id": "C29", "title": "parallel_for with dynamic scheduling executes each iteration exactly once", "statement": "parallel_for(first,last,step,grain,f) with grain>0 calls f on each index first, first+step, ... < last exactly once and on no other index.", "quantifier": "every range, step >= 1, grain >= 1, number of workers and every interleaving of the workers' work-stealing accesses", "why_tests_cant": "work stealing races; boundary arithmetic over all parameters", "anchors": ["ff/parallel_for_internals.hpp: forall_Scheduler::init_data, nextTaskConcurrent, nextTask, svc"]}
{"id": "C30", "title": "parallel_for with default static scheduling executes each iteration exactly once", "statement": "parallel_for_static with grain 0 (and parallel_for with grain 0) partitions the index set: each index is executed by exactly one worker.", "quantifier": "every range, step >= 1 and number of workers", "why_tests_cant": "off-by-one errors at remainders need all parameter combinations", "anchors": ["ff/parallel_for_internals.hpp: forall_Scheduler::init_data_static"]}
{"id": "C31", "title": "parallel_for_static with a grain executes each iteration exactly once", "statement": "parallel_for_static(first,last,step,grain,f) with grain != 0 executes each index exactly once (block-cyclic distribution).", "quantifier": "every range, step, grain and number of workers", "why_tests_cant": "wrong for steps larger than one; parameter space is unbounded", "anchors": ["ff/parallel_for_internals.hpp: FF_PARFOR_T_START_STATIC, init_data_static"]}
{"id": "C32", "title": "parallel_reduce equals the sequential reduction", "statement": "For an associative and commutative operation with identity, parallel_reduce returns the sequential fold of the body over the range combined with the initial value, for every schedule; for the default static schedule associativity suffices.", "quantifier": "every monoid, range, step, grain, number of workers and schedule", "why_tests_cant": "all schedules and all operations", "anchors": ["ff/parallel_for_internals.hpp: FF_PARFORREDUCE_F_STOP", "ff/parallel_for.hpp: ParallelForReduce::parallel_reduce"]}
{"id": "C33", "title": "Macro data-flow respects data dependencies", "statement": "Tasks submitted with AddTask that access a common parameter, at least one as OUTPUT, execute in submission order (the later one starts only after the earlier one finished).", "quantifier": "every program of tasks, every number of workers and every completion order", "why_tests_cant": "all programs and schedules", "anchors": ["ff/task_internals.hpp: TaskFScheduler::insertTask, handleTask", "ff/mdf.hpp: Scheduler::svc"]}
{"id": "C34", "title": "Macro data-flow result equals sequential execution", "statement": "For every schedule, the memory computed by the tasks of an ff_mdf program equals that of executing the tasks one by one in submission order.", "quantifier": "every program whose tasks read only INPUT and write only OUTPUT parameters, every schedule", "why_tests_cant": "all programs and schedules", "anchors": ["ff/task_internals.hpp: TaskFScheduler::insertTask, handleTask, schedule_task"]}
{"id": "C35", "title": "Macro data-flow always completes", "statement": "As long as a submitted task has not finished, some task is ready or running: the run never gets stuck, and ends when all tasks have finished.", "quantifier": "every program and schedule", "why_tests_cant": "deadlock depends on the dependency structure", "anchors": ["ff/task_internals.hpp: TaskFScheduler::insertTask, handleTask", "ff/mdf.hpp: Scheduler::svc"]}
{"id": "C36", "title": "Static allocator never hands out a slot that is in use", "statement": "Two live allocations of a StaticAllocator never overlap, allocations of different channels come from disjoint regions, and every returned block lies inside the arena.", "quantifier": "every number of slots, slot size, number of channels and history of alloc/dealloc", "why_tests_cant": "all histories", "anchors": ["ff/staticallocator.hpp: StaticAllocator::init, alloc, dealloc"]}
{"id": "C37", "title": "Allocator size classes are sufficient and tight", "statement": "For every request of at most 8192 bytes ff_allocator chooses the smallest size class that holds it; larger requests go to the system allocator.", "quantifier": "every request size", "why_tests_cant": "boundary arithmetic on all sizes", "anchors": ["ff/allocator.hpp: ff_allocator::getslabs, malloc"]}
{"id": "C38", "title": "Aligned allocation is aligned, inside the block, and can be freed", "statement": "posix_memalign returns an address that is a multiple of the alignment, with the requested bytes inside the block obtained, and free on that address releases exactly the block that was obtained.", "quantifier": "every alignment, size and block address", "why_tests_cant": "address arithmetic for all addresses; large sizes use a different path", "anchors": ["ff/allocator.hpp: ff_allocator::posix_memalign, free, isPowerOfTwoMultiple"]}
{"id": "C39", "title": "Blocks given out by a slab are disjoint and recycled only after free", "statement": "A block returned by malloc is not currently allocated, blocks do not overlap, and a block freed by any thread is eventually available again to the owner, exactly once per free.", "quantifier": "every history of malloc/free over any number of threads and segments", "why_tests_cant": "all histories and thread mixes", "anchors": ["ff/allocator.hpp: SlabCache::newslab, getitem, putitem, getfrom_fb, ff_allocator::malloc, free"]}
{"id": "C40", "title": "Thread mapping always yields a configured core", "statement": "getCoreId returns an element of the mapping list, visits the list cyclically, and after setMappingList(list) thread i is mapped to list[i] for the first threads.", "quantifier": "every list length and thread identifier", "why_tests_cant": "mask arithmetic over all lengths", "anchors": ["ff/mapper.hpp: threadMapper::setMappingList, getCoreId"]}
{"id": "C41", "title": "Power-of-two and rounding helpers are correct", "statement": "nextPowerOf2(x) is the least power of two >= x, isPowerOf2 decides powers of two, nextMultipleOfIf(x,m) is the least multiple of m that is >= x.", "quantifier": "every argument in the range where no overflow occurs", "why_tests_cant": "all values", "anchors": ["ff/utils.hpp: nextPowerOf2, isPowerOf2, nextMultipleOfIf"]}
{"id": "C42", "title": "Distributed wire format round-trips", "statement": "Every batch of messages written by the sender is decoded by the receiver to the same messages (source, destination, channel type, payload) in the same order.", "quantifier": "every batch of messages within the documented field ranges, every payload", "why_tests_cant": "all payloads and sizes including those around the single-send threshold", "anchors": ["ff/distributed/ff_dsenderMTCL.hpp: uBuffer::push, flush, pushHeader_", "ff/distributed/ff_dreceiverMTCL.hpp: handleBatch"]}
{"id": "C43", "title": "Distributed sender keeps message order and never overruns its buffers", "statement": "For every sequence of messages given to one connection, the concatenation of the batches put on the wire is that sequence, each message once, and no write falls outside the send buffers.", "quantifier": "every sequence of messages and flush commands, every batch limit and byte limit", "why_tests_cant": "depends on the accumulated batch state", "anchors": ["ff/distributed/ff_dsenderMTCL.hpp: uBuffer::push, flush, uBufferAllocator::init"]}
{"id": "C44", "title": "Distributed receiver never overruns its receive buffers", "statement": "A receive is never posted on a buffer smaller than the incoming message.", "quantifier": "every sequence of message sizes", "why_tests_cant": "depends on the history of sizes", "anchors": ["ff/distributed/ff_dreceiverMTCL.hpp: svc, handleBatch"]}
{"id": "C45", "title": "Flow control keeps a bounded number of batches in flight", "statement": "With acknowledgements enabled, at most messageOTF batches per connection are unacknowledged at any time, and the sender never sends when its credit is zero.", "quantifier": "every interleaving of sends and acknowledgements", "why_tests_cant": "all interleavings", "anchors": ["ff/distributed/ff_dsenderMTCL.hpp: waitAckFrom, uBuffer::push, flush"]}
{"id": "C46", "title": "Partial reads and writes are completed in order", "statement": "writen/readn/writevn/readvn transfer exactly the requested bytes in order whatever way the kernel splits the transfer, and report an error or end of file as documented.", "quantifier": "every splitting of the transfer", "why_tests_cant": "all splittings", "anchors": ["ff/distributed/ff_network.hpp: readn, writen, readvn, writevn"]}
{"id": "C47", "title": "Combining two nodes is function composition", "statement": "combine_nodes(a,b) behaves as a pipeline of a and b run by one thread: same results in the same order and one EOS at the end.", "quantifier": "every pair of node functions and every stream", "why_tests_cant": "all streams and functions, including early termination by either part", "anchors": ["ff/combine.hpp: ff_comb::svc, push_comp_local, propagateEOS"]}
{"id": "C48", "title": "Bounded linked list reuses entries safely", "statement": "staticlinkedlist accepts up to its capacity, returns elements in order, and never hands the same cell to two live elements.", "quantifier": "every capacity and history of calls", "why_tests_cant": "all histories", "anchors": ["ff/staticlinkedlist.hpp"]}
{"id": "C49", "title": "Task slots of the task farm are not overwritten while in use", "statement": "The descriptor of a task submitted with AddTask is not reused for another task before the task has been executed.", "quantifier": "every number of submitted tasks, outstanding limit and schedule", "why_tests_cant": "depends on the schedule of workers versus the submitting thread", "anchors": ["ff/taskf.hpp: ff_taskf::AddTask", "ff/mdf.hpp: ff_mdf::AddTask"]}
{"id": "C50", "title": "Stencil indexing is a bijection on the matrix", "statement": "stencilReduce reads and writes each cell of an Xsize by Ysize matrix at its own location.", "quantifier": "every matrix size", "why_tests_cant": "fails only for non-square matrices", "anchors": ["ff/stencilReduce.hpp"]}
{"id": "C51", "title": "Selector runs exactly the selected node", "statement": "An ff_nodeSelector passes every task to the currently selected node and returns its result; selecting an index that was never added is refused or leaves the selection unchanged.", "quantifier": "every history of addNode/selectNode calls", "why_tests_cant": "all histories", "anchors": ["ff/selector.hpp: ff_nodeSelector"]}
{"id": "C52", "title": "The receiver keeps the order of each connection", "statement": "The messages that arrive on one connection are sent to the next node in the order they arrived, each once, whatever happens on the other connections.", "quantifier": "every number of connections, every arrival pattern and every completion order of the posted receives", "why_tests_cant": "depends on the interleaving of arrivals and completions", "anchors": ["ff/distributed/ff_dreceiverMTCL.hpp: ff_dreceiverMTCL2::svc, handleBatch"]}
{"id": "C53", "title": "Messages given to a connection are delivered once and in order", "statement": "The messages given to one connection of the sender come out of the receiver in the same order, each exactly once, with the same content.", "quantifier": "every sequence of messages and flushes, batch limits, schedules of sender, transport and receiver", "why_tests_cant": "sizes, batching and schedules are combined", "anchors": ["ff/distributed/ff_dsenderMTCL.hpp: uBuffer, uBufferAllocator", "ff/distributed/ff_dreceiverMTCL.hpp: svc, handleBatch"]}
{"id": "C54", "title": "A message is routed to a connection that reaches its destination", "statement": "A message with a destination goes to the connection of that destination; a message without destination goes to exactly one connection that reaches a possible destination of its source; a flush and an end of stream reach all of them.", "quantifier": "every routing table, message, filling of the buffers and credit state", "why_tests_cant": "the wrong choice is made only when a connection has no credit", "anchors": ["ff/distributed/ff_dsenderMTCL.hpp: ff_dsenderMTCL2::svc, getMostFilledBuffer, waitAckFromAny"]}
{"id": "C55", "title": "Blocking mode delivers the same stream and no wait outlasts one time limit", "statement": "With blocking mode the consumer of a channel receives exactly what the producer pushes, in order; a side that waits although it could go on waits for at most one time limit, so that every fair run delivers everything.", "quantifier": "every stream, queue capacity and interleaving, including lost and spurious wake-ups", "why_tests_cant": "the wake-up is lost only in a window between the failed pop and the wait", "anchors": ["ff/node.hpp: ff_node::Push, ff_node::Pop", "ff/utils.hpp: timedwait_timeout"]}
{"id": "C56", "title": "Divide and conquer computes the sequential recursion", "statement": "run_and_wait_end of ff_DC returns, and then the result parameter holds what the sequential recursion (test, divide, solve the parts, combine in order; the base cases with the sequential function) computes; no memory is used before it is allocated or after it is freed, and every intermediate vector is freed.", "quantifier": "every operand on which the recursion ends, every four user functions, number of workers, channel capacity, schedule, priority order and choice of addresses by the allocator (including the reuse of freed ones)", "why_tests_cant": "the order in which tasks of different levels arrive at the scheduler and the reuse of addresses depend on timing", "anchors": ["ff/dc.hpp: ff_DC, DACFunction, CombineFunction, Scheduler::insertTask, Scheduler::svc", "ff/task_internals.hpp: schedule_task, handleCompletedTask"]}
{"id": "C57", "title": "A master-worker farm returns every result to the emitter", "statement": "In a farm whose workers send their results back to the emitter (wrap_around, no collector) every command of the emitter is carried out exactly once, each worker's results reach the emitter's svc in the order in which the worker produced them and each at most once, with the channel of the worker that sent it; an emitter that counts its results receives the result of every task exactly once and the farm then ends.", "quantifier": "every emitter, worker function, number of workers, queue capacity, input stream and schedule", "why_tests_cant": "the order in which results of different workers come back decides what the emitter does next", "anchors": ["ff/farm.hpp: wrap_around, wait_freezing", "ff/lb.hpp: ff_loadbalancer::svc, collect_task, pop_until, absorb_eos"]}
{"id": "C58", "title": "A pipeline used as an accelerator returns in each round the results of that round", "statement": "The main thread repeats: run_then_freeze, offload tasks, offload FF_EOS, load_result until it returns false, wait_freezing. Every round ends, and its load_result loop returns exactly the results of the tasks of that round, in order; afterwards every stage sleeps and the channels are empty. With any other use the results loaded are a prefix of the composition of the stages on what was offloaded.", "quantifier": "every number of stages and rounds, stages with state kept or renewed between rounds, channel capacities and interleavings of the main thread with the stages", "why_tests_cant": "a stage may go to sleep, and be woken, while its neighbours are still busy with the previous round", "anchors": ["ff/pipeline.hpp: run_then_freeze, offload, load_result, wait_freezing, freeze_and_run", "ff/node.hpp: ff_thread::thread_routine, thWorker::svc"]}
{"id": "C59", "title": "The list based queue for many producers and consumers is linearizable and lock-free", "statement": "Every push and pop of MSqueue takes effect at one instant between its call and its return, as on a sequential FIFO queue; pop returns false only when the queue is empty at that instant. No null or recycled node is used wrongly. Threads that retry cannot keep each other from completing: the number of steps of all threads is bounded by a constant times the number of calls.", "quantifier": "every number of threads, sequence of calls, interleaving of the single accesses to shared memory and choice of addresses by the allocator", "why_tests_cant": "the wrong answer needs a thread that is stopped between reading a pointer and its compare-and-swap while the node is recycled", "anchors": ["ff/mpmc/MPMCqueues.hpp: MSqueue::push, MSqueue::pop, MSqueue::init, allocnode, deallocnode", "ff/allocator.hpp: SlabCache::getitem, getfrom_fb_delayed, putitem"]}
{"id": "C60", "title": "Static optimisation does not change what a network computes", "statement": "After optimize_static the network behaves as before: from every input stream it can only produce output streams the original network could have produced; if the nodes have no state it produces the same results (in the same order if all farms are ordered); prepare still accepts it, and the call itself returns.", "quantifier": "every network of sequential nodes, pipelines, farms, ordered farms and all-to-alls of any size and nesting, node functions with or without state, options, input streams and schedules", "why_tests_cant": "the optimised network differs from the original one only in which interleavings are possible, and there are infinitely many networks", "anchors": ["ff/optimize.hpp: optimize_static(ff_farm&), optimize_static(ff_pipeline&)", "ff/combine.hpp: ff_comb, combine_farms_a2a", "ff/farm.hpp: remove_collector, add_collector, add_emitter, set_scheduling_ondemand", "ff/pipeline.hpp: prepare, flatten", "ff/multinode.hpp: internal_mi_transformer"]}
{"id": "C61", "title": "The unbounded queue for many producers and consumers keeps order and completes", "statement": "Pushes and pops of uMPMC_Ptr_Queue draw consecutive positions, in the order of calls that do not overlap. The pop that draws a position returns the value of the push that drew it, and no position is used twice. The inner single-producer single-consumer queues are never entered by two threads at the same end. pop returns false only if the push of the next position has not returned. push and pop are non-blocking.", "quantifier": "every number of threads, inner queues, calls and interleaving of the single accesses to shared memory", "why_tests_cant": "two threads meet in an inner queue only after the positions have gone all the way round", "anchors": ["ff/mpmc/MPMCqueues.hpp: uMPMC_Ptr_Queue::init, push, pop"]}
{"id": "C62", "title": "A pool of queues behaves like one queue", "statement": "scalableMPMCqueue, multiMSqueue and multiSWSR: every value pushed is returned by at most one pop and, when nobody is inside a call, is either returned or stored. Used by one thread at a time the pool is a FIFO queue. pop returns false only if the pool is empty, so a consumer that keeps popping gets everything. With the relaxed order every call ends after a constant number of steps.", "quantifier": "every number of threads, inner queues, calls and interleavings", "why_tests_cant": "the tickets of pushes and pops get out of step only in rare interleavings, and the effect shows up in later calls", "anchors": ["ff/mpmc/MPMCqueues.hpp: scalableMPMCqueue::push, pop, empty, multiMSqueue, multiSWSR::push, multiSWSR::pop"]}
{"id": "C63", "title": "A failing svc_init is reported and does not stop the others for ever", "statement": "If svc_init of a node returns a negative value, run_and_wait_end still returns and reports the error with a negative value; the other nodes end.", "quantifier": "every pipeline and farm, set of nodes whose initialisation fails, channel capacities, input stream and schedule", "why_tests_cant": "which threads wait for a message that nobody will send depends on the position of the failed node and on the schedule", "anchors": ["ff/node.hpp: ff_thread::thread_routine, wait, wait_freezing", "ff/pipeline.hpp: run_and_wait_end, wait", "ff/farm.hpp: wait", "ff/lb.hpp: svc_init", "ff/gt.hpp: svc_init"]}
{"id": "C64", "title": "The two ends of every channel between distributed groups agree", "statement": "When a network is split into distributed groups, the consumers computed for a node and the feeders computed for a node are exactly its neighbours in the network, in both directions and for feedback; so group A connects to group B exactly if a node of A has a channel to a node of B, and exactly then B waits for A. The channels are those of the shared-memory run.", "quantifier": "every network of sequential nodes, combinations, pipelines, farms and all-to-alls of any size and nesting, and every assignment of disjoint parts to groups", "why_tests_cant": "each end computes its neighbours by its own search through the nesting, and there are infinitely many networks and cuts", "anchors": ["ff/distributed/ff_dutils.hpp: getConsumers, getFeeders, isFromFirstSet, isFromSecondSet", "ff/graph_utils.hpp: getBB", "ff/distributed/ff_dgroups.hpp: prepareIR2", "ff/pipeline.hpp: prepare, get_nextstage, get_prevstage, get_in_nodes, get_out_nodes"]}
{"id": "C65", "title": "The nodes of a distributed group are arranged in levels that follow their channels", "statement": "A group can hold any set of parts of the network. They are arranged in levels so that every channel between two of its parts leads to the next level (a feedback channel to the level of its target); a node with a consumer in its group can send to it, and a message from a node of the group arrives on the logical channel of that node.", "quantifier": "every network, every group of parts that do not overlap, in every order of their addresses", "why_tests_cant": "the levels depend on the addresses of the nodes and on a comparison of labels that is defined for all networks", "anchors": ["ff/distributed/ff_dutils.hpp: setIDs, compareLabels, sortBasedOnLabel, build_A2A_structure, custom_get_in_nodes, custom_get_out_nodes", "ff/distributed/ff_dadapters.hpp: EmitterAdapter2, CollectorAdapter2", "ff/distributed/ff_dgroup.hpp: dGroup"]}
{"id": "C66", "title": "A farm used as an accelerator returns in each round the results of that round", "statement": "The main thread repeats: run_then_freeze(nw), offload tasks, offload FF_EOS, load_result until it returns false, wait_freezing. Only the first nw workers (all of them without nw) run in the round. Every round ends, and its load_result loop returns exactly the results of the tasks of that round, each once; afterwards every thread sleeps and all the channels are empty.", "quantifier": "every number of workers, sequence of rounds with any number of workers asked for in each, emitter, workers and collector with state, channel capacities and interleavings of the main thread with the threads of the farm", "why_tests_cant": "the set of workers in use changes from round to round while the cursors and counters of emitter and collector survive, and a leftover shows up only in a later round", "anchors": ["ff/farm.hpp: run_then_freeze, thaw, offload, load_result, wait_freezing", "ff/lb.hpp: ff_loadbalancer::thaw, svc", "ff/gt.hpp: ff_gatherer::thaw, svc_init, svc, wait_freezing", "ff/node.hpp: ff_thread::thread_routine"]}
{"id": "C67", "title": "A distributed run ends, and every node receives everything that was sent to it", "statement": "A network is split into distributed groups, each run by its own process. Every run comes to an end: all nodes of all groups end, and so do the processes. At the end each node has received, from each of its feeders, exactly the data that the feeder sent to it or that were dealt out to it, in the order of sending, and after them one end of stream.", "quantifier": "every network without cycles and its split into groups, nodes with state, numbers of messages, capacities of queues and connections, and interleavings of all the threads of all the processes", "why_tests_cant": "the end of stream is a message that is copied by senders and receivers and counted by each node, while other streams share the same connections, in any number of processes", "anchors": ["ff/distributed/ff_wrappers.hpp: WrapperINOUT", "ff/distributed/ff_dsenderMTCL.hpp: ff_dsenderMTCL2", "ff/distributed/ff_dreceiverMTCL.hpp: ff_dreceiverMTCL2", "ff/distributed/ff_dadapters.hpp: SquareBox", "ff/distributed/ff_dgroup.hpp: dGroup", "ff/lb.hpp: svc", "ff/gt.hpp: svc"]}
{"id": "C68", "title": "A dynamic queue used by many producers and consumers is a FIFO queue that loses no memory", "statement": "Threads call mp_push and mp_pop on one dynqueue. Every call takes effect at one instant between its call and its return, as in a FIFO queue used sequentially: no element is lost, duplicated or reordered, and mp_pop answers false only if the queue is empty at that instant. No thread touches memory that is not allocated; when no call is in progress exactly one node per element, one more and those in the cache are allocated; the calls in progress end; and the destructor frees every node once.", "quantifier": "every number of threads, size and filling of the cache, sequence of calls of each thread, interleaving of their accesses to memory, and choice of addresses by malloc", "why_tests_cant": "a pop can take the element of a push that has not yet moved the tail, and the node goes through the cache to another push; the number of interleavings and of reuses is unbounded", "anchors": ["ff/dynqueue.hpp: dynqueue::mp_push, mp_pop, mp_allocnode, dynqueue, ~dynqueue"]}
{"id": "C69", "title": "A pipeline with feedback computes the same in every run, ends, and gives its first stage its results in order", "statement": "The output of the last stage of a pipeline is connected to its first stage (wrap_around), which starts with a call of svc on NULL. Whatever the schedule and the sizes of the queues: each stage reads and sends the same sequences; if the first stage stops after some number of results, the run ends, and it ends without anything being stuck; if the other stages apply functions to the tasks, the first stage reads the results of exactly the tasks it sent, in the order of sending. The same holds each time the pipeline is run.", "quantifier": "every number of stages, stages with state that send any number of messages per call, capacities of the inner queues, schedules, and number of runs", "why_tests_cant": "a ring can fill up, starve or keep leftovers depending on the schedule, on the capacities and on how much the stages send; the number of interleavings is unbounded", "anchors": ["ff/pipeline.hpp: wrap_around, prepare_wraparound, skipfirstpop, run, run_then_freeze, run_and_wait_end", "ff/node.hpp: ff_node::thWorker::svc, skipfirstpop"]}
{"id": "C70", "title": "Serialised tasks and received buffers are sent unaltered and released exactly once, as the program asked", "statement": "Nodes of a distributed group send tasks to other groups and receive messages from them. For each task sent, exactly the bytes returned by serialize() go out, once. Nothing is read after it has been released and nothing is released twice. A task that was copied is released with freeTask and its buffer with the function that serialize() named or with free; a task whose bytes are borrowed is released only by the function named, with the task and its bytes; a task handed to a node of the same group instead is not released. A received buffer is freed once if deserialize() copied it, and never otherwise. When nothing is under way nothing is left, and recycled messages are as new.", "quantifier": "every number of nodes, tasks and messages, mixture of copied and borrowed tasks and of release functions, moment at which the program deletes what it was given, and interleaving of nodes, sender and receiver", "why_tests_cant": "the task, its bytes and the message that carries them are released by different threads at different times, and messages are recycled; a release that is early, missing or doubled shows only in some interleavings", "anchors": ["ff/distributed/ff_ddefines.hpp: serializedBuffer_t, message2_t::cleanContent", "ff/distributed/ff_messageAllocator.hpp: MessageAllocator", "ff/node.hpp: serializeF, deserializeF, freetaskF", "ff/distributed/ff_wrappers.hpp: WrapperINOUT::serialize, svc", "ff/distributed/ff_dadapters.hpp: EmitterAdapter2::forward, CollectorAdapter2::svc", "ff/distributed/ff_dsenderMTCL.hpp: uBuffer::push", "ff/distributed/ff_dreceiverMTCL.hpp: handleBatch"]}
{"id": "C71", "title": "A task serialised with cereal travels as exactly the bytes that were written for it", "statement": "Each thread serialises its tasks into one growing buffer. The message of a task consists of exactly the bytes that the archive wrote for that task, in order, whatever their number, whatever the pieces they were written in and whatever was serialised before; no byte is stored outside of the buffer.", "quantifier": "every sequence of tasks of a thread, sizes of the tasks, pieces in which the archive writes them, and previous contents of the memory", "why_tests_cant": "the buffer grows by doubling at positions that depend on all the sizes before; sizes are unbounded and the failing ones are above two gigabytes", "anchors": ["ff/distributed/ff_serializationBuffer.hpp: serBuffer", "ff/node.hpp: ff_node_t (serializeF)"]}
{"id": "C72", "title": "The pool evolution pattern computes the sequential algorithm, whatever the parallelism", "statement": "poolEvolution with selection s, evolution e, filter f and termination t computes: while not t(P): N = e(s(P)); P += f(N, P). In each round every selected individual is evolved exactly once, from its value before the round. The result does not depend on the parallelism degree, which may be changed between rounds with setParEvolution, nor on the schedule, unless e uses the worker id; then it depends on the degree only. On a stream there is one result per population, in order. If the algorithm ends, so does the pattern.", "quantifier": "every population, functions s, e, f, t with an environment, parallelism degree, schedule of the workers, interleaving of reads and writes of the pool, number of rounds and of populations", "why_tests_cant": "the individuals are evolved by threads in place in the vector from which others are being evolved; the number of schedules and of rounds is unbounded", "anchors": ["ff/poolEvolution.hpp: poolEvolution::svc, setParEvolution", "ff/parallel_for.hpp: ParallelFor::parallel_for_thid", "ff/parallel_for_internals.hpp: ff_forall_farm::setloop, forall_Scheduler::init_data_static"]}
{"id": "C73", "title": "Every object is deleted exactly once, by whoever was made responsible for it", "statement": "A block (pipeline, farm, all-to-all, combine) deletes, when its lifetime ends, exactly the parts it was made responsible for, directly or through parts it deletes: by a cleanup argument, by a unique pointer, by cleanup_nodes, cleanup_workers, cleanup_emitter or cleanup_collector, or because it made them. Removing or replacing a part, clearing a flag, copying a block, flattening a pipeline, combining nodes with the ends of a block and preparing an ordered farm move these responsibilities as documented. Whatever calls are made: nothing is deleted twice, nothing is deleted early, nothing of the user is deleted, and when the lifetimes of the user's objects have ended, in any order, nothing is left.", "quantifier": "every program of such calls, any nesting and number of blocks, and any order in which the user's objects are destroyed", "why_tests_cant": "the responsibility for one node is spread over lists and flags of several blocks and moves with every copy and rewriting; the number of sequences of calls is unbounded and a wrong one shows only as a double deletion or a leak at the end", "anchors": ["ff/pipeline.hpp: ff_pipeline::add_stage, insert_stage, remove_stage, change_node, flatten, cleanup_nodes, copy constructor, destructor; ff_Pipe", "ff/farm.hpp: ff_farm::add_workers, change_workers, add_emitter, change_emitter, add_collector, remove_collector, change_node, cleanup_workers, cleanup_emitter, cleanup_collector, prepare, copy constructor, destructor", "ff/all2all.hpp: ff_a2a::add_firstset, add_secondset, change_firstset, change_secondset, change_node, copy constructor, destructor", "ff/combine.hpp: ff_comb, replace_first, replace_last, changeFirst, changeLast", "ff/optimize.hpp: combine_with_emitter, combine_with_collector, combine_with_firststage, combine_with_laststage", "ff/multinode.hpp: internal_mo_transformer", "ff/ordering_policies.hpp: OrderedWorkerWrapper"]}
{"id": "C74", "title": "Combining a node with an end of a network is the same as a pipeline of the two", "statement": "combine_with_emitter(farm, node) and combine_with_firststage(pipe, node) give a network that can produce exactly the outputs of the pipeline (node, network); combine_with_collector(farm, node) and combine_with_laststage(pipe, node) one that can produce exactly the outputs of the pipeline (network, node). This holds whatever is at the end: a sequential node, a farm with or without emitter or collector, the sets of an all-to-all, workers that are pipelines or farms. A call that returns -1 changes nothing, and a call that returns 0 has put the node everywhere.", "quantifier": "every network of any depth and number of workers, every node, every input stream and every schedule", "why_tests_cant": "the node is copied over an unbounded number of ends at any depth, and equality of networks is equality of all their possible outputs for all inputs", "anchors": ["ff/optimize.hpp: combine_with_emitter, combine_with_collector, combine_with_firststage, combine_with_laststage, combine_right_with_farm, combine_right_with_a2a, combine_left_with_a2a", "ff/combine.hpp: ff_comb", "ff/farm.hpp: ff_farm::add_emitter, change_emitter, add_collector, getCollector, hasCollector"]}
{"id": "C75", "title": "Combining two blocks into one pipeline keeps what they compute", "statement": "combine_nodes_in_pipeline(a, b) gives a pipeline that can produce exactly the outputs of a followed by b. combine_farms(farm1, node1, farm2, node2, mergeCE) gives one that computes what farm1 with collector node1 followed by farm2 with emitter node2 computes: with mergeCE only outputs that these farms may produce, without it the same items for workers and nodes without state. combine_farms_nf(farm1, farm2) gives one farm that only produces what the pipeline of the two may produce. If the function does not support the arguments it reports it and returns an empty block.", "quantifier": "every two blocks, any number of workers, every pair of nodes given or null, both values of mergeCE, every input stream and schedule", "why_tests_cant": "the rewriting moves nodes over an unbounded number of workers and changes who deals and who gathers; equality of networks is equality of all their possible outputs for all inputs, schedules included", "anchors": ["ff/combine.hpp: combine_nodes_in_pipeline, combine_farms_a2a, combine_farms_nf, combine_farms", "ff/farm.hpp: ff_farm::add_emitter, change_emitter, add_collector, remove_collector, set_ordered"]}
{"id": "C76", "title": "Combining an ordered farm with a second farm keeps the order of the results", "statement": "combine_ofarm_farm(farm1, farm2), with farm1 ordered, gives a pipeline that computes what farm1 followed by farm2 computes: the collector of farm1 and the emitter of farm2 receive the results of farm1's workers in the order of its tasks, each result once, in every run of the pipeline, and when the stream ends nothing is held back. Tasks that a worker of farm1 filters out by returning GO_ON are passed to nobody. Two ordered farms with the same number of workers, and a first farm that is not ordered, are refused with an empty pipeline.", "quantifier": "every number of workers, assignment of tasks, order in which workers finish, capacities of queues, schedule, sequence of runs, and every two farms with or without collector and emitter", "why_tests_cant": "results are renumbered through a ring of cells that is shared by the emitter, the workers and the reordering node; a wrong reuse of a cell needs a particular delay of one worker over thousands of tasks", "anchors": ["ff/combine.hpp: combine_ofarm_farm", "ff/ordering_policies.hpp: ordered_lb, OrderedWorkerWrapper, OrderedCollectorWrapper", "ff/farm.hpp: ff_farm::setlb, change_emitter, ordered_resize_memory"]}
{"id": "C77", "title": "The queue of messages of any size delivers each message once, in order and unchanged, and uses no memory twice", "statement": "With one producer (enqueue_prepare, fill the returned memory, enqueue_commit) and one consumer (dequeue_prepare, read, dequeue_commit): the consumer reads the committed messages in order, each once, with the bytes that were written. dequeue_prepare returns 0 only if all committed messages were read. The memory returned by enqueue_prepare is aligned, large enough and disjoint from every message not yet read; a message stays valid until dequeue_commit although buckets are reused and freed; the destructor frees everything once. Neither side waits for the other, and enqueue_prepare returns for every size.", "quantifier": "every sequence of message sizes, every bucket size and maximum, every interleaving of the producer and the consumer at the level of single loads and stores", "why_tests_cant": "a bucket reused or freed one step too early, or a mark written in the wrong order, shows only for one interleaving at the end of a bucket; the number of interleavings and of sequences of sizes is unbounded", "anchors": ["ff/ff_queue.hpp: ff_queue::ff_queue, ~ff_queue, enqueue_prepare, enqueue_prepare_slow, enqueue_commit, dequeue_prepare, dequeue_commit, alloc_bucket"]}
{"id": "C78", "title": "A search in a graph returns and finds exactly the nodes asked for", "statement": "ff_graphsearch::search(start, node, result) with a deque returns, and result holds exactly the nodes that are equal to node and can be reached from start, each once; the object can then be used for the next search. search with a pointer returns, with true exactly if such a node exists, and gives one of them.", "quantifier": "every graph (cycles, several edges between two nodes, edges from a node to itself), comparison, number of workers, capacity of the queues and schedule", "why_tests_cant": "the traversal order, which worker gets which node and what a thread reads from the shared flag depend on the schedule; termination is detected by a counter of nodes under way", "anchors": ["ff/gsearch.hpp: ff_graphsearch, Worker, Emitter, search", "ff/lb.hpp: ff_loadbalancer::svc, absorb_eos"]}
{"id": "C79", "title": "Where there is no pthread_barrier, the barrier built from a mutex and a condition variable separates phases and is reusable", "statement": "With the version of Barrier for platforms without pthread_barrier, no thread returns from its k-th doBarrier before all threads of the group have entered their k-th doBarrier, for every k; when all have entered, every one can return; at most one thread at a time is between taking and releasing the mutex.", "quantifier": "every group size, every number of rounds, every schedule of the threads, including schedules in which a waiting thread wakes up without a broadcast", "why_tests_cant": "a wake-up without a broadcast cannot be provoked by a test, and a thread that is fast enough to enter the next round before a slow one has left depends on the scheduler", "anchors": ["ff/barrier.hpp: Barrier (platforms without pthread_barrier)::barrierSetup, doBarrier"]}
{"id": "C80", "title": "Many nodes can write to and read from one unbounded channel", "statement": "When any number of threads use one unbounded queue with mp_push and mc_pop (an input channel created for several producers), every call takes effect at one instant between its call and its return: the answers are those of a FIFO queue used sequentially, and mc_pop returns false only if the queue was empty at some instant of the call. No thread accesses memory that is not allocated, every call ends after a bounded number of its own steps, and some thread can always go on.", "quantifier": "every number of threads, every sequence of calls, every interleaving of the single accesses, every size of the segments and of the pool of segments", "why_tests_cant": "the answer of a pop that races with a push in another segment depends on the interleaving of more than ten accesses, and linearizability quantifies over all histories", "anchors": ["ff/ubuffer.hpp: uSWSR_Ptr_Buffer::mp_push, mc_pop, push, pop", "ff/node.hpp: ff_node::create_input_buffer_mp"]}
{"id": "C81", "title": "A map whose values are reduced while it runs hands each value to the reduction exactly once", "statement": "ParallelForPipeReduce::parallel_reduce_idx(first, last, step, grain, Map, Reduce, nw) returns; by then Reduce has been called exactly once on each value sent by Map (and Map has been called on each index once), one call at a time, and the values sent by one worker were reduced in the order in which they were sent. Nothing is left over, so that the next call on the same object does the same, also after threadPause.", "quantifier": "every range, step and grain, number of workers, list of values sent for each index, with or without the scheduler thread, spinning or blocking workers, every schedule", "why_tests_cant": "how tasks are stolen and how the reduction interleaves with the workers depends on the schedule; a mark left over in a channel shows only in the next call", "anchors": ["ff/parallel_for.hpp: ParallelForPipeReduce, reduceStage, parallel_reduce_idx, threadPause", "ff/parallel_for_internals.hpp: forallpipereduce_W, ff_forall_farm::run_then_freeze, stopSpinning", "ff/gt.hpp: ff_gatherer::svc"]}
{"id": "C82", "title": "Loops of spinning workers return, whatever numbers of workers consecutive loops use", "statement": "With a ParallelFor(maxnw, spinwait=true, spinbarrier=true) every parallel_for executed without the scheduler thread returns once all its workers have executed their parts, whatever number of workers it uses and whatever numbers the loops before it used; when it returns no worker is executing a part of it.", "quantifier": "every sequence of loops, every sequence of numbers of workers, every schedule of the workers and the caller, including workers that are slow to leave the barrier of an earlier loop", "why_tests_cant": "a worker has to be preempted between the last arrival and its next read of the counter for as long as the caller needs to start another loop, which a test cannot provoke; the number of loops and workers is unbounded", "anchors": ["ff/barrier.hpp: spinBarrier::barrierSetup, doBarrier", "ff/parallel_for_internals.hpp: ff_forall_farm::run_then_freeze, wait_freezing, forallreduce_W::svc, forall_Scheduler::sendWakeUp"]}
{"id": "C83", "title": "The byte limit of batches is the size written in the configuration", "statement": "A group whose configuration gives batchByteSize as a decimal number, optionally followed by k, m or g in either case, batches up to exactly that number of bytes (times 2^10, 2^20 or 2^30). Any other string is refused with a message and leaves the default limit.", "quantifier": "every string, every default", "why_tests_cant": "there are unboundedly many strings, and a wrong value shows only for sizes near or above the range of the type, or for unusual spellings", "anchors": ["ff/distributed/ff_dutils.hpp: convertToBytes", "ff/distributed/ff_dgroups.hpp: dGroups::G::load"]}
{"id": "C84", "title": "The endpoint of a group in the configuration is used as written or refused", "statement": "For a group configured with the endpoint host:port the address is host and the port is the number written; an endpoint that is not of this form is refused with an error.", "quantifier": "every string", "why_tests_cant": "there are unboundedly many strings; a string without a port, with a missing number or with several colons is not part of any usual configuration, and reading outside a vector may go unnoticed in a test", "anchors": ["ff/distributed/ff_dgroups.hpp: dGroups::G::load, dGroups::split"]}
{"id": "C85", "title": "A REPARA kernel runs on the device, and with the memory flags, that the command gives for it", "statement": "For a command schedule_id;$kernel_1;GPU:0;URF;SF;...;$kernel_2;CPU:0;...;$ the device selected for kernel k is the one written after kernel_k, and the i-th entry of extractFlags(cmd, k) has copy set iff the i-th text of kernel k contains S or R, reuse iff it contains U, release iff it contains F. A kernel that is not in the command is refused. The schedule id of the command is the number at its beginning.", "quantifier": "every command of the documented format, every number of kernels and parameters, every kernel id", "why_tests_cant": "the commands are unboundedly many, and a search for the name of a kernel that finds the name of another one shows only from ten kernels on", "anchors": ["ff/bitflags.hpp: extractFlags", "ff/repara/rprkernels.hpp: Kernel::getDeviceID, getScheduleID"]}
