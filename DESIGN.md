# Formal model of fastflow/fastflow in Lean 4

Scope: `/repo/ff` at the pinned commit, read as text (never built or run here).
Properties: `properties.jsonl` (C01...).  Status per property: `MANIFEST.json`.

## Approach

* Every modelled C++ function is a small total Lean function citing file and lines.
* Sequential data structures: `op : State -> Arg -> State x Result`; out-of-bounds
  accesses, failed `assert`s and other undefined behaviour are an explicit outcome
  (`none` / `.ub`), never a default value.  Properties are refinements to a list, a finite
  map, ... by induction over arbitrary histories.
* Concurrent code: each *shared memory access* is one atomic action of one thread.  A
  state carries all shared memory, the program counter and locals of every thread, and
  ghost histories (never read by the code).  `step : State -> Action -> Option State`;
  a schedule is an arbitrary list of actions.  Theorems hold for every schedule
  (safety: every reachable state; progress: from every reachable state something specific
  is enabled).  Liveness under fair scheduling is not claimed.
* Memory model: sequential consistency, except the bounded SPSC queue (C01, C02), which is
  proved with per-thread store buffers in which stores to different addresses may be
  committed out of order unless separated by the code's `WMB()` (PSO plus write fence;
  x86-TSO and SC executions are special cases).
* Properties live in `Props*.lean` files, apart from models and lemma files; each comes
  with an `example` showing that a concrete non-trivial case meets its hypotheses.
* If the code violates the property, the violation is proved with a concrete witness
  (`..._counterexample`) and the part that holds is proved as `..._partial`.

## Trusted base

* Lean 4.33.0 kernel; axioms at most `propext`, `Classical.choice`, `Quot.sound`
  (checked with `#print axioms`, see each `Props` file's end and `vcheck`).
* The reading of the C++ source by the author of the model (each definition cites lines).
* Machine integers are modelled by unbounded `Nat`/`Int` except where stated; pointers by
  abstract values with a distinguished null.
* Not modelled: memory allocation failure, the OS scheduler and timing, C++ weak memory
  beyond what is stated above, exceptions, OpenCL/CUDA code, tracing, the MTCL/MPI library
  internals and cereal, spelling of log messages.

## Plan per property

| id | what is modelled | how it is proved |
|----|------------------|------------------|
| C01,C02 | push/pop of `SWSR_Ptr_Buffer` access by access, store buffers with WMB | inductive invariant relating slots, store buffers and ghost histories; FIFO prefix, publication |
| C03,C04,C05,C06 | all of `SWSR_Ptr_Buffer`, call by call | refinement to bounded list; witness for multipush at non-zero write index |
| C07 | `Lamport_Buffer` access by access | inductive invariant, refinement |
| C08,C09,C10 | `uSWSR_Ptr_Buffer` + `BufferPool`, access by access, pool queues as atomic FIFOs (justified by C01/C11) | inductive invariant over segments |
| C11 | `dynqueue` as heap of nodes, access by access | invariant: heap path = abstract list |
| C12 | `MPMC_Ptr_Queue`, any thread set, access by access | ticket invariant |
| C13,C14,C15 | TAS lock, CLH lock, spin barrier, access by access | inductive invariants |
| C16,C17,C18,C48 | `svector`, `squeue`, `icl_hash`, `staticlinkedlist` | refinement to list / map; witnesses |
| C19,C20,C47 | node service loop, network of nodes with bounded channels, `ff_comb` | trace induction; Kahn-style prefix invariant; progress |
| C21-C27 | load balancer, gatherer, farm, ordered farms, all-to-all | schedule induction; permutation / order invariants; witnesses |
| C28 | `ff_thread` freeze/thaw with mutex and condition variables | invariant over schedules |
| C29-C32 | `forall_Scheduler` partitioning, work stealing, reduction | arithmetic of partitions; invariant on per-worker ranges; monoid fold |
| C33-C35 | `TaskFScheduler` bookkeeping | invariant: unfinished conflicting predecessors are counted; commutation to sequential run |
| C36-C39 | `StaticAllocator`, size classes, aligned allocation, slab cache | invariants, bit arithmetic |
| C40,C41 | `threadMapper`, rounding helpers | arithmetic |
| C42-C46, C52-C54 | wire format, batching and the pool of send buffers, receive slots, credit, routing, short I/O; transport that reads a buffer later | round trip, invariants over all schedules |
| C49,C50,C51 | task ring, stencil index, selector | invariants / witnesses |
| C55 | `Push`/`Pop` of a node in blocking mode, signal without mutex, time limit | invariant; ranks of own actions; fair infinite runs |
| C56 | `ff_DC`: scheduler, workers, `insertTask` with writers that are handed over, blocks of operands and results | invariant over memory, table and messages; potential function; result equals a separately defined recursion |
| C57 | load balancer with feedback: polling of workers and input, user emitter, `absorb_eos`, unbounded feedback channels | invariant; replay of the history by the user emitter; potential function; permutation of the results |
| C58 | pipeline as accelerator: program of the main thread, stages that sleep and are woken, `svc_end`/`svc_init` between rounds | invariant (what each stage has consumed, by round), prefix of the composition, deadlock analysis, work bound |
| C59 | `MSqueue`: every access to shared memory of `push` and `pop`, nodes in an address space, allocator as an action; separately the reuse policy of `FFAllocator(2)` | specification of linearizability by instants of effect; invariant (the list from `head`, what each thread knows); potential function for lock-freedom; counterexample run |
| C60 | networks as trees; nodes as stream functions with state; `optimize_static` function by function, with endless loop, abort and undefined behaviour as outcomes; the checks of `prepare` | specification: which output streams a network may produce; refinement of every rewriting step, then induction over the recursion; for stateless networks a per-item function preserved by every step; counterexamples |
| C61 | `uMPMC_Ptr_Queue`, any thread set, access by access; inner queues as FIFO lists, exclusive use proved | inductive invariant (positions, `seqP`/`seqC`, contents of the inner queues), lone runs, counterexample runs |
| C62 | `scalableMPMCqueue` (both orders) and `multiSWSR`: every access to `enqueue`, `dequeue`, `count`; inner operations atomic | log based counting invariants per thread and value; refinement to a FIFO list for sequential use; phased executions; counterexample runs for every number of inner queues |
| C63 | the pipeline of C20 and the farm of C21 with a set of threads that end at once because `svc_init` failed | invariants: a failed thread has sent nothing; its successor has consumed nothing; backward induction over the stages for the case that ends |
| C64 | networks as trees with numbered nodes; `getBB`, `getConsumers`, `getFeeders` as searches from the root (`Dist/Model`), `prepareIR2`'s sets of remote groups (`Dist/Groups`); channels read off the structure (`Dist/Spec`) | contexts as zippers: the search finds exactly the enclosing block of every part of a tree whose numbers differ; induction over the context from the inside out |
| C65 | labels as lists of letters and numbers (`Dist/Labels`), the bubble sort and the levels (`Dist/Levels`), the maps of the adapters (`Dist/Local`) | induction over networks for the order of the labels; the sort is correct for every comparison that comes from a rank; parts of the two upper layers have one |
| C66 | farm as accelerator: the threads of C21 plus the main thread that wakes, offloads, loads and waits, in rounds with a number of workers each (`Farm/Accel`) | inside a round the farm simulates a farm of C21 with the workers of that round (`hat`), so its invariant and its completion carry over; the phases of the main thread by invariant; completion from every reachable state |
| C67 | all the threads of all the groups of a distributed run: wrappers, senders, receivers, connections as bounded queues (`Grp/Model`) | invariant: what each node consumes is what its feeders put out, dealt out twice (over connections, over nodes); the end mark is the last of each stream; termination by a Dershowitz-Manna order on the messages; a stuck state is final because blocked threads would form an ascending chain of groups |
| C68 | `dynqueue` with `mp_push` and `mp_pop`: every access to memory of any number of threads, the two locks, the cache, `malloc` and `free` as actions, the destructor (`Tlq/Model`) | specification of linearizability of C59; invariant: the list from `head` is linked, `tail` is its last node except between the two assignments of a push, and the allocated nodes are a permutation of list, cache and nodes owned by threads; a measure for the end of operations (`Tlq/Inv`, `Step`, `Thm`) |
| C69 | pipeline of any number of standard stages with `wrap_around`: `prepare_wraparound` (one case), `skipfirstpop`, the service loop of C19, queues of any capacity, and a further run (`Ring/Model`) | specification: the chain of approximations of the least solution of the stages' stream equations (`Ring/Spec`); every state is below it, every stuck state is above it; an invariant on end marks for the absence of deadlocks; the chain becomes constant if the first stage stops (`Ring/Inv`, `Thm`, `Order`, `Ex`) |
| C70 | life of tasks, serialised bytes, received buffers and message objects through `WrapperINOUT`, `EmitterAdapter2::forward`, `CollectorAdapter2`, the allocator of messages, `uBuffer::push` and the receiver (`Life/Model`) | blocks of memory with a life, messages with one holder, a flag that is set by any access to a released block or to another thread's message; one invariant over all interleavings; counts of releases |
| C71 | `serBuffer` over the standard's `streambuf`, `int` and `size_t` arithmetic (`SerBuf/Model`) | invariant: what has been written is in the memory; the capacity is a power of two; the failure above 2^31 bytes follows from the same invariant |
| C72 | `poolEvolution::svc`, `setParEvolution`; the evolution phase as reads and writes of single individuals by the workers of a run of the static parallel loop (`Evolution/Model`) | invariant over the interleavings of the evolution phase, from the exact block of each worker (C30_owner); induction over the rounds to the sequential algorithm (`Evolution/Spec`) |
| C73 | a heap of blocks with the fields that decide what their destructors delete; every function that adds, removes, replaces, copies, flattens, combines or destroys (`Own/Model`); the rules of responsibility as a relation on the calls (`Own/Spec`) | invariant: the responsibilities of the rules are exactly what the destructors of the heap would delete, by role, without repetition; a deletion loop deletes exactly the objects under its root, once (induction on the number of live objects); every legal call keeps the invariant |
| C74 | the seven `combine_*` functions of `optimize.hpp` on the networks of C60 (`Opt/Combine`), returned code and network left behind | equality of the relations between inputs and outputs: a composition is two nodes in a row; dealing and interleaving commute with a map or a filter (induction on the dealing, in both directions); induction on the ways to reach an end |
| C75 | `combine_nodes_in_pipeline`, `combine_farms_a2a`, `combine_farms_nf`, `combine_farms` on the networks of C60 (`Opt/Farms`); `combine_ofarm_farm` is a parameter | case analysis over the two blocks; an emitter that is a composition is a node and the emitter; worker `i` composed with worker `i` is one way of dealing (`Opt/Merge`); stateless nodes by the Kleisli composition of C60; existence of runs by sending everything to the first worker |
| C76 | `combine_ofarm_farm` with `ordered_lb`, `OrderedWorkerWrapper` and `OrderedCollectorWrapper` (`Farm/Cofarm`, on the emitter and workers of C24); the network it builds (`Opt/Ofarm`) | simulation by the ordered on-demand farm of C24 as long as no cell is reused too early, with the invariant that outside its loop the wrapper holds nothing that is next; measure for termination; an invariant "no message has the awaited number" that is kept by every action for the two defects; networks by the equalities of C75 |
| C77 | `ff_queue` of `ff_queue.hpp`: constructor, `enqueue_prepare`, `enqueue_prepare_slow`, `enqueue_commit`, `dequeue_prepare`, `dequeue_commit` and what the destructor frees (`Msgq/Model`) | each load and store of a shared word is one action; invariant: the words from the consumer's position lead through the last buckets of the chain and the unread messages to the producer's position; the stale position that the producer loaded is in the chain not after the consumer's bucket. `enqueue_prepare` for sizes that do not fit: invariant over all runs that it never returns |
| C78 | `ff_graphsearch` of `gsearch.hpp`: the emitter and the workers of both kinds of search (`Gsearch/Model`, `Gsearch/One`), in the master-worker farm of C57 | invariant: the nodes sent are the start, its output nodes and new ones, the mask is the set of their identifiers, the counter is the number of nodes under way, output nodes of nodes that came back are masked; termination by the number of unset bits (`Spends` of C57). Search for one node: what is read from the shared flag is given by arbitrary functions; invariants over all runs |
| C79 | `Barrier` of `barrier.hpp` for platforms without `pthread_barrier`: counter, mutex, condition variable, with or without spurious wake-ups (`Locks/CondBarrier`) | inductive invariant (rounds, number of waiting threads, owner of the mutex); termination by remaining actions |
| C80 | `mp_push`, `mc_pop` of `ubuffer.hpp` around the model of C08, with two atomic locks (`Uswsr/Multi`) | invariant: a history with the instants of effect exists, and a second one for a pop that has seen the queue empty; the facts about the queue are the theorems of C08; bounded number of actions per call |
| C81 | `ParallelForPipeReduce` of `parallel_for.hpp` and its worker: the loops of C29 and C30, one unbounded channel per worker, the gatherer of C26 as Reduce stage (`Parfor/Pipe`, `Parfor/PipeC`) | invariant: what a worker has sent and not yet sent are the values of its calls, the mark comes last; the facts about loop and gatherer are the theorems of C26, C29 and C30; a measure for the messages left; counterexample for `threadPause` by an invariant over all schedules |
| C82 | `spinBarrier` of `barrier.hpp` with `barrierSetup` between loops of different numbers of workers, as used by `run_then_freeze`, `wait_freezing` and the end of the worker's `svc` without scheduler thread (`Parfor/SpinEnd`, `Parfor/SpinEndC`; access by access in `Parfor/SpinFine`, with `Parfor/SpinFineC` showing that for a careful caller it simulates the coarser model and `Parfor/SpinFineD` bounding the accesses) | invariant: with p the value of the flags at the start of the loop, counter p is 0 and counter not-p is the number of threads that have entered; a decreasing bound on the actions between two loops; the change of the number is refuted by a set of states closed under all actions |
| C83 | `convertToBytes` of `distributed/ff_dutils.hpp` and the option `batchByteSize` of `distributed/ff_dgroups.hpp` on lists of characters, with 64-bit arithmetic (`Dist/Bytes`) | specification by an inductive definition of decimal numerals and a table of units; the value for each accepted string, and a proof that exactly the other strings throw |
| C84 | `split` and the option `endpoint` of `distributed/ff_dgroups.hpp`, with `std::stoi`, on lists of characters (`Dist/Endpoint`) | lemmas on the first colon of a string; the numerals of C83; an exact characterisation of the strings for which the code reads outside the vector |
| C85 | `extractFlags` of `bitflags.hpp` and `Kernel::getDeviceID`, `getScheduleID` of `repara/rprkernels.hpp`, on lists of characters, with a separate specification of the format of commands (`Repara/Command`, `Repara/Schedule`, `Repara/Param`) | the name of a kernel occurs only at the beginning of entries, because the other texts contain no `_`; the search from the end finds the last entry whose number begins with the digits; induction on the digits for the numbers that can begin with them |

## What the proofs found in the code

Each item marked (ce) is a machine-checked counterexample; the others are remarks made while reading.

* Queues: `multipush`/`mpush` leave a wrong write index unless it was 0 (ce C04, C05); `length()` of an
  empty `Lamport_Buffer` that has wrapped, and of the unbounded queue after `reset()` (ce C06).  The tail of
  `dynqueue` points to a recycled node for a moment (harmless).
* Locks: the CLH lock needs more than an acquire exchange (ce C14); the Apple/MSVC barrier waits without a loop
  (ce C79).
* Helpers: `isPowerOf2` takes 32 bits (ce C41), `nextPowerOf2` does not end above 2^63.
* Containers: `svector::insert` out of bounds and with stale iterators (ce C16), `erase(end())`, `push_back`
  of an own element; `squeue` drained at a chunk boundary (ce C17), `at()` only looks at the first chunk;
  `icl_hash` entry counter after delete and update (ce C18), `update_insert` leaks a node;
  `staticlinkedlist` of size 1 points outside its ring.
* Nodes: the last of mixed EOS / EOS_NOFREEZE marks decides (ce C19); a node with `neos = 0` wraps.  A combined node
  passes NULL and EOSW of the first node on as tasks (ce C47).
* Gatherer and farm: mixed EOS and EOS_NOFREEZE never end (ce C26), a last EOSW is not propagated (ce C26);
  a worker that ends early with a full queue blocks the emitter (ce C21); the ordered farm does not reset its
  turns on a second run and ignores `ff_send_out_to` (ce C23); the ordered on-demand farm reuses ring cells
  while they are in use, and only prints when its memory is exceeded (ce C24).
* Freeze/thaw: `thaw` followed by `wait` can lose the round (ce C28).
* `parallel_for`: empty range with grain fails an assertion (ce C29); static grain with step or negative
  start (ce C31); a call with fewer workers shrinks the vectors used by later static-grain calls.
* Data flow: tag 0 is not tracked (ce C33); a task that depends on itself hangs (ce C35); the ring of
  `ff_taskf` is reused while a long task runs (ce C49).
* Allocators: `malloc(0)` indexes with -1 (ce C37); `free` of a large aligned block (ce C38); size 0 (ce C38);
  user data equal to the address of the segment (ce C39).  `realloc` tests the wrong pointer, the growing of
  the array of free lists is not protected.
* Mapper: lists whose length is not a power of two are not cyclic, lists can only shrink, more than 512 cores
  read freed memory, identifiers are cut to 32 bits (ce C40).
* Network: `readvn` with empty buffers, interrupted `readvn`, `writevn` on 0 (ce C46).
* Stencil: `i*Xsize+j` is wrong for matrices that are not square (ce C50).  Selector: an unknown index is
  accepted (ce C51), a failed init leaves earlier nodes initialised (ce C51).
* Distributed runtime: a single message between the two limits is decoded as a big one, empty messages become
  end of stream, identifiers above 16 bits are cut (ce C42); a flush followed by a direct send overwrites the
  buffer under way (ce C43); the receive buffer can be smaller than recorded (ce C44); the second slot can
  take the payload of a big message (ce C52); without credit a message goes to whichever connection
  acknowledges first (ce C54).
* Divide and conquer: an operand below the first level without parts (ce C56); the loop that removes entries reads one
  element too far (harmless: proved that the lists have at most one element then); entries of freed addresses stay in the
  table of writers (harmless: proved).
* Master-worker farm: positions in the list of available workers are used as channel numbers, which are wrong after an
  element was removed (ce C57); results that are not waited for are lost or make the assertion of `absorb_eos` fail
  (ce C57); a second run without `reset()` takes the end mark left in a feedback channel for a new one and hangs (ce C57).
* Accelerator: a stage whose `svc` returns `FF_EOS` leaves the rest of the round in its queue, and every later round
  returns the results of the one before (ce C58); `load_result` does not take `FF_EOSW` for an end and hands the mark
  itself out as a result (ce C58).
* `MSqueue` has no counters in its pointers and relies on an allocator that reuses a node after two further frees; a
  thread stopped before its compare-and-swap can then take a node out of the list that is no longer in it, and an
  element is returned twice (ce C59).
* `optimize_static`: `introduce_a2a` loops for ever on a farm without user collector followed by an unordered farm with
  an emitter, and changes the results of workers with state; `merge_farms` casts a node between two farms to a farm, gives
  a broken composition for pipeline workers, an ordered farm that `prepare` refuses, and on-demand instead of
  round-robin scheduling; `merge_with_emitter` follows a null pointer or aborts; removing collectors (`OptLevel1`) can give
  a network that `prepare` refuses (multi-output node between a farm and an all-to-all, nested farms), takes the
  result queue from an accelerator that ends in a farm, and calls `eosnotify` of the next node once per worker (ce C60).
* `uMPMC_Ptr_Queue::push` is documented as non-blocking, but a thread that stops inside it lets the others take only `n` further
  positions, then all pushes spin for ever (`C61_push_blocks_counterexample`).  `pop` can return false although an earlier push has returned
  (`C61_linearizable_counterexample`).
* `scalableMPMCqueue` (and `multiMSqueue`): two pops that both read `count` before the last element is taken leave one of them to claim
  the ticket of a push in progress; it finds nothing and gives up the ticket.  The element pushed is then stored, `empty()` says false,
  and every pop returns false until another push; the next element pushed overtakes it (`C62_stuck_counterexample`, `C62_order_counterexample`).
* A failing `svc_init` is neither reported nor handled: the thread ends without sending an end of stream. If the next stage works, or the failed thread is
  the emitter or a worker of a farm, `run_and_wait_end` never returns, whatever the schedule; if it returns, it returns 0
  (`C63_hangs_counterexample`, `C63_worker_counterexample`, `C63_emitter_counterexample`, `C63_full_counterexample`, `C63_silent_counterexample`).
* Distributed groups: a combination of three nodes loses its feeders (its group runs as a source while another group connects to it) or its
  consumers (the next group waits for ever), because `getBB` returns the inner combination as its own parent; `getFeeders` forgets the wrap-around
  of an all-to-all behind a collectorless farm; the two ends count workers and their outputs differently
  (`C64_comb_left_counterexample`, `C64_comb_right_counterexample`, `C64_wrap_counterexample`, `C64_multi_counterexample`).
* The same pipeline has other channels distributed than in shared memory: two all-to-alls in a row of equal size (one to one against all pairs),
  multi-output workers before a multi-input first set (all pairs against one to one) (`C64_a2a_counterexample`, `C64_mo_counterexample`).
* A group with a node and a farm behind it hangs: the adapter of the node looks for the emitter where the channel names the farm, finds no
  destination and tries for ever (`C65_farm_counterexample`). The same for the feedback of an all-to-all that is not in the first two levels
  (`C65_feedback_counterexample`). A pipeline in a group is known by its first instead of its last stage (`C65_pipe_counterexample`).
* The comparison of labels in a group is not transitive, so its levels depend on addresses (`C65_mixed_counterexample`); a group without nodes reads
  past the end of a vector (`C65_empty_counterexample`).
* The first `run_then_freeze(nw)` of a farm starts all the workers, whatever `nw` is (`C66_first_round_counterexample`). If the collector of a farm
  accelerator ends the stream itself, its other results are returned by the next round (`C66_early_end_counterexample`). Not modelled: a second
  `run_then_freeze` without `wait_freezing` in between (an `assert` in `gt.hpp` 809), and `run_then_freeze(0)` (a division by zero, `lb.hpp` 161).
* A source in a distributed group without receiver is called once: a source that returns one item at each call loses all but the first, never sends
  its end of stream, and its consumers wait for ever (`C67_source_counterexample`). A node that returns `EOS` before its input ends is called again,
  and what it then sends is lost (`C67_early_counterexample`). Two groups that feed each other can block each other for ever if the queues in front
  of their nodes are bounded, even if the network has no cycle (`C67_deadlock_counterexample`). Observed, not modelled: `eosnotify` is called
  once for each feeder also for nodes that are not multi-input, unlike in shared memory.
* A pipeline with `wrap_around` works only the first time it is run: the end mark (and results nobody waited for) stay in the
  feedback queue, and in the next run the first stage reads them and ends (C69_second_run, ce). A stage other than the
  first that ends the stream leaves the first one waiting for room for ever (ce C69).
* A release function for borrowed bytes is called with size 0 when the message is above the threshold for a separate send, because `push`
  clears the size of the message and does not restore it (ce C70). A `serialize()` that borrows its bytes and names no release function is
  accepted, and the bytes, which belong to the task, are passed to `free` (ce C70). A task without bytes arrives as an end of stream (ce C70).
* The buffer for cereal passes its position to `pbump` as an `int`: from 2^31 bytes on it stores in front of its memory (ce C71).
* `poolEvolution` is documented as `P += f(N, P)`; the code replaces the population by what the filter leaves in the buffer (ce C72).
* Responsibilities for deletion (ce C73): a node given to `ff_Pipe::add_stage(std::unique_ptr&&)` is never deleted; copying an `ff_Pipe` made from unique pointers makes both delete the stages; `flatten` of an inner pipeline with `cleanup_nodes` deletes twice the stages it also had by `cleanup=true`; `change_emitter(e, true)` on a farm without emitter loses the flag; `ff_farm::change_node` ignores `remove_from_cleanuplist` for emitter and collector and undoes it for workers, and its `cleanup` argument clashes with a later `cleanup_workers()`; a collector added with cleanup and removed is never deleted, its flag applies to the next collector, and a copy loses it; `add_emitter(const T&)` that is refused leaks the copy; `combine_with_firststage` on a pipeline with `cleanup_nodes` leaks the first stage; `combine_with_laststage` deletes the last stage twice if it was added with cleanup and `cleanup_nodes` is set.
* `combine_with_*` (ce C74): a node combined with workers or sets is copied, so that a node with state, or one that sends more than one item per item, no longer does what the pipeline does; `combine_with_laststage` refuses farms with the default collector because `getCollector()` is null; `return (r>0?-1:0)` never reports an error of workers other than the first (the codes are 0 or -1), so that 0 is returned although some workers did not get the node; a composition of standard nodes before a farm without emitter calls `abort()`.
* `combine_farms` and friends (ce C75): with `mergeCE` and only `node2`, the second farm gets no emitter at all (`change_emitter(nullptr)`); `combine_farms_nf` ignores the collector of the first farm and the emitter of the second, and for ordered farms builds one that `prepare` refuses; without `mergeCE`, `node2` goes to the first set although the comment says the second; `combine_nodes_in_pipeline` on two farms passes a null emitter to `ff_comb`, aborts on a standard emitter, and ignores the failure of `add_emitter`/`add_collector` on a pipeline, so that the pipeline is lost.
* `combine_ofarm_farm` (C76): the reordering node resets its counter in `svc_init`, the scheduler of the first farm does not: in a second run (freeze and thaw) nothing ever reaches the second farm, proved for every first run. The ring of `nworkers*(2*ondemand+3)+10000` cells is also used for farms that are not on-demand, whose queues are not bounded by it: one slow task while the others complete as many tasks as there are cells, and the second farm never gets anything again; the memory size given to `set_ordered` is ignored. A worker's `GO_ON` is sent to the next node as if it were a task. If the emitter of the second farm, or without one the collector of the first, is not a multi-output node, the program is aborted.
* `ff_queue::enqueue_prepare_slow` (C77): the new bucket has room for `sz + 16` bytes, but `enqueue_prepare` wants the *rounded* size and 16 bytes. For every size that is not a multiple of 8 and is, rounded up and with 16 bytes, larger than `bucket_size` the recursion does not end: bucket after bucket is linked and nothing is ever returned (`C77_prepare_counterexample`). Also: a bucket of less than 8 bytes has no room for its first word (the theorems ask for 8), and `bucket_count_` is not decremented when a bucket is freed, so it counts allocations (seen in the text, no theorem).
* `ff_graphsearch` (C78): the first call of the emitter sends the output nodes of the start without looking at the mask, so that a node with an edge to itself, or two edges from the start to the same node, is found twice. In the search for one node a worker that finds it returns NULL and leaves; the emitter only learns of it if another node comes back. If the start is the node and has no output nodes (in general: if the start and its output nodes are all equal to the node and fewer than the workers), `search` never returns, in any schedule (`C78_one_counterexample`). Also, if the emitter has already received the EOS of that worker and then ends the stream itself, `absorb_eos` waits for a second EOS from it for ever (`C78_one_mark_counterexample`). While nothing is found the search for one node behaves as the one for all nodes (`Gsearch/Absent`, a simulation), so that it returns if there is no such node (`C78_one_absent`), and if it ends without having found anything there is none (`C78_one_complete`).
* `Barrier` without `pthread_barrier` (C79): `pthread_cond_wait` is not in a loop that looks at a condition, so that one wake-up without a broadcast lets a thread pass, and the thread stays counted (`C79_spurious_counterexample`).
* `ParallelForPipeReduce::threadPause` with spinning workers (C81): a worker that is paused leaves its loop, and `svc_end` sends one more `EOS` into its channel. The Reduce stage takes it for the end of the next call, so that `Reduce` is not called at all in that call, which returns as if nothing had happened (`C81_pause_counterexample`, for every loop and schedule).
* `spinBarrier::barrierSetup` between loops with different numbers of spinning workers (C82): the comment in `run_then_freeze` says that all workers have crossed the barrier, but a worker may still spin on the counter of the last loop, which it has not yet read as 0. The setup makes the next loop use the same counter; if the caller (or another worker) enters the barrier of the next loop first, the slow worker goes on spinning and never starts its part, and the loop never returns. `C82_change_counterexample` proves it for all pairs of different numbers. Worse, a worker that has not yet compared its count with the size of the barrier may find the new size, take itself for the last thread and reset the counter: the next loop returns although none of its parts has begun (`C82_early_return_counterexample`). With equal numbers the counters alternate and all loops return.
* `convertToBytes` (C83): a size of 2^64 bytes or more is taken modulo 2^64 after each multiplication, so that `17179869184g` gives the limit 0; an empty string gives 0 instead of the default (`C83_too_large_counterexample`, `C83_empty_counterexample`).
* The endpoint of a group (C84): without anything after the first colon (`localhost`, `localhost:`) `endp[1]` is read outside the vector (`C84_outside_counterexample`); an address with colons, such as an IPv6 address, is cut at the first one (`C84_colon_counterexample`).
* Commands for REPARA kernels (C85): the name of kernel k is searched without the separator that follows it, so that kernel 1 gets the device and the flags of a later kernel 10 to 19 (`C85_prefix_counterexample`, for all k). Without command the flags of all parameters but the first are read outside the vector (`C85_no_command_counterexample`).
* Blocking mode: wake-ups are lost, only the time limit helps (ce C55).

## What is modelled and what is not

Modelled: `buffer.hpp`, `ubuffer.hpp`, `ff_queue.hpp`, `dynqueue.hpp` (single producer and consumer, and with two locks), all queues of
`mpmc/MPMCqueues.hpp`, `spin-lock.hpp` (TAS, CLH), `barrier.hpp` (spin barrier, barrier of a mutex and a condition variable), `svector.hpp`, `squeue.hpp`, `bitflags.hpp`, `repara/rprkernels.hpp` (`getDeviceID`, `getScheduleID` only),
`icl_hash`, `staticlinkedlist.hpp`, the service loop, freeze/thaw and blocking mode of `node.hpp`, pipelines (also with `wrap_around`),
`combine.hpp` (`ff_comb` and its service; `combine_nodes_in_pipeline`, `combine_farms*`, `combine_ofarm_farm`), `ordering_policies.hpp` (without `OrderedEmitterWrapper`, which nothing uses), `optimize.hpp` (`optimize_static` 331-795, `combine_*` 110-328), `lb.hpp` and `gt.hpp`, farms of `farm.hpp` (default, broadcast,
ordered, ordered on demand; feedback from the workers to the emitter; use as an accelerator in rounds), `all2all.hpp` (service), `parallel_for_internals.hpp`, `ParallelForPipeReduce` of `parallel_for.hpp`,
`task_internals.hpp` with `mdf.hpp`, `taskf.hpp` and `dc.hpp`, `staticallocator.hpp`, `allocator.hpp` (`ff_allocator`:
malloc, posix_memalign, free from any thread), `mapper.hpp`, `utils.hpp` (rounding), `stencilReduce.hpp`
(`stencil2D`), `poolEvolution.hpp`, `gsearch.hpp` (both functions `search`), `selector.hpp`, `distributed/ff_network.hpp`, `ff_dsenderMTCL.hpp`, `ff_dreceiverMTCL.hpp`,
`ff_dutils.hpp` (121-481), `ff_wrappers.hpp` (`WrapperINOUT`), `ff_messageAllocator.hpp`, `ff_serializationBuffer.hpp`, `ff_dgroup.hpp` (groups of one level), `ff_dadapters.hpp` (the maps built in `svc_init`, `SquareBox`), `graph_utils.hpp` (`getBB`) and `prepareIR2` of `ff_dgroups.hpp` (the sets of remote groups; also its options `batchByteSize` and `endpoint`).

Not modelled: the OpenCL, CUDA and TPC code, the rest of `repara/`, `platforms/`, `mapping_utils.hpp`,
tracing, the older ZeroMQ nodes (`dnode.hpp`, `dinout.hpp`), the rest of
`distributed/ff_dgroups.hpp`, and what the header of a model file names as simplified.
