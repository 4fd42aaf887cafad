{
 "claims": [
  {
   "property": "C01",
   "status": "proved",
   "theorems": [
    "FF.SwsrConc.C01_prefix",
    "FF.SwsrConc.C01_capacity",
    "FF.SwsrConc.C01_pop_exact",
    "FF.SwsrConc.C01_drain",
    "FF.SwsrConc.C01_push_exact"
   ],
   "note": "Every schedule of the individual accesses and every visibility order allowed by PSO with the WMB of push."
  },
  {
   "property": "C02",
   "status": "proved",
   "theorems": [
    "FF.SwsrConc.C02_publication"
   ],
   "note": "Object contents, with recycling of objects after release by the consumer; loads in program order."
  },
  {
   "property": "C03",
   "status": "proved",
   "theorems": [
    "FF.Swsr.C03_bounded_fifo",
    "FF.Swsr.C03_indices_in_range",
    "FF.Swsr.C03_size_zero",
    "FF.Swsr.C03_null_push",
    "FF.Swsr.C03_startatlineend_counterexample"
   ],
   "note": "Every history refines a bounded FIFO. Side finding: init(true) with fewer than 8 slots is out of bounds."
  },
  {
   "property": "C04",
   "status": "partial",
   "theorems": [
    "FF.Swsr.C04_multipush_partial",
    "FF.Swsr.C04_write_index_iff",
    "FF.Swsr.C04_reject_unchanged",
    "FF.Swsr.C04_counterexample"
   ],
   "note": "False of the code: multipush leaves a wrong write index unless it was 0 (counterexample proved). Proved for batches issued at write index 0, and characterised exactly."
  },
  {
   "property": "C05",
   "status": "partial",
   "theorems": [
    "FF.Swsr.C05_mpush_flush_partial",
    "FF.Swsr.C05_counterexample"
   ],
   "note": "False of the code (same cause as C04). Proved for a first batch of up to 16 elements."
  },
  {
   "property": "C06",
   "status": "partial",
   "theorems": [
    "FF.Swsr.C06_length",
    "FF.Swsr.C06_lamport_counterexample",
    "FF.Swsr.C07_lamport_call_by_call",
    "FF.Uswsr.Seq.C06_unbounded_length",
    "FF.Uswsr.Seq.C06_reset_counterexample",
    "FF.Uswsr.Seq.C06_reset_partial"
   ],
   "note": "Exact for SWSR_Ptr_Buffer and, without reset(), for the unbounded queue (counterexample after reset proved); false for an empty Lamport_Buffer that has wrapped (counterexample), exact when not empty."
  },
  {
   "property": "C07",
   "status": "proved",
   "theorems": [
    "FF.Lamport.C07_prefix",
    "FF.Lamport.C07_capacity",
    "FF.Lamport.C07_push_exact",
    "FF.Lamport.C07_pop_exact",
    "FF.Swsr.C07_lamport_call_by_call"
   ],
   "note": "Access by access with store buffers and WMB, plus call-by-call refinement."
  },
  {
   "property": "C08",
   "status": "proved",
   "theorems": [
    "FF.Uswsr.C08_prefix",
    "FF.Uswsr.C08_push_starts",
    "FF.Uswsr.C08_push_completes",
    "FF.Uswsr.C08_pop_false",
    "FF.Uswsr.Seq.C06_unbounded_length"
   ],
   "note": "Every interleaving (sequentially consistent at this level; pool queues as atomic FIFOs, see C01 and C11)."
  },
  {
   "property": "C09",
   "status": "proved",
   "theorems": [
    "FF.Uswsr.C09_recycled",
    "FF.Uswsr.C09_fresh_for_producer"
   ],
   "note": "Same model as C08; a freed or shared segment is never accessed."
  },
  {
   "property": "C10",
   "status": "proved",
   "theorems": [
    "FF.Uswsr.C10_capacity",
    "FF.Uswsr.C10_push_exact"
   ],
   "note": "Same model as C08 with fixedsize = true."
  },
  {
   "property": "C11",
   "status": "proved",
   "theorems": [
    "FF.Dynqueue.C11_fifo",
    "FF.Dynqueue.C11_pop_exact",
    "FF.Dynqueue.C11_pop_completes",
    "FF.Dynqueue.C11_recycle"
   ],
   "note": "Access by access with PSO store buffers and the WMB of push; node cache as an atomic FIFO; malloc may hand out any free address."
  },
  {
   "property": "C41",
   "status": "proved",
   "theorems": [
    "FF.Pow2.C41_isPowerOf2",
    "FF.Pow2.C41_isPowerOf2Long_partial",
    "FF.Pow2.C41_isPowerOf2Long_counterexample",
    "FF.Pow2.C41_nextPowerOf2",
    "FF.Pow2.C41_nextPowerOf2_diverges",
    "FF.Pow2.C41_nextMultipleOfIf",
    "FF.Pow2.C41_nextMultipleOfIf_wraps",
    "FF.Pow2.C41_alignment_test"
   ],
   "note": "Proved in the ranges where the result is representable; isPowerOf2 on an unsigned long >= 2^32 is wrong (32-bit parameter), nextPowerOf2 above 2^63 never ends."
  },
  {
   "property": "C12",
   "status": "proved",
   "theorems": [
    "FF.Mpmc.C12_order",
    "FF.Mpmc.C12_once",
    "FF.Mpmc.C12_popped_accepted",
    "FF.Mpmc.C12_capacity",
    "FF.Mpmc.C12_positions_monotone",
    "FF.Mpmc.C12_no_race",
    "FF.Mpmc.C12_push_exact",
    "FF.Mpmc.C12_pop_exact",
    "FF.Mpmc.initSize_spec"
   ],
   "note": "Any number of threads; plain loads may return any stale value, exchanges act on the newest; counters do not wrap (2^64 operations); sizes below 2^32."
  },
  {
   "property": "C13",
   "status": "proved",
   "theorems": [
    "FF.Locks.Tas.C13_mutual_exclusion",
    "FF.Locks.Tas.C13_handover",
    "FF.Locks.Tas.C13_no_entry"
   ],
   "note": "Any number of threads; the release may be delayed in the store buffer."
  },
  {
   "property": "C14",
   "status": "proved",
   "theorems": [
    "FF.Locks.Clh.C14_mutual_exclusion",
    "FF.Locks.Clh.C14_fifo",
    "FF.Locks.Clh.C14_handover",
    "FF.Locks.Clh.C14_acquire_only_counterexample"
   ],
   "note": "Total store order with an exchange that is a full barrier (x86). With the acquire-only exchange that GCC documents for the builtin, mutual exclusion fails (counterexample proved)."
  },
  {
   "property": "C15",
   "status": "proved",
   "theorems": [
    "FF.Locks.Barrier.C15_separation",
    "FF.Locks.Barrier.C15_all_return",
    "FF.Locks.Barrier.C15_exit_iff"
   ],
   "note": "spinBarrier; any number of threads and rounds. The pthread based Barrier is outside the model."
  },
  {
   "property": "C16",
   "status": "partial",
   "theorems": [
    "FF.Svector.C16_sequence_partial",
    "FF.Svector.C16_copy",
    "FF.Svector.C16_insert_partial",
    "FF.Svector.C16_insert_counterexample",
    "FF.Svector.C16_self_push_counterexample",
    "FF.Svector.C16_moved_from_counterexample"
   ],
   "note": "All operations except insert before the end, for every chunk and history. insert before the end is out of bounds on a full vector and uses stale iterators with one free cell (counterexamples); proved correct with two free cells. Destructors of T are not modelled."
  },
  {
   "property": "C17",
   "status": "partial",
   "theorems": [
    "FF.Squeue.C17_sequence_partial",
    "FF.Squeue.C17_drain_counterexample",
    "FF.Squeue.C17_at_counterexample"
   ],
   "note": "False of the code: draining from the front exactly at a chunk boundary breaks front() (proved for every chunk size). Proved for every history that avoids exactly that situation."
  },
  {
   "property": "C18",
   "status": "partial",
   "theorems": [
    "FF.Iclhash.C18_finite_map",
    "FF.Iclhash.C18_nentries_partial",
    "FF.Iclhash.C18_nentries_counterexample"
   ],
   "note": "Finite map for every history; the entry counter is wrong after a delete or a replacing update (counterexample), right for insert-only histories."
  },
  {
   "property": "C48",
   "status": "proved",
   "theorems": [
    "FF.Slist.C48_prefix",
    "FF.Slist.C48_capacity",
    "FF.Slist.C48_cell_free",
    "FF.Slist.C48_push_exact",
    "FF.Slist.C48_pop_exact",
    "FF.Slist.C48_publication"
   ],
   "note": "Concurrent, access by access with store buffers; default configuration, cachesize at least 2, capacity cachesize-1."
  },
  {
   "property": "C19",
   "status": "proved",
   "theorems": [
    "FF.Node.C19_in_order",
    "FF.Node.C19_end_of_input",
    "FF.Node.C19_end_by_svc",
    "FF.Node.C19_after_end",
    "FF.Node.C19_one_eos",
    "FF.Node.C19_mixed_marks_counterexample"
   ],
   "note": "Arbitrary stateful svc/eosnotify, any number of expected marks (at least 1), any input. Observation: with mixed marks the last one decides whether EOS is forwarded."
  },
  {
   "property": "C20",
   "status": "proved",
   "theorems": [
    "FF.Node.C20_prefix",
    "FF.Node.C20_complete",
    "FF.Node.C20_bounded"
   ],
   "note": "Any number of stages, any capacities >= 1, every schedule of pops and pushes; channels are atomic bounded FIFO queues (C01, C08, C10)."
  },
  {
   "property": "C47",
   "status": "partial",
   "theorems": [
    "FF.Node.C47_comb_partial",
    "FF.Node.C47_nested_partial",
    "FF.Node.C47_exact_partial",
    "FF.Node.C47_second_eos_counterexample",
    "FF.Node.C47_null_counterexample"
   ],
   "note": "Equal to the pipeline up to the end mark for every nesting of well-behaved nodes, and exactly equal if only the first node ends the stream. Not true past the end mark if the second node returns EOS, nor if the first ends with NULL or EOSW (counterexamples)."
  },
  {
   "property": "C21",
   "status": "partial",
   "theorems": [
    "FF.Farm.C21_exactly_once",
    "FF.Farm.C21_collector_sees_all",
    "FF.Farm.C21_progress_or_refused",
    "FF.Farm.C21_completes_partial",
    "FF.Farm.C21_map",
    "FF.Farm.C21_early_end_counterexample"
   ],
   "note": "Any number of workers, capacities >= 1, any mix of scheduled, addressed and broadcast tasks, every schedule: exactly once, per-worker order, all results at the collector, no deadlock (the final state is reachable from every reachable state). Requires workers that do not end the stream by themselves; a worker that does can block the emitter for ever (counterexample). Without feedback."
  },
  {
   "property": "C22",
   "status": "proved",
   "theorems": [
    "FF.Farm.C22_round_robin",
    "FF.Farm.C22_fair"
   ],
   "note": "Round-robin scheduler of the default load balancer, any number of workers, any refusals."
  },
  {
   "property": "C25",
   "status": "proved",
   "theorems": [
    "FF.Farm.C25_groups",
    "FF.Farm.C25_broadcast",
    "FF.Farm.C25_completes"
   ],
   "note": "broadcast_task of the load balancer (default and multi-output nodes), any number of workers, any pattern of refusals."
  },
  {
   "property": "C26",
   "status": "partial",
   "theorems": [
    "FF.Farm.C26_no_loss",
    "FF.Farm.C26_ends_iff_partial",
    "FF.Farm.C26_all_received_partial",
    "FF.Farm.C26_one_eos_partial",
    "FF.Farm.C26_mixed_marks_counterexample",
    "FF.Farm.C26_eosw_last_counterexample",
    "FF.Farm.C26_null_counterexample"
   ],
   "note": "Any number of channels, any arrival order, any filter that does not end the stream by itself. False if EOS and EOS_NOFREEZE marks are mixed (never ends), and the final EOS is not sent if the last mark is EOSW (counterexamples)."
  },
  {
   "property": "C27",
   "status": "proved",
   "theorems": [
    "FF.Farm.C27_no_loss",
    "FF.Farm.C27_ends_iff",
    "FF.Farm.C27_all_received",
    "FF.Farm.C27_progress_or_refused",
    "FF.Farm.C27_completes"
   ],
   "note": "Any numbers of left and right nodes, any capacities >= 1, any commands, every schedule; no feedback."
  },
  {
   "property": "C23",
   "status": "partial",
   "theorems": [
    "FF.Farm.C23_order_partial",
    "FF.Farm.C23_progress_or_refused",
    "FF.Farm.C23_completes_partial",
    "FF.Farm.C23_map_partial",
    "FF.Farm.C23_send_to_counterexample",
    "FF.Farm.C23_rerun_counterexample",
    "FF.Farm.C23_dropped_task_counterexample"
   ],
   "note": "First run (or after thaw of all workers), any number of workers, any capacities >= 1, scheduled and broadcast tasks, every schedule: results in input order, run completes. False on a second run without freezing (turns are not reset) and with ff_send_out_to (counterexamples)."
  },
  {
   "property": "C24",
   "status": "partial",
   "theorems": [
    "FF.Odfarm.C24_order_partial",
    "FF.Odfarm.C24_no_overrun_partial",
    "FF.Odfarm.C24_bounded_partial",
    "FF.Odfarm.C24_all_delivered_partial",
    "FF.Odfarm.C24_progress",
    "FF.Odfarm.C24_bounded_work",
    "FF.Odfarm.C24_completes_partial",
    "FF.Odfarm.C24_overrun_counterexample",
    "FF.Odfarm.C24_memory_counterexample",
    "FF.Odfarm.C24_broadcast_counterexample"
   ],
   "note": "Order, completion and the memory bound are proved for every schedule in which no ring cell is reused too early; that is proved to hold while no error is reported, for output queues of at most ondemand+1 entries. The full claim is false: output queues are not bounded by the farm, a slow task makes the collector buffer more than reserved (an error is only printed), and broadcast blocks the buffer; counterexamples are proved."
  },
  {
   "property": "C28",
   "status": "partial",
   "theorems": [
    "FF.Freeze.C28_frozen",
    "FF.Freeze.C28_no_lost_wakeup",
    "FF.Freeze.C28_rounds_partial",
    "FF.Freeze.C28_progress",
    "FF.Freeze.C28_work",
    "FF.Freeze.C28_completes_partial",
    "FF.Freeze.C28_thaw_wait_counterexample",
    "FF.Freeze.C28_nofreeze_counterexample"
   ],
   "note": "wait_freezing returns only when frozen or gone, and no thread sleeps with its wake-up lost: every controller program, every schedule, spurious wake-ups included. One service loop per thaw and completion: for the documented protocol with any number of thaws. Without wait_freezing between the last thaw and wait the thawed round may be skipped (counterexample)."
  },
  {
   "property": "C29",
   "status": "partial",
   "theorems": [
    "FF.Parfor.C29_exactly_once_partial",
    "FF.Parfor.C29_accepted",
    "FF.Parfor.C29_no_scheduler",
    "FF.Parfor.C29_scheduler",
    "FF.Parfor.C29_empty_range_counterexample"
   ],
   "note": "Any range that is not empty, any step >= 1, any grain, any number of workers, after any sequence of loops on the same object, every schedule, with and without the scheduler thread, blocking and spinning workers: exactly once, bounded number of steps, no deadlock. An empty range makes an assertion of the library fail (counterexample). Integers unbounded."
  },
  {
   "property": "C30",
   "status": "proved",
   "theorems": [
    "FF.Parfor.C30_blocks",
    "FF.Parfor.C30_exactly_once",
    "FF.Parfor.C30_owner",
    "FF.Parfor.C30_accepted",
    "FF.Parfor.C30_completes",
    "FF.Parfor.C30_ends"
   ],
   "note": "Any range (empty ones included), any step >= 1, any number of workers, every schedule: the workers execute consecutive blocks, in order; each index exactly once. C30_owner gives the block of each worker, which depends on nothing but the number of indices and of workers. C30_ends: every loop completes."
  },
  {
   "property": "C31",
   "status": "partial",
   "theorems": [
    "FF.Parfor.C31_exactly_once_partial",
    "FF.Parfor.C31_step_counterexample",
    "FF.Parfor.C31_negative_counterexample"
   ],
   "note": "Proved for step 1 and ranges that start at 0 or above, and for one worker with any step. False otherwise: with step 2 indices are executed twice or never, with a negative start the end of the range is lost (counterexamples)."
  },
  {
   "property": "C32",
   "status": "partial",
   "theorems": [
    "FF.Parfor.C32_reduce_dynamic",
    "FF.Parfor.C32_reduce_static",
    "FF.Parfor.C32_reduce_static_grain_partial",
    "FF.Parfor.C32_dynamic_order_counterexample"
   ],
   "note": "Dynamic scheduling with a commutative monoid, default static scheduling with a monoid, every schedule. With static scheduling and a grain only where C31 holds."
  },
  {
   "property": "C33",
   "status": "partial",
   "theorems": [
    "FF.Mdf.C33_order_partial",
    "FF.Mdf.C33_once_partial",
    "FF.Mdf.C33_tag_zero_counterexample"
   ],
   "note": "All programs, numbers of workers and schedules; tags must not be 0 and a task must not use a parameter again after it gave it as OUTPUT. Tag 0 is not tracked (counterexample)."
  },
  {
   "property": "C34",
   "status": "partial",
   "theorems": [
    "FF.Mdf.C34_sequential_partial",
    "FF.Mdf.C34_task_view_partial"
   ],
   "note": "Same two conditions on the parameters as C33; tasks change only OUTPUT parameters and depend only on INPUT and OUTPUT parameters."
  },
  {
   "property": "C35",
   "status": "partial",
   "theorems": [
    "FF.Mdf.C35_some_task_partial",
    "FF.Mdf.C35_never_stuck_partial",
    "FF.Mdf.C35_end_partial",
    "FF.Mdf.C35_bounded_partial",
    "FF.Mdf.C35_completes_partial",
    "FF.Mdf.C35_self_dependency_counterexample"
   ],
   "note": "Same two conditions as C33. A task that gives a parameter first as OUTPUT and then as INPUT waits for itself and the run hangs (counterexample)."
  },
  {
   "property": "C49",
   "status": "partial",
   "theorems": [
    "FF.Mdf.Ring.C49_mdf_descriptor",
    "FF.Mdf.Ring.C49_taskf_descriptor_partial",
    "FF.Mdf.Ring.C49_taskf_counterexample"
   ],
   "note": "Proved for ff_mdf. For ff_taskf the ring is reused while a long task is executed (counterexample for every ring size); it holds if task k is submitted after task k-N has ended."
  },
  {
   "property": "C36",
   "status": "proved",
   "theorems": [
    "FF.Alloc.Static.C36_no_overlap",
    "FF.Alloc.Static.C36_inside",
    "FF.Alloc.Static.C36_content",
    "FF.Alloc.Static.C36_alloc_returns"
   ],
   "note": "Any number of slots and channels, one allocating thread per channel, any thread deallocates, byte addressed memory with arbitrary user writes inside the blocks."
  },
  {
   "property": "C37",
   "status": "proved",
   "theorems": [
    "FF.Alloc.C37_smallest_class",
    "FF.Alloc.C37_path",
    "FF.Alloc.C37_zero_counterexample"
   ],
   "note": "Every size from 1. A request of 0 bytes indexes the array of caches with -1 (counterexample); classes switched off by the user go to the system."
  },
  {
   "property": "C38",
   "status": "partial",
   "theorems": [
    "FF.Alloc.C38_alignments",
    "FF.Alloc.Slab.C38_aligned_partial",
    "FF.Alloc.Slab.C38_system_aligned",
    "FF.Alloc.Slab.C38_free_exact_partial",
    "FF.Alloc.Slab.C38_system_counterexample",
    "FF.Alloc.Slab.C38_zero_counterexample"
   ],
   "note": "Every alignment, size, address and history: aligned and inside the block; free finds exactly the block, if the size is not 0, the request is served by a slab and the last word of a block does not equal the address of its segment. On the system path free always fails (general counterexample), size 0 breaks the next block (counterexample)."
  },
  {
   "property": "C39",
   "status": "partial",
   "theorems": [
    "FF.Alloc.Slab.C39_disjoint_partial",
    "FF.Alloc.Slab.C39_held_partial",
    "FF.Alloc.Slab.C39_once_partial",
    "FF.Alloc.Slab.C39_new_partial",
    "FF.Alloc.Slab.C39_content_partial",
    "FF.Alloc.Slab.C39_free_returns_partial",
    "FF.Alloc.Slab.C39_free_big",
    "FF.Alloc.Slab.C39_reuse_partial",
    "FF.Alloc.Slab.C39_fresh_partial",
    "FF.Alloc.Slab.C39_userdata_counterexample"
   ],
   "note": "Any number of threads, segments and classes, every interleaving, byte addressed memory; same conditions as C38. User data that equals the address of the segment breaks it (counterexample). Not modelled: delayedReclaim, realloc, FFAllocator."
  },
  {
   "property": "C40",
   "status": "partial",
   "theorems": [
    "FF.Mapper.C40_core_member",
    "FF.Mapper.C40_core_first",
    "FF.Mapper.C40_core_cyclic_partial",
    "FF.Mapper.C40_round_robin",
    "FF.Mapper.C40_new_partial",
    "FF.Mapper.C40_set_vector",
    "FF.Mapper.C40_set_string",
    "FF.Mapper.C40_set_string_any",
    "FF.Mapper.C40_history_partial",
    "FF.Mapper.C40_cyclic_counterexample",
    "FF.Mapper.C40_new_counterexample",
    "FF.Mapper.C40_longer_counterexample",
    "FF.Mapper.C40_cut_counterexample",
    "FF.Mapper.C40_trailing_counterexample"
   ],
   "note": "Every list, string, thread number and history of calls: an element of the list, the first threads get list[i], round-robin over the padded list. Cyclic over the list itself only when its length is a power of two (counterexample); longer lists are refused, more than 512 cores make the constructor read freed memory (counterexamples)."
  },
  {
   "property": "C46",
   "status": "partial",
   "theorems": [
    "FF.Net.Io.C46_readn",
    "FF.Net.Io.C46_readn_complete",
    "FF.Net.Io.C46_writen",
    "FF.Net.Io.C46_writen_complete",
    "FF.Net.Io.C46_readvn",
    "FF.Net.Io.C46_readvn_complete",
    "FF.Net.Io.C46_writevn",
    "FF.Net.Io.C46_writevn_complete",
    "FF.Net.Io.C46_round_trip",
    "FF.Net.Io.C46_readvn_empty_counterexample",
    "FF.Net.Io.C46_readvn_interrupted_counterexample",
    "FF.Net.Io.C46_writevn_spins_counterexample"
   ],
   "note": "Every splitting of the transfer by the kernel, byte addressed memory. readn and writen hold as documented. readvn reports a closed connection for empty buffers and loses the count of a partial transfer on an error; writevn repeats the call for ever while the kernel answers 0 (counterexamples)."
  },
  {
   "property": "C50",
   "status": "partial",
   "theorems": [
    "FF.Stencil.C50_location_partial",
    "FF.Stencil.C50_location_counterexample",
    "FF.Stencil.C50_sweep_partial",
    "FF.Stencil.C50_parallel_partial",
    "FF.Stencil.C50_run_partial",
    "FF.Stencil.C50_overwrite_counterexample",
    "FF.Stencil.C50_outside_counterexample"
   ],
   "note": "Square matrices and matrices of one row: every cell has its own location, and a run computes what the sequential program on matrices computes, for every user function, window, number of rounds and order of execution. For every other size two cells share a location or a cell is outside the buffer (proved for all such sizes)."
  },
  {
   "property": "C51",
   "status": "partial",
   "theorems": [
    "FF.Selector.C51_svc_partial",
    "FF.Selector.C51_passive_partial",
    "FF.Selector.C51_index",
    "FF.Selector.C51_safe_partial",
    "FF.Selector.C51_run_partial",
    "FF.Selector.C51_run_fails",
    "FF.Selector.C51_unknown_counterexample",
    "FF.Selector.C51_init_counterexample"
   ],
   "note": "Every history of calls in which the selected index has been added. An unknown index is neither refused nor ignored: the next task reads outside the vector (counterexample)."
  },
  {
   "property": "C42",
   "status": "partial",
   "theorems": [
    "FF.Net.C42_batch",
    "FF.Net.C42_single_partial",
    "FF.Net.C42_direct",
    "FF.Net.C42_direct_big",
    "FF.Net.C42_single_counterexample",
    "FF.Net.C42_empty_counterexample",
    "FF.Net.C42_identifier_counterexample"
   ],
   "note": "Every batch and payload with 16 bit identifiers, byte by byte. A message above the threshold for separate sends that is alone in a batch is decoded as if its payload were the next frame; a message without payload arrives as an end of stream (counterexamples)."
  },
  {
   "property": "C43",
   "status": "partial",
   "theorems": [
    "FF.Net.Sender.C43_in_bounds",
    "FF.Net.Sender.C43_wire_partial",
    "FF.Net.Sender.C43_flush_partial",
    "FF.Net.Sender.C43_end_to_end_partial",
    "FF.Net.Sender.C43_overwrite_counterexample"
   ],
   "note": "Every number of connections, limits and schedules, with the shared pool of buffers and a transport that reads them later. In bounds always. Content: a message at the byte limit or above given to a connection that batches needs a transport that copies at once (counterexample: the flushed batch is overwritten)."
  },
  {
   "property": "C44",
   "status": "partial",
   "theorems": [
    "FF.Net.Receiver.C44_fits_partial",
    "FF.Net.Receiver.handsOff_batch",
    "FF.Net.Receiver.C44_counterexample"
   ],
   "note": "Proved when no frame has a single message or all frames have the same size, for every schedule and any number of connections. False otherwise: three single messages, the second smallest, the first not smaller than the third (general counterexample)."
  },
  {
   "property": "C45",
   "status": "proved",
   "theorems": [
    "FF.Net.Sender.C45_window",
    "FF.Net.Sender.C45_send",
    "FF.Net.Sender.C45_unblocks"
   ],
   "note": "Every interleaving of sender, transport, receivers and acknowledgements, any number of connections. Also: a sender that waits for a credit can always be let go on."
  },
  {
   "property": "C52",
   "status": "partial",
   "theorems": [
    "FF.Net.Receiver.C52_order_partial",
    "FF.Net.Receiver.C52_stolen_counterexample"
   ],
   "note": "Any number of connections and every schedule, without messages above the threshold for separate sends. With one, the second slot can take its payload (counterexample)."
  },
  {
   "property": "C53",
   "status": "partial",
   "theorems": [
    "FF.Net.Receiver.C53_delivery_partial"
   ],
   "note": "Every schedule of sender, transport and receiver; messages up to the threshold for separate sends, and the condition of C43 on the byte limit."
  },
  {
   "property": "C54",
   "status": "partial",
   "theorems": [
    "FF.Net.Route.C54_route_partial",
    "FF.Net.Route.C54_fullest",
    "FF.Net.Route.C54_round_robin",
    "FF.Net.Route.C54_no_credit_counterexample"
   ],
   "note": "Every table, state and message when the possible connections have credit. Without credit the message is sent on whichever connection acknowledges first, even one that does not reach a destination (counterexample)."
  },
  {
   "property": "C55",
   "status": "proved",
   "theorems": [
    "FF.Blocking.C55_order",
    "FF.Blocking.C55_consumer",
    "FF.Blocking.C55_producer",
    "FF.Blocking.C55_delivers",
    "FF.Blocking.C55_lost_wakeup_counterexample"
   ],
   "note": "Every stream, capacity from 1 and interleaving. The time limit is necessary: without it the channel can stop for ever with both sides waiting (counterexample)."
  },
  {
   "property": "C56",
   "status": "partial",
   "theorems": [
    "FF.Dc.C56_result_partial",
    "FF.Dc.C56_safe_partial",
    "FF.Dc.C56_progress_partial",
    "FF.Dc.C56_bounded_partial",
    "FF.Dc.C56_complete_partial",
    "FF.Dc.C56_run_example",
    "FF.Dc.C56_empty_divide_counterexample"
   ],
   "note": "Every operand on which the recursion ends, user functions, number of workers and channel capacity from 1, schedule and addresses: right result, no stuck state, at most 8 actions per call of the recursion, memory safe and freed. Partial: an operand below the first level that is not a base case and is divided into no parts reads outside a vector (counterexample), so the recursion must not contain one; the creation and join of the threads is C27 and not repeated here."
  },
  {
   "property": "C57",
   "status": "partial",
   "theorems": [
    "FF.Farm.C57_exactly_once",
    "FF.Farm.C57_channel_partial",
    "FF.Farm.C57_progress_or_refused",
    "FF.Farm.C57_completes_partial",
    "FF.Farm.C57_quiet",
    "FF.Farm.C57_absorb_partial",
    "FF.Farm.C57_map",
    "FF.Farm.C57_leaves",
    "FF.Farm.C57_clean",
    "FF.Farm.C57_channel_counterexample",
    "FF.Farm.C57_lost_counterexample",
    "FF.Farm.C57_absorb_counterexample",
    "FF.Farm.C57_rerun_counterexample"
   ],
   "note": "Every emitter, worker, number of workers, capacity, input and schedule: exactly once, in order per worker; the usual master that counts its results receives a permutation of the results and the farm ends. Channels are right only until the first end mark of a worker comes back (counterexample); results the emitter does not wait for are lost, or make the assertion of absorb_eos fail in a farm that freezes (counterexamples); a second run without reset takes the old end mark for a new one (counterexample). Not modelled: feedback with a collector, multi-input, a manager channel, blocking mode."
  },
  {
   "property": "C58",
   "status": "partial",
   "theorems": [
    "FF.Node.C58_prefix",
    "FF.Node.C58_rounds",
    "FF.Node.C58_no_deadlock",
    "FF.Node.C58_bounded",
    "FF.Node.C58_map",
    "FF.Node.C58_early_end_counterexample",
    "FF.Node.C58_eosw_counterexample"
   ],
   "note": "Every number of stages and rounds, capacity from 1 and interleaving, with stages that never end the stream by themselves. A stage that returns FF_EOS leaves the rest of its round to the next one, and a round ended with FF_EOSW never ends for load_result (counterexamples). The retry limit of offload/load_result is not modelled (load_result returns false both at the end and after too many retries)."
  },
  {
   "property": "C59",
   "status": "partial",
   "theorems": [
    "FF.Msq.C59_linearizable_partial",
    "FF.Msq.C59_safe_partial",
    "FF.Msq.C59_lock_free_partial",
    "FF.Msq.C59_never_stuck",
    "FF.Msq.C59_returns_partial",
    "FF.Msq.C59_no_reuse",
    "FF.Msq.C59_spsc",
    "FF.Msq.C59_aba_counterexample"
   ],
   "note": "Every number of threads, calls and interleaving (sequentially consistent accesses): linearizable, safe, at most 28*threads+42 steps per call. Partial because a node must not be reused while a thread holds it. No assumption is needed if memory is not reused, or with one producer and one consumer. The allocator of the queue only counts frees, and then an element can be returned twice (counterexample with three threads)."
  },
  {
   "property": "C60",
   "status": "partial",
   "theorems": [
    "FF.Opt.C60_refines_partial",
    "FF.Opt.C60_farm_refines_partial",
    "FF.Opt.C60_stateless_partial",
    "FF.Opt.C60_farm_stateless_partial",
    "FF.Opt.C60_order_partial",
    "FF.Opt.C60_level1_returns",
    "FF.Opt.C60_level1_farm_returns",
    "FF.Opt.C60_level1_equivalent",
    "FF.Opt.C60_level1_farm_equivalent",
    "FF.Opt.C60_level1_accepted_partial",
    "FF.Opt.C60_level1_ordered_nocollector",
    "FF.Opt.C60_level1_wrapper",
    "FF.Opt.C60_merge_multioutput",
    "FF.Opt.C60_a2a_never_returns_counterexample",
    "FF.Opt.C60_a2a_stateful_counterexample",
    "FF.Opt.C60_merge_node_between_counterexample",
    "FF.Opt.C60_merge_pipeline_workers_counterexample",
    "FF.Opt.C60_merge_ordered_counterexample",
    "FF.Opt.C60_merge_scheduling_counterexample",
    "FF.Opt.C60_merge_emitter_null_counterexample",
    "FF.Opt.C60_merge_emitter_abort_counterexample",
    "FF.Opt.C60_level1_multioutput_counterexample",
    "FF.Opt.C60_level1_nested_counterexample",
    "FF.Opt.C60_level1_accelerator_counterexample",
    "FF.Opt.C60_level1_eosnotify_counterexample",
    "FF.Opt.C60_level1_eosnotify_mi_counterexample"
   ],
   "note": "Every network, node with state, input and schedule. All options but introduce_a2a: the result refines the original. All options, stateless nodes: same results. OptLevel1 always returns and keeps exactly the behaviours (if ordered farms have collectors). Partial because the other options can loop, abort or be undefined, introduce_a2a is not a refinement with state, and the optimised network can be refused by prepare, lose the result queue of an accelerator or call eosnotify more often (counterexamples). Feedback channels and what nodes send from eosnotify are not in the model."
  },
  {
   "property": "C61",
   "status": "partial",
   "theorems": [
    "FF.Umpmc.C61_exclusive",
    "FF.Umpmc.C61_order",
    "FF.Umpmc.C61_once",
    "FF.Umpmc.C61_positions_monotone",
    "FF.Umpmc.C61_push_completes",
    "FF.Umpmc.C61_pop_completes",
    "FF.Umpmc.C61_false",
    "FF.Umpmc.C61_conserved",
    "FF.Umpmc.C61_push_blocks_counterexample",
    "FF.Umpmc.C61_linearizable_counterexample"
   ],
   "note": "Every number of threads, inner queues and interleaving (sequentially consistent accesses, counters without overflow). Partial: the documented non-blocking push is false, a thread stopped inside push stops all others after n further positions (proved for all n), and pop can return false although an earlier push has returned (counterexample)."
  },
  {
   "property": "C62",
   "status": "partial",
   "theorems": [
    "FF.Pool.C62_no_duplicates",
    "FF.Pool.C62_conserved",
    "FF.Pool.C62_inner_fifo",
    "FF.Pool.C62_wait_free",
    "FF.Pool.C62_sequential_fifo",
    "FF.Pool.C62_sequential_total",
    "FF.Pool.C62_drain",
    "FF.Pool.C62_phased_pop",
    "FF.Pool.C62_phased_false",
    "FF.Pool.C62_stuck_counterexample",
    "FF.Pool.C62_order_counterexample",
    "FF.Pool.C62_false_counterexample"
   ],
   "note": "Every number of threads, inner queues and interleaving, inner operations atomic (C08, C14, C59). Partial: in the FIFO pool a pop can overtake a push, after which a stored element is not returned by any number of pops until another push, and later elements overtake it (counterexamples for every n); in the relaxed pools a lone pop can return false although something is stored. Without pushes that overlap pops the FIFO pool is exact."
  },
  {
   "property": "C63",
   "status": "partial",
   "theorems": [
    "FF.Node.C63_suffix_partial",
    "FF.Node.C63_bounded",
    "FF.Node.C63_hangs_counterexample",
    "FF.Node.C63_full_counterexample",
    "FF.Node.C63_silent_counterexample",
    "FF.Farm.C63_worker_counterexample",
    "FF.Farm.C63_emitter_counterexample"
   ],
   "note": "Mostly false, proved for every pipeline or farm, capacity, input and schedule: if a stage fails and the next one does not, run_and_wait_end never returns; the same for a farm whose emitter or one worker fails; when it does return it returns 0. What holds: if only the last stages of a pipeline fail and the channel in front of them has room, all threads end."
  },
  {
   "property": "C64",
   "status": "partial",
   "theorems": [
    "FF.Dist.C64_consumers",
    "FF.Dist.C64_feeders",
    "FF.Dist.C64_emitter_feeders",
    "FF.Dist.C64_converse_partial",
    "FF.Dist.C64_groups_partial",
    "FF.Dist.C64_shared_partial",
    "FF.Dist.C64_wrap_counterexample",
    "FF.Dist.C64_multi_counterexample",
    "FF.Dist.C64_comb_left_counterexample",
    "FF.Dist.C64_comb_right_counterexample",
    "FF.Dist.C64_a2a_counterexample",
    "FF.Dist.C64_mo_counterexample"
   ],
   "note": "Every network and cut with combinations of two nodes, collectors given by the user, and, where a collectorless farm precedes an all-to-all, workers with one output and no wrap-around if the numbers match: both ends compute exactly the channels of the network, and groups connect exactly to the groups that wait for them. Each excluded case is a counterexample (a combination of three nodes loses its feeders or consumers; the feeders forget the wrap-around; workers with several outputs). The channels differ from shared memory between two all-to-alls and for multi-output workers before a multi-input first set (counterexamples). The on-demand size and the abort of getLocality are not modelled."
  },
  {
   "property": "C65",
   "status": "partial",
   "theorems": [
    "FF.Dist.C65_order",
    "FF.Dist.C65_levels_partial",
    "FF.Dist.C65_send_partial",
    "FF.Dist.C65_receive_partial",
    "FF.Dist.C65_mixed_counterexample",
    "FF.Dist.C65_empty_counterexample",
    "FF.Dist.C65_farm_counterexample",
    "FF.Dist.C65_pipe_counterexample",
    "FF.Dist.C65_feedback_counterexample"
   ],
   "note": "Every network: along every channel between parts that do not overlap labels increase. Every group of stages and direct parts of stages of a pipeline, in any order of addresses: levels exist and every local channel leads to the next level. Partial: deeper parts can be mixed up because the comparison is not transitive; an empty group is undefined behaviour; a farm cannot be reached from another level of its group (a send without destination never returns); a message from a pipeline of the same group has no channel; the feedback of an all-to-all behind another level is not found (all counterexamples). The maps are right without farms where messages enter and longer pipelines where they leave."
  },
  {
   "property": "C66",
   "status": "partial",
   "theorems": [
    "FF.Farm.C66_rounds",
    "FF.Farm.C66_loaded",
    "FF.Farm.C66_subset",
    "FF.Farm.C66_completes",
    "FF.Farm.C66_map",
    "FF.Farm.C66_early_end_counterexample",
    "FF.Farm.C66_first_round_counterexample"
   ],
   "note": "Every number of workers and rounds, emitters that end only with their input, steady workers, collectors that filter (all with state), capacities and schedules: each round returns what its own tasks make and nothing else, only the first workers run, every round ends. Partial because the code differs from its documentation: the first run_then_freeze(nw) ignores nw, and if the collector itself ends the stream the rest of its results turns up in the next round (counterexamples)."
  },
  {
   "property": "C67",
   "status": "partial",
   "theorems": [
    "FF.Grp.C67_terminates",
    "FF.Grp.C67_final",
    "FF.Grp.C67_ends",
    "FF.Grp.C67_order",
    "FF.Grp.C67_group_end",
    "FF.Grp.C67_source_counterexample",
    "FF.Grp.C67_early_counterexample",
    "FF.Grp.C67_deadlock_counterexample"
   ],
   "note": "Every acyclic network of sequential nodes (with state, several inputs and outputs, sends with destination, output at the end), every cut into groups of one level with the sources apart, capacities and schedules: no run goes on for ever, a run that cannot go on has ended everywhere, and each node has received all that was meant for it, in order, followed by one end mark from each feeder. Partial: needs sources that do all their work in one call of svc, nodes that do not end early, and, if the queues in front of the nodes of a group are bounded, an order of the groups (each a counterexample). Feedback channels and groups of several levels are not modelled."
  },
  {
   "property": "C68",
   "status": "proved",
   "theorems": [
    "FF.Tlq.C68_linearizable",
    "FF.Tlq.C68_safe",
    "FF.Tlq.C68_memory",
    "FF.Tlq.C68_ends",
    "FF.Tlq.C68_destroy"
   ],
   "note": "Every number of threads, cache size and filling, interleaving of single accesses to memory and choice of addresses: linearizable (the same specification as C59), no access to memory that is not allocated, the exact number of allocated nodes when no call is in progress, at most eleven steps per thread before a new call and no deadlock, and a destructor that frees everything once. The spin locks (C13) and the cache (C01, one producer and one consumer at a time because of the locks) are atomic; malloc does not fail; memory is sequentially consistent. A thread can be overtaken for ever by new calls of other threads, as the spin locks are not fair."
  },
  {
   "property": "C69",
   "status": "partial",
   "theorems": [
    "FF.Ring.C69_prefix",
    "FF.Ring.C69_same_histories",
    "FF.Ring.C69_complete",
    "FF.Ring.C69_one_result",
    "FF.Ring.C69_no_deadlock",
    "FF.Ring.C69_ends",
    "FF.Ring.C69_order",
    "FF.Ring.C69_all_back",
    "FF.Ring.C69_second_run",
    "FF.Ring.C69_second_run_counterexample",
    "FF.Ring.C69_early_end_counterexample",
    "FF.Ring.C69_bounded_feedback_counterexample"
   ],
   "note": "Every number of standard stages with state, capacities and schedules, for one run: histories are those of the least solution of the stages' equations, two runs agree, all complete runs stop in the same situation, no deadlock with the unbounded feedback queue the code creates, termination, order of results. Partial: nothing empties the feedback queue between runs, so from the second run on the first stage reads the old end mark and never gets a result (proved for all such pipelines, with an example); a stage other than the first that ends the stream can leave the first one waiting for ever (counterexample). Multi-input first and multi-output last stages are not modelled."
  },
  {
   "property": "C70",
   "status": "partial",
   "theorems": [
    "FF.Life.C70_safe",
    "FF.Life.C70_released_once",
    "FF.Life.C70_wire",
    "FF.Life.C70_tasks",
    "FF.Life.C70_received",
    "FF.Life.C70_messages",
    "FF.Life.C70_size_partial",
    "FF.Life.C70_size_counterexample",
    "FF.Life.C70_no_hook_counterexample",
    "FF.Life.C70_empty_counterexample"
   ],
   "note": "Every number of nodes, tasks, messages, choice of copied or borrowed bytes and of release functions, and every interleaving of nodes, sender, receiver and program: no use after release, no double release, right means of release, bytes unaltered and sent once, nothing left when nothing is under way. Partial because the code differs: for a message above the threshold for a separate send the release function is told size 0 (counterexample; proved for the others). The program must return at least one byte and name a release function for borrowed bytes (counterexamples otherwise). Queues of messages are modelled as sets."
  },
  {
   "property": "C71",
   "status": "partial",
   "theorems": [
    "FF.SerBuf.C71_bytes_partial",
    "FF.SerBuf.C71_put_write",
    "FF.SerBuf.C71_large_counterexample"
   ],
   "note": "Every sequence of tasks, pieces and memory contents, for tasks of up to 2^31 bytes. Partial because it is false above: proved for every task of 2^31 + 1 bytes written into a new buffer that a byte is stored in front of the buffer."
  },
  {
   "property": "C72",
   "status": "partial",
   "theorems": [
    "FF.Evolution.C72_evolution",
    "FF.Evolution.C72_evolution_completes",
    "FF.Evolution.C72_degree",
    "FF.Evolution.C72_setPar",
    "FF.Evolution.C72_result",
    "FF.Evolution.C72_parallel",
    "FF.Evolution.C72_deterministic",
    "FF.Evolution.C72_complete",
    "FF.Evolution.C72_stream",
    "FF.Evolution.C72_documented_partial",
    "FF.Evolution.C72_documented_counterexample"
   ],
   "note": "Every population, functions, degree, schedule of the parallel loop (the runs of C30) and interleaving of reads and writes of the buffer: the sequential algorithm with P = f(N, P). Partial because the code does not add the filtered individuals to the population as documented, they replace it (counterexample); proved for filters that put the population in front. Loops that s and f run on the object are only represented by the state they leave."
  },
  {
   "property": "C73",
   "status": "partial",
   "theorems": [
    "FF.Own.C73_safe_partial",
    "FF.Own.C73_destroy_partial",
    "FF.Own.C73_kept",
    "FF.Own.C73_kept_emitter",
    "FF.Own.C73_destroyAll_partial",
    "FF.Own.C73_no_leak_partial",
    "FF.Own.C73_copy_partial",
    "FF.Own.C73_change_emitter_partial",
    "FF.Own.C73_change_collector_partial",
    "FF.Own.C73_unique_counterexample",
    "FF.Own.C73_copy_unique_counterexample",
    "FF.Own.C73_flatten_counterexample",
    "FF.Own.C73_change_emitter_counterexample",
    "FF.Own.C73_change_node_emitter_counterexample",
    "FF.Own.C73_change_node_worker_counterexample",
    "FF.Own.C73_change_node_cleanup_counterexample",
    "FF.Own.C73_collector_counterexample",
    "FF.Own.C73_copy_collector_counterexample",
    "FF.Own.C73_emitter_copy_counterexample",
    "FF.Own.C73_firststage_counterexample",
    "FF.Own.C73_laststage_counterexample"
   ],
   "note": "All programs of 41 kinds of calls, any nesting: no double deletion, a destroyed object deletes exactly what was handed over to it (transitively), once, and destroying the user's objects in any order leaves nothing. Partial: the rules of Own/Spec.lean exclude the calls after which the code deletes twice, too early or never, each shown by a counterexample; copies of nested combines, more than one level of nesting in flatten, and combine_with_* on ends that are parallel blocks are not modelled."
  },
  {
   "property": "C74",
   "status": "partial",
   "theorems": [
    "FF.Opt.C74_emitter",
    "FF.Opt.C74_emitter_mo_partial",
    "FF.Opt.C74_collector",
    "FF.Opt.C74_collector_refused",
    "FF.Opt.C74_last_one",
    "FF.Opt.C74_first_one",
    "FF.Opt.C74_last_partial",
    "FF.Opt.C74_first_partial",
    "FF.Opt.C74_refused",
    "FF.Opt.C74_default_collector_counterexample",
    "FF.Opt.C74_first_abort_counterexample",
    "FF.Opt.C74_state_counterexample",
    "FF.Opt.C74_two_items_counterexample",
    "FF.Opt.C74_lost_error_counterexample",
    "FF.Opt.C74_emitter_mo_counterexample"
   ],
   "note": "All networks of any depth, all inputs and outputs, equality in both directions: for every node if the end is one sequential node, emitter or user's collector; for maps and filters if the node is copied over workers, sets and their pipelines; a call that returns -1 changes nothing. Partial because the code differs from its documentation: with copies, a node with state numbers items twice and a node that sends two items for one has them interleaved; pipelines that end with a farm with the default collector are refused; errors on workers other than the first are lost; a composition before a farm aborts; a multi-output node becomes an emitter that names workers (counterexamples)."
  },
  {
   "property": "C75",
   "status": "partial",
   "theorems": [
    "FF.Opt.C75_nodes_partial",
    "FF.Opt.C75_nodes_names_partial",
    "FF.Opt.C75_nodes_returns",
    "FF.Opt.C75_nodes_a2a_refused",
    "FF.Opt.C75_merge_partial",
    "FF.Opt.C75_merge_both",
    "FF.Opt.C75_merge_first",
    "FF.Opt.C75_ordered_second",
    "FF.Opt.C75_ordered_refused",
    "FF.Opt.C75_stateless_partial",
    "FF.Opt.C75_a2a_stateless",
    "FF.Opt.C75_returns",
    "FF.Opt.C75_node2_dropped_counterexample",
    "FF.Opt.C75_nf_drops_counterexample",
    "FF.Opt.C75_nf_ordered_counterexample",
    "FF.Opt.C75_nodes_farms_counterexample",
    "FF.Opt.C75_nodes_pipeline_dropped_counterexample",
    "FF.Opt.C75_node1_comp_counterexample",
    "FF.Opt.C75_first_set_counterexample"
   ],
   "note": "All blocks, workers, nodes, inputs and outputs. combine_nodes_in_pipeline: equality of the possible outputs, and when it returns a pipeline. combine_farms: with mergeCE and node1 given (or farms of the same size) the result does nothing new, equality for two nodes; without it, for nodes without state, both outputs are permutations of the same sequential loop; the result has a run for every input. Partial because the code differs from its documentation: node2 alone with mergeCE is forgotten; combine_farms_nf forgets the collector and the emitter between the farms, and its ordered result cannot run; a farm with a collector before a farm reads a null pointer or aborts; a pipeline given with a farm is forgotten; node2 is put in the first set instead of the second (counterexamples). combine_ofarm_farm is a parameter (C76)."
  },
  {
   "property": "C76",
   "status": "partial",
   "theorems": [
    "FF.Cofarm.C76_order_partial",
    "FF.Cofarm.C76_all_delivered_partial",
    "FF.Cofarm.C76_no_overrun_partial",
    "FF.Cofarm.C76_progress_partial",
    "FF.Cofarm.C76_work_partial",
    "FF.Cofarm.C76_completes_partial",
    "FF.Cofarm.C76_second_run_counterexample",
    "FF.Cofarm.C76_overrun_counterexample",
    "FF.Cofarm.C76_go_on_counterexample",
    "FF.Opt.C76_network_partial",
    "FF.Opt.C76_network_refines_partial",
    "FF.Opt.C76_combine_farms_partial",
    "FF.Opt.C76_accepts",
    "FF.Opt.C76_refused",
    "FF.Opt.C76_abort_counterexample"
   ],
   "note": "Every number of workers, schedule, capacity and input: as long as no cell of the ring is reused too early, the second farm gets the results in order, each once, all of them at the end, without deadlock; the network is equal to the two farms in a pipeline, exactly the supported farms are accepted. Partial because the code differs: for every ring size there is a run after which the second farm never gets anything (a slow first task; the ring is enough only with bounded output queues and until an error is printed); in a second run nothing is ever delivered, whatever the first run was; filtered tasks are passed on as GO_ON; a standard last node before the second farm aborts (counterexamples). The network level represents the first farm and the reordering node as an ordered farm."
  },
  {
   "property": "C77",
   "status": "partial",
   "theorems": [
    "FF.Msgq.C77_fifo",
    "FF.Msgq.C77_empty",
    "FF.Msgq.C77_consumer_free",
    "FF.Msgq.C77_receives",
    "FF.Msgq.C77_head",
    "FF.Msgq.C77_message",
    "FF.Msgq.C77_room",
    "FF.Msgq.C77_memory",
    "FF.Msgq.C77_assert",
    "FF.Msgq.C77_prepare_once",
    "FF.Msgq.C77_producer_free",
    "FF.Msgq.C77_prepare_counterexample"
   ],
   "note": "Every bucket size of at least 8 bytes, maximum, sequence of sizes and interleaving of single loads and stores (sequentially consistent memory): order, once, unchanged; empty only if all was read; all accesses inside allocated buckets, none reused or freed under the consumer; nothing leaked; neither side waits; at most one new bucket per message if the rounded size fits. Partial because enqueue_prepare never returns for a size that is not a multiple of 8 and, rounded up and with two words, larger than a bucket (proved for every such size, state and schedule)."
  },
  {
   "property": "C78",
   "status": "partial",
   "theorems": [
    "FF.Gs.C78_returns",
    "FF.Gs.C78_result",
    "FF.Gs.C78_count",
    "FF.Gs.C78_once_partial",
    "FF.Gs.C78_clean",
    "FF.Gs.C78_none",
    "FF.Gs.C78_once_counterexample",
    "FF.Gs.C78_one_sound",
    "FF.Gs.C78_one_counterexample",
    "FF.Gs.C78_one_mark_counterexample",
    "FF.Gs.C78_one_complete",
    "FF.Gs.C78_one_absent"
   ],
   "note": "Search for all nodes: every graph with finitely many identifiers, different for different reachable nodes, every comparison, number of workers, capacity and schedule, on the master-worker model of C57: the end stays reachable from every state, and there the result is exactly the set of reachable nodes asked for, with exact multiplicities, and nothing is left in the queues. Partial because the code differs: a node that occurs several times among the start and its output nodes is found as many times (counterexample for every graph with an edge from the start to itself); the search for one node is sound whatever is read from the flag, but for every graph in which the start and its output nodes are all equal to the node, and fewer than the workers, it does not return in any schedule (counterexample). A search for one node that ends without having found anything means that no reachable node is equal to it, and if there is none the search returns. If the emitter ends the stream after having received the EOS of a worker that found the node, it waits for a second one for ever (counterexample)."
  },
  {
   "property": "C79",
   "status": "partial",
   "theorems": [
    "FF.Locks.CondBarrier.C79_separation_partial",
    "FF.Locks.CondBarrier.C79_all_return_partial",
    "FF.Locks.CondBarrier.C79_exclusive",
    "FF.Locks.CondBarrier.C79_spurious_counterexample"
   ],
   "note": "Any number of threads and rounds. Separation and return are proved when threads only wake up by a broadcast. The code waits without a loop: with one wake-up without a broadcast, which POSIX allows, a thread returns although another one has not entered (counterexample for every group of at least two threads). Mutual exclusion holds in all schedules."
  },
  {
   "property": "C80",
   "status": "proved",
   "theorems": [
    "FF.Uswsr.Multi.C80_linearizable",
    "FF.Uswsr.Multi.C80_safe",
    "FF.Uswsr.Multi.C80_ends",
    "FF.Uswsr.Multi.C80_no_deadlock"
   ],
   "note": "Queues that are not of fixed size; every number of threads, segment size, pool size, history and interleaving of the accesses of the model of C08 (sequentially consistent at this level). Linearizability is the same specification as for C59 and C68. The two spin locks are atomic (C13). At most 14 own actions per call, and no deadlock; the spin locks are not fair, so that a thread can be overtaken for ever by new calls of other threads."
  },
  {
   "property": "C81",
   "status": "partial",
   "theorems": [
    "FF.PipeReduce.C81_reduced",
    "FF.PipeReduce.C81_reduced_static",
    "FF.PipeReduce.C81_reduced_scheduler",
    "FF.PipeReduce.C81_can_end",
    "FF.PipeReduce.C81_can_end_static",
    "FF.PipeReduce.C81_can_end_scheduler",
    "FF.PipeReduce.C81_drains",
    "FF.PipeReduce.C81_at_most_once",
    "FF.PipeReduce.C81_pause_counterexample",
    "FF.PipeReduce.C81_pause_returns_counterexample"
   ],
   "note": "The runs of the loops of C29 and C30 composed with the gatherer of C26, every number of workers, values per index and schedule: when the call returns the calls of Reduce are a permutation of the values of all indices, in order for each worker, and all channels are empty; from every state the call can end, and once all workers have sent EOS every attempt of the Reduce stage takes a message. Partial because the code differs after threadPause: each paused worker leaves one more EOS in its channel, and in the next call Reduce is never called, in every schedule, although the call returns (counterexamples). An empty range with a positive grain is not accepted (C29); static scheduling with a negative grain is not covered; that the threads are scheduled fairly is not part of the model."
  },
  {
   "property": "C82",
   "status": "partial",
   "theorems": [
    "FF.Parfor.SpinEnd.C82_separation_partial",
    "FF.Parfor.SpinEnd.C82_same_number_separation_partial",
    "FF.Parfor.SpinEnd.C82_bounded",
    "FF.Parfor.SpinEnd.C82_returns_partial",
    "FF.Parfor.SpinEnd.C82_same_number_partial",
    "FF.Parfor.SpinEnd.C82_change_counterexample",
    "FF.Parfor.SpinFine.C82_fine_separation_partial",
    "FF.Parfor.SpinFine.C82_fine_progress_partial",
    "FF.Parfor.SpinFine.C82_fine_bounded",
    "FF.Parfor.SpinFine.C82_fine_returns_partial",
    "FF.Parfor.SpinFine.C82_fine_same_number_separation_partial",
    "FF.Parfor.SpinFine.C82_fine_same_number_partial",
    "FF.Parfor.SpinFine.C82_early_return_counterexample"
   ],
   "note": "Every schedule. Both halves are false of the code when consecutive loops use different numbers of workers. Return: for all m different from n there is a schedule of a loop with m workers followed by one with n workers after which the caller never returns, because barrierSetup makes the second loop use again the counter on which a slow worker still spins (C82_change_counterexample). Separation: a worker that has incremented the counter of a loop with 3 workers and compares it with the size only after the next loop, with 2 workers, has been set up takes itself for the last thread and lets the caller return before any part of that loop has begun (C82_early_return_counterexample, on the single accesses). Both are proved for programs whose loops all use the same number of workers (C82_same_number_partial with C82_bounded, C82_same_number_separation_partial), and for programs that change the number only when all workers have left the barrier (C82_returns_partial, C82_separation_partial), with the increment, the comparison and the reset of the counter as one action; for the same programs separation and return are also proved with these as single accesses (C82_fine_separation_partial, C82_fine_progress_partial, C82_fine_returns_partial, C82_fine_same_number_separation_partial, C82_fine_same_number_partial, with C82_fine_bounded), by simulation. The tasks of the loops are those of C29 and C30; threadPause and the variant with the scheduler thread are not part of this model."
  },
  {
   "property": "C83",
   "status": "partial",
   "theorems": [
    "FF.Dist.Bytes.C83_value",
    "FF.Dist.Bytes.C83_exact_partial",
    "FF.Dist.Bytes.C83_refused",
    "FF.Dist.Bytes.C83_default",
    "FF.Dist.Bytes.C83_too_large_counterexample",
    "FF.Dist.Bytes.C83_empty_counterexample"
   ],
   "note": "Every string. Exact for all sizes below 2^64 bytes, and exactly the non-empty strings that are not a number with a unit are refused. False of the code otherwise: larger sizes are neither refused nor rounded down but taken modulo 2^64 (17179869184g gives the limit 0), and the empty string gives the limit 0 (counterexamples). Characters outside ASCII are taken as neither digits nor letters."
  },
  {
   "property": "C84",
   "status": "partial",
   "theorems": [
    "FF.Dist.Endpoint.C84_endpoint_partial",
    "FF.Dist.Endpoint.C84_large_port",
    "FF.Dist.Endpoint.C84_no_number",
    "FF.Dist.Endpoint.C84_outside_counterexample",
    "FF.Dist.Endpoint.C84_colon_counterexample"
   ],
   "note": "Every string. Right for all hosts without colon and all ports below 2^31. False of the code otherwise: if nothing follows the first colon the code reads outside the vector of the parts (exactly then), addresses that contain a colon are cut at it, and ports above 65535 are accepted; an exception of stoi leaves the reading of the configuration. A configuration without endpoint and the use of the address are not modelled."
  },
  {
   "property": "C85",
   "status": "partial",
   "theorems": [
    "FF.Repara.Command.C85_value",
    "FF.Repara.Command.C85_kernel_partial",
    "FF.Repara.Command.C85_close_partial",
    "FF.Repara.Command.C85_absent",
    "FF.Repara.Command.C85_param_partial",
    "FF.Repara.Command.C85_schedule",
    "FF.Repara.Command.C85_prefix_counterexample",
    "FF.Repara.Command.C85_no_command_counterexample"
   ],
   "note": "Every command of the documented format whose texts contain none of the characters ; $ _. The entry used is characterised exactly: the last one whose number begins with the digits of that of the kernel (C85_value). So the claim holds if no later number begins with these digits, for instance if all are below 10 (C85_kernel_partial, C85_close_partial), and is false of the code otherwise: for every k from 1 on and every digit d, kernel k gets the device and the flags of a later kernel 10k+d (C85_prefix_counterexample), because the code searches for the name without the separator. A kernel without parameters fails an assertion (C85_value). The schedule id is the number written (C85_schedule). Without command there are flags only for parameter 0, and those of further parameters are read outside the vector (C85_no_command_counterexample). The lookup of the device in String2Target, negative ids and builds without assertions are not modelled."
  }
 ]
}