#!/usr/bin/env python3
"""Generates /verif/MANIFEST.json.  One m(...) line per property."""
import json
C = []
def m(pid, status, theorems, note):
    C.append({"property": pid, "status": status, "theorems": theorems.split(), "note": note})

S = "FF.Swsr."
def q(ns, names): return " ".join(ns + n for n in names.split())

m("C01", "proved", q("FF.SwsrConc.", "C01_prefix C01_capacity C01_pop_exact C01_drain C01_push_exact"),
  "Every schedule of the individual accesses and every visibility order allowed by PSO with the WMB of push.")
m("C02", "proved", q("FF.SwsrConc.", "C02_publication"),
  "Object contents, with recycling of objects after release by the consumer; loads in program order.")
m("C03", "proved", q(S, "C03_bounded_fifo C03_indices_in_range C03_size_zero C03_null_push C03_startatlineend_counterexample"),
  "Every history refines a bounded FIFO. Side finding: init(true) with fewer than 8 slots is out of bounds.")
m("C04", "partial", q(S, "C04_multipush_partial C04_write_index_iff C04_reject_unchanged C04_counterexample"),
  "False of the code: multipush leaves a wrong write index unless it was 0 (counterexample proved). Proved for batches issued at write index 0, and characterised exactly.")
m("C05", "partial", q(S, "C05_mpush_flush_partial C05_counterexample"),
  "False of the code (same cause as C04). Proved for a first batch of up to 16 elements.")
m("C06", "partial", q(S, "C06_length C06_lamport_counterexample C07_lamport_call_by_call") + " " +
  q("FF.Uswsr.Seq.", "C06_unbounded_length C06_reset_counterexample C06_reset_partial"),
  "Exact for SWSR_Ptr_Buffer and, without reset(), for the unbounded queue (counterexample after reset proved); false for an empty Lamport_Buffer that has wrapped (counterexample), exact when not empty.")
m("C07", "proved", q("FF.Lamport.", "C07_prefix C07_capacity C07_push_exact C07_pop_exact") + " FF.Swsr.C07_lamport_call_by_call",
  "Access by access with store buffers and WMB, plus call-by-call refinement.")
m("C08", "proved", q("FF.Uswsr.", "C08_prefix C08_push_starts C08_push_completes C08_pop_false") + " FF.Uswsr.Seq.C06_unbounded_length",
  "Every interleaving (sequentially consistent at this level; pool queues as atomic FIFOs, see C01 and C11).")
m("C09", "proved", q("FF.Uswsr.", "C09_recycled C09_fresh_for_producer"),
  "Same model as C08; a freed or shared segment is never accessed.")
m("C10", "proved", q("FF.Uswsr.", "C10_capacity C10_push_exact"),
  "Same model as C08 with fixedsize = true.")

m("C11", "proved", q("FF.Dynqueue.", "C11_fifo C11_pop_exact C11_pop_completes C11_recycle"),
  "Access by access with PSO store buffers and the WMB of push; node cache as an atomic FIFO; malloc may hand out any free address.")
m("C41", "proved", q("FF.Pow2.", "C41_isPowerOf2 C41_isPowerOf2Long_partial C41_isPowerOf2Long_counterexample C41_nextPowerOf2 C41_nextPowerOf2_diverges C41_nextMultipleOfIf C41_nextMultipleOfIf_wraps C41_alignment_test"),
  "Proved in the ranges where the result is representable; isPowerOf2 on an unsigned long >= 2^32 is wrong (32-bit parameter), nextPowerOf2 above 2^63 never ends.")

m("C12", "proved", q("FF.Mpmc.", "C12_order C12_once C12_popped_accepted C12_capacity C12_positions_monotone C12_no_race C12_push_exact C12_pop_exact initSize_spec"),
  "Any number of threads; plain loads may return any stale value, exchanges act on the newest; counters do not wrap (2^64 operations); sizes below 2^32.")
m("C13", "proved", q("FF.Locks.Tas.", "C13_mutual_exclusion C13_handover C13_no_entry"),
  "Any number of threads; the release may be delayed in the store buffer.")
m("C14", "proved", q("FF.Locks.Clh.", "C14_mutual_exclusion C14_fifo C14_handover C14_acquire_only_counterexample"),
  "Total store order with an exchange that is a full barrier (x86). With the acquire-only exchange that GCC documents for the builtin, mutual exclusion fails (counterexample proved).")
m("C15", "proved", q("FF.Locks.Barrier.", "C15_separation C15_all_return C15_exit_iff"),
  "spinBarrier; any number of threads and rounds. The pthread based Barrier is outside the model.")

m("C16", "partial", q("FF.Svector.", "C16_sequence_partial C16_copy C16_insert_partial C16_insert_counterexample C16_self_push_counterexample C16_moved_from_counterexample"),
  "All operations except insert before the end, for every chunk and history. insert before the end is out of bounds on a full vector and uses stale iterators with one free cell (counterexamples); proved correct with two free cells. Destructors of T are not modelled.")
m("C17", "partial", q("FF.Squeue.", "C17_sequence_partial C17_drain_counterexample C17_at_counterexample"),
  "False of the code: draining from the front exactly at a chunk boundary breaks front() (proved for every chunk size). Proved for every history that avoids exactly that situation.")
m("C18", "partial", q("FF.Iclhash.", "C18_finite_map C18_nentries_partial C18_nentries_counterexample"),
  "Finite map for every history; the entry counter is wrong after a delete or a replacing update (counterexample), right for insert-only histories.")
m("C48", "proved", q("FF.Slist.", "C48_prefix C48_capacity C48_cell_free C48_push_exact C48_pop_exact C48_publication"),
  "Concurrent, access by access with store buffers; default configuration, cachesize at least 2, capacity cachesize-1.")

m("C19", "proved", q("FF.Node.", "C19_in_order C19_end_of_input C19_end_by_svc C19_after_end C19_one_eos C19_mixed_marks_counterexample"),
  "Arbitrary stateful svc/eosnotify, any number of expected marks (at least 1), any input. Observation: with mixed marks the last one decides whether EOS is forwarded.")
m("C20", "proved", q("FF.Node.", "C20_prefix C20_complete C20_bounded"),
  "Any number of stages, any capacities >= 1, every schedule of pops and pushes; channels are atomic bounded FIFO queues (C01, C08, C10).")
m("C47", "partial", q("FF.Node.", "C47_comb_partial C47_nested_partial C47_exact_partial C47_second_eos_counterexample C47_null_counterexample"),
  "Equal to the pipeline up to the end mark for every nesting of well-behaved nodes, and exactly equal if only the first node ends the stream. Not true past the end mark if the second node returns EOS, nor if the first ends with NULL or EOSW (counterexamples).")

m("C21", "partial", q("FF.Farm.", "C21_exactly_once C21_collector_sees_all C21_progress_or_refused C21_completes_partial C21_map C21_early_end_counterexample"),
  "Any number of workers, capacities >= 1, any mix of scheduled, addressed and broadcast tasks, every schedule: exactly once, per-worker order, all results at the collector, no deadlock (the final state is reachable from every reachable state). Requires workers that do not end the stream by themselves; a worker that does can block the emitter for ever (counterexample). Without feedback.")
m("C22", "proved", q("FF.Farm.", "C22_round_robin C22_fair"),
  "Round-robin scheduler of the default load balancer, any number of workers, any refusals.")
m("C25", "proved", q("FF.Farm.", "C25_groups C25_broadcast C25_completes"),
  "broadcast_task of the load balancer (default and multi-output nodes), any number of workers, any pattern of refusals.")
m("C26", "partial", q("FF.Farm.", "C26_no_loss C26_ends_iff_partial C26_all_received_partial C26_one_eos_partial C26_mixed_marks_counterexample C26_eosw_last_counterexample C26_null_counterexample"),
  "Any number of channels, any arrival order, any filter that does not end the stream by itself. False if EOS and EOS_NOFREEZE marks are mixed (never ends), and the final EOS is not sent if the last mark is EOSW (counterexamples).")
m("C27", "proved", q("FF.Farm.", "C27_no_loss C27_ends_iff C27_all_received C27_progress_or_refused C27_completes"),
  "Any numbers of left and right nodes, any capacities >= 1, any commands, every schedule; no feedback.")

m("C23", "partial", q("FF.Farm.", "C23_order_partial C23_progress_or_refused C23_completes_partial C23_map_partial C23_send_to_counterexample C23_rerun_counterexample C23_dropped_task_counterexample"),
  "First run (or after thaw of all workers), any number of workers, any capacities >= 1, scheduled and broadcast tasks, every schedule: results in input order, run completes. False on a second run without freezing (turns are not reset) and with ff_send_out_to (counterexamples).")

m("C24", "partial", q("FF.Odfarm.", "C24_order_partial C24_no_overrun_partial C24_bounded_partial C24_all_delivered_partial C24_progress C24_bounded_work C24_completes_partial C24_overrun_counterexample C24_memory_counterexample C24_broadcast_counterexample"),
  "Order, completion and the memory bound are proved for every schedule in which no ring cell is reused too early; that is proved to hold while no error is reported, for output queues of at most ondemand+1 entries. The full claim is false: output queues are not bounded by the farm, a slow task makes the collector buffer more than reserved (an error is only printed), and broadcast blocks the buffer; counterexamples are proved.")

m("C28", "partial", q("FF.Freeze.", "C28_frozen C28_no_lost_wakeup C28_rounds_partial C28_progress C28_work C28_completes_partial C28_thaw_wait_counterexample C28_nofreeze_counterexample"),
  "wait_freezing returns only when frozen or gone, and no thread sleeps with its wake-up lost: every controller program, every schedule, spurious wake-ups included. One service loop per thaw and completion: for the documented protocol with any number of thaws. Without wait_freezing between the last thaw and wait the thawed round may be skipped (counterexample).")
m("C29", "partial", q("FF.Parfor.", "C29_exactly_once_partial C29_accepted C29_no_scheduler C29_scheduler C29_empty_range_counterexample"),
  "Any range that is not empty, any step >= 1, any grain, any number of workers, after any sequence of loops on the same object, every schedule, with and without the scheduler thread, blocking and spinning workers: exactly once, bounded number of steps, no deadlock. An empty range makes an assertion of the library fail (counterexample). Integers unbounded.")
m("C30", "proved", q("FF.Parfor.", "C30_blocks C30_exactly_once C30_owner C30_accepted C30_completes C30_ends"),
  "Any range (empty ones included), any step >= 1, any number of workers, every schedule: the workers execute consecutive blocks, in order; each index exactly once. C30_owner gives the block of each worker, which depends on nothing but the number of indices and of workers. C30_ends: every loop completes.")
m("C31", "partial", q("FF.Parfor.", "C31_exactly_once_partial C31_step_counterexample C31_negative_counterexample"),
  "Proved for step 1 and ranges that start at 0 or above, and for one worker with any step. False otherwise: with step 2 indices are executed twice or never, with a negative start the end of the range is lost (counterexamples).")
m("C32", "partial", q("FF.Parfor.", "C32_reduce_dynamic C32_reduce_static C32_reduce_static_grain_partial C32_dynamic_order_counterexample"),
  "Dynamic scheduling with a commutative monoid, default static scheduling with a monoid, every schedule. With static scheduling and a grain only where C31 holds.")
m("C33","partial",q("FF.Mdf.","C33_order_partial C33_once_partial C33_tag_zero_counterexample"),
  "All programs, numbers of workers and schedules; tags must not be 0 and a task must not use a parameter again after it gave it as OUTPUT. Tag 0 is not tracked (counterexample).")
m("C34","partial",q("FF.Mdf.","C34_sequential_partial C34_task_view_partial"),
  "Same two conditions on the parameters as C33; tasks change only OUTPUT parameters and depend only on INPUT and OUTPUT parameters.")
m("C35","partial",q("FF.Mdf.","C35_some_task_partial C35_never_stuck_partial C35_end_partial C35_bounded_partial C35_completes_partial C35_self_dependency_counterexample"),
  "Same two conditions as C33. A task that gives a parameter first as OUTPUT and then as INPUT waits for itself and the run hangs (counterexample).")
m("C49","partial",q("FF.Mdf.Ring.","C49_mdf_descriptor C49_taskf_descriptor_partial C49_taskf_counterexample"),
  "Proved for ff_mdf. For ff_taskf the ring is reused while a long task is executed (counterexample for every ring size); it holds if task k is submitted after task k-N has ended.")
m("C36","proved",q("FF.Alloc.Static.","C36_no_overlap C36_inside C36_content C36_alloc_returns"),
  "Any number of slots and channels, one allocating thread per channel, any thread deallocates, byte addressed memory with arbitrary user writes inside the blocks.")
m("C37","proved",q("FF.Alloc.","C37_smallest_class C37_path C37_zero_counterexample"),
  "Every size from 1. A request of 0 bytes indexes the array of caches with -1 (counterexample); classes switched off by the user go to the system.")
m("C38","partial",q("FF.Alloc.","C38_alignments")+" "+q("FF.Alloc.Slab.","C38_aligned_partial C38_system_aligned C38_free_exact_partial C38_system_counterexample C38_zero_counterexample"),
  "Every alignment, size, address and history: aligned and inside the block; free finds exactly the block, if the size is not 0, the request is served by a slab and the last word of a block does not equal the address of its segment. On the system path free always fails (general counterexample), size 0 breaks the next block (counterexample).")
m("C39","partial",q("FF.Alloc.Slab.","C39_disjoint_partial C39_held_partial C39_once_partial C39_new_partial C39_content_partial C39_free_returns_partial C39_free_big C39_reuse_partial C39_fresh_partial C39_userdata_counterexample"),
  "Any number of threads, segments and classes, every interleaving, byte addressed memory; same conditions as C38. User data that equals the address of the segment breaks it (counterexample). Not modelled: delayedReclaim, realloc, FFAllocator.")
m("C40","partial",q("FF.Mapper.","C40_core_member C40_core_first C40_core_cyclic_partial C40_round_robin C40_new_partial C40_set_vector C40_set_string C40_set_string_any C40_history_partial C40_cyclic_counterexample C40_new_counterexample C40_longer_counterexample C40_cut_counterexample C40_trailing_counterexample"),
  "Every list, string, thread number and history of calls: an element of the list, the first threads get list[i], round-robin over the padded list. Cyclic over the list itself only when its length is a power of two (counterexample); longer lists are refused, more than 512 cores make the constructor read freed memory (counterexamples).")
m("C46","partial",q("FF.Net.Io.","C46_readn C46_readn_complete C46_writen C46_writen_complete C46_readvn C46_readvn_complete C46_writevn C46_writevn_complete C46_round_trip C46_readvn_empty_counterexample C46_readvn_interrupted_counterexample C46_writevn_spins_counterexample"),
  "Every splitting of the transfer by the kernel, byte addressed memory. readn and writen hold as documented. readvn reports a closed connection for empty buffers and loses the count of a partial transfer on an error; writevn repeats the call for ever while the kernel answers 0 (counterexamples).")
m("C50","partial",q("FF.Stencil.","C50_location_partial C50_location_counterexample C50_sweep_partial C50_parallel_partial C50_run_partial C50_overwrite_counterexample C50_outside_counterexample"),
  "Square matrices and matrices of one row: every cell has its own location, and a run computes what the sequential program on matrices computes, for every user function, window, number of rounds and order of execution. For every other size two cells share a location or a cell is outside the buffer (proved for all such sizes).")
m("C51","partial",q("FF.Selector.","C51_svc_partial C51_passive_partial C51_index C51_safe_partial C51_run_partial C51_run_fails C51_unknown_counterexample C51_init_counterexample"),
  "Every history of calls in which the selected index has been added. An unknown index is neither refused nor ignored: the next task reads outside the vector (counterexample).")
m("C42","partial",q("FF.Net.","C42_batch C42_single_partial C42_direct C42_direct_big C42_single_counterexample C42_empty_counterexample C42_identifier_counterexample"),
  "Every batch and payload with 16 bit identifiers, byte by byte. A message above the threshold for separate sends that is alone in a batch is decoded as if its payload were the next frame; a message without payload arrives as an end of stream (counterexamples).")
m("C43","partial",q("FF.Net.Sender.","C43_in_bounds C43_wire_partial C43_flush_partial C43_end_to_end_partial C43_overwrite_counterexample"),
  "Every number of connections, limits and schedules, with the shared pool of buffers and a transport that reads them later. In bounds always. Content: a message at the byte limit or above given to a connection that batches needs a transport that copies at once (counterexample: the flushed batch is overwritten).")
m("C44","partial",q("FF.Net.Receiver.","C44_fits_partial handsOff_batch C44_counterexample"),
  "Proved when no frame has a single message or all frames have the same size, for every schedule and any number of connections. False otherwise: three single messages, the second smallest, the first not smaller than the third (general counterexample).")
m("C45","proved",q("FF.Net.Sender.","C45_window C45_send C45_unblocks"),
  "Every interleaving of sender, transport, receivers and acknowledgements, any number of connections. Also: a sender that waits for a credit can always be let go on.")
m("C52","partial",q("FF.Net.Receiver.","C52_order_partial C52_stolen_counterexample"),
  "Any number of connections and every schedule, without messages above the threshold for separate sends. With one, the second slot can take its payload (counterexample).")
m("C53","partial",q("FF.Net.Receiver.","C53_delivery_partial"),
  "Every schedule of sender, transport and receiver; messages up to the threshold for separate sends, and the condition of C43 on the byte limit.")
m("C54","partial",q("FF.Net.Route.","C54_route_partial C54_fullest C54_round_robin C54_no_credit_counterexample"),
  "Every table, state and message when the possible connections have credit. Without credit the message is sent on whichever connection acknowledges first, even one that does not reach a destination (counterexample).")
m("C55","proved",q("FF.Blocking.","C55_order C55_consumer C55_producer C55_delivers C55_lost_wakeup_counterexample"),
  "Every stream, capacity from 1 and interleaving. The time limit is necessary: without it the channel can stop for ever with both sides waiting (counterexample).")
m("C56","partial",q("FF.Dc.","C56_result_partial C56_safe_partial C56_progress_partial C56_bounded_partial C56_complete_partial C56_run_example C56_empty_divide_counterexample"),
  "Every operand on which the recursion ends, user functions, number of workers and channel capacity from 1, schedule and addresses: right result, no stuck state, at most 8 actions per call of the recursion, memory safe and freed. Partial: an operand below the first level that is not a base case and is divided into no parts reads outside a vector (counterexample), so the recursion must not contain one; the creation and join of the threads is C27 and not repeated here.")
m("C57","partial",q("FF.Farm.","C57_exactly_once C57_channel_partial C57_progress_or_refused C57_completes_partial C57_quiet C57_absorb_partial C57_map C57_leaves C57_clean C57_channel_counterexample C57_lost_counterexample C57_absorb_counterexample C57_rerun_counterexample"),
  "Every emitter, worker, number of workers, capacity, input and schedule: exactly once, in order per worker; the usual master that counts its results receives a permutation of the results and the farm ends. Channels are right only until the first end mark of a worker comes back (counterexample); results the emitter does not wait for are lost, or make the assertion of absorb_eos fail in a farm that freezes (counterexamples); a second run without reset takes the old end mark for a new one (counterexample). Not modelled: feedback with a collector, multi-input, a manager channel, blocking mode.")
m("C58","partial",q("FF.Node.","C58_prefix C58_rounds C58_no_deadlock C58_bounded C58_map C58_early_end_counterexample C58_eosw_counterexample"),
  "Every number of stages and rounds, capacity from 1 and interleaving, with stages that never end the stream by themselves. A stage that returns FF_EOS leaves the rest of its round to the next one, and a round ended with FF_EOSW never ends for load_result (counterexamples). The retry limit of offload/load_result is not modelled (load_result returns false both at the end and after too many retries).")
m("C59","partial",q("FF.Msq.","C59_linearizable_partial C59_safe_partial C59_lock_free_partial C59_never_stuck C59_returns_partial C59_no_reuse C59_spsc C59_aba_counterexample"),
  "Every number of threads, calls and interleaving (sequentially consistent accesses): linearizable, safe, at most 28*threads+42 steps per call. Partial because a node must not be reused while a thread holds it. No assumption is needed if memory is not reused, or with one producer and one consumer. The allocator of the queue only counts frees, and then an element can be returned twice (counterexample with three threads).")
m("C60","partial",q("FF.Opt.","C60_refines_partial C60_farm_refines_partial C60_stateless_partial C60_farm_stateless_partial C60_order_partial C60_level1_returns C60_level1_farm_returns C60_level1_equivalent C60_level1_farm_equivalent C60_level1_accepted_partial C60_level1_ordered_nocollector C60_level1_wrapper C60_merge_multioutput C60_a2a_never_returns_counterexample C60_a2a_stateful_counterexample C60_merge_node_between_counterexample C60_merge_pipeline_workers_counterexample C60_merge_ordered_counterexample C60_merge_scheduling_counterexample C60_merge_emitter_null_counterexample C60_merge_emitter_abort_counterexample C60_level1_multioutput_counterexample C60_level1_nested_counterexample C60_level1_accelerator_counterexample C60_level1_eosnotify_counterexample C60_level1_eosnotify_mi_counterexample"),
  "Every network, node with state, input and schedule. All options but introduce_a2a: the result refines the original. All options, stateless nodes: same results. OptLevel1 always returns and keeps exactly the behaviours (if ordered farms have collectors). Partial because the other options can loop, abort or be undefined, introduce_a2a is not a refinement with state, and the optimised network can be refused by prepare, lose the result queue of an accelerator or call eosnotify more often (counterexamples). Feedback channels and what nodes send from eosnotify are not in the model.")
m("C61","partial",q("FF.Umpmc.","C61_exclusive C61_order C61_once C61_positions_monotone C61_push_completes C61_pop_completes C61_false C61_conserved C61_push_blocks_counterexample C61_linearizable_counterexample"),
  "Every number of threads, inner queues and interleaving (sequentially consistent accesses, counters without overflow). Partial: the documented non-blocking push is false, a thread stopped inside push stops all others after n further positions (proved for all n), and pop can return false although an earlier push has returned (counterexample).")
m("C62","partial",q("FF.Pool.","C62_no_duplicates C62_conserved C62_inner_fifo C62_wait_free C62_sequential_fifo C62_sequential_total C62_drain C62_phased_pop C62_phased_false C62_stuck_counterexample C62_order_counterexample C62_false_counterexample"),
  "Every number of threads, inner queues and interleaving, inner operations atomic (C08, C14, C59). Partial: in the FIFO pool a pop can overtake a push, after which a stored element is not returned by any number of pops until another push, and later elements overtake it (counterexamples for every n); in the relaxed pools a lone pop can return false although something is stored. Without pushes that overlap pops the FIFO pool is exact.")
m("C63","partial",q("FF.Node.","C63_suffix_partial C63_bounded C63_hangs_counterexample C63_full_counterexample C63_silent_counterexample") + " " + q("FF.Farm.","C63_worker_counterexample C63_emitter_counterexample"),
  "Mostly false, proved for every pipeline or farm, capacity, input and schedule: if a stage fails and the next one does not, run_and_wait_end never returns; the same for a farm whose emitter or one worker fails; when it does return it returns 0. What holds: if only the last stages of a pipeline fail and the channel in front of them has room, all threads end.")
m("C64","partial",q("FF.Dist.","C64_consumers C64_feeders C64_emitter_feeders C64_converse_partial C64_groups_partial C64_shared_partial C64_wrap_counterexample C64_multi_counterexample C64_comb_left_counterexample C64_comb_right_counterexample C64_a2a_counterexample C64_mo_counterexample"),
  "Every network and cut with combinations of two nodes, collectors given by the user, and, where a collectorless farm precedes an all-to-all, workers with one output and no wrap-around if the numbers match: both ends compute exactly the channels of the network, and groups connect exactly to the groups that wait for them. Each excluded case is a counterexample (a combination of three nodes loses its feeders or consumers; the feeders forget the wrap-around; workers with several outputs). The channels differ from shared memory between two all-to-alls and for multi-output workers before a multi-input first set (counterexamples). The on-demand size and the abort of getLocality are not modelled.")
m("C65","partial",q("FF.Dist.","C65_order C65_levels_partial C65_send_partial C65_receive_partial C65_mixed_counterexample C65_empty_counterexample C65_farm_counterexample C65_pipe_counterexample C65_feedback_counterexample"),
  "Every network: along every channel between parts that do not overlap labels increase. Every group of stages and direct parts of stages of a pipeline, in any order of addresses: levels exist and every local channel leads to the next level. Partial: deeper parts can be mixed up because the comparison is not transitive; an empty group is undefined behaviour; a farm cannot be reached from another level of its group (a send without destination never returns); a message from a pipeline of the same group has no channel; the feedback of an all-to-all behind another level is not found (all counterexamples). The maps are right without farms where messages enter and longer pipelines where they leave.")
m("C66","partial",q("FF.Farm.","C66_rounds C66_loaded C66_subset C66_completes C66_map C66_early_end_counterexample C66_first_round_counterexample"),
  "Every number of workers and rounds, emitters that end only with their input, steady workers, collectors that filter (all with state), capacities and schedules: each round returns what its own tasks make and nothing else, only the first workers run, every round ends. Partial because the code differs from its documentation: the first run_then_freeze(nw) ignores nw, and if the collector itself ends the stream the rest of its results turns up in the next round (counterexamples).")
m("C67","partial",q("FF.Grp.","C67_terminates C67_final C67_ends C67_order C67_group_end C67_source_counterexample C67_early_counterexample C67_deadlock_counterexample"),
  "Every acyclic network of sequential nodes (with state, several inputs and outputs, sends with destination, output at the end), every cut into groups of one level with the sources apart, capacities and schedules: no run goes on for ever, a run that cannot go on has ended everywhere, and each node has received all that was meant for it, in order, followed by one end mark from each feeder. Partial: needs sources that do all their work in one call of svc, nodes that do not end early, and, if the queues in front of the nodes of a group are bounded, an order of the groups (each a counterexample). Feedback channels and groups of several levels are not modelled.")
m("C68","proved",q("FF.Tlq.","C68_linearizable C68_safe C68_memory C68_ends C68_destroy"),
  "Every number of threads, cache size and filling, interleaving of single accesses to memory and choice of addresses: linearizable (the same specification as C59), no access to memory that is not allocated, the exact number of allocated nodes when no call is in progress, at most eleven steps per thread before a new call and no deadlock, and a destructor that frees everything once. The spin locks (C13) and the cache (C01, one producer and one consumer at a time because of the locks) are atomic; malloc does not fail; memory is sequentially consistent. A thread can be overtaken for ever by new calls of other threads, as the spin locks are not fair.")
m("C69","partial",q("FF.Ring.","C69_prefix C69_same_histories C69_complete C69_one_result C69_no_deadlock C69_ends C69_order C69_all_back C69_second_run C69_second_run_counterexample C69_early_end_counterexample C69_bounded_feedback_counterexample"),
  "Every number of standard stages with state, capacities and schedules, for one run: histories are those of the least solution of the stages' equations, two runs agree, all complete runs stop in the same situation, no deadlock with the unbounded feedback queue the code creates, termination, order of results. Partial: nothing empties the feedback queue between runs, so from the second run on the first stage reads the old end mark and never gets a result (proved for all such pipelines, with an example); a stage other than the first that ends the stream can leave the first one waiting for ever (counterexample). Multi-input first and multi-output last stages are not modelled.")
m("C70","partial",q("FF.Life.","C70_safe C70_released_once C70_wire C70_tasks C70_received C70_messages C70_size_partial C70_size_counterexample C70_no_hook_counterexample C70_empty_counterexample"),
  "Every number of nodes, tasks, messages, choice of copied or borrowed bytes and of release functions, and every interleaving of nodes, sender, receiver and program: no use after release, no double release, right means of release, bytes unaltered and sent once, nothing left when nothing is under way. Partial because the code differs: for a message above the threshold for a separate send the release function is told size 0 (counterexample; proved for the others). The program must return at least one byte and name a release function for borrowed bytes (counterexamples otherwise). Queues of messages are modelled as sets.")
m("C71","partial",q("FF.SerBuf.","C71_bytes_partial C71_put_write C71_large_counterexample"),
  "Every sequence of tasks, pieces and memory contents, for tasks of up to 2^31 bytes. Partial because it is false above: proved for every task of 2^31 + 1 bytes written into a new buffer that a byte is stored in front of the buffer.")
m("C72","partial",q("FF.Evolution.","C72_evolution C72_evolution_completes C72_degree C72_setPar C72_result C72_parallel C72_deterministic C72_complete C72_stream C72_documented_partial C72_documented_counterexample"),
  "Every population, functions, degree, schedule of the parallel loop (the runs of C30) and interleaving of reads and writes of the buffer: the sequential algorithm with P = f(N, P). Partial because the code does not add the filtered individuals to the population as documented, they replace it (counterexample); proved for filters that put the population in front. Loops that s and f run on the object are only represented by the state they leave.")
m("C73","partial",q("FF.Own.","C73_safe_partial C73_destroy_partial C73_kept C73_kept_emitter C73_destroyAll_partial C73_no_leak_partial C73_copy_partial C73_change_emitter_partial C73_change_collector_partial C73_unique_counterexample C73_copy_unique_counterexample C73_flatten_counterexample C73_change_emitter_counterexample C73_change_node_emitter_counterexample C73_change_node_worker_counterexample C73_change_node_cleanup_counterexample C73_collector_counterexample C73_copy_collector_counterexample C73_emitter_copy_counterexample C73_firststage_counterexample C73_laststage_counterexample"),
  "All programs of 41 kinds of calls, any nesting: no double deletion, a destroyed object deletes exactly what was handed over to it (transitively), once, and destroying the user's objects in any order leaves nothing. Partial: the rules of Own/Spec.lean exclude the calls after which the code deletes twice, too early or never, each shown by a counterexample; copies of nested combines, more than one level of nesting in flatten, and combine_with_* on ends that are parallel blocks are not modelled.")
m("C74","partial",q("FF.Opt.","C74_emitter C74_emitter_mo_partial C74_collector C74_collector_refused C74_last_one C74_first_one C74_last_partial C74_first_partial C74_refused C74_default_collector_counterexample C74_first_abort_counterexample C74_state_counterexample C74_two_items_counterexample C74_lost_error_counterexample C74_emitter_mo_counterexample"),
  "All networks of any depth, all inputs and outputs, equality in both directions: for every node if the end is one sequential node, emitter or user's collector; for maps and filters if the node is copied over workers, sets and their pipelines; a call that returns -1 changes nothing. Partial because the code differs from its documentation: with copies, a node with state numbers items twice and a node that sends two items for one has them interleaved; pipelines that end with a farm with the default collector are refused; errors on workers other than the first are lost; a composition before a farm aborts; a multi-output node becomes an emitter that names workers (counterexamples).")
m("C75","partial",q("FF.Opt.","C75_nodes_partial C75_nodes_names_partial C75_nodes_returns C75_nodes_a2a_refused C75_merge_partial C75_merge_both C75_merge_first C75_ordered_second C75_ordered_refused C75_stateless_partial C75_a2a_stateless C75_returns C75_node2_dropped_counterexample C75_nf_drops_counterexample C75_nf_ordered_counterexample C75_nodes_farms_counterexample C75_nodes_pipeline_dropped_counterexample C75_node1_comp_counterexample C75_first_set_counterexample"),
  "All blocks, workers, nodes, inputs and outputs. combine_nodes_in_pipeline: equality of the possible outputs, and when it returns a pipeline. combine_farms: with mergeCE and node1 given (or farms of the same size) the result does nothing new, equality for two nodes; without it, for nodes without state, both outputs are permutations of the same sequential loop; the result has a run for every input. Partial because the code differs from its documentation: node2 alone with mergeCE is forgotten; combine_farms_nf forgets the collector and the emitter between the farms, and its ordered result cannot run; a farm with a collector before a farm reads a null pointer or aborts; a pipeline given with a farm is forgotten; node2 is put in the first set instead of the second (counterexamples). combine_ofarm_farm is a parameter (C76).")
m("C76","partial",q("FF.Cofarm.","C76_order_partial C76_all_delivered_partial C76_no_overrun_partial C76_progress_partial C76_work_partial C76_completes_partial C76_second_run_counterexample C76_overrun_counterexample C76_go_on_counterexample")+" "+q("FF.Opt.","C76_network_partial C76_network_refines_partial C76_combine_farms_partial C76_accepts C76_refused C76_abort_counterexample"),
  "Every number of workers, schedule, capacity and input: as long as no cell of the ring is reused too early, the second farm gets the results in order, each once, all of them at the end, without deadlock; the network is equal to the two farms in a pipeline, exactly the supported farms are accepted. Partial because the code differs: for every ring size there is a run after which the second farm never gets anything (a slow first task; the ring is enough only with bounded output queues and until an error is printed); in a second run nothing is ever delivered, whatever the first run was; filtered tasks are passed on as GO_ON; a standard last node before the second farm aborts (counterexamples). The network level represents the first farm and the reordering node as an ordered farm.")
m("C77","partial",q("FF.Msgq.","C77_fifo C77_empty C77_consumer_free C77_receives C77_head C77_message C77_room C77_memory C77_assert C77_prepare_once C77_producer_free C77_prepare_counterexample"),
  "Every bucket size of at least 8 bytes, maximum, sequence of sizes and interleaving of single loads and stores (sequentially consistent memory): order, once, unchanged; empty only if all was read; all accesses inside allocated buckets, none reused or freed under the consumer; nothing leaked; neither side waits; at most one new bucket per message if the rounded size fits. Partial because enqueue_prepare never returns for a size that is not a multiple of 8 and, rounded up and with two words, larger than a bucket (proved for every such size, state and schedule).")
m("C78","partial",q("FF.Gs.","C78_returns C78_result C78_count C78_once_partial C78_clean C78_none C78_once_counterexample C78_one_sound C78_one_counterexample C78_one_mark_counterexample C78_one_complete C78_one_absent"),
  "Search for all nodes: every graph with finitely many identifiers, different for different reachable nodes, every comparison, number of workers, capacity and schedule, on the master-worker model of C57: the end stays reachable from every state, and there the result is exactly the set of reachable nodes asked for, with exact multiplicities, and nothing is left in the queues. Partial because the code differs: a node that occurs several times among the start and its output nodes is found as many times (counterexample for every graph with an edge from the start to itself); the search for one node is sound whatever is read from the flag, but for every graph in which the start and its output nodes are all equal to the node, and fewer than the workers, it does not return in any schedule (counterexample). A search for one node that ends without having found anything means that no reachable node is equal to it, and if there is none the search returns. If the emitter ends the stream after having received the EOS of a worker that found the node, it waits for a second one for ever (counterexample).")
m("C79","partial",q("FF.Locks.CondBarrier.","C79_separation_partial C79_all_return_partial C79_exclusive C79_spurious_counterexample"),
  "Any number of threads and rounds. Separation and return are proved when threads only wake up by a broadcast. The code waits without a loop: with one wake-up without a broadcast, which POSIX allows, a thread returns although another one has not entered (counterexample for every group of at least two threads). Mutual exclusion holds in all schedules.")
m("C80","proved",q("FF.Uswsr.Multi.","C80_linearizable C80_safe C80_ends C80_no_deadlock"),
  "Queues that are not of fixed size; every number of threads, segment size, pool size, history and interleaving of the accesses of the model of C08 (sequentially consistent at this level). Linearizability is the same specification as for C59 and C68. The two spin locks are atomic (C13). At most 14 own actions per call, and no deadlock; the spin locks are not fair, so that a thread can be overtaken for ever by new calls of other threads.")
m("C81","partial",q("FF.PipeReduce.","C81_reduced C81_reduced_static C81_reduced_scheduler C81_can_end C81_can_end_static C81_can_end_scheduler C81_drains C81_at_most_once C81_pause_counterexample C81_pause_returns_counterexample"),
  "The runs of the loops of C29 and C30 composed with the gatherer of C26, every number of workers, values per index and schedule: when the call returns the calls of Reduce are a permutation of the values of all indices, in order for each worker, and all channels are empty; from every state the call can end, and once all workers have sent EOS every attempt of the Reduce stage takes a message. Partial because the code differs after threadPause: each paused worker leaves one more EOS in its channel, and in the next call Reduce is never called, in every schedule, although the call returns (counterexamples). An empty range with a positive grain is not accepted (C29); static scheduling with a negative grain is not covered; that the threads are scheduled fairly is not part of the model.")
m("C82","partial",q("FF.Parfor.SpinEnd.","C82_separation_partial C82_same_number_separation_partial C82_bounded C82_returns_partial C82_same_number_partial C82_change_counterexample")+" "+q("FF.Parfor.SpinFine.","C82_fine_separation_partial C82_fine_progress_partial C82_fine_bounded C82_fine_returns_partial C82_fine_same_number_separation_partial C82_fine_same_number_partial C82_early_return_counterexample"),
  "Every schedule. Both halves are false of the code when consecutive loops use different numbers of workers. Return: for all m different from n there is a schedule of a loop with m workers followed by one with n workers after which the caller never returns, because barrierSetup makes the second loop use again the counter on which a slow worker still spins (C82_change_counterexample). Separation: a worker that has incremented the counter of a loop with 3 workers and compares it with the size only after the next loop, with 2 workers, has been set up takes itself for the last thread and lets the caller return before any part of that loop has begun (C82_early_return_counterexample, on the single accesses). Both are proved for programs whose loops all use the same number of workers (C82_same_number_partial with C82_bounded, C82_same_number_separation_partial), and for programs that change the number only when all workers have left the barrier (C82_returns_partial, C82_separation_partial), with the increment, the comparison and the reset of the counter as one action; for the same programs separation and return are also proved with these as single accesses (C82_fine_separation_partial, C82_fine_progress_partial, C82_fine_returns_partial, C82_fine_same_number_separation_partial, C82_fine_same_number_partial, with C82_fine_bounded), by simulation. The tasks of the loops are those of C29 and C30; threadPause and the variant with the scheduler thread are not part of this model.")
m("C83","partial",q("FF.Dist.Bytes.","C83_value C83_exact_partial C83_refused C83_default C83_too_large_counterexample C83_empty_counterexample"),
  "Every string. Exact for all sizes below 2^64 bytes, and exactly the non-empty strings that are not a number with a unit are refused. False of the code otherwise: larger sizes are neither refused nor rounded down but taken modulo 2^64 (17179869184g gives the limit 0), and the empty string gives the limit 0 (counterexamples). Characters outside ASCII are taken as neither digits nor letters.")
m("C84","partial",q("FF.Dist.Endpoint.","C84_endpoint_partial C84_large_port C84_no_number C84_outside_counterexample C84_colon_counterexample"),
  "Every string. Right for all hosts without colon and all ports below 2^31. False of the code otherwise: if nothing follows the first colon the code reads outside the vector of the parts (exactly then), addresses that contain a colon are cut at it, and ports above 65535 are accepted; an exception of stoi leaves the reading of the configuration. A configuration without endpoint and the use of the address are not modelled.")
m("C85","partial",q("FF.Repara.Command.","C85_value C85_kernel_partial C85_close_partial C85_absent C85_param_partial C85_schedule C85_prefix_counterexample C85_no_command_counterexample"),
  "Every command of the documented format whose texts contain none of the characters ; $ _. The entry used is characterised exactly: the last one whose number begins with the digits of that of the kernel (C85_value). So the claim holds if no later number begins with these digits, for instance if all are below 10 (C85_kernel_partial, C85_close_partial), and is false of the code otherwise: for every k from 1 on and every digit d, kernel k gets the device and the flags of a later kernel 10k+d (C85_prefix_counterexample), because the code searches for the name without the separator. A kernel without parameters fails an assertion (C85_value). The schedule id is the number written (C85_schedule). Without command there are flags only for parameter 0, and those of further parameters are read outside the vector (C85_no_command_counterexample). The lookup of the device in String2Target, negative ids and builds without assertions are not modelled.")
json.dump({"claims": C}, open("/verif/MANIFEST.json", "w"), indent=1)
