{
 "claims": [
  {
   "property": "C01",
   "status": "proved",
   "theorems": [
    "RG.C01_conflict_symmetric",
    "RG.C01_task_conflict_symmetric"
   ],
   "note": ""
  },
  {
   "property": "C02",
   "status": "proved",
   "theorems": [
    "RG.C02_sync_conflicts_with_all"
   ],
   "note": ""
  },
  {
   "property": "C03",
   "status": "proved",
   "theorems": [
    "RG.C03_superset_conflicts"
   ],
   "note": ""
  },
  {
   "property": "C04",
   "status": "proved",
   "theorems": [
    "RG.C04_superset_refl",
    "RG.C04_superset_trans",
    "RG.C04_eq_iff_same_contents",
    "RG.C04_superset_antisymm"
   ],
   "note": ""
  },
  {
   "property": "C05",
   "status": "proved",
   "theorems": [
    "RG.C05_default_sync",
    "RG.C05_default_superset"
   ],
   "note": ""
  },
  {
   "property": "C06",
   "status": "proved",
   "theorems": [
    "RG.C06_no_conflict_no_shared_element",
    "RG.C06_conflict_is_real"
   ],
   "note": ""
  },
  {
   "property": "C07",
   "status": "proved",
   "theorems": [
    "RG.C07_conflict_iff",
    "RG.C07_order_irrelevant",
    "RG.C07_disjoint_resources"
   ],
   "note": ""
  },
  {
   "property": "C08",
   "status": "partial",
   "theorems": [
    "RG.C08_superset_iff",
    "RG.C08_parent_represents_child_partial",
    "RG.C08_false_at_depth_256"
   ],
   "note": "Holds for scope levels below 256; the scope level of a user is stored in 8 bits, which breaks the claim from depth 256 on (C08_false_at_depth_256)."
  },
  {
   "property": "C09",
   "status": "partial",
   "theorems": [
    "RG.C09_accepts_iff_partial",
    "RG.C09_accepted_is_subset_partial",
    "RG.C09_false_demotion_rejected",
    "RG.C09_patch_effect",
    "RG.C09_removed_is_gone"
   ],
   "note": "Acceptance is characterised exactly, but the code compares with an empty copy of the access list, so legal demotions are rejected (C09_false_demotion_rejected)."
  },
  {
   "property": "C10",
   "status": "proved",
   "theorems": [
    "RG.C10_derived_guard_is_restricted",
    "RG.C10_area_throws_iff",
    "RG.C10_area_granted_iff_inside",
    "RG.C10_at_single_position",
    "RG.C10_read_only_after_read",
    "RG.C10_fresh_covers_everything"
   ],
   "note": ""
  },
  {
   "property": "C11",
   "status": "partial",
   "theorems": [
    "RG.C11_outside_throws",
    "RG.C11_inside_touches_exactly_partial",
    "RG.C11_false_out_of_bounds",
    "RG.C11_no_shared_element"
   ],
   "note": "The guarded area is respected, but the container's own extents are not checked (C11_false_out_of_bounds)."
  },
  {
   "property": "C12",
   "status": "partial",
   "theorems": [
    "RG.Graph.C12_submission_order_partial",
    "RG.Graph.C12_flat_submission_order",
    "RG.Graph.C12_one_submitter_partial",
    "RG.Graph.C12_descendants_partial",
    "RG.Graph.C12_nested_order_false",
    "RG.Graph.C12_waiting_parents_partial",
    "RG.Sys.C12_workers_keep_order"
   ],
   "note": "Proved for all interleavings for flat programs (C12_flat_submission_order) and for nested programs whose task bodies return after their children have been initialised. False without that assumption: C12_nested_order_false. The programs do not demote accesses while tasks are being initialised; for these C22_demotion_during_init_starts_early_false."
  },
  {
   "property": "C13",
   "status": "partial",
   "theorems": [
    "RG.Graph.C13_started_at_most_once_partial",
    "RG.Graph.C13_flat_started_at_most_once",
    "RG.Graph.C13_nested_started_twice_false",
    "RG.Graph.C13_waiting_parents_partial",
    "RG.Sys.C13_one_worker",
    "RG.Sys.C13_workers_start_once"
   ],
   "note": "As for C12; C13_nested_started_twice_false is a nested program in which a task is started twice, C22_demotion_during_init_starts_twice_false a program with a demotion. A body that waits may be continued twice, see C71_resumed_twice_false."
  },
  {
   "property": "C14",
   "status": "partial",
   "theorems": [
    "RG.Graph.C14_waits_only_for_conflicting",
    "RG.Graph.C14_waits_only_for_earlier",
    "RG.Graph.C14_ready_after_conflicting_partial"
   ],
   "note": "For all programs: a task waits only for conflicting tasks of its space that are registered before it for one of its resources. With one submitting thread per space these were submitted before it, unless the task names a resource twice (then it may wait for itself, see C16). That a task becomes ready as soon as those tasks have finished is proved for flat programs and nested ones with NestingOk."
  },
  {
   "property": "C15",
   "status": "partial",
   "theorems": [
    "RG.Graph.C15_no_deadlock_partial",
    "RG.Graph.C15_work_ends_partial",
    "RG.Graph.C15_completion_possible_partial",
    "RG.Graph.C15_flat_completion"
   ],
   "note": "Proved for flat programs (C15_flat_completion) and nested ones with NestingOk: no stuck state, no infinite work, completion possible from every state."
  },
  {
   "property": "C16",
   "status": "partial",
   "theorems": [
    "RG.Graph.C16_repeated_resource_never_starts_false",
    "RG.Graph.C16_repeated_read_false",
    "RG.Graph.C16_nonconflicting_repetition_partial"
   ],
   "note": "False: a repeated resource with conflicting accesses makes the task wait for itself, for ever. Holds for tasks that do not conflict with themselves."
  },
  {
   "property": "C17",
   "status": "partial",
   "theorems": [
    "RG.Graph.C17_concurrent_submitters_deadlock_false",
    "RG.Graph.C17_one_submitter_no_cycle_partial",
    "RG.Graph.C17_one_resource_no_cycle_partial"
   ],
   "note": "False: two concurrent submitters can create a cyclic wait. Holds for one submitter at a time, and for tasks with one resource each."
  },
  {
   "property": "C18",
   "status": "partial",
   "theorems": [
    "RG.Graph.C18_waits_for_events_partial",
    "RG.Graph.C18_waits_for_body_partial",
    "RG.Graph.C18_event_ignored_false",
    "RG.Sys.C18_workers_wait_for_events"
   ],
   "note": "Proved for flat programs and nested ones with NestingOk, also with workers (C18_workers_wait_for_events). False if bodies of parents return before their children have been initialised: C18_event_ignored_false."
  },
  {
   "property": "C19",
   "status": "partial",
   "theorems": [
    "RG.Graph.C19_parent_after_children_partial",
    "RG.Graph.C19_parent_finished_before_child_false",
    "RG.Graph.C19_waiting_parents_partial",
    "RG.Sys.C19_workers_parent_after_children"
   ],
   "note": "False if the body of the parent returns before the child has been initialised; proved otherwise."
  },
  {
   "property": "C20",
   "status": "partial",
   "theorems": [
    "RG.Graph.C20_freed_once_partial",
    "RG.Graph.C20_freed_partial",
    "RG.Graph.C20_no_use_after_free_partial",
    "RG.Graph.C20_child_uses_freed_parent_false",
    "RG.Graph.C20_freed_while_future_held_false",
    "RG.Graph.C20_late_read_false",
    "RG.Graph.C20_waiting_parents_partial",
    "RG.Sys.C20_workers_free_once"
   ],
   "note": "Freed exactly once and only after the end, and no access afterwards, except for the read of waker_id in event.cpp:160, for which C20_late_read_false is a witness."
  },
  {
   "property": "C21",
   "status": "partial",
   "theorems": [
    "RG.Graph.C21_barrier_waits_for_all_partial",
    "RG.Graph.C21_held_future_blocks_barrier_partial",
    "RG.Graph.C21_barrier_returns_partial",
    "RG.Graph.C21_barrier_ignores_child_false",
    "RG.Graph.C21_barrier_reached_partial",
    "RG.Graph.C21_waiting_parents_partial",
    "RG.Sys.C21_workers_barrier"
   ],
   "note": "Proved for flat programs and nested ones with NestingOk; C21_barrier_ignores_child_false otherwise."
  },
  {
   "property": "C22",
   "status": "partial",
   "theorems": [
    "RG.Graph.C22_waiting_after_partial",
    "RG.Graph.C22_others_unchanged",
    "RG.Graph.C22_released_partial",
    "RG.Graph.C22_parent_waits_partial",
    "RG.Graph.C22_linked_twice_never_released_false",
    "RG.Graph.C22_parent_released_false",
    "RG.Graph.C22_rejected_releases_nobody_partial",
    "RG.Graph.C22_demoted_writer_releases_no_reader_false",
    "RG.Graph.C22_demotion_during_init_starts_early_false",
    "RG.Graph.C22_demotion_during_init_starts_twice_false"
   ],
   "note": "Proved for every reachable state of the task graph: who waits afterwards; nothing changes for tasks that still conflict; tasks linked once are released; the parent still waits if the remaining accesses conflict with it. Refuted: tasks linked twice are never executed, the parent finishes too early, demotion of a writer to a reader is rejected and releases nobody, a demotion during the initialisation of a follower starts this too early and twice."
  },
  {
   "property": "C23",
   "status": "partial",
   "theorems": [
    "RG.Pause.C23_not_before_event_partial",
    "RG.Pause.C23_resumed_once_partial",
    "RG.Pause.C23_not_twice_partial",
    "RG.Pause.C23_lost_wakeup_false",
    "RG.Pause.C23_resumed_twice_false"
   ],
   "note": "Proved in all interleavings: not resumed before the event. Proved if the notification does not fall between the test of the event and the end of execute_task: resumed exactly once. Refuted otherwise: lost wake-up, double resume."
  },
  {
   "property": "C24",
   "status": "partial",
   "theorems": [
    "RG.TB.C24_body_runs_once_partial",
    "RG.TB.C24_never_reruns_with_stack_switching",
    "RG.TB.C24_false_without_stack_switching"
   ],
   "note": "Holds with stack switching; without it a waiting body is re-executed for ever (C24_false_without_stack_switching)."
  },
  {
   "property": "C25",
   "status": "partial",
   "theorems": [
    "RG.Counter.C25_counter_modulo_partial",
    "RG.Counter.C25_exact_below_65536_partial",
    "RG.Counter.C25_wraps_around_false",
    "RG.Counter.C25_activated_too_early_false"
   ],
   "note": "Counters are 16 bit: exact below 65536 unfinished predecessors, refuted from 65536 on (wraps to ready)."
  },
  {
   "property": "C26",
   "status": "proved",
   "theorems": [
    "RG.CL.C26_list_is_a_list",
    "RG.CL.C26_iteration"
   ],
   "note": "Refinement of the sequential list (chunks, offsets, reference counts, iterators) to a specification on mathematical lists, for every chunk size and every client that obeys the contract. Counters are unbounded, chunk memory is not reused."
  },
  {
   "property": "C27",
   "status": "proved",
   "theorems": [
    "RG.CoL.C27_slots_do_not_collide",
    "RG.CoL.C27_values_kept",
    "RG.CoL.C27_one_allocator_per_chunk",
    "RG.CoL.C27_allocation",
    "RG.CoL.C27_no_slot_lost",
    "RG.CoL.C27_returns_after_storing"
   ],
   "note": "All interleavings, any number of threads and any chunk size, on top of the compare-and-swap machine of C30."
  },
  {
   "property": "C28",
   "status": "partial",
   "theorems": [
    "RG.CoL.C28_iteration_complete_partial",
    "RG.CoL.C28_no_removals_partial",
    "RG.CoL.C28_skips_live_element_false",
    "RG.CoL.C28_finds_nothing_false"
   ],
   "note": "False (two witnesses: an element assigned while its successor is removed is skipped for ever; an iteration that begins at a chunk without a reserved slot finds nothing). Proved in all interleavings: nothing else is missed."
  },
  {
   "property": "C29",
   "status": "partial",
   "theorems": [
    "RG.CL.C29_destroyed_once_single_thread_partial",
    "RG.CL.C29_list_destructor_partial",
    "RG.CL.C29_destroys_unused_slots_false",
    "RG.Item.C29_not_before_removal",
    "RG.Item.C29_counted_iterator_safe_partial",
    "RG.Item.C29_not_in_use_partial",
    "RG.Item.C29_destroyed_once_partial",
    "RG.Item.C29_reads_destroyed_false",
    "RG.Item.C29_destroyed_twice_false",
    "RG.Item.C29_leaked_false"
   ],
   "note": "Concurrently false (three witnesses: a value is read after its destruction, destroyed twice, leaked), and the destructor of the list destroys slots that were never assigned. Proved: nothing is destroyed before its removal and counted iterators are safe in all interleavings; at most once and never in use if no stale count is loaded; exactly once if acquire and remove exclude each other, and for one thread."
  },
  {
   "property": "C30",
   "status": "proved",
   "theorems": [
    "RG.AL.C30_reachable_once",
    "RG.AL.C30_skips_only_deleted",
    "RG.AL.C30_iteration_complete"
   ],
   "note": "All interleavings of the compare-and-swap loops, deletions and iterations by any number of threads. Chunks are not deallocated in the model; the plain copy of prev in line 243 is an atomic read."
  },
  {
   "property": "C31",
   "status": "proved",
   "theorems": [
    "RG.Alloc.C31_list_chunk_layout",
    "RG.Alloc.C31_bump_chunk_layout"
   ],
   "note": "List chunks and allocator chunks."
  },
  {
   "property": "C32",
   "status": "proved",
   "theorems": [
    "RG.Alloc.C32_least_power_of_two",
    "RG.Alloc.C32_bounds"
   ],
   "note": "For requests of 1 to 2^63 bytes (larger ones: see C34)."
  },
  {
   "property": "C33",
   "status": "proved",
   "theorems": [
    "RG.Alloc.C33_blocks_disjoint"
   ],
   "note": "Any number n of threads; assumes the system does not hand out the lowest n*capacity bytes of the address space."
  },
  {
   "property": "C34",
   "status": "partial",
   "theorems": [
    "RG.Alloc.C34_answered_partial",
    "RG.Alloc.C34_never_answered_false",
    "RG.Alloc.C34_huge_accepted_false"
   ],
   "note": "Holds for rounded sizes up to the usable size of a chunk. False between usable size and nominal capacity (never answered) and above 2^63 (answered with 0 bytes)."
  },
  {
   "property": "C35",
   "status": "partial",
   "theorems": [
    "RG.Alloc.C35_live_memory_kept_partial",
    "RG.Alloc.C35_live_chunk_released_false"
   ],
   "note": "Holds in executions without the race between reserving and counting a block; false with it (C35_live_chunk_released_false)."
  },
  {
   "property": "C36",
   "status": "partial",
   "theorems": [
    "RG.Alloc.C36_same_allocator_partial",
    "RG.Alloc.C36_other_allocator_false"
   ],
   "note": "Holds with at most as many workers as processing units; false for workers beyond that."
  },
  {
   "property": "C37",
   "status": "proved",
   "theorems": [
    "RG.Spin.C37_mutual_exclusion",
    "RG.Spin.C37_free_lock_can_be_taken",
    "RG.Spin.C37_spinning_has_a_reason"
   ],
   "note": ""
  },
  {
   "property": "C38",
   "status": "proved",
   "theorems": [
    "RG.Cv.C38_blocked_waiter_will_be_woken",
    "RG.Cv.C38_no_lost_wakeup",
    "RG.Cv.C38_waiter_progress",
    "RG.Cv.C38_wait_returns",
    "RG.Cv.C38_no_return_without_notify",
    "RG.Cv.C38_pend_changes"
   ],
   "note": "One waiter, any number of notifiers, sequentially consistent memory."
  },
  {
   "property": "C39",
   "status": "partial",
   "theorems": [
    "RG.Work.C39_blocked_worker_will_be_woken",
    "RG.Work.C39_no_stranded_task",
    "RG.Work.C39_task_is_looked_at",
    "RG.Work.C39_worker_can_run",
    "RG.Work.C39_no_task_lost"
   ],
   "note": "Proved for queues that are linearizable bags; the condition variable is the machine of C38. The real queue is not linearizable for several popping threads: with it, the statement is proved for one worker and is false for two or more (C89, DESIGN 46)."
  },
  {
   "property": "C40",
   "status": "proved",
   "theorems": [
    "RG.Yield.C40_returns_only_when_reached",
    "RG.Yield.C40_blocked_main_thread_will_be_woken",
    "RG.Yield.C40_main_thread_returns",
    "RG.Yield.C40_notifiers_return"
   ],
   "note": "One thread outside of the runtime and nobody else waiting for this event (see C57, C58 for the other cases); sequentially consistent memory."
  },
  {
   "property": "C41",
   "status": "partial",
   "theorems": [
    "RG.Bf.C41_set_changes_exactly",
    "RG.Bf.C41_set_returns_previous_partial",
    "RG.Bf.C41_upper_half_false"
   ],
   "note": "The effect holds for all indices; the returned value only for the lower half of each 64-bit word (C41_upper_half_false)."
  },
  {
   "property": "C42",
   "status": "proved",
   "theorems": [
    "RG.Bf.C42_probe"
   ],
   "note": "Arbitrary concurrent modifications; start position in range."
  },
  {
   "property": "C43",
   "status": "partial",
   "theorems": [
    "RG.Bf.C43_start_word_first_partial",
    "RG.Bf.C43_order_false",
    "RG.Bf.C43_start_offered_false"
   ],
   "note": "Only the preference for the word of the start position holds; order inside the word and exclusion of the start are false of the code."
  },
  {
   "property": "C44",
   "status": "partial",
   "theorems": [
    "RG.Bf.C44_find_free_partial",
    "RG.Bf.C44_unique_claim",
    "RG.Bf.C44_not_claimed_false"
   ],
   "note": "Claims are unique for any number of workers; finding a free worker holds for at most 32 workers and is false beyond (C44_not_claimed_false)."
  },
  {
   "property": "C45",
   "status": "partial",
   "theorems": [
    "RG.Bf.C45_enqueued_partial",
    "RG.Bf.C45_emplaced",
    "RG.Bf.C45_activate_on_worker_partial",
    "RG.Bf.C45_off_worker_false"
   ],
   "note": "Holds on worker threads and whenever a free worker is found; a non-worker thread dereferences a null pointer if all workers are busy (C45_off_worker_false)."
  },
  {
   "property": "C46",
   "status": "partial",
   "theorems": [
    "RG.Ctx.C46_even_spread_partial",
    "RG.Ctx.C46_worker_exists",
    "RG.Ctx.C46_false_after_wraparound",
    "RG.Ctx.C46_unbounded_false",
    "RG.Ctx.C46_even_spread_iff",
    "RG.Ctx.C46_threads_partial",
    "RG.Ctx.C46_threads_false"
   ],
   "note": "One thread: holds for ever exactly if the number of workers is a power of two (C46_even_spread_iff), for other numbers for the first 2^32 submissions; then the difference grows with every wrap-around of the counter. Several threads: the difference is at most the number of threads, and this is sharp (C46_threads_false)."
  },
  {
   "property": "C47",
   "status": "proved",
   "theorems": [
    "RG.Tag.C47_first_supporting",
    "RG.Tag.C47_error_iff_none",
    "RG.Tag.C47_activate_same",
    "RG.Tag.C47_registration"
   ],
   "note": ""
  },
  {
   "property": "C48",
   "status": "proved",
   "theorems": [
    "RG.Mpi.C48_poll",
    "RG.Mpi.C48_history"
   ],
   "note": ""
  },
  {
   "property": "C49",
   "status": "proved",
   "theorems": [
    "RG.Ctx.C49_backtrace_is_ancestry"
   ],
   "note": ""
  },
  {
   "property": "C50",
   "status": "proved",
   "theorems": [
    "RG.Handles.C50_submitted_exactly_once",
    "RG.Handles.C50_never_lost_never_twice"
   ],
   "note": ""
  },
  {
   "property": "C51",
   "status": "proved",
   "theorems": [
    "RG.Handles.C51_released_exactly_once",
    "RG.Handles.C51_not_before_taken",
    "RG.Handles.C51_reading_twice_releases_twice",
    "RG.Handles.C51_get_returns_result"
   ],
   "note": "For futures that are read at most once; reading twice is shown to release twice."
  },
  {
   "property": "C52",
   "status": "proved",
   "theorems": [
    "RG.Cuda.C52_not_in_use",
    "RG.Cuda.C52_reuse_before_create"
   ],
   "note": ""
  },
  {
   "property": "C53",
   "status": "proved",
   "theorems": [
    "RG.Ctx.C53_identifiers_unique",
    "RG.Ctx.C53_bound_is_sharp"
   ],
   "note": ""
  },
  {
   "property": "C54",
   "status": "proved",
   "theorems": [
    "RG.C54_registered_iff_accessed",
    "RG.C54_resources_registers_once",
    "RG.C54_args_register_per_argument"
   ],
   "note": ""
  },
  {
   "property": "C55",
   "status": "partial",
   "theorems": [
    "RG.Tag.C55_false_dependency_type_ignored",
    "RG.Tag.C55_dependency_type_partial"
   ],
   "note": "False of the code: the function does not override the virtual one."
  },
  {
   "property": "C56",
   "status": "partial",
   "theorems": [
    "RG.Alloc.C56_released_partial",
    "RG.Alloc.C56_unbounded_leak_false"
   ],
   "note": "Holds if the last block of a chunk is given back after the chunk is exhausted; otherwise chunks leak without bound (C56_unbounded_leak_false). Of the chunks that are given back, 16 of 17 pages stay mapped (C104)."
  },
  {
   "property": "C57",
   "status": "partial",
   "theorems": [
    "RG.Yield.C57_second_outside_thread_throws_false",
    "RG.Yield.C57_second_outside_thread_sleeps_on_false",
    "RG.Yield.C57_no_early_return_partial"
   ],
   "note": "False of the code. Context::idle is thread-local and set only in the thread that creates the context: in any other outside thread, waiting throws (C57_second_outside_thread_throws_false). If the user sets it there, all outside threads share one condition variable with a single flag, and a thread can sleep on for ever (C57_second_outside_thread_sleeps_on_false). Proved: no thread returns early; the case of one thread is C40."
  },
  {
   "property": "C58",
   "status": "partial",
   "theorems": [
    "RG.Yield.C58_waker_overwritten_false",
    "RG.Yield.C58_last_registered_is_woken_partial"
   ],
   "note": "False of the code: an event has one waker_id (C58_waker_overwritten_false). Proved: the thread which registered last is woken."
  },
  {
   "property": "C59",
   "status": "proved",
   "theorems": [
    "RG.Graph.C59_assertions_hold",
    "RG.Graph.C59_nested_assertion_fails_false",
    "RG.Graph.C59_waiting_parents",
    "RG.Sys.C59_workers_assertions_hold"
   ],
   "note": "The quantifier excludes nested programs whose parents return early; for these C59_nested_assertion_fails_false shows the negation."
  },
  {
   "property": "C60",
   "status": "partial",
   "theorems": [
    "RG.Barrier.C60_returns_only_when_empty_partial",
    "RG.Barrier.C60_blocked_barrier_will_be_woken",
    "RG.Barrier.C60_main_thread_returns_partial",
    "RG.Barrier.C60_other_thread_throws_false",
    "RG.Barrier.C60_task_count_truncated_false"
   ],
   "note": "Proved for the thread which has created the context and fewer than 2^32 tasks. In other threads (in particular inside of tasks) barrier() throws std::bad_function_call as long as there are tasks (C60_other_thread_throws_false); empty() truncates the counter to 32 bits (C60_task_count_truncated_false)."
  },
  {
   "property": "C61",
   "status": "proved",
   "theorems": [
    "RG.Pool.C61_all_stopped_before_destruction",
    "RG.Pool.C61_runs_until_told",
    "RG.Pool.C61_join_returns"
   ],
   "note": "Any number of workers and other threads. The execution of a task is one step, so a task that does not end is outside of the claim; memory is sequentially consistent."
  },
  {
   "property": "C62",
   "status": "partial",
   "theorems": [
    "RG.Wake.C62_waker_id_wakes_worker_partial",
    "RG.Wake.C62_wake_all_wakes_everybody_partial",
    "RG.Wake.C62_waker_id_iff",
    "RG.Wake.C62_waker_id_overflow_false",
    "RG.Wake.C62_waker_id_wraps_false",
    "RG.Wake.C62_wake_all_endless_false"
   ],
   "note": "Holds for fewer than 32768 workers; with more, the id of a worker wakes this worker exactly if there are fewer than 32767 workers before it (C62_waker_id_iff), because ids are 16 bits wide."
  },
  {
   "property": "C63",
   "status": "partial",
   "theorems": [
    "RG.Submit.C63_accepted_completely",
    "RG.Submit.C63_refused_is_reported_partial",
    "RG.Submit.C63_refused_leaves_traces_false",
    "RG.Submit.C63_refused_terminates_false",
    "RG.Submit.C63_bad_tag_submitted_false"
   ],
   "note": "Accepted tasks: proved. Refused tasks: reported if submit() is called explicitly, and never queued; but they stay counted and registered (C63_refused_leaves_traces_false), so that barrier() never returns and later conflicting tasks wait for ever; a dropped builder terminates the program (C63_refused_terminates_false); after a tag out of range the task is submitted without it (C63_bad_tag_submitted_false)."
  },
  {
   "property": "C64",
   "status": "proved",
   "theorems": [
    "RG.Handout.C64_one_worker_per_task",
    "RG.Handout.C64_ready_task_not_lost",
    "RG.Handout.C64_nothing_invented",
    "RG.Handout.C64_new_task_not_lost"
   ],
   "note": "Queues are linearizable bags; workers may be probed in any order, whatever their state. That a task is reported ready exactly once is C13/C15. With the real queues: at most once in all executions (C89_taken_at_most_once); that a task is taken at all needs further conditions (C89)."
  },
  {
   "property": "C65",
   "status": "partial",
   "theorems": [
    "RG.Handout.C65_returned_task_is_ready",
    "RG.Handout.C65_nothing_left_partial",
    "RG.Handout.C65_search_ends",
    "RG.Handout.C65_gives_up_early_false"
   ],
   "note": "False for new tasks: after stealing one new task that is not ready, the search is given up (C65_gives_up_early_false). Everything else is proved."
  },
  {
   "property": "C66",
   "status": "partial",
   "theorems": [
    "RG.AL.C66_iteration_not_stuck",
    "RG.AL.C66_iteration_ends",
    "RG.AL.C66_append_completes",
    "RG.AL.C66_append_lock_free",
    "RG.AL.C66_erased_skipped_partial",
    "RG.AL.C66_erased_visited_false",
    "RG.AL.C66_erased_head_visited_false"
   ],
   "note": "Iterations end within (r+1)^2+4(r+1) steps of the thread and are never stuck; appends need at most 3 steps per chunk appended meanwhile. The last sentence is proved for an iteration that runs while no other thread is active; with other threads it is false (a stale store of skip_deleted_prev brings an erased chunk back between lines 83 and 243), and the head of the list is visited even if erased."
  },
  {
   "property": "C67",
   "status": "partial",
   "theorems": [
    "RG.CoL.C67_finds_earlier_users_partial",
    "RG.CoL.C67_newest_first",
    "RG.CoL.C67_earlier_user_missed_false"
   ],
   "note": "Proved in all interleavings: newest first, each once, only registered tasks. Completeness is proved if registrations with one resource do not overlap (tasks using it are submitted by one thread at a time), with any removals and traversals at the same time. False otherwise: with tasks of different spaces registered at the same time an entry is skipped for ever (C67_earlier_user_missed_false), so that init_graph misses a dependency."
  },
  {
   "property": "C68",
   "status": "proved",
   "theorems": [
    "RG.CoL.C68_iteration_ends",
    "RG.CoL.C68_iteration_not_stuck",
    "RG.CoL.C68_remove_wait_free",
    "RG.CoL.C68_push_completes",
    "RG.CoL.C68_push_alone"
   ],
   "note": ""
  },
  {
   "property": "C69",
   "status": "partial",
   "theorems": [
    "RG.Life.C69_rules_suffice_partial",
    "RG.Life.C69_everything_given_back_partial",
    "RG.Life.C69_before_start_false",
    "RG.Life.C69_after_stop_false",
    "RG.Life.C69_kept_over_restart_false",
    "RG.Life.C69_no_workers_false",
    "RG.Life.C69_repeated_false"
   ],
   "note": "Proved for all sequences of calls that obey simple rules (start with at least one worker, and only when nothing is left from the previous run; create objects and tasks only while the runtime is running; drop at any time): no error, and the counters of the allocators are exact (C69_rules_suffice_partial, C69_everything_given_back_partial). Each rule is necessary: C69_before_start_false, C69_after_stop_false, C69_kept_over_restart_false, C69_no_workers_false, C69_repeated_false."
  },
  {
   "property": "C70",
   "status": "partial",
   "theorems": [
    "RG.Graph.C70_no_deadlock_partial",
    "RG.Graph.C70_work_ends_partial",
    "RG.Graph.C70_completion_possible_partial",
    "RG.Graph.C70_future_of_later_task_false",
    "RG.Graph.C70_waiting_parents_partial"
   ],
   "note": "Proved: no stuck state, no infinite work, completion possible from every state, for programs with one submitter per space and NestingOk; and without NestingOk for programs whose bodies wait for their children. False for a future that was passed in another way, e.g. through a global variable (C70_future_of_later_task_false). A body begins to wait in one step here; for the individual steps see C23 and C71."
  },
  {
   "property": "C71",
   "status": "partial",
   "theorems": [
    "RG.Full.C71_pausing_refines",
    "RG.Full.C71_continued_once_partial",
    "RG.Full.C71_pausing_no_deadlock_partial",
    "RG.Full.C71_pausing_work_ends",
    "RG.Full.C71_one_worker",
    "RG.Full.C71_no_waiting",
    "RG.Full.C71_lost_wakeup_false",
    "RG.Full.C71_resumed_twice_false",
    "RG.Sys.C71_no_deadlock",
    "RG.Sys.C71_work_ends",
    "RG.Sys.C71_completion_possible"
   ],
   "note": "Proved for a machine that composes the task graph, waiting for results, the queues, the workers and their condition variables, in which a body begins to wait in one step; queues are linearizable bags (with the real queues and two or more workers a task can be overlooked: C89, DESIGN 46). With the individual steps of pausing (Model/Full): proved if no result is set while a worker is about to pause a body that waits for it; this holds with one worker (C71_one_worker) and for executions in which no body has to wait (C71_no_waiting). Otherwise false: a body may never be continued (C71_lost_wakeup_false) or be continued twice (C71_resumed_twice_false)."
  },
  {
   "property": "C72",
   "status": "partial",
   "theorems": [
    "RG.Graph.C72_no_race_partial",
    "RG.Graph.C72_bodies_do_not_overlap_partial",
    "RG.Graph.C72_waiting_parents",
    "RG.Graph.C72_early_return_false",
    "RG.Sys.C72_workers_no_race"
   ],
   "note": "Proved for programs whose task bodies wait for the results of their children or at least return after the children have been initialised, with one submitting thread at a time per space; false otherwise (C72_early_return_false)."
  },
  {
   "property": "C73",
   "status": "partial",
   "theorems": [
    "RG.Full.C73_pausing_no_deadlock_partial",
    "RG.Full.C73_pausing_finalize_returns_partial",
    "RG.Full.C73_lost_wakeup_false",
    "RG.Prog.C73_barrier_returns_after_all_tasks",
    "RG.Prog.C73_stopped_after_all_tasks",
    "RG.Prog.C73_ended_worker_stays",
    "RG.Prog.C73_no_deadlock",
    "RG.Prog.C73_work_ends",
    "RG.Prog.C73_finalize_returns",
    "RG.Prog.C73_held_future_blocks_false"
   ],
   "note": "Proved for the composition of the whole runtime (Model/Program), in which a body begins to wait in one step. The restriction to futures that have been read or dropped is needed (C73_held_future_blocks_false). With the individual steps of pausing a body (Model/Full), that barrier() and finalize() return only after all tasks carries over (C71_pausing_refines); that they return is proved if no result is set while a worker is about to pause a body that waits for it (C73_pausing_finalize_returns_partial), and is false otherwise (C73_lost_wakeup_false)."
  },
  {
   "property": "C74",
   "status": "partial",
   "theorems": [
    "RG.GList.C74_like_atomic_lists_partial",
    "RG.GList.C74_submission_order_partial",
    "RG.GList.C74_started_at_most_once_partial",
    "RG.GList.C74_ready_after_conflicting_partial",
    "RG.GList.C74_parent_after_children_partial",
    "RG.GList.C74_barrier_waits_for_all_partial",
    "RG.GList.C74_found_tasks_alive_partial",
    "RG.GList.C74_conflicting_tasks_run_together_false"
   ],
   "note": "Refinement of the graph with atomic lists by the graph with the lock-free lists, if tasks are registered with a resource by one thread at a time. Without this the claim is false of the code: C74_conflicting_tasks_run_together_false. Nested programs are restricted by NestingOk as in C12."
  },
  {
   "property": "C75",
   "status": "partial",
   "theorems": [
    "RG.GList.C75_no_deadlock_partial",
    "RG.GList.C75_completion_possible_partial",
    "RG.GList.C75_barrier_not_stuck_partial"
   ],
   "note": "A step of the graph with atomic lists that does not need the user is always followed by the lock-free lists: an iteration, a removal or a push in progress is completed first, if necessary by another thread that is inside of the same list. Together with the measure of C15 this gives completion. Partial as C74: tasks are registered with a resource by one thread at a time, nested programs are restricted by NestingOk; a task names a resource once or does not conflict with itself. The theorems say that steps exist, not that a scheduler takes them."
  },
  {
   "property": "C76",
   "status": "partial",
   "theorems": [
    "RG.Bodies.C76_declared_is_enough",
    "RG.Bodies.C76_like_sequential_partial",
    "RG.Bodies.C76_after_barrier_partial",
    "RG.Bodies.C76_deterministic_partial",
    "RG.Bodies.C76_flat_like_sequential",
    "RG.Bodies.C76_waiting_parents_like_sequential",
    "RG.Bodies.C76_waiting_is_enough",
    "RG.Bodies.C76_early_return_false",
    "RG.Bodies.C76_workers_like_sequential",
    "RG.Bodies.C76_pausing_like_sequential",
    "RG.Bodies.C76_barrier_like_sequential",
    "RG.Bodies.C76_finalize_like_sequential",
    "RG.Bodies.C76_lists_like_sequential_partial",
    "RG.Bodies.C76_two_threads_false"
   ],
   "note": "Full for programs without nested tasks, and for programs whose bodies wait for the results of their children (any number of workers, pausing, barrier, finalize). For the other nested programs under NestingOk; false without (C76_early_return_false), and if two threads register tasks with the same resource at the same time (C76_two_threads_false)."
  },
  {
   "property": "C77",
   "status": "partial",
   "theorems": [
    "RG.Dyn.C77_declared_is_enough",
    "RG.Dyn.C77_like_sequential_partial",
    "RG.Dyn.C77_after_barrier_partial",
    "RG.Dyn.C77_deterministic_partial",
    "RG.Dyn.C77_structured_like_sequential",
    "RG.Dyn.C77_structured_deterministic",
    "RG.Dyn.C77_checked_programs",
    "RG.Dyn.C77_early_return_false",
    "RG.Dyn.C77_careless_false",
    "RG.Dyn.C77_workers_like_sequential",
    "RG.Dyn.C77_workers_deterministic",
    "RG.Dyn.C77_pausing_like_sequential",
    "RG.Dyn.C77_barrier_like_sequential",
    "RG.Dyn.C77_finalize_like_sequential",
    "RG.Dyn.C77_lists_like_sequential_partial"
   ],
   "note": "The bodies are arbitrary state machines of the user; the accesses of the tasks, their number and their code depend on what has been read. C77_structured_like_sequential and C77_structured_deterministic hold for all programs whose bodies wait for their tasks; C77_checked_programs for programs of a small language that pass a syntactic check; workers, pausing, barrier(), finalize() in Props/DynamicRuntime. The _partial theorems are about programs that act before their tasks have returned (careful executions) and about the lock-free lists with one thread per resource. Bodies that return early and main programs that read before they wait: C77_early_return_false, C77_careless_false."
  },
  {
   "property": "C78",
   "status": "proved",
   "theorems": [
    "RG.Dyn.C78_no_deadlock_partial",
    "RG.Dyn.C78_structured_no_deadlock",
    "RG.Dyn.C78_submission_possible",
    "RG.Dyn.C78_ends_partial",
    "RG.Dyn.C78_structured_ends",
    "RG.Dyn.C78_comes_to_rest",
    "RG.Dyn.C78_checked_programs_end"
   ],
   "note": "No deadlock, no infinite execution and total correctness on the task graph. Bodies wait for any of the tasks that they have submitted themselves (futures). The _partial theorems are about NestingOk configurations with any waiting; the others about programs whose bodies wait for their tasks before they return. Events that the program creates (reserve_event etc.) are not counted as steps of the runtime."
  },
  {
   "property": "C79",
   "status": "partial",
   "theorems": [
    "RG.Dyn.C79_no_deadlock",
    "RG.Dyn.C79_submission_possible",
    "RG.Dyn.C79_ends",
    "RG.Dyn.C79_comes_to_rest",
    "RG.Dyn.C79_like_sequential",
    "RG.Dyn.C79_checked_programs_end"
   ],
   "note": "Bodies make progress only while a worker executes them; a waiting body gives its worker away. Proved for the machine in which pausing a body is one step (Model/System); with the individual steps a wake-up can be lost with two or more workers (C71_lost_wakeup_false), so the claim is partial. Events that the program creates are not counted as steps of the runtime."
  },
  {
   "property": "C80",
   "status": "partial",
   "theorems": [
    "RG.Dyn.C80_no_deadlock",
    "RG.Dyn.C80_ends",
    "RG.Dyn.C80_comes_to_rest",
    "RG.Dyn.C80_like_sequential",
    "RG.Dyn.C80_total",
    "RG.Dyn.C80_checked_programs"
   ],
   "note": "No task table is given in advance (Model/DynamicRun). Proved for the machine in which pausing a body is one step; with the individual steps a wake-up can be lost with two or more workers (C71_lost_wakeup_false), so the claim is partial. Resources are created outside of tasks; events that the program creates are not counted as steps of the runtime."
  },
  {
   "property": "C81",
   "status": "partial",
   "theorems": [
    "RG.Graph.C81_exclusion_partial",
    "RG.Graph.C81_submission_order_partial",
    "RG.Graph.C81_at_most_once_partial",
    "RG.Graph.C81_released_partial",
    "RG.Graph.C81_linked_once_partial",
    "RG.Graph.C81_no_deadlock_partial",
    "RG.Graph.C81_completion_partial",
    "RG.Graph.C81_waits_only_for_conflicting_false",
    "RG.Sys.C81_one_worker_partial",
    "RG.Sys.C81_one_worker_safe_partial"
   ],
   "note": "Partial: the demotions happen in the circumstances Calm; without them the code violates the claim (C22). For one worker and tasks that share at most one resource pairwise only the condition on the parent remains (C81_one_worker_partial). The claim that a task waits only for tasks it conflicts with is refuted for tasks that are initialised during a demotion."
  },
  {
   "property": "C82",
   "status": "partial",
   "theorems": [
    "RG.Demoting.C82_like_sequential_partial",
    "RG.Demoting.C82_one_worker_partial",
    "RG.Demoting.C82_deterministic_partial",
    "RG.Demoting.C82_no_race_partial",
    "RG.Demoting.C82_declared_is_enough",
    "RG.Demoting.C82_completion_partial",
    "RG.Demoting.C82_careless_false"
   ],
   "note": "Partial: the demotions happen in the circumstances Calm, without them the code violates the claim (C22); for one worker and tasks that share at most one resource pairwise there is no such assumption (C82_one_worker_partial). No nested tasks. That bodies use only what they still have is necessary (C82_careless_false)."
  },
  {
   "property": "C83",
   "status": "partial",
   "theorems": [
    "RG.Dyn.C83_accesses_are_declared",
    "RG.Dyn.C83_total",
    "RG.Dyn.C83_raw_pointer_false"
   ],
   "note": "The language is in Model/Guards: what the compiler accepts (Typed) and the sequential meaning (GCode.run) are defined there, independently of accesses and of the runtime. C83_raw_pointer_false: with operator-> of field guards or the public member obj the compiler does not prevent races. Partial for the same reason as C80 (pausing a body is one step), and because bodies with captured guards, resources created inside of tasks and resources that share an object are not in the language."
  },
  {
   "property": "C84",
   "status": "partial",
   "theorems": [
    "RG.Dyn.C84_refines",
    "RG.Dyn.C84_no_deadlock_partial",
    "RG.Dyn.C84_ends",
    "RG.Dyn.C84_comes_to_rest",
    "RG.Dyn.C84_like_sequential",
    "RG.Dyn.C84_total_partial",
    "RG.Dyn.C84_checked_programs_partial",
    "RG.Dyn.C84_guards_partial",
    "RG.Dyn.C84_task_count",
    "RG.Dyn.C84_task_count_code",
    "RG.Dyn.C84_two_workers_false"
   ],
   "note": "Proved without restriction: every execution ends, refines the coarser machines, and has the sequential result when finalize() has waited (C84_ends, C84_refines, C84_like_sequential). That finalize() is reached is proved for one worker, for programs in which only the main program waits on any number of workers, and for all programs on any number of workers in executions in which no result is set while a worker is about to pause a body that waits for it. Without this the claim is false: C84_two_workers_false."
  },
  {
   "property": "C85",
   "status": "partial",
   "theorems": [
    "RG.Vis.C85_conflict_partial",
    "RG.Vis.C85_submit_partial",
    "RG.Vis.C85_get_partial",
    "RG.Vis.C85_barrier_partial",
    "RG.Vis.C85_free_partial",
    "RG.Vis.C85_no_data_race",
    "RG.Vis.C85_every_execution",
    "RG.Vis.C85_checked_programs",
    "RG.Vis.C85_workers",
    "RG.Vis.C85_whole_programs",
    "RG.Vis.C85_guards",
    "RG.Vis.C85_undeclared_false",
    "RG.Vis.C85_not_waiting_false"
   ],
   "note": "C85_no_data_race, C85_checked_programs, C85_workers, C85_whole_programs and C85_guards are complete for programs that meet the two conditions; the theorems about single tasks (ending in _partial) assume in addition that a task returns only when its children have been initialised (NestingOk), which holds for such programs but not for all. The runtime's own data is sequentially consistent in the model, see deviation 42."
  },
  {
   "property": "C86",
   "status": "partial",
   "theorems": [
    "RG.Tso.Work.C86_x86_worker_refines",
    "RG.Tso.Work.C86_x86_worker_quiet",
    "RG.Tso.Work.C86_x86_no_stranded_task",
    "RG.Tso.Work.C86_x86_blocked_worker_will_be_woken",
    "RG.Tso.Work.C86_x86_task_is_looked_at",
    "RG.Tso.Yield.C86_x86_main_thread_sleeps_on_false",
    "RG.Tso.Yield.C86_x86_main_thread_woken_partial",
    "RG.Cxx.C86_cxx_blocked_will_be_woken_partial",
    "RG.Cxx.C86_cxx_does_not_fall_asleep_partial",
    "RG.Cxx.C86_cxx_finds_what_it_was_told_partial",
    "RG.Cxx.C86_cxx_item_found_partial",
    "RG.Cxx.C86_cxx_exchange_suffices",
    "RG.Cxx.C86_cxx_stranded_false",
    "RG.Cxx.C86_cxx_exchange_in_notify_false"
   ],
   "note": "x86, queues of workers: proved completely (the machine with store buffers refines the sequentially consistent one; C39 carries over). x86, a thread waiting for an event: false (C86_x86_main_thread_sleeps_on_false): the plain store of waker_id waits in the store buffer while is_reached() is loaded, the notifying thread finds no waker and the thread sleeps for ever; C86_x86_main_thread_woken_partial proves the claim if that has not happened. Memory of C++ (e.g. ARM): false (C86_cxx_stranded_false): a compare-exchange that fails in CondVar::notify is a relaxed load and may return an old false; proved for tasks whose notify() has returned true (the partial theorems). C86_cxx_exchange_suffices: with an exchange (acq_rel) in notify() and in wait() the claim holds; C86_cxx_exchange_in_notify_false: in notify() alone it is not enough."
  },
  {
   "property": "C87",
   "status": "partial",
   "theorems": [
    "RG.TaskProps.C87_accepted_iff",
    "RG.TaskProps.C87_accepted_effect",
    "RG.TaskProps.C87_rejected_effect_partial",
    "RG.TaskProps.C87_task_patch",
    "RG.TaskProps.C87_sum_of_patches",
    "RG.TaskProps.C87_rejected_keeps_changes_false",
    "RG.TaskProps.C87_rejected_patch_no_exclusion_false",
    "RG.TaskProps.C87_patch_builders_are_values",
    "RG.TaskProps.C87_chain",
    "RG.TaskProps.C87_label",
    "RG.TaskProps.C87_tags",
    "RG.TaskProps.C87_accesses",
    "RG.TaskProps.C87_order_does_not_matter"
   ],
   "note": "Proved: acceptance and effect of patches for every list of properties, sums of patches, builders of patches are values, chains of calls, label, tags, accesses and independence of the order. False: a rejected patch leaves the changed accesses behind (no rollback), and as a consequence a task that is submitted later runs at the same time as the task although the two conflict with the accesses the task was created with (two witnesses). C87_rejected_effect_partial says exactly what a rejected patch has changed."
  },
  {
   "property": "C88",
   "status": "partial",
   "theorems": [
    "RG.MQ.C88_no_fault",
    "RG.MQ.C88_no_use_after_free",
    "RG.MQ.C88_elements_exclusive",
    "RG.MQ.C88_returned_at_most_once",
    "RG.MQ.C88_nothing_lost",
    "RG.MQ.C88_no_leak",
    "RG.MQ.C88_bounded_memory",
    "RG.MQ.C88_fifo",
    "RG.MQ.C88_fails_only_if_empty_partial",
    "RG.MQ.C88_fails_only_if_empty_false",
    "RG.MQ.C88_pop_wait_free",
    "RG.MQ.C88_push_wait_free"
   ],
   "note": "For every block size >= 2 and index size >= 1. The last sentence (a pop finds nothing only if there is nothing) is false for two or more popping threads, C88_fails_only_if_empty_false (DESIGN 45); it holds, with strict first in first out, for a pop that no other pop of the same sub-queue overlaps (C88_fails_only_if_empty_partial). Sequentially consistent memory, unbounded indices. The pool of blocks and the table of sub-queues are abstract here and modelled in C90 and C91."
  },
  {
   "property": "C89",
   "status": "partial",
   "theorems": [
    "RG.RQ.C89_no_stranded_task_partial",
    "RG.RQ.C89_single_worker_no_stranded_task",
    "RG.RQ.C89_single_worker_all_taken",
    "RG.RQ.C89_taken_at_most_once",
    "RG.RQ.C89_no_stranded_task_false"
   ],
   "note": "Proved for one worker, without conditions (C89_single_worker_*), and for any number of workers if nobody else was inside pop of the queue while its worker last found it empty. In general false for two or more workers: C89_no_stranded_task_false, a concrete execution after which the task is never taken (DESIGN 46). At most once: for all executions. Sequentially consistent memory; for the table from threads to sub-queues see C91."
  },
  {
   "property": "C90",
   "status": "proved",
   "theorems": [
    "RG.FL.C90_given_once",
    "RG.FL.C90_refines_set",
    "RG.FL.C90_no_fault",
    "RG.FL.C90_nothing_lost",
    "RG.FL.C90_all_reusable",
    "RG.FL.C90_no_use_after_free",
    "RG.FL.C90_reused",
    "RG.FL.C90_heap_beside_free_block"
   ],
   "note": "For every size of the initial pool and any number of threads (less than 2^31). C90_refines_set is what C88 assumes of the pool. With other calls under way the heap may be asked beside a free block, C90_heap_beside_free_block (DESIGN 47). Sequentially consistent memory, allocation does not fail."
  },
  {
   "property": "C91",
   "status": "partial",
   "theorems": [
    "RG.PH.C91_own_subqueue",
    "RG.PH.C91_same_subqueue",
    "RG.PH.C91_listed",
    "RG.PH.C91_stays_listed",
    "RG.PH.C91_exit_forgets",
    "RG.PH.C91_never_full_partial",
    "RG.PH.C91_probes",
    "RG.PH.C91_one_resizer",
    "RG.PH.C91_finishes",
    "RG.PH.C91_finishes_no_exit",
    "RG.PH.C91_full_table_traps",
    "RG.PH.C91_never_full_false",
    "RG.PH.C91_waits_for_resize"
   ],
   "note": "The tables never get full as long as no thread that has pushed exits, or as long as there is one table (C91_never_full_partial); with exits it is false, and a new thread then searches for ever, C91_never_full_false, C91_full_table_traps. While another thread builds a table a push may wait without end, C91_waits_for_resize (DESIGN 48). Everything else with threads that come and go. Sequentially consistent memory, allocation does not fail."
  },
  {
   "property": "C92",
   "status": "partial",
   "theorems": [
    "RG.WQ.C92_no_fault",
    "RG.WQ.C92_no_use_after_free",
    "RG.WQ.C92_returned_at_most_once",
    "RG.WQ.C92_nothing_lost",
    "RG.WQ.C92_fifo",
    "RG.WQ.C92_handover",
    "RG.WQ.C92_reads_race_free",
    "RG.WQ.C92_stores_last",
    "RG.WQ.C92_no_race_partial",
    "RG.WQ.C92_no_race_acq_rel",
    "RG.WQ.C92_no_race_false",
    "RG.WQ.C92_pop_finds_partial",
    "RG.WQ.C92_pop_finds_false"
   ],
   "note": "Everything except for two things holds for all executions. Data races on the elements: set_empty (line 1607) has release order only, so that with two popping threads a block may be used again before the thread that reuses it knows that an element has been moved out, C92_no_race_false (DESIGN 49); there is none with one popping thread (C92_no_race_partial) or if set_empty acquired as well (C92_no_race_acq_rel). A pop finds what its thread knows of: for one popping thread (C92_pop_finds_partial; for more see C88_fails_only_if_empty_false), and knowledge is needed (C92_pop_finds_false). The memory model is that of C++ without out-of-thin-air values; indices do not overflow; the pool of blocks hands over knowledge."
  },
  {
   "property": "C93",
   "status": "partial",
   "theorems": [
    "RG.Dyn.C93_game_of_life",
    "RG.Dyn.C93_cholesky_tiles",
    "RG.Dyn.C93_cholesky",
    "RG.Dyn.C93_random_graph",
    "RG.Dyn.C93_random_graph_blind",
    "RG.Dyn.C93_mpi_ring_false",
    "RG.Dyn.C93_mpi_ring_partial"
   ],
   "note": "The programs are written in the language of guards, so the theorems are about the whole runtime (C84). Game of life, Cholesky decomposition and random graph are proved for all sizes, data, workers and schedules. The ring of ranks in examples/mpi.cpp is false for rank 0, which receives from rank -1 (C93_mpi_ring_false), and proved for the others. C93_random_graph_blind shows that the test does not see the order of tasks."
  },
  {
   "property": "C94",
   "status": "proved",
   "theorems": [
    "RG.WL.C94_mutual_exclusion",
    "RG.WL.C94_no_race",
    "RG.WL.C94_handover",
    "RG.WL.C94_sequentially_consistent",
    "RG.WL.C94_free_lock_can_be_taken",
    "RG.WL.C94_orders_needed"
   ],
   "note": "all of the statement; the machine allows more than C++ (a failing compare-exchange and the relaxed load return anything)"
  },
  {
   "property": "C95",
   "status": "partial",
   "theorems": [
    "RG.SP.C95_no_use_after_free_partial",
    "RG.SP.C95_life_time_partial",
    "RG.SP.C95_count_partial",
    "RG.SP.C95_destroyed_once_partial",
    "RG.SP.C95_no_leak_partial",
    "RG.SP.C95_release_ends_partial",
    "RG.SP.C95_use_after_free_false"
   ],
   "note": "False of the code: the iterator copies the pointer prev without atomic operations while another thread stores to it; a chunk can be used after it was destroyed (C95_use_after_free_false). Proved: everything in the statement for executions without this data race, and for all executions if the copy were an atomic load."
  },
  {
   "property": "C96",
   "status": "proved",
   "theorems": [
    "RG.LR.C96_counts",
    "RG.LR.C96_elements_stay_alive",
    "RG.LR.C96_destroyed_iff_unreferenced",
    "RG.LR.C96_destroyed_once",
    "RG.LR.C96_unused_slots_are_null",
    "RG.LR.C96_push_takes_one_reference",
    "RG.LR.C96_destroy_drops_the_elements",
    "RG.LR.C96_needs_zero_pages",
    "RG.LR.C96_needs_fresh_memory"
   ],
   "note": "Proved for pages that are zero (Linux: hwloc uses mmap). The code that would clear the memory (hwloc_alloc.hpp:76-92) comes after a return and is never executed. C96_needs_zero_pages and C96_needs_fresh_memory show executions in which an object is destroyed although somebody refers to it, with other pages, and if bump allocators were reset as their documentation demands. Operations are atomic (races: C29, C35, C95)."
  },
  {
   "property": "C97",
   "status": "partial",
   "theorems": [
    "RG.EH.C97_as_the_language_says_partial",
    "RG.EH.C97_terminates_only_by_escape_partial",
    "RG.EH.C97_wrong_exception_false",
    "RG.EH.C97_terminates_false",
    "RG.EH.C97_uncaught_false",
    "RG.EH.C97_exception_not_in_future_false"
   ],
   "note": "Proved for any number of workers and any schedule if no task waits inside of a catch block or while an exception is in flight. False otherwise: a stack switch does not exchange the exception state that the C++ runtime keeps per thread, so throw; may throw the exception of another task or terminate the program, and uncaught_exceptions counts exceptions of others. An exception that leaves a body terminates the program, it is not handed to the future."
  },
  {
   "property": "C98",
   "status": "partial",
   "theorems": [
    "RG.Alloc.C98_addresses",
    "RG.Alloc.C98_aligned_partial",
    "RG.Alloc.C98_ordinary_objects_partial",
    "RG.Alloc.C98_overaligned_false",
    "RG.Alloc.C98_small_request_false",
    "RG.Alloc.C98_list_items"
   ],
   "note": "Proved: the exact address of every block, and that the blocks of a chunk are aligned to the size of its smallest block, hence to 16 bytes if all requests are for more than 8 bytes. The alignment of a type is not asked for anywhere: false for types with a larger alignment, and for ordinary types with 16 bytes after a request of at most 8 bytes."
  },
  {
   "property": "C99",
   "status": "partial",
   "theorems": [
    "RG.BA.C99_values_of_submission_partial",
    "RG.BA.C99_record",
    "RG.BA.C99_caller_keeps_arguments_partial",
    "RG.BA.C99_isolated",
    "RG.BA.C99_once",
    "RG.BA.C99_callable_moved_false",
    "RG.BA.C99_callable_as_argument_false"
   ],
   "note": "Proved for all schedules: the body gets the callable and the values of submission, with the right value categories, once, and arguments of the caller stay as they are (even if given with std::move: they are copied). False for a callable that is an lvalue: emplace_task moves from it, so that a second submission of the same variable gets an empty callable; and for an object that is callable and argument at once."
  },
  {
   "property": "C100",
   "status": "partial",
   "theorems": [
    "RG.BD.C100_allocate_is_the_machine",
    "RG.BD.C100_success",
    "RG.BD.C100_failure_submits_nothing_partial",
    "RG.BD.C100_too_large",
    "RG.BD.C100_at_most_one",
    "RG.BD.C100_half_built_false",
    "RG.BD.C100_hang_false",
    "RG.BD.C100_null_resource_false",
    "RG.BD.C100_memory_lost_false"
   ],
   "note": "Proved: success for objects that fit into a chunk, a clean exception for tasks above the chunk size, nothing is submitted if the builder is not completed, at most one task per statement; the answers of the allocator are those of the concurrent machine of C34. False: an exception in a call on the builder submits the half built task (its destructor submits); tasks and resources between 32 and 64 KiB hang; resources above 64 KiB are constructed at a null pointer; memory is lost if a copy throws."
  },
  {
   "property": "C101",
   "status": "partial",
   "theorems": [
    "RG.Pols.C101_compose",
    "RG.Pols.C101_order_iff",
    "RG.Pols.C101_progress",
    "RG.Pols.C101_all_can_end",
    "RG.Pols.C101_documented_false",
    "RG.Pols.C101_same_tasks",
    "RG.Pols.C101_submission_order_partial"
   ],
   "note": "The requirements as documented do not keep tasks in order (C101_documented_false); the additional law of synchronizing accesses is necessary and sufficient (C101_order_iff). The order for the code in small steps is partial as C12 is (C101_submission_order_partial). Model/Access additionally has user-written policies with the laws as a building block of composed policies."
  },
  {
   "property": "C102",
   "status": "partial",
   "theorems": [
    "RG.Idle.C102_left_only_behind_bodies_partial",
    "RG.Idle.C102_search_ends",
    "RG.Idle.C102_one_task_per_worker",
    "RG.Idle.C102_idle_worker_false",
    "RG.Idle.C102_notify_next_false"
   ],
   "note": "Each task that is left is in the queue of a worker that executes a body (C102_left_only_behind_bodies_partial), this state is always reached (C102_search_ends), and one task per worker uses all workers (C102_one_task_per_worker). Idle workers are not woken for a task in the queue of a busy worker (C102_idle_worker_false), and with REDGRAPES_EMPLACE_NOTIFY_NEXT not for each of them (C102_notify_next_false)."
  },
  {
   "property": "C103",
   "status": "partial",
   "theorems": [
    "RG.Small.C103_resources",
    "RG.Small.C103_functors",
    "RG.Small.C103_functors_with_resources",
    "RG.Small.C103_refinements",
    "RG.Small.C103_scope",
    "RG.Small.C103_access_demotion_false",
    "RG.Small.C103_event"
   ],
   "note": "All programs but 5_access_demotion.cpp; that one throws in update_properties (C103_access_demotion_false, a consequence of C09), and as nothing catches the exception the process is terminated (C97). The programs 2 and 3 are instances of the theorems about whole programs on workers (C84), 4 and 6 of C49, 7 of C18 and C71."
  },
  {
   "property": "C104",
   "status": "partial",
   "theorems": [
    "RG.Pages.C104_chunks_stay_mapped",
    "RG.Pages.C104_others_untouched",
    "RG.Pages.C104_footprint",
    "RG.Pages.C104_given_back_partial",
    "RG.Pages.C104_given_back_false",
    "RG.Pages.C104_footprint_of_programs",
    "RG.Pages.C104_destroyed_false",
    "RG.Pages.C104_long_running_false",
    "RG.Pages.C104_long_running_partial",
    "RG.Pages.C104_no_memory_partial",
    "RG.Pages.C104_no_memory_false"
   ],
   "note": "False of the code: StaticAlloc::deallocate passes sizeof of the object at the beginning of the chunk to hwloc_free, not the size of the chunk, so munmap removes one page of 17 and 16 stay mapped for ever (C104_given_back_false), also at finalize (C104_destroyed_false); a program with at most two blocks in use runs out of address space (C104_long_running_false). When the system refuses memory, the null block is not checked and an object is created at the address null (C104_no_memory_false). Proved: chunks in use stay mapped, nobody else's pages are touched, the exact number of pages in use, and that everything is given back if the two sizes need the same number of pages."
  },
  {
   "property": "C105",
   "status": "partial",
   "theorems": [
    "RG.Format.C105_access",
    "RG.Format.C105_accesses_differ",
    "RG.Format.C105_access_list",
    "RG.Format.C105_properties_partial",
    "RG.Format.C105_task_false",
    "RG.Format.C105_label",
    "RG.Format.C105_label_false"
   ],
   "note": "Accesses and access lists: proved. Tasks: false, every task prints commas around properties that print nothing; holds for lists of properties that all print something. Labels: exactly those without quotation marks, backslashes and control characters are read back."
  },
  {
   "property": "C106",
   "status": "partial",
   "theorems": [
    "RG.Placement.C106_workers_spread",
    "RG.Placement.C106_tasks_local",
    "RG.Placement.C106_blocks",
    "RG.Placement.C106_blocks_local_partial",
    "RG.Placement.C106_blocks_local_false"
   ],
   "note": "Workers and tasks: proved. Other memory: false once a thread has created a task, because current_arena is not restored (C106_blocks_local_false); C106_blocks says exactly where it is."
  },
  {
   "property": "C107",
   "status": "partial",
   "theorems": [
    "RG.Create.C107_numbers",
    "RG.Create.C107_together_partial",
    "RG.Create.C107_race_false",
    "RG.Create.C107_together_false"
   ],
   "note": "The numbers are proved for all interleavings. False: two threads race on a plain static counter, and with several policies a resource and its list of users are in different arenas. Holds for one policy if resources are created one after the other."
  },
  {
   "property": "C108",
   "status": "partial",
   "theorems": [
    "RG.Cuda.C108_device_order_partial",
    "RG.Cuda.C108_notified_after_work",
    "RG.Cuda.C108_events_not_shared",
    "RG.Cuda.C108_events_not_lost",
    "RG.Cuda.C108_device_not_stuck",
    "RG.Cuda.C108_calls_not_stuck_partial",
    "RG.Cuda.C108_all_notified_partial",
    "RG.Cuda.C108_deadlock_false",
    "RG.Cuda.C108_no_edges_false",
    "RG.Cuda.C108_future_false",
    "RG.Cuda.C108_completion_order_false"
   ],
   "note": "Proved for all threads and streams: notification once and after the work, events neither shared nor lost, the device is never stuck. Order on the device: if in_edges contains the dependencies (it is a comment at present) or there is one stream; false with an empty list and two streams (C108_no_edges_false). No task is forgotten: with one thread, with one stream, or if no thread waits for the mutex of a stream with a smaller number than one that it holds; false otherwise (C108_deadlock_false). Post-events are not notified in the order of the dependencies (C108_completion_order_false). Futures are ready before the work is complete (C108_future_false)."
  },
  {
   "property": "C109",
   "status": "partial",
   "theorems": [
    "RG.MpiCalls.C109_own_status",
    "RG.MpiCalls.C109_notified_once",
    "RG.MpiCalls.C109_in_range",
    "RG.MpiCalls.C109_not_stuck",
    "RG.MpiCalls.C109_ends",
    "RG.MpiCalls.C109_null_false",
    "RG.MpiCalls.C109_no_ub_partial",
    "RG.MpiCalls.C109_outside_false"
   ],
   "note": "Proved for calls in tasks and requests other than MPI_REQUEST_NULL: own status, one notification, no index out of range, no call forgotten, polling ends. False: with MPI_REQUEST_NULL the call never returns (C109_null_false), outside of tasks it is undefined behaviour (C109_outside_false). yield itself is the subject of C23 and C71."
  }
 ]
}