import Verif.Props.Access
import Verif.Props.Align
import Verif.Props.Alloc
import Verif.Props.AllocFalse
import Verif.Props.AtomicList
import Verif.Props.AtomicListProgress
import Verif.Props.BindArgs
import Verif.Props.Bitfield
import Verif.Props.Bodies
import Verif.Props.BodiesRuntime
import Verif.Props.Build
import Verif.Props.ChunkedList
import Verif.Props.ConcList
import Verif.Props.ConcListProgress
import Verif.Props.Context
import Verif.Props.Counter
import Verif.Props.Create
import Verif.Props.Cuda
import Verif.Props.CudaPool
import Verif.Props.Demote
import Verif.Props.Demotions
import Verif.Props.DemotionsBodies
import Verif.Props.Dynamic
import Verif.Props.DynamicFull
import Verif.Props.DynamicProgress
import Verif.Props.DynamicRun
import Verif.Props.DynamicRuntime
import Verif.Props.DynamicWorkers
import Verif.Props.Examples
import Verif.Props.Exceptions
import Verif.Props.Field
import Verif.Props.Format
import Verif.Props.FreeList
import Verif.Props.Full
import Verif.Props.Graph
import Verif.Props.GraphFalse
import Verif.Props.GraphList
import Verif.Props.GraphListProgress
import Verif.Props.GraphProgress
import Verif.Props.GraphWait
import Verif.Props.Guards
import Verif.Props.Handles
import Verif.Props.Handout
import Verif.Props.Idle
import Verif.Props.Item
import Verif.Props.Lifecycle
import Verif.Props.ListRefs
import Verif.Props.MpiCalls
import Verif.Props.MpiPool
import Verif.Props.Pages
import Verif.Props.Pause
import Verif.Props.Placement
import Verif.Props.Policies
import Verif.Props.ProducerHash
import Verif.Props.Program
import Verif.Props.Properties
import Verif.Props.Race
import Verif.Props.RealQueue
import Verif.Props.ResourceUser
import Verif.Props.Roundup
import Verif.Props.SharedPtr
import Verif.Props.Shutdown
import Verif.Props.SmallExamples
import Verif.Props.Submit
import Verif.Props.Sync
import Verif.Props.System
import Verif.Props.TagMatch
import Verif.Props.TaskBase
import Verif.Props.TaskQueue
import Verif.Props.UserList
import Verif.Props.Visible
import Verif.Props.Waiting
import Verif.Props.Weak
import Verif.Props.WeakLock
import Verif.Props.WeakQueue
/-
Generated by tools/gen_manifest.py: the axioms of every property theorem.
-/
#print axioms RG.C01_conflict_symmetric
#print axioms RG.C01_task_conflict_symmetric
#print axioms RG.C02_sync_conflicts_with_all
#print axioms RG.C03_superset_conflicts
#print axioms RG.C04_superset_refl
#print axioms RG.C04_superset_trans
#print axioms RG.C04_eq_iff_same_contents
#print axioms RG.C04_superset_antisymm
#print axioms RG.C05_default_sync
#print axioms RG.C05_default_superset
#print axioms RG.C06_no_conflict_no_shared_element
#print axioms RG.C06_conflict_is_real
#print axioms RG.C07_conflict_iff
#print axioms RG.C07_order_irrelevant
#print axioms RG.C07_disjoint_resources
#print axioms RG.C08_superset_iff
#print axioms RG.C08_parent_represents_child_partial
#print axioms RG.C08_false_at_depth_256
#print axioms RG.C09_accepts_iff_partial
#print axioms RG.C09_accepted_is_subset_partial
#print axioms RG.C09_false_demotion_rejected
#print axioms RG.C09_patch_effect
#print axioms RG.C09_removed_is_gone
#print axioms RG.C10_derived_guard_is_restricted
#print axioms RG.C10_area_throws_iff
#print axioms RG.C10_area_granted_iff_inside
#print axioms RG.C10_at_single_position
#print axioms RG.C10_read_only_after_read
#print axioms RG.C10_fresh_covers_everything
#print axioms RG.C11_outside_throws
#print axioms RG.C11_inside_touches_exactly_partial
#print axioms RG.C11_false_out_of_bounds
#print axioms RG.C11_no_shared_element
#print axioms RG.Graph.C12_submission_order_partial
#print axioms RG.Graph.C12_flat_submission_order
#print axioms RG.Graph.C12_one_submitter_partial
#print axioms RG.Graph.C12_descendants_partial
#print axioms RG.Graph.C12_nested_order_false
#print axioms RG.Graph.C12_waiting_parents_partial
#print axioms RG.Sys.C12_workers_keep_order
#print axioms RG.Graph.C13_started_at_most_once_partial
#print axioms RG.Graph.C13_flat_started_at_most_once
#print axioms RG.Graph.C13_nested_started_twice_false
#print axioms RG.Graph.C13_waiting_parents_partial
#print axioms RG.Sys.C13_one_worker
#print axioms RG.Sys.C13_workers_start_once
#print axioms RG.Graph.C14_waits_only_for_conflicting
#print axioms RG.Graph.C14_waits_only_for_earlier
#print axioms RG.Graph.C14_ready_after_conflicting_partial
#print axioms RG.Graph.C15_no_deadlock_partial
#print axioms RG.Graph.C15_work_ends_partial
#print axioms RG.Graph.C15_completion_possible_partial
#print axioms RG.Graph.C15_flat_completion
#print axioms RG.Graph.C16_repeated_resource_never_starts_false
#print axioms RG.Graph.C16_repeated_read_false
#print axioms RG.Graph.C16_nonconflicting_repetition_partial
#print axioms RG.Graph.C17_concurrent_submitters_deadlock_false
#print axioms RG.Graph.C17_one_submitter_no_cycle_partial
#print axioms RG.Graph.C17_one_resource_no_cycle_partial
#print axioms RG.Graph.C18_waits_for_events_partial
#print axioms RG.Graph.C18_waits_for_body_partial
#print axioms RG.Graph.C18_event_ignored_false
#print axioms RG.Sys.C18_workers_wait_for_events
#print axioms RG.Graph.C19_parent_after_children_partial
#print axioms RG.Graph.C19_parent_finished_before_child_false
#print axioms RG.Graph.C19_waiting_parents_partial
#print axioms RG.Sys.C19_workers_parent_after_children
#print axioms RG.Graph.C20_freed_once_partial
#print axioms RG.Graph.C20_freed_partial
#print axioms RG.Graph.C20_no_use_after_free_partial
#print axioms RG.Graph.C20_child_uses_freed_parent_false
#print axioms RG.Graph.C20_freed_while_future_held_false
#print axioms RG.Graph.C20_late_read_false
#print axioms RG.Graph.C20_waiting_parents_partial
#print axioms RG.Sys.C20_workers_free_once
#print axioms RG.Graph.C21_barrier_waits_for_all_partial
#print axioms RG.Graph.C21_held_future_blocks_barrier_partial
#print axioms RG.Graph.C21_barrier_returns_partial
#print axioms RG.Graph.C21_barrier_ignores_child_false
#print axioms RG.Graph.C21_barrier_reached_partial
#print axioms RG.Graph.C21_waiting_parents_partial
#print axioms RG.Sys.C21_workers_barrier
#print axioms RG.Graph.C22_waiting_after_partial
#print axioms RG.Graph.C22_others_unchanged
#print axioms RG.Graph.C22_released_partial
#print axioms RG.Graph.C22_parent_waits_partial
#print axioms RG.Graph.C22_linked_twice_never_released_false
#print axioms RG.Graph.C22_parent_released_false
#print axioms RG.Graph.C22_rejected_releases_nobody_partial
#print axioms RG.Graph.C22_demoted_writer_releases_no_reader_false
#print axioms RG.Graph.C22_demotion_during_init_starts_early_false
#print axioms RG.Graph.C22_demotion_during_init_starts_twice_false
#print axioms RG.Pause.C23_not_before_event_partial
#print axioms RG.Pause.C23_resumed_once_partial
#print axioms RG.Pause.C23_not_twice_partial
#print axioms RG.Pause.C23_lost_wakeup_false
#print axioms RG.Pause.C23_resumed_twice_false
#print axioms RG.TB.C24_body_runs_once_partial
#print axioms RG.TB.C24_never_reruns_with_stack_switching
#print axioms RG.TB.C24_false_without_stack_switching
#print axioms RG.Counter.C25_counter_modulo_partial
#print axioms RG.Counter.C25_exact_below_65536_partial
#print axioms RG.Counter.C25_wraps_around_false
#print axioms RG.Counter.C25_activated_too_early_false
#print axioms RG.CL.C26_list_is_a_list
#print axioms RG.CL.C26_iteration
#print axioms RG.CoL.C27_slots_do_not_collide
#print axioms RG.CoL.C27_values_kept
#print axioms RG.CoL.C27_one_allocator_per_chunk
#print axioms RG.CoL.C27_allocation
#print axioms RG.CoL.C27_no_slot_lost
#print axioms RG.CoL.C27_returns_after_storing
#print axioms RG.CoL.C28_iteration_complete_partial
#print axioms RG.CoL.C28_no_removals_partial
#print axioms RG.CoL.C28_skips_live_element_false
#print axioms RG.CoL.C28_finds_nothing_false
#print axioms RG.CL.C29_destroyed_once_single_thread_partial
#print axioms RG.CL.C29_list_destructor_partial
#print axioms RG.CL.C29_destroys_unused_slots_false
#print axioms RG.Item.C29_not_before_removal
#print axioms RG.Item.C29_counted_iterator_safe_partial
#print axioms RG.Item.C29_not_in_use_partial
#print axioms RG.Item.C29_destroyed_once_partial
#print axioms RG.Item.C29_reads_destroyed_false
#print axioms RG.Item.C29_destroyed_twice_false
#print axioms RG.Item.C29_leaked_false
#print axioms RG.AL.C30_reachable_once
#print axioms RG.AL.C30_skips_only_deleted
#print axioms RG.AL.C30_iteration_complete
#print axioms RG.Alloc.C31_list_chunk_layout
#print axioms RG.Alloc.C31_bump_chunk_layout
#print axioms RG.Alloc.C32_least_power_of_two
#print axioms RG.Alloc.C32_bounds
#print axioms RG.Alloc.C33_blocks_disjoint
#print axioms RG.Alloc.C34_answered_partial
#print axioms RG.Alloc.C34_never_answered_false
#print axioms RG.Alloc.C34_huge_accepted_false
#print axioms RG.Alloc.C35_live_memory_kept_partial
#print axioms RG.Alloc.C35_live_chunk_released_false
#print axioms RG.Alloc.C36_same_allocator_partial
#print axioms RG.Alloc.C36_other_allocator_false
#print axioms RG.Spin.C37_mutual_exclusion
#print axioms RG.Spin.C37_free_lock_can_be_taken
#print axioms RG.Spin.C37_spinning_has_a_reason
#print axioms RG.Cv.C38_blocked_waiter_will_be_woken
#print axioms RG.Cv.C38_no_lost_wakeup
#print axioms RG.Cv.C38_waiter_progress
#print axioms RG.Cv.C38_wait_returns
#print axioms RG.Cv.C38_no_return_without_notify
#print axioms RG.Cv.C38_pend_changes
#print axioms RG.Work.C39_blocked_worker_will_be_woken
#print axioms RG.Work.C39_no_stranded_task
#print axioms RG.Work.C39_task_is_looked_at
#print axioms RG.Work.C39_worker_can_run
#print axioms RG.Work.C39_no_task_lost
#print axioms RG.Yield.C40_returns_only_when_reached
#print axioms RG.Yield.C40_blocked_main_thread_will_be_woken
#print axioms RG.Yield.C40_main_thread_returns
#print axioms RG.Yield.C40_notifiers_return
#print axioms RG.Bf.C41_set_changes_exactly
#print axioms RG.Bf.C41_set_returns_previous_partial
#print axioms RG.Bf.C41_upper_half_false
#print axioms RG.Bf.C42_probe
#print axioms RG.Bf.C43_start_word_first_partial
#print axioms RG.Bf.C43_order_false
#print axioms RG.Bf.C43_start_offered_false
#print axioms RG.Bf.C44_find_free_partial
#print axioms RG.Bf.C44_unique_claim
#print axioms RG.Bf.C44_not_claimed_false
#print axioms RG.Bf.C45_enqueued_partial
#print axioms RG.Bf.C45_emplaced
#print axioms RG.Bf.C45_activate_on_worker_partial
#print axioms RG.Bf.C45_off_worker_false
#print axioms RG.Ctx.C46_even_spread_partial
#print axioms RG.Ctx.C46_worker_exists
#print axioms RG.Ctx.C46_false_after_wraparound
#print axioms RG.Ctx.C46_unbounded_false
#print axioms RG.Ctx.C46_even_spread_iff
#print axioms RG.Ctx.C46_threads_partial
#print axioms RG.Ctx.C46_threads_false
#print axioms RG.Tag.C47_first_supporting
#print axioms RG.Tag.C47_error_iff_none
#print axioms RG.Tag.C47_activate_same
#print axioms RG.Tag.C47_registration
#print axioms RG.Mpi.C48_poll
#print axioms RG.Mpi.C48_history
#print axioms RG.Ctx.C49_backtrace_is_ancestry
#print axioms RG.Handles.C50_submitted_exactly_once
#print axioms RG.Handles.C50_never_lost_never_twice
#print axioms RG.Handles.C51_released_exactly_once
#print axioms RG.Handles.C51_not_before_taken
#print axioms RG.Handles.C51_reading_twice_releases_twice
#print axioms RG.Handles.C51_get_returns_result
#print axioms RG.Cuda.C52_not_in_use
#print axioms RG.Cuda.C52_reuse_before_create
#print axioms RG.Ctx.C53_identifiers_unique
#print axioms RG.Ctx.C53_bound_is_sharp
#print axioms RG.C54_registered_iff_accessed
#print axioms RG.C54_resources_registers_once
#print axioms RG.C54_args_register_per_argument
#print axioms RG.Tag.C55_false_dependency_type_ignored
#print axioms RG.Tag.C55_dependency_type_partial
#print axioms RG.Alloc.C56_released_partial
#print axioms RG.Alloc.C56_unbounded_leak_false
#print axioms RG.Yield.C57_second_outside_thread_throws_false
#print axioms RG.Yield.C57_second_outside_thread_sleeps_on_false
#print axioms RG.Yield.C57_no_early_return_partial
#print axioms RG.Yield.C58_waker_overwritten_false
#print axioms RG.Yield.C58_last_registered_is_woken_partial
#print axioms RG.Graph.C59_assertions_hold
#print axioms RG.Graph.C59_nested_assertion_fails_false
#print axioms RG.Graph.C59_waiting_parents
#print axioms RG.Sys.C59_workers_assertions_hold
#print axioms RG.Barrier.C60_returns_only_when_empty_partial
#print axioms RG.Barrier.C60_blocked_barrier_will_be_woken
#print axioms RG.Barrier.C60_main_thread_returns_partial
#print axioms RG.Barrier.C60_other_thread_throws_false
#print axioms RG.Barrier.C60_task_count_truncated_false
#print axioms RG.Pool.C61_all_stopped_before_destruction
#print axioms RG.Pool.C61_runs_until_told
#print axioms RG.Pool.C61_join_returns
#print axioms RG.Wake.C62_waker_id_wakes_worker_partial
#print axioms RG.Wake.C62_wake_all_wakes_everybody_partial
#print axioms RG.Wake.C62_waker_id_iff
#print axioms RG.Wake.C62_waker_id_overflow_false
#print axioms RG.Wake.C62_waker_id_wraps_false
#print axioms RG.Wake.C62_wake_all_endless_false
#print axioms RG.Submit.C63_accepted_completely
#print axioms RG.Submit.C63_refused_is_reported_partial
#print axioms RG.Submit.C63_refused_leaves_traces_false
#print axioms RG.Submit.C63_refused_terminates_false
#print axioms RG.Submit.C63_bad_tag_submitted_false
#print axioms RG.Handout.C64_one_worker_per_task
#print axioms RG.Handout.C64_ready_task_not_lost
#print axioms RG.Handout.C64_nothing_invented
#print axioms RG.Handout.C64_new_task_not_lost
#print axioms RG.Handout.C65_returned_task_is_ready
#print axioms RG.Handout.C65_nothing_left_partial
#print axioms RG.Handout.C65_search_ends
#print axioms RG.Handout.C65_gives_up_early_false
#print axioms RG.AL.C66_iteration_not_stuck
#print axioms RG.AL.C66_iteration_ends
#print axioms RG.AL.C66_append_completes
#print axioms RG.AL.C66_append_lock_free
#print axioms RG.AL.C66_erased_skipped_partial
#print axioms RG.AL.C66_erased_visited_false
#print axioms RG.AL.C66_erased_head_visited_false
#print axioms RG.CoL.C67_finds_earlier_users_partial
#print axioms RG.CoL.C67_newest_first
#print axioms RG.CoL.C67_earlier_user_missed_false
#print axioms RG.CoL.C68_iteration_ends
#print axioms RG.CoL.C68_iteration_not_stuck
#print axioms RG.CoL.C68_remove_wait_free
#print axioms RG.CoL.C68_push_completes
#print axioms RG.CoL.C68_push_alone
#print axioms RG.Life.C69_rules_suffice_partial
#print axioms RG.Life.C69_everything_given_back_partial
#print axioms RG.Life.C69_before_start_false
#print axioms RG.Life.C69_after_stop_false
#print axioms RG.Life.C69_kept_over_restart_false
#print axioms RG.Life.C69_no_workers_false
#print axioms RG.Life.C69_repeated_false
#print axioms RG.Graph.C70_no_deadlock_partial
#print axioms RG.Graph.C70_work_ends_partial
#print axioms RG.Graph.C70_completion_possible_partial
#print axioms RG.Graph.C70_future_of_later_task_false
#print axioms RG.Graph.C70_waiting_parents_partial
#print axioms RG.Full.C71_pausing_refines
#print axioms RG.Full.C71_continued_once_partial
#print axioms RG.Full.C71_pausing_no_deadlock_partial
#print axioms RG.Full.C71_pausing_work_ends
#print axioms RG.Full.C71_one_worker
#print axioms RG.Full.C71_no_waiting
#print axioms RG.Full.C71_lost_wakeup_false
#print axioms RG.Full.C71_resumed_twice_false
#print axioms RG.Sys.C71_no_deadlock
#print axioms RG.Sys.C71_work_ends
#print axioms RG.Sys.C71_completion_possible
#print axioms RG.Graph.C72_no_race_partial
#print axioms RG.Graph.C72_bodies_do_not_overlap_partial
#print axioms RG.Graph.C72_waiting_parents
#print axioms RG.Graph.C72_early_return_false
#print axioms RG.Sys.C72_workers_no_race
#print axioms RG.Full.C73_pausing_no_deadlock_partial
#print axioms RG.Full.C73_pausing_finalize_returns_partial
#print axioms RG.Full.C73_lost_wakeup_false
#print axioms RG.Prog.C73_barrier_returns_after_all_tasks
#print axioms RG.Prog.C73_stopped_after_all_tasks
#print axioms RG.Prog.C73_ended_worker_stays
#print axioms RG.Prog.C73_no_deadlock
#print axioms RG.Prog.C73_work_ends
#print axioms RG.Prog.C73_finalize_returns
#print axioms RG.Prog.C73_held_future_blocks_false
#print axioms RG.GList.C74_like_atomic_lists_partial
#print axioms RG.GList.C74_submission_order_partial
#print axioms RG.GList.C74_started_at_most_once_partial
#print axioms RG.GList.C74_ready_after_conflicting_partial
#print axioms RG.GList.C74_parent_after_children_partial
#print axioms RG.GList.C74_barrier_waits_for_all_partial
#print axioms RG.GList.C74_found_tasks_alive_partial
#print axioms RG.GList.C74_conflicting_tasks_run_together_false
#print axioms RG.GList.C75_no_deadlock_partial
#print axioms RG.GList.C75_completion_possible_partial
#print axioms RG.GList.C75_barrier_not_stuck_partial
#print axioms RG.Bodies.C76_declared_is_enough
#print axioms RG.Bodies.C76_like_sequential_partial
#print axioms RG.Bodies.C76_after_barrier_partial
#print axioms RG.Bodies.C76_deterministic_partial
#print axioms RG.Bodies.C76_flat_like_sequential
#print axioms RG.Bodies.C76_waiting_parents_like_sequential
#print axioms RG.Bodies.C76_waiting_is_enough
#print axioms RG.Bodies.C76_early_return_false
#print axioms RG.Bodies.C76_workers_like_sequential
#print axioms RG.Bodies.C76_pausing_like_sequential
#print axioms RG.Bodies.C76_barrier_like_sequential
#print axioms RG.Bodies.C76_finalize_like_sequential
#print axioms RG.Bodies.C76_lists_like_sequential_partial
#print axioms RG.Bodies.C76_two_threads_false
#print axioms RG.Dyn.C77_declared_is_enough
#print axioms RG.Dyn.C77_like_sequential_partial
#print axioms RG.Dyn.C77_after_barrier_partial
#print axioms RG.Dyn.C77_deterministic_partial
#print axioms RG.Dyn.C77_structured_like_sequential
#print axioms RG.Dyn.C77_structured_deterministic
#print axioms RG.Dyn.C77_checked_programs
#print axioms RG.Dyn.C77_early_return_false
#print axioms RG.Dyn.C77_careless_false
#print axioms RG.Dyn.C77_workers_like_sequential
#print axioms RG.Dyn.C77_workers_deterministic
#print axioms RG.Dyn.C77_pausing_like_sequential
#print axioms RG.Dyn.C77_barrier_like_sequential
#print axioms RG.Dyn.C77_finalize_like_sequential
#print axioms RG.Dyn.C77_lists_like_sequential_partial
#print axioms RG.Dyn.C78_no_deadlock_partial
#print axioms RG.Dyn.C78_structured_no_deadlock
#print axioms RG.Dyn.C78_submission_possible
#print axioms RG.Dyn.C78_ends_partial
#print axioms RG.Dyn.C78_structured_ends
#print axioms RG.Dyn.C78_comes_to_rest
#print axioms RG.Dyn.C78_checked_programs_end
#print axioms RG.Dyn.C79_no_deadlock
#print axioms RG.Dyn.C79_submission_possible
#print axioms RG.Dyn.C79_ends
#print axioms RG.Dyn.C79_comes_to_rest
#print axioms RG.Dyn.C79_like_sequential
#print axioms RG.Dyn.C79_checked_programs_end
#print axioms RG.Dyn.C80_no_deadlock
#print axioms RG.Dyn.C80_ends
#print axioms RG.Dyn.C80_comes_to_rest
#print axioms RG.Dyn.C80_like_sequential
#print axioms RG.Dyn.C80_total
#print axioms RG.Dyn.C80_checked_programs
#print axioms RG.Graph.C81_exclusion_partial
#print axioms RG.Graph.C81_submission_order_partial
#print axioms RG.Graph.C81_at_most_once_partial
#print axioms RG.Graph.C81_released_partial
#print axioms RG.Graph.C81_linked_once_partial
#print axioms RG.Graph.C81_no_deadlock_partial
#print axioms RG.Graph.C81_completion_partial
#print axioms RG.Graph.C81_waits_only_for_conflicting_false
#print axioms RG.Sys.C81_one_worker_partial
#print axioms RG.Sys.C81_one_worker_safe_partial
#print axioms RG.Demoting.C82_like_sequential_partial
#print axioms RG.Demoting.C82_one_worker_partial
#print axioms RG.Demoting.C82_deterministic_partial
#print axioms RG.Demoting.C82_no_race_partial
#print axioms RG.Demoting.C82_declared_is_enough
#print axioms RG.Demoting.C82_completion_partial
#print axioms RG.Demoting.C82_careless_false
#print axioms RG.Dyn.C83_accesses_are_declared
#print axioms RG.Dyn.C83_total
#print axioms RG.Dyn.C83_raw_pointer_false
#print axioms RG.Dyn.C84_refines
#print axioms RG.Dyn.C84_no_deadlock_partial
#print axioms RG.Dyn.C84_ends
#print axioms RG.Dyn.C84_comes_to_rest
#print axioms RG.Dyn.C84_like_sequential
#print axioms RG.Dyn.C84_total_partial
#print axioms RG.Dyn.C84_checked_programs_partial
#print axioms RG.Dyn.C84_guards_partial
#print axioms RG.Dyn.C84_task_count
#print axioms RG.Dyn.C84_task_count_code
#print axioms RG.Dyn.C84_two_workers_false
#print axioms RG.Vis.C85_conflict_partial
#print axioms RG.Vis.C85_submit_partial
#print axioms RG.Vis.C85_get_partial
#print axioms RG.Vis.C85_barrier_partial
#print axioms RG.Vis.C85_free_partial
#print axioms RG.Vis.C85_no_data_race
#print axioms RG.Vis.C85_every_execution
#print axioms RG.Vis.C85_checked_programs
#print axioms RG.Vis.C85_workers
#print axioms RG.Vis.C85_whole_programs
#print axioms RG.Vis.C85_guards
#print axioms RG.Vis.C85_undeclared_false
#print axioms RG.Vis.C85_not_waiting_false
#print axioms RG.Tso.Work.C86_x86_worker_refines
#print axioms RG.Tso.Work.C86_x86_worker_quiet
#print axioms RG.Tso.Work.C86_x86_no_stranded_task
#print axioms RG.Tso.Work.C86_x86_blocked_worker_will_be_woken
#print axioms RG.Tso.Work.C86_x86_task_is_looked_at
#print axioms RG.Tso.Yield.C86_x86_main_thread_sleeps_on_false
#print axioms RG.Tso.Yield.C86_x86_main_thread_woken_partial
#print axioms RG.Cxx.C86_cxx_blocked_will_be_woken_partial
#print axioms RG.Cxx.C86_cxx_does_not_fall_asleep_partial
#print axioms RG.Cxx.C86_cxx_finds_what_it_was_told_partial
#print axioms RG.Cxx.C86_cxx_item_found_partial
#print axioms RG.Cxx.C86_cxx_exchange_suffices
#print axioms RG.Cxx.C86_cxx_stranded_false
#print axioms RG.Cxx.C86_cxx_exchange_in_notify_false
#print axioms RG.TaskProps.C87_accepted_iff
#print axioms RG.TaskProps.C87_accepted_effect
#print axioms RG.TaskProps.C87_rejected_effect_partial
#print axioms RG.TaskProps.C87_task_patch
#print axioms RG.TaskProps.C87_sum_of_patches
#print axioms RG.TaskProps.C87_rejected_keeps_changes_false
#print axioms RG.TaskProps.C87_rejected_patch_no_exclusion_false
#print axioms RG.TaskProps.C87_patch_builders_are_values
#print axioms RG.TaskProps.C87_chain
#print axioms RG.TaskProps.C87_label
#print axioms RG.TaskProps.C87_tags
#print axioms RG.TaskProps.C87_accesses
#print axioms RG.TaskProps.C87_order_does_not_matter
#print axioms RG.MQ.C88_no_fault
#print axioms RG.MQ.C88_no_use_after_free
#print axioms RG.MQ.C88_elements_exclusive
#print axioms RG.MQ.C88_returned_at_most_once
#print axioms RG.MQ.C88_nothing_lost
#print axioms RG.MQ.C88_no_leak
#print axioms RG.MQ.C88_bounded_memory
#print axioms RG.MQ.C88_fifo
#print axioms RG.MQ.C88_fails_only_if_empty_partial
#print axioms RG.MQ.C88_fails_only_if_empty_false
#print axioms RG.MQ.C88_pop_wait_free
#print axioms RG.MQ.C88_push_wait_free
#print axioms RG.RQ.C89_no_stranded_task_partial
#print axioms RG.RQ.C89_single_worker_no_stranded_task
#print axioms RG.RQ.C89_single_worker_all_taken
#print axioms RG.RQ.C89_taken_at_most_once
#print axioms RG.RQ.C89_no_stranded_task_false
#print axioms RG.FL.C90_given_once
#print axioms RG.FL.C90_refines_set
#print axioms RG.FL.C90_no_fault
#print axioms RG.FL.C90_nothing_lost
#print axioms RG.FL.C90_all_reusable
#print axioms RG.FL.C90_no_use_after_free
#print axioms RG.FL.C90_reused
#print axioms RG.FL.C90_heap_beside_free_block
#print axioms RG.PH.C91_own_subqueue
#print axioms RG.PH.C91_same_subqueue
#print axioms RG.PH.C91_listed
#print axioms RG.PH.C91_stays_listed
#print axioms RG.PH.C91_exit_forgets
#print axioms RG.PH.C91_never_full_partial
#print axioms RG.PH.C91_probes
#print axioms RG.PH.C91_one_resizer
#print axioms RG.PH.C91_finishes
#print axioms RG.PH.C91_finishes_no_exit
#print axioms RG.PH.C91_full_table_traps
#print axioms RG.PH.C91_never_full_false
#print axioms RG.PH.C91_waits_for_resize
#print axioms RG.WQ.C92_no_fault
#print axioms RG.WQ.C92_no_use_after_free
#print axioms RG.WQ.C92_returned_at_most_once
#print axioms RG.WQ.C92_nothing_lost
#print axioms RG.WQ.C92_fifo
#print axioms RG.WQ.C92_handover
#print axioms RG.WQ.C92_reads_race_free
#print axioms RG.WQ.C92_stores_last
#print axioms RG.WQ.C92_no_race_partial
#print axioms RG.WQ.C92_no_race_acq_rel
#print axioms RG.WQ.C92_no_race_false
#print axioms RG.WQ.C92_pop_finds_partial
#print axioms RG.WQ.C92_pop_finds_false
#print axioms RG.Dyn.C93_game_of_life
#print axioms RG.Dyn.C93_cholesky_tiles
#print axioms RG.Dyn.C93_cholesky
#print axioms RG.Dyn.C93_random_graph
#print axioms RG.Dyn.C93_random_graph_blind
#print axioms RG.Dyn.C93_mpi_ring_false
#print axioms RG.Dyn.C93_mpi_ring_partial
#print axioms RG.WL.C94_mutual_exclusion
#print axioms RG.WL.C94_no_race
#print axioms RG.WL.C94_handover
#print axioms RG.WL.C94_sequentially_consistent
#print axioms RG.WL.C94_free_lock_can_be_taken
#print axioms RG.WL.C94_orders_needed
#print axioms RG.SP.C95_no_use_after_free_partial
#print axioms RG.SP.C95_life_time_partial
#print axioms RG.SP.C95_count_partial
#print axioms RG.SP.C95_destroyed_once_partial
#print axioms RG.SP.C95_no_leak_partial
#print axioms RG.SP.C95_release_ends_partial
#print axioms RG.SP.C95_use_after_free_false
#print axioms RG.LR.C96_counts
#print axioms RG.LR.C96_elements_stay_alive
#print axioms RG.LR.C96_destroyed_iff_unreferenced
#print axioms RG.LR.C96_destroyed_once
#print axioms RG.LR.C96_unused_slots_are_null
#print axioms RG.LR.C96_push_takes_one_reference
#print axioms RG.LR.C96_destroy_drops_the_elements
#print axioms RG.LR.C96_needs_zero_pages
#print axioms RG.LR.C96_needs_fresh_memory
#print axioms RG.EH.C97_as_the_language_says_partial
#print axioms RG.EH.C97_terminates_only_by_escape_partial
#print axioms RG.EH.C97_wrong_exception_false
#print axioms RG.EH.C97_terminates_false
#print axioms RG.EH.C97_uncaught_false
#print axioms RG.EH.C97_exception_not_in_future_false
#print axioms RG.Alloc.C98_addresses
#print axioms RG.Alloc.C98_aligned_partial
#print axioms RG.Alloc.C98_ordinary_objects_partial
#print axioms RG.Alloc.C98_overaligned_false
#print axioms RG.Alloc.C98_small_request_false
#print axioms RG.Alloc.C98_list_items
#print axioms RG.BA.C99_values_of_submission_partial
#print axioms RG.BA.C99_record
#print axioms RG.BA.C99_caller_keeps_arguments_partial
#print axioms RG.BA.C99_isolated
#print axioms RG.BA.C99_once
#print axioms RG.BA.C99_callable_moved_false
#print axioms RG.BA.C99_callable_as_argument_false
#print axioms RG.BD.C100_allocate_is_the_machine
#print axioms RG.BD.C100_success
#print axioms RG.BD.C100_failure_submits_nothing_partial
#print axioms RG.BD.C100_too_large
#print axioms RG.BD.C100_at_most_one
#print axioms RG.BD.C100_half_built_false
#print axioms RG.BD.C100_hang_false
#print axioms RG.BD.C100_null_resource_false
#print axioms RG.BD.C100_memory_lost_false
#print axioms RG.Pols.C101_compose
#print axioms RG.Pols.C101_order_iff
#print axioms RG.Pols.C101_progress
#print axioms RG.Pols.C101_all_can_end
#print axioms RG.Pols.C101_documented_false
#print axioms RG.Pols.C101_same_tasks
#print axioms RG.Pols.C101_submission_order_partial
#print axioms RG.Idle.C102_left_only_behind_bodies_partial
#print axioms RG.Idle.C102_search_ends
#print axioms RG.Idle.C102_one_task_per_worker
#print axioms RG.Idle.C102_idle_worker_false
#print axioms RG.Idle.C102_notify_next_false
#print axioms RG.Small.C103_resources
#print axioms RG.Small.C103_functors
#print axioms RG.Small.C103_functors_with_resources
#print axioms RG.Small.C103_refinements
#print axioms RG.Small.C103_scope
#print axioms RG.Small.C103_access_demotion_false
#print axioms RG.Small.C103_event
#print axioms RG.Pages.C104_chunks_stay_mapped
#print axioms RG.Pages.C104_others_untouched
#print axioms RG.Pages.C104_footprint
#print axioms RG.Pages.C104_given_back_partial
#print axioms RG.Pages.C104_given_back_false
#print axioms RG.Pages.C104_footprint_of_programs
#print axioms RG.Pages.C104_destroyed_false
#print axioms RG.Pages.C104_long_running_false
#print axioms RG.Pages.C104_long_running_partial
#print axioms RG.Pages.C104_no_memory_partial
#print axioms RG.Pages.C104_no_memory_false
#print axioms RG.Format.C105_access
#print axioms RG.Format.C105_accesses_differ
#print axioms RG.Format.C105_access_list
#print axioms RG.Format.C105_properties_partial
#print axioms RG.Format.C105_task_false
#print axioms RG.Format.C105_label
#print axioms RG.Format.C105_label_false
#print axioms RG.Placement.C106_workers_spread
#print axioms RG.Placement.C106_tasks_local
#print axioms RG.Placement.C106_blocks
#print axioms RG.Placement.C106_blocks_local_partial
#print axioms RG.Placement.C106_blocks_local_false
#print axioms RG.Create.C107_numbers
#print axioms RG.Create.C107_together_partial
#print axioms RG.Create.C107_race_false
#print axioms RG.Create.C107_together_false
#print axioms RG.Cuda.C108_device_order_partial
#print axioms RG.Cuda.C108_notified_after_work
#print axioms RG.Cuda.C108_events_not_shared
#print axioms RG.Cuda.C108_events_not_lost
#print axioms RG.Cuda.C108_device_not_stuck
#print axioms RG.Cuda.C108_calls_not_stuck_partial
#print axioms RG.Cuda.C108_all_notified_partial
#print axioms RG.Cuda.C108_deadlock_false
#print axioms RG.Cuda.C108_no_edges_false
#print axioms RG.Cuda.C108_future_false
#print axioms RG.Cuda.C108_completion_order_false
#print axioms RG.MpiCalls.C109_own_status
#print axioms RG.MpiCalls.C109_notified_once
#print axioms RG.MpiCalls.C109_in_range
#print axioms RG.MpiCalls.C109_not_stuck
#print axioms RG.MpiCalls.C109_ends
#print axioms RG.MpiCalls.C109_null_false
#print axioms RG.MpiCalls.C109_no_ub_partial
#print axioms RG.MpiCalls.C109_outside_false
