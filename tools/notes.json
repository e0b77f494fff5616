{
 "C08": {
  "note": "Holds for scope levels below 256; the scope level of a user is stored in 8 bits, which breaks the claim from depth 256 on (C08_false_at_depth_256)."
 },
 "C09": {
  "note": "Acceptance is characterised exactly, but the code compares with an empty copy of the access list, so legal demotions are rejected (C09_false_demotion_rejected)."
 },
 "C11": {
  "note": "The guarded area is respected, but the container's own extents are not checked (C11_false_out_of_bounds)."
 },
 "C24": {
  "note": "Holds with stack switching; without it a waiting body is re-executed for ever (C24_false_without_stack_switching)."
 },
 "C46": {
  "note": "One thread: holds for ever exactly if the number of workers is a power of two (C46_even_spread_iff), for other numbers for the first 2^32 submissions; then the difference grows with every wrap-around of the counter. Several threads: the difference is at most the number of threads, and this is sharp (C46_threads_false)."
 },
 "C51": {
  "status": "proved",
  "note": "For futures that are read at most once; reading twice is shown to release twice."
 },
 "C55": {
  "note": "False of the code: the function does not override the virtual one."
 },
 "C31": {
  "note": "List chunks and allocator chunks."
 },
 "C32": {
  "note": "For requests of 1 to 2^63 bytes (larger ones: see C34)."
 },
 "C33": {
  "note": "Any number n of threads; assumes the system does not hand out the lowest n*capacity bytes of the address space."
 },
 "C34": {
  "note": "Holds for rounded sizes up to the usable size of a chunk. False between usable size and nominal capacity (never answered) and above 2^63 (answered with 0 bytes)."
 },
 "C35": {
  "note": "Holds in executions without the race between reserving and counting a block; false with it (C35_live_chunk_released_false)."
 },
 "C36": {
  "note": "Holds with at most as many workers as processing units; false for workers beyond that."
 },
 "C56": {
  "note": "Holds if the last block of a chunk is given back after the chunk is exhausted; otherwise chunks leak without bound (C56_unbounded_leak_false). Of the chunks that are given back, 16 of 17 pages stay mapped (C104)."
 },
 "C41": {
  "note": "The effect holds for all indices; the returned value only for the lower half of each 64-bit word (C41_upper_half_false)."
 },
 "C42": {
  "note": "Arbitrary concurrent modifications; start position in range."
 },
 "C43": {
  "note": "Only the preference for the word of the start position holds; order inside the word and exclusion of the start are false of the code."
 },
 "C44": {
  "note": "Claims are unique for any number of workers; finding a free worker holds for at most 32 workers and is false beyond (C44_not_claimed_false)."
 },
 "C45": {
  "note": "Holds on worker threads and whenever a free worker is found; a non-worker thread dereferences a null pointer if all workers are busy (C45_off_worker_false)."
 },
 "C38": {
  "note": "One waiter, any number of notifiers, sequentially consistent memory."
 },
 "C39": {
  "note": "Proved for queues that are linearizable bags; the condition variable is the machine of C38. The real queue is not linearizable for several popping threads: with it, the statement is proved for one worker and is false for two or more (C89, DESIGN 46).",
  "status": "partial"
 },
 "C40": {
  "note": "One thread outside of the runtime and nobody else waiting for this event (see C57, C58 for the other cases); sequentially consistent memory."
 },
 "C57": {
  "note": "False of the code. Context::idle is thread-local and set only in the thread that creates the context: in any other outside thread, waiting throws (C57_second_outside_thread_throws_false). If the user sets it there, all outside threads share one condition variable with a single flag, and a thread can sleep on for ever (C57_second_outside_thread_sleeps_on_false). Proved: no thread returns early; the case of one thread is C40."
 },
 "C58": {
  "note": "False of the code: an event has one waker_id (C58_waker_overwritten_false). Proved: the thread which registered last is woken."
 },
 "C12": {
  "note": "Proved for all interleavings for flat programs (C12_flat_submission_order) and for nested programs whose task bodies return after their children have been initialised. False without that assumption: C12_nested_order_false. The programs do not demote accesses while tasks are being initialised; for these C22_demotion_during_init_starts_early_false."
 },
 "C13": {
  "note": "As for C12; C13_nested_started_twice_false is a nested program in which a task is started twice, C22_demotion_during_init_starts_twice_false a program with a demotion. A body that waits may be continued twice, see C71_resumed_twice_false."
 },
 "C14": {
  "note": "For all programs: a task waits only for conflicting tasks of its space that are registered before it for one of its resources. With one submitting thread per space these were submitted before it, unless the task names a resource twice (then it may wait for itself, see C16). That a task becomes ready as soon as those tasks have finished is proved for flat programs and nested ones with NestingOk."
 },
 "C15": {
  "note": "Proved for flat programs (C15_flat_completion) and nested ones with NestingOk: no stuck state, no infinite work, completion possible from every state."
 },
 "C16": {
  "note": "False: a repeated resource with conflicting accesses makes the task wait for itself, for ever. Holds for tasks that do not conflict with themselves."
 },
 "C17": {
  "note": "False: two concurrent submitters can create a cyclic wait. Holds for one submitter at a time, and for tasks with one resource each."
 },
 "C18": {
  "note": "Proved for flat programs and nested ones with NestingOk, also with workers (C18_workers_wait_for_events). False if bodies of parents return before their children have been initialised: C18_event_ignored_false."
 },
 "C19": {
  "note": "False if the body of the parent returns before the child has been initialised; proved otherwise."
 },
 "C20": {
  "note": "Freed exactly once and only after the end, and no access afterwards, except for the read of waker_id in event.cpp:160, for which C20_late_read_false is a witness."
 },
 "C21": {
  "note": "Proved for flat programs and nested ones with NestingOk; C21_barrier_ignores_child_false otherwise."
 },
 "C59": {
  "note": "The quantifier excludes nested programs whose parents return early; for these C59_nested_assertion_fails_false shows the negation.",
  "status": "proved"
 },
 "C25": {
  "note": "Counters are 16 bit: exact below 65536 unfinished predecessors, refuted from 65536 on (wraps to ready)."
 },
 "C23": {
  "note": "Proved in all interleavings: not resumed before the event. Proved if the notification does not fall between the test of the event and the end of execute_task: resumed exactly once. Refuted otherwise: lost wake-up, double resume."
 },
 "C22": {
  "note": "Proved for every reachable state of the task graph: who waits afterwards; nothing changes for tasks that still conflict; tasks linked once are released; the parent still waits if the remaining accesses conflict with it. Refuted: tasks linked twice are never executed, the parent finishes too early, demotion of a writer to a reader is rejected and releases nobody, a demotion during the initialisation of a follower starts this too early and twice."
 },
 "C26": {
  "note": "Refinement of the sequential list (chunks, offsets, reference counts, iterators) to a specification on mathematical lists, for every chunk size and every client that obeys the contract. Counters are unbounded, chunk memory is not reused."
 },
 "C29": {
  "note": "Concurrently false (three witnesses: a value is read after its destruction, destroyed twice, leaked), and the destructor of the list destroys slots that were never assigned. Proved: nothing is destroyed before its removal and counted iterators are safe in all interleavings; at most once and never in use if no stale count is loaded; exactly once if acquire and remove exclude each other, and for one thread.",
  "status": "partial"
 },
 "C30": {
  "note": "All interleavings of the compare-and-swap loops, deletions and iterations by any number of threads. Chunks are not deallocated in the model; the plain copy of prev in line 243 is an atomic read."
 },
 "C27": {
  "note": "All interleavings, any number of threads and any chunk size, on top of the compare-and-swap machine of C30."
 },
 "C28": {
  "note": "False (two witnesses: an element assigned while its successor is removed is skipped for ever; an iteration that begins at a chunk without a reserved slot finds nothing). Proved in all interleavings: nothing else is missed.",
  "status": "partial"
 },
 "C60": {
  "note": "Proved for the thread which has created the context and fewer than 2^32 tasks. In other threads (in particular inside of tasks) barrier() throws std::bad_function_call as long as there are tasks (C60_other_thread_throws_false); empty() truncates the counter to 32 bits (C60_task_count_truncated_false).",
  "status": "partial"
 },
 "C61": {
  "note": "Any number of workers and other threads. The execution of a task is one step, so a task that does not end is outside of the claim; memory is sequentially consistent."
 },
 "C62": {
  "note": "Holds for fewer than 32768 workers; with more, the id of a worker wakes this worker exactly if there are fewer than 32767 workers before it (C62_waker_id_iff), because ids are 16 bits wide.",
  "status": "partial"
 },
 "C63": {
  "note": "Accepted tasks: proved. Refused tasks: reported if submit() is called explicitly, and never queued; but they stay counted and registered (C63_refused_leaves_traces_false), so that barrier() never returns and later conflicting tasks wait for ever; a dropped builder terminates the program (C63_refused_terminates_false); after a tag out of range the task is submitted without it (C63_bad_tag_submitted_false).",
  "status": "partial"
 },
 "C64": {
  "note": "Queues are linearizable bags; workers may be probed in any order, whatever their state. That a task is reported ready exactly once is C13/C15. With the real queues: at most once in all executions (C89_taken_at_most_once); that a task is taken at all needs further conditions (C89)."
 },
 "C65": {
  "note": "False for new tasks: after stealing one new task that is not ready, the search is given up (C65_gives_up_early_false). Everything else is proved.",
  "status": "partial"
 },
 "C66": {
  "note": "Iterations end within (r+1)^2+4(r+1) steps of the thread and are never stuck; appends need at most 3 steps per chunk appended meanwhile. The last sentence is proved for an iteration that runs while no other thread is active; with other threads it is false (a stale store of skip_deleted_prev brings an erased chunk back between lines 83 and 243), and the head of the list is visited even if erased."
 },
 "C67": {
  "note": "Proved in all interleavings: newest first, each once, only registered tasks. Completeness is proved if registrations with one resource do not overlap (tasks using it are submitted by one thread at a time), with any removals and traversals at the same time. False otherwise: with tasks of different spaces registered at the same time an entry is skipped for ever (C67_earlier_user_missed_false), so that init_graph misses a dependency."
 },
 "C69": {
  "note": "Proved for all sequences of calls that obey simple rules (start with at least one worker, and only when nothing is left from the previous run; create objects and tasks only while the runtime is running; drop at any time): no error, and the counters of the allocators are exact (C69_rules_suffice_partial, C69_everything_given_back_partial). Each rule is necessary: C69_before_start_false, C69_after_stop_false, C69_kept_over_restart_false, C69_no_workers_false, C69_repeated_false.",
  "status": "partial"
 },
 "C70": {
  "note": "Proved: no stuck state, no infinite work, completion possible from every state, for programs with one submitter per space and NestingOk; and without NestingOk for programs whose bodies wait for their children. False for a future that was passed in another way, e.g. through a global variable (C70_future_of_later_task_false). A body begins to wait in one step here; for the individual steps see C23 and C71.",
  "status": "partial"
 },
 "C71": {
  "note": "Proved for a machine that composes the task graph, waiting for results, the queues, the workers and their condition variables, in which a body begins to wait in one step; queues are linearizable bags (with the real queues and two or more workers a task can be overlooked: C89, DESIGN 46). With the individual steps of pausing (Model/Full): proved if no result is set while a worker is about to pause a body that waits for it; this holds with one worker (C71_one_worker) and for executions in which no body has to wait (C71_no_waiting). Otherwise false: a body may never be continued (C71_lost_wakeup_false) or be continued twice (C71_resumed_twice_false).",
  "status": "partial"
 },
 "C72": {
  "note": "Proved for programs whose task bodies wait for the results of their children or at least return after the children have been initialised, with one submitting thread at a time per space; false otherwise (C72_early_return_false)."
 },
 "C73": {
  "note": "Proved for the composition of the whole runtime (Model/Program), in which a body begins to wait in one step. The restriction to futures that have been read or dropped is needed (C73_held_future_blocks_false). With the individual steps of pausing a body (Model/Full), that barrier() and finalize() return only after all tasks carries over (C71_pausing_refines); that they return is proved if no result is set while a worker is about to pause a body that waits for it (C73_pausing_finalize_returns_partial), and is false otherwise (C73_lost_wakeup_false).",
  "status": "partial"
 },
 "C74": {
  "note": "Refinement of the graph with atomic lists by the graph with the lock-free lists, if tasks are registered with a resource by one thread at a time. Without this the claim is false of the code: C74_conflicting_tasks_run_together_false. Nested programs are restricted by NestingOk as in C12.",
  "status": "partial"
 },
 "C75": {
  "note": "A step of the graph with atomic lists that does not need the user is always followed by the lock-free lists: an iteration, a removal or a push in progress is completed first, if necessary by another thread that is inside of the same list. Together with the measure of C15 this gives completion. Partial as C74: tasks are registered with a resource by one thread at a time, nested programs are restricted by NestingOk; a task names a resource once or does not conflict with itself. The theorems say that steps exist, not that a scheduler takes them.",
  "status": "partial"
 },
 "C76": {
  "note": "Full for programs without nested tasks, and for programs whose bodies wait for the results of their children (any number of workers, pausing, barrier, finalize). For the other nested programs under NestingOk; false without (C76_early_return_false), and if two threads register tasks with the same resource at the same time (C76_two_threads_false).",
  "status": "partial"
 },
 "C77": {
  "note": "The bodies are arbitrary state machines of the user; the accesses of the tasks, their number and their code depend on what has been read. C77_structured_like_sequential and C77_structured_deterministic hold for all programs whose bodies wait for their tasks; C77_checked_programs for programs of a small language that pass a syntactic check; workers, pausing, barrier(), finalize() in Props/DynamicRuntime. The _partial theorems are about programs that act before their tasks have returned (careful executions) and about the lock-free lists with one thread per resource. Bodies that return early and main programs that read before they wait: C77_early_return_false, C77_careless_false.",
  "status": "partial"
 },
 "C78": {
  "note": "No deadlock, no infinite execution and total correctness on the task graph. Bodies wait for any of the tasks that they have submitted themselves (futures). The _partial theorems are about NestingOk configurations with any waiting; the others about programs whose bodies wait for their tasks before they return. Events that the program creates (reserve_event etc.) are not counted as steps of the runtime.",
  "status": "proved"
 },
 "C79": {
  "note": "Bodies make progress only while a worker executes them; a waiting body gives its worker away. Proved for the machine in which pausing a body is one step (Model/System); with the individual steps a wake-up can be lost with two or more workers (C71_lost_wakeup_false), so the claim is partial. Events that the program creates are not counted as steps of the runtime.",
  "status": "partial"
 },
 "C80": {
  "note": "No task table is given in advance (Model/DynamicRun). Proved for the machine in which pausing a body is one step; with the individual steps a wake-up can be lost with two or more workers (C71_lost_wakeup_false), so the claim is partial. Resources are created outside of tasks; events that the program creates are not counted as steps of the runtime.",
  "status": "partial"
 },
 "C81": {
  "note": "Partial: the demotions happen in the circumstances Calm; without them the code violates the claim (C22). For one worker and tasks that share at most one resource pairwise only the condition on the parent remains (C81_one_worker_partial). The claim that a task waits only for tasks it conflicts with is refuted for tasks that are initialised during a demotion.",
  "status": "partial"
 },
 "C82": {
  "note": "Partial: the demotions happen in the circumstances Calm, without them the code violates the claim (C22); for one worker and tasks that share at most one resource pairwise there is no such assumption (C82_one_worker_partial). No nested tasks. That bodies use only what they still have is necessary (C82_careless_false).",
  "status": "partial"
 },
 "C83": {
  "note": "The language is in Model/Guards: what the compiler accepts (Typed) and the sequential meaning (GCode.run) are defined there, independently of accesses and of the runtime. C83_raw_pointer_false: with operator-> of field guards or the public member obj the compiler does not prevent races. Partial for the same reason as C80 (pausing a body is one step), and because bodies with captured guards, resources created inside of tasks and resources that share an object are not in the language.",
  "status": "partial"
 },
 "C84": {
  "note": "Proved without restriction: every execution ends, refines the coarser machines, and has the sequential result when finalize() has waited (C84_ends, C84_refines, C84_like_sequential). That finalize() is reached is proved for one worker, for programs in which only the main program waits on any number of workers, and for all programs on any number of workers in executions in which no result is set while a worker is about to pause a body that waits for it. Without this the claim is false: C84_two_workers_false.",
  "status": "partial"
 },
 "C85": {
  "note": "C85_no_data_race, C85_checked_programs, C85_workers, C85_whole_programs and C85_guards are complete for programs that meet the two conditions; the theorems about single tasks (ending in _partial) assume in addition that a task returns only when its children have been initialised (NestingOk), which holds for such programs but not for all. The runtime's own data is sequentially consistent in the model, see deviation 42.",
  "status": "partial"
 },
 "C86": {
  "note": "x86, queues of workers: proved completely (the machine with store buffers refines the sequentially consistent one; C39 carries over). x86, a thread waiting for an event: false (C86_x86_main_thread_sleeps_on_false): the plain store of waker_id waits in the store buffer while is_reached() is loaded, the notifying thread finds no waker and the thread sleeps for ever; C86_x86_main_thread_woken_partial proves the claim if that has not happened. Memory of C++ (e.g. ARM): false (C86_cxx_stranded_false): a compare-exchange that fails in CondVar::notify is a relaxed load and may return an old false; proved for tasks whose notify() has returned true (the partial theorems). C86_cxx_exchange_suffices: with an exchange (acq_rel) in notify() and in wait() the claim holds; C86_cxx_exchange_in_notify_false: in notify() alone it is not enough.",
  "status": "partial"
 },
 "C87": {
  "note": "Proved: acceptance and effect of patches for every list of properties, sums of patches, builders of patches are values, chains of calls, label, tags, accesses and independence of the order. False: a rejected patch leaves the changed accesses behind (no rollback), and as a consequence a task that is submitted later runs at the same time as the task although the two conflict with the accesses the task was created with (two witnesses). C87_rejected_effect_partial says exactly what a rejected patch has changed.",
  "status": "partial"
 },
 "C88": {
  "note": "For every block size >= 2 and index size >= 1. The last sentence (a pop finds nothing only if there is nothing) is false for two or more popping threads, C88_fails_only_if_empty_false (DESIGN 45); it holds, with strict first in first out, for a pop that no other pop of the same sub-queue overlaps (C88_fails_only_if_empty_partial). Sequentially consistent memory, unbounded indices. The pool of blocks and the table of sub-queues are abstract here and modelled in C90 and C91.",
  "status": "partial"
 },
 "C89": {
  "note": "Proved for one worker, without conditions (C89_single_worker_*), and for any number of workers if nobody else was inside pop of the queue while its worker last found it empty. In general false for two or more workers: C89_no_stranded_task_false, a concrete execution after which the task is never taken (DESIGN 46). At most once: for all executions. Sequentially consistent memory; for the table from threads to sub-queues see C91.",
  "status": "partial"
 },
 "C90": {
  "note": "For every size of the initial pool and any number of threads (less than 2^31). C90_refines_set is what C88 assumes of the pool. With other calls under way the heap may be asked beside a free block, C90_heap_beside_free_block (DESIGN 47). Sequentially consistent memory, allocation does not fail.",
  "status": "proved"
 },
 "C91": {
  "note": "The tables never get full as long as no thread that has pushed exits, or as long as there is one table (C91_never_full_partial); with exits it is false, and a new thread then searches for ever, C91_never_full_false, C91_full_table_traps. While another thread builds a table a push may wait without end, C91_waits_for_resize (DESIGN 48). Everything else with threads that come and go. Sequentially consistent memory, allocation does not fail.",
  "status": "partial"
 },
 "C92": {
  "note": "Everything except for two things holds for all executions. Data races on the elements: set_empty (line 1607) has release order only, so that with two popping threads a block may be used again before the thread that reuses it knows that an element has been moved out, C92_no_race_false (DESIGN 49); there is none with one popping thread (C92_no_race_partial) or if set_empty acquired as well (C92_no_race_acq_rel). A pop finds what its thread knows of: for one popping thread (C92_pop_finds_partial; for more see C88_fails_only_if_empty_false), and knowledge is needed (C92_pop_finds_false). The memory model is that of C++ without out-of-thin-air values; indices do not overflow; the pool of blocks hands over knowledge.",
  "status": "partial"
 },
 "C93": {
  "note": "The programs are written in the language of guards, so the theorems are about the whole runtime (C84). Game of life, Cholesky decomposition and random graph are proved for all sizes, data, workers and schedules. The ring of ranks in examples/mpi.cpp is false for rank 0, which receives from rank -1 (C93_mpi_ring_false), and proved for the others. C93_random_graph_blind shows that the test does not see the order of tasks.",
  "status": "partial"
 },
 "C94": {
  "note": "all of the statement; the machine allows more than C++ (a failing compare-exchange and the relaxed load return anything)",
  "status": "proved"
 },
 "C95": {
  "note": "False of the code: the iterator copies the pointer prev without atomic operations while another thread stores to it; a chunk can be used after it was destroyed (C95_use_after_free_false). Proved: everything in the statement for executions without this data race, and for all executions if the copy were an atomic load.",
  "status": "partial"
 },
 "C96": {
  "note": "Proved for pages that are zero (Linux: hwloc uses mmap). The code that would clear the memory (hwloc_alloc.hpp:76-92) comes after a return and is never executed. C96_needs_zero_pages and C96_needs_fresh_memory show executions in which an object is destroyed although somebody refers to it, with other pages, and if bump allocators were reset as their documentation demands. Operations are atomic (races: C29, C35, C95).",
  "status": "proved"
 },
 "C97": {
  "note": "Proved for any number of workers and any schedule if no task waits inside of a catch block or while an exception is in flight. False otherwise: a stack switch does not exchange the exception state that the C++ runtime keeps per thread, so throw; may throw the exception of another task or terminate the program, and uncaught_exceptions counts exceptions of others. An exception that leaves a body terminates the program, it is not handed to the future.",
  "status": "partial"
 },
 "C98": {
  "note": "Proved: the exact address of every block, and that the blocks of a chunk are aligned to the size of its smallest block, hence to 16 bytes if all requests are for more than 8 bytes. The alignment of a type is not asked for anywhere: false for types with a larger alignment, and for ordinary types with 16 bytes after a request of at most 8 bytes.",
  "status": "partial"
 },
 "C99": {
  "note": "Proved for all schedules: the body gets the callable and the values of submission, with the right value categories, once, and arguments of the caller stay as they are (even if given with std::move: they are copied). False for a callable that is an lvalue: emplace_task moves from it, so that a second submission of the same variable gets an empty callable; and for an object that is callable and argument at once.",
  "status": "partial"
 },
 "C100": {
  "note": "Proved: success for objects that fit into a chunk, a clean exception for tasks above the chunk size, nothing is submitted if the builder is not completed, at most one task per statement; the answers of the allocator are those of the concurrent machine of C34. False: an exception in a call on the builder submits the half built task (its destructor submits); tasks and resources between 32 and 64 KiB hang; resources above 64 KiB are constructed at a null pointer; memory is lost if a copy throws.",
  "status": "partial"
 },
 "C101": {
  "note": "The requirements as documented do not keep tasks in order (C101_documented_false); the additional law of synchronizing accesses is necessary and sufficient (C101_order_iff). The order for the code in small steps is partial as C12 is (C101_submission_order_partial). Model/Access additionally has user-written policies with the laws as a building block of composed policies.",
  "status": "partial"
 },
 "C102": {
  "note": "Each task that is left is in the queue of a worker that executes a body (C102_left_only_behind_bodies_partial), this state is always reached (C102_search_ends), and one task per worker uses all workers (C102_one_task_per_worker). Idle workers are not woken for a task in the queue of a busy worker (C102_idle_worker_false), and with REDGRAPES_EMPLACE_NOTIFY_NEXT not for each of them (C102_notify_next_false).",
  "status": "partial"
 },
 "C103": {
  "note": "All programs but 5_access_demotion.cpp; that one throws in update_properties (C103_access_demotion_false, a consequence of C09), and as nothing catches the exception the process is terminated (C97). The programs 2 and 3 are instances of the theorems about whole programs on workers (C84), 4 and 6 of C49, 7 of C18 and C71.",
  "status": "partial"
 },
 "C104": {
  "note": "False of the code: StaticAlloc::deallocate passes sizeof of the object at the beginning of the chunk to hwloc_free, not the size of the chunk, so munmap removes one page of 17 and 16 stay mapped for ever (C104_given_back_false), also at finalize (C104_destroyed_false); a program with at most two blocks in use runs out of address space (C104_long_running_false). When the system refuses memory, the null block is not checked and an object is created at the address null (C104_no_memory_false). Proved: chunks in use stay mapped, nobody else's pages are touched, the exact number of pages in use, and that everything is given back if the two sizes need the same number of pages.",
  "status": "partial"
 },
 "C105": {
  "note": "Accesses and access lists: proved. Tasks: false, every task prints commas around properties that print nothing; holds for lists of properties that all print something. Labels: exactly those without quotation marks, backslashes and control characters are read back.",
  "status": "partial"
 },
 "C106": {
  "note": "Workers and tasks: proved. Other memory: false once a thread has created a task, because current_arena is not restored (C106_blocks_local_false); C106_blocks says exactly where it is.",
  "status": "partial"
 },
 "C107": {
  "note": "The numbers are proved for all interleavings. False: two threads race on a plain static counter, and with several policies a resource and its list of users are in different arenas. Holds for one policy if resources are created one after the other.",
  "status": "partial"
 },
 "C108": {
  "note": "Proved for all threads and streams: notification once and after the work, events neither shared nor lost, the device is never stuck. Order on the device: if in_edges contains the dependencies (it is a comment at present) or there is one stream; false with an empty list and two streams (C108_no_edges_false). No task is forgotten: with one thread, with one stream, or if no thread waits for the mutex of a stream with a smaller number than one that it holds; false otherwise (C108_deadlock_false). Post-events are not notified in the order of the dependencies (C108_completion_order_false). Futures are ready before the work is complete (C108_future_false).",
  "status": "partial"
 },
 "C109": {
  "note": "Proved for calls in tasks and requests other than MPI_REQUEST_NULL: own status, one notification, no index out of range, no call forgotten, polling ends. False: with MPI_REQUEST_NULL the call never returns (C109_null_false), outside of tasks it is undefined behaviour (C109_outside_false). yield itself is the subject of C23 and C71.",
  "status": "partial"
 }
}