# Machine-checked model of redGrapes

`properties.jsonl` lists the properties (C01, C02, ...); `lean/` holds the Lean 4 model and the
proofs; `MANIFEST.json` maps properties to theorems; `seeded/LOG.jsonl` logs mutation tests of
the theorems; `tools/` generates `properties.jsonl`, `MANIFEST.json`, `lean/Verif/Audit.lean` and the
table at the end of this file.

Layout of `lean/Verif`: `Model/` the code, function by function; `Lemmas/` invariants and helper
lemmas; `Props/` the property theorems, each with a concrete example that meets its hypotheses;
`Audit.lean` prints the axioms of every property theorem.

## Trusted base

* Lean's kernel (Lean 4.33.0) and the parts of Mathlib that are imported.
* Axioms: every property theorem depends on at most `propext`, `Classical.choice`, `Quot.sound`
  (`Verif/Audit.lean` prints the axioms of all of them). No own axioms, no `sorry`, no
  `native_decide`, no `bv_decide`. Concrete runs are checked by `decide` (with kernel reduction) or
  `rfl`, never by compiled code.
* That the definitions under `Verif/Model/` describe the C++ code. Every definition cites the file
  and lines it was written from and names its simplifications. The model was written by hand from
  the text of the code; nothing was compiled or run.
* Assumptions on the environment that are part of the models:
  - atomics are sequentially consistent, and plain variables that are shared without synchronisation
    (`Event::waker_id`, the copy of `prev` in atomic_list.hpp:243) behave like atomic ones
    (for the data of the user this is not assumed but proved, C85; what happens to the condition variable without this assumption is in C86);
  - the third-party concurrent queue is a linearizable bag; `std::mutex`, `std::condition_variable`
    and `std::shared_ptr` behave as specified;
  - MPI reports distinct indices in range; `cudaEventCreate` returns new events; the operating system
    returns memory that does not overlap with memory in use.

## What is modelled

| code | model | style |
|---|---|---|
| `resource/access/*.hpp` | `Model/Access.lean` | functions over all composed policies, 64-bit bounds |
| `resource/resource.hpp`, `resource_user.cpp`, `task/property/resource.hpp` (patches) | `Model/ResourceUser.lean` | functions on lists |
| `resource/fieldresource.hpp` | `Model/FieldGuard.lean` | functions with error results |
| `task/task_space.cpp`, `task/property/graph.cpp`, `scheduler/event.cpp`, `dispatch/thread/execute.cpp`, `worker.cpp: init_dependencies`, `task/future.hpp` | `Model/Graph.lean` | interleaving machine, one shared access per step |
| `task/future.hpp: get`, `redGrapes.cpp: yield` (which tasks a body can wait for) | `Model/GraphWait.lean` | interleaving machine on top of `Model/Graph` |
| `dispatch/thread/worker.cpp: work_loop, gather_task, init_dependencies`, `scheduler/default_scheduler.cpp`, `sync/cv.cpp`, `dispatch/thread/execute.cpp` together with the task graph | `Model/System.lean` | composition of `Model/GraphWait`, queues, workers and `Model/Sync` (one condition variable per worker). Simplified: a body pauses and is continued in one step each (C23 has the details); the notifications after the end of a body go on concurrently to its worker; the choice of worker and victim is left open; workers are not stopped |
| `redGrapes.cpp: barrier, finalize`, `task/task_space.cpp: free_task, empty`, `worker_pool.cpp: stop`, `worker.cpp: stop, work_loop (stop flag)` together with the workers | `Model/Program.lean` | composition of `Model/System` with the main thread. Simplified: the test of the stop flag and the beginning of the wait are one step; one outside thread calls `barrier`/`finalize`; tasks of the root space are not submitted any more after `finalize()` has begun to stop the workers (C69 says what happens otherwise) |
| `redGrapes.cpp: yield` in a task, `execute.cpp: 34, 39-46`, `task/property/graph.hpp: sg_pause`, `event.cpp: add_follower, notify_followers, notify`, together with everything above | `Model/Full.lean` | composition of `Model/Program` with the individual steps of pausing a body that waits for a result. Simplified: the state of the pre-event of a started task is kept apart from its state before the start; the list of followers has atomic operations; giving a task whose body is not paused to a worker is an error state, in which the execution stops |
| `redGrapes.cpp: update_properties`, `graph.cpp: update_graph` | `Model/Demote.lean` | operation on the states of `Model/Graph` |
| the same, called at any time and any number of times | `Model/Demotions.lean` | `Model/Graph` and `Model/System` extended: the accesses of the tasks are part of the state |
| bodies of tasks that give up accesses while they run | `Model/DemotionsBodies.lean` | `Model/Demotions` extended by the memory of the user, as in `Model/Bodies`; every phase of a body names the accesses it needs; no nested tasks |
| `execute.cpp` (pausing), `graph.hpp: sg_pause`, `event.cpp: add_follower, notify` | `Model/Pause.lean` | interleaving machine |
| `scheduler/event.hpp: state` | `Model/Counter.lean` | 16-bit functions |
| `task/task_base.hpp`, `redGrapes.cpp: yield` | `Model/TaskBase.lean` | state machine |
| `task/task_builder.hpp`, `task/future.hpp`, `task/task.hpp` | `Model/Handles.lean` | state machines |
| `util/chunked_list.hpp`, `util/atomic_list.hpp`, one thread | `Model/ChunkedList.lean` | functions, refinement to lists |
| `util/chunked_list.hpp: Item`, one element, many threads | `Model/Item.lean` | interleaving machine |
| `util/atomic_list.hpp`, many threads | `Model/AtomicList.lean` | interleaving machine |
| `util/chunked_list.hpp`, many threads | `Model/ConcList.lean` | interleaving machine on top of `Model/AtomicList` |
| `task/property/graph.cpp`, `task/task_space.cpp`, `scheduler/event.cpp` with the lock-free lists | `Model/GraphList.lean` | `Model/Graph` with a `Model/ConcList` for the users of every resource and for the followers of every post-event |
| `dispatch/thread/execute.cpp` line 37, `task/task.hpp`, `redGrapes.hpp` `emplace_task`: the task bodies and the user's data | `Model/Bodies.lean`, `Model/BodiesRuntime.lean` | bodies are sequences of phases, phases sequences of actions on a memory; the tree of tasks does not depend on the data; the sequential program in which `emplace_task` is a function call |
| the same for programs whose tasks depend on the data, `task/future.hpp` `get`, the main program | `Model/Dynamic.lean` | bodies, including the main program, are state machines of the user: act, submit, wait for futures, return; `Model/Code.lean` has a small language on top of it |
| the same, on workers | `Model/DynamicWorkers.lean` | a body makes progress only while a worker executes it, and is paused only when it waits for a task that has not ended |
| the same, with the tasks recorded when they are submitted | `Model/DynamicRun.lean` | no `Cfg` is given in advance: the accesses of a task and the body that submits it are stored in the state |
| the same, with `barrier()`, `finalize()` and the individual steps of pausing: `redGrapes.cpp`, `execute.cpp`, `event.cpp`, `worker.cpp` | `Model/DynamicFull.lean` | from the beginning of the main program to the return of `finalize()`; the machine is the one of `Model/Full.lean`. Reading a result in the main program is one step |
| the happens-before relation: `event.cpp`, `event.hpp`, `graph.cpp`, `spinlock.hpp`, `execute.cpp`, `worker.cpp`, `queue.hpp`, `task.hpp`, `future.hpp`, `task_space.cpp`, `redGrapes.cpp` | `Model/Visible.lean`, `Model/VisibleProg.lean` | every atomic operation and lock by which threads synchronize, with its memory order, for `Model/Graph`; then together with the programs of `Model/Dynamic` |
| memory of real processors: `cv.cpp`, `redGrapes.cpp` (`yield`), `event.cpp` (`notify`), `worker.hpp`, `worker.cpp` | `Model/Weak.lean` | the condition variable, the queues of a worker and the thread waiting for an event (both as in `Model/Sync`) with the store buffers of x86; the condition variable with the memory model of C++ (a list of messages with views) |
| `task/property/inherit.hpp`, `task/property/resource.hpp` (patches and builders), `task.hpp` (`TaskProperties`), `task_builder.hpp`, `label.hpp`, `tag_match_property.hpp` | `Model/Properties.lean` | composition of properties, application of a patch to the composed properties, objects of patch builders with their references, the calls of a task builder |
| `task/queue.hpp`, `concurrentqueue.h` (`ImplicitProducer`: `enqueue`, `dequeue`, the index of blocks; the pool of blocks) | `Model/TaskQueue.lean` | interleaving machine with one step per atomic access |
| `concurrentqueue.h` (`FreeList`, `requisition_block`, `try_get_block_from_initial_pool`, `add_block_to_free_list`) | `Model/FreeList.lean` | interleaving machine with one step per atomic access |
| `concurrentqueue.h` 3387-3533 (`get_or_add_implicit_producer`), 3227-3277 (`recycle_or_create_producer`, `add_producer`), 3535-3564 (`implicit_producer_thread_exited`) | `Model/ProducerHash.lean` | every atomic access a step; any number of threads that come and go, any hash function; allocation does not fail |
| the same functions of `concurrentqueue.h` as `Model/TaskQueue.lean` | `Model/WeakQueue.lean` | with the memory order of every access: histories of values, vector clocks; data races on the plain members |
| `examples/game_of_life.cpp`, `examples/cholesky.cpp`, `test/random_graph.cpp`, the ring in `examples/mpi.cpp` | `Model/Examples.lean` | the programs, in the language of `Model/Guards.lean`; sizes, data and the functions of the BLAS are parameters |
| `sync/spinlock.hpp`, with its memory orders | `Model/WeakLock.lean` | state machine (views and modification orders of C++), any number of locks, threads and protected objects |
| `util/atomic_list.hpp`, the shared pointers and their counts of references; the loop of `chunked_bump_alloc.hpp: deallocate` in the witness | `Model/SharedPtr.lean` | state machine, executable; any number of threads, chunks and iterators |
| `util/chunked_list.hpp: Item, Chunk`, `memory/bump_allocator.cpp`, `memory/chunked_bump_alloc.hpp: deallocate`, `memory/hwloc_alloc.hpp` | `Model/ListRefs.lean` | state machine: words of memory from the pages of the operating system to the elements of lists, counts of references |
| `task/task_base.hpp: operator(), yield`, `dispatch/thread/execute.cpp`, `redGrapes.cpp: yield` with the exception state of the C++ runtime (Itanium ABI) | `Model/Exceptions.lean` | state machine: threads with their stacks of handled exceptions, tasks with what the language says |
| `redGrapes.hpp: emplace_task`, `task/task_builder.hpp: BindArgs`, `task/task.hpp: FunTask` (value categories, copies and moves) | `Model/BindArgs.lean` | functions on objects at locations; state machine of the submitting thread and the bodies |
| `task/task_builder.hpp: TaskBuilder, ~TaskBuilder`, `memory/allocator.hpp: StdAllocator, alloc_shared`, `memory/chunked_bump_alloc.hpp: allocate` (failures) | `Model/Build.lean` | function with the outcomes success, exception, hang and undefined behaviour |
| `resource/resource.hpp: AccessPolicy` (policies written by the user), `combine.hpp`, `resource_user.cpp`, `graph.cpp: init_graph` | `Model/Policies.lean`; constructor `custom` in `Model/Access.lean` | policies are arbitrary types with arbitrary answers; the machine initialises a task in one step. In `Model/Access.lean` a policy of the user has finitely many values and the laws of C01 to C05, and all models are built over it |
| `worker.cpp` (`work_loop`, `gather_task`), `default_scheduler.cpp` (`emplace_task`, both variants of `REDGRAPES_EMPLACE_NOTIFY_NEXT`; `steal_new_task`) (utilisation of workers) | `Model/Idle.lean` | independent tasks, one submitting thread; the states of the workers as bits, flags of the condition variables, searches in any order, bodies of any duration; initialising a task is part of taking it; the ready queues are empty |
| `examples/1_resources.cpp` to `examples/7_event.cpp` | `Model/SmallExamples.lean` | constants as parameters; what a task prints is its result; sleeping and logging left out; 4, 6 and 7 are given by who creates which task and event |
| `memory/hwloc_alloc.hpp`, `util/atomic_list.hpp` (`StaticAlloc`), `memory/chunked_bump_alloc.hpp`, seen by pages of the operating system | `Model/Pages.lean` | C104; the address space with any number of threads and arenas, and one allocator used by one thread as a refinement of it. hwloc and Linux are trusted to be `mmap` and `munmap`; sizes of libstdc++ on x86-64 |
| the formatters (`fmt::formatter`) of accesses, resources, task properties and tags, `examples/config/redGrapes_config.hpp` | `Model/Format.lean` | C105; texts as lists of characters; integers printed in decimal by `fmt` (trusted); classes written by users print any JSON. JSON itself: grammar and parser in `Lemmas/Json.lean`, numbers are natural numbers, `\u` escapes and `true`, `false`, `null` left out |
| `worker_pool.cpp` (`emplace_workers`), `worker.cpp` (`cpubind`, `membind`, thread-local variables), `hwloc_alloc.hpp`, `allocator.cpp`, `redGrapes.hpp` (`emplace_task`): where threads run and memory is | `Model/Placement.lean` | C106; one thread's sequence of creating tasks and taking memory; hwloc and the system are trusted to bind as requested |
| `resource.hpp` (`Resource::Resource`), `resource.cpp` with several threads | `Model/Create.lean` | C107; `static unsigned i` as a plain variable (load and store), `id_counter` atomic; sequentially consistent interleaving, data races are a predicate on states |
| `dispatch/cuda/scheduler.hpp`, `dispatch/cuda/event_pool.hpp`, `dispatch/cupla/scheduler.hpp` with several threads and streams, and the device | `Model/Cuda.lean` | C108; the template cannot be compiled at present and is modelled as it is meant, with the contents of `in_edges` as a parameter; the device as the CUDA manual describes streams and events |
| `dispatch/mpi/request_pool.hpp` with any number of calls of `get_status` and of `poll`, and MPI | `Model/MpiCalls.lean` | C109; MPI as the standard describes `MPI_Testsome`; what `poll` does with a report is a function in `Model/MpiPool.lean`, here every step of it |
| `concurrentqueue.h` (`try_dequeue`, `size_approx`, the list of sub-queues) with `worker.cpp` (`work_loop`, `gather_task`, `init_dependencies`) and `default_scheduler.cpp` (`emplace_task`, `activate_task`, `steal_*`) | `Model/RealQueue.lean` | interleaving machine: any number of workers, each with two real queues and its condition variable |
| `resource/ioresource.hpp`, `resource/fieldresource.hpp`, `task/task_builder.hpp`, `resource/resource.hpp` `BuildProperties`: guards as arguments of tasks | `Model/Guards.lean` | a language in which data is accessed through guards only, and what the compiler accepts of it; it is translated to `Model/Code.lean`. Bodies have only their arguments in scope (no captured guards), every resource has its own object, and all resources are created by the main program; containers are not bounded, exceptions of guards are caught by the body |
| `memory/*`, `worker_pool.cpp` (arenas) | `Model/Alloc.lean` | 64-bit functions, interleaving machine |
| `sync/*`, `redGrapes.cpp: yield` (outside of tasks), `dispatch/thread/worker.cpp` | `Model/Sync.lean` | four interleaving machines: spin lock, condition variable, waiting thread, worker |
| `redGrapes.cpp: barrier, finalize`, `task_space.cpp: empty, free_task`, `worker_pool.cpp: stop`, `default_scheduler.cpp: wake, wake_all` | `Model/Shutdown.lean` | interleaving machines on top of `Model/Sync`; 16-bit functions |
| `util/bitfield.hpp`, `dispatch/thread/worker_pool.*`, `default_scheduler.cpp: activate_task, emplace_task` | `Model/Bitfield.lean` | 64-bit functions with arbitrary concurrent changes |
| `worker.cpp: gather_task, init_dependencies`, `default_scheduler.cpp: steal_*` | `Model/Handout.lean` | function with arbitrary concurrent changes; interleaving machine of all workers |
| `task_builder.hpp`, `task_space.cpp: submit`, `tag_match_property.hpp` | `Model/Submit.lean` | function |
| `scheduler/tag_match.hpp` | `Model/TagMatch.lean` | functions |
| `dispatch/mpi/request_pool.hpp` | `Model/MpiPool.lean` | functions |
| `dispatch/cuda/event_pool.hpp` | `Model/CudaPool.lean` | state machine |
| `redGrapes.cpp` (spaces, backtrace), `resource.cpp`, `task/property/id.hpp` | `Model/Context.lean` | functions |
| `redGrapes.cpp: init, barrier, finalize`, `worker_pool.cpp: emplace_workers`, `memory/allocator.cpp`, `resource.hpp: Resource(), make_access` | `Model/Lifecycle.lean` | function with error results |

Not modelled: logging and tracing, hwloc itself (which units and arenas are chosen is in `Model/Placement`), the C++ type
machinery that deduces the types of task arguments and results (values are opaque; what is copied and moved is in `Model/BindArgs`, which accesses are derived from the arguments is in
`Model/Guards`), boost context switching itself
(only its effect on control flow), of the concurrent queue its constructor, destructor, tokens and bulk operations (not used), weak memory effects on the runtime's own data other than the condition variable and what it guards (`Model/Weak`) the queue of tasks (`Model/WeakQueue`) and what a spin lock protects (`Model/WeakLock`; for the data of the user see
`Model/Visible`), exceptions thrown by the library itself other than those in C09, C10, C63 and C100 (those of task bodies are in `Model/Exceptions.lean`). Of the start-up (`init`) only the effect on the pool of workers and the
allocators is modelled.

How the machines fit together: `Model/Graph` uses lists with atomic operations where the code uses the
lock-free list. C26 justifies this for one thread; C27, C28 and C30 say in which interleavings it is
justified for several threads. The user list of a resource is read and pruned under a lock, but
`TaskSpace::submit` pushes without it. If tasks of different spaces share a resource, a push can
overlap with a removal and another push, and the failure of C28 (an element is skipped) then means that a dependency
of C12 is missed; C67 has a witness for the traversal in `init_graph`. If tasks that use a resource are submitted by
one thread at a time, C67 shows that the traversal finds all earlier users, as in `Model/Graph`. `Model/GraphList` is
`Model/Graph` with the lock-free lists in place of the atomic ones. If tasks are registered with a resource by one thread
at a time, every execution of it is one of `Model/Graph` (`C74_like_atomic_lists_partial`), so what was proved about the
latter carries over; otherwise conflicting tasks may run at the same time (`C74_conflicting_tasks_run_together_false`).
Conversely, whenever `Model/Graph` can get on, so can `Model/GraphList` (C75).

`Model/Bodies` puts the user's data on top of any of these machines: a `Runtime` is a machine whose states contain a task
graph. Bodies that have started and not ended make actions on the memory at any time; the machine only decides when a
body starts, and it cannot end a body whose phases are not complete. C76 compares the memory at the end with the one of
the sequential program, for `Model/Graph`, `Model/System`, `Model/Full` and `Model/GraphList`.
`Model/Dynamic` does the same for programs in which the tasks themselves depend on the data. There the main program is
body 0, and `Cfg` records which tasks were submitted in the execution; the sequential program does not mention it, so
that executions with different orders of submission can be compared (C77). C78 is about deadlock and termination.
`Model/DynamicWorkers` restricts it to bodies that a worker executes, so that waiting bodies need workers (C79).
In all of these `Cfg` is chosen in advance, and an execution gets stuck if a body submits something else. In
`Model/DynamicRun` the tasks are recorded when they are submitted, so that the claims are about every execution of the
program (C80). `Model/Guards` translates programs that access data through guards to it, so that what a task declares
follows from its arguments (C83). `Model/DynamicFull` puts such programs on `Model/Full`: the main program calls `barrier()` and
`finalize()`, and pausing has its individual steps. Its executions are executions of `Model/DynamicRun` (`C84_refines`); the
claims that no thread waits for ever are proved again (C84). `Lemmas/Local` shows that a step depends only on the tasks that have been submitted. `Model/Visible` adds the happens-before relation of C++
to `Model/Graph`, and `Model/VisibleProg` to the programs of `Model/Dynamic`; every execution of such a program, on workers and with
all the rest, is one of the latter (`C85_every_execution`), so that the assumption of sequential consistency is discharged for the data of the user.

`Model/Demotions` adds calls of `update_properties` by running bodies to `Model/Graph` and to `Model/System`. The invariants of
the task graph (`Dom`, `Core`, `Ord`, `Life`) are kept by every demotion that happens in the circumstances `Calm`
(`DReach.inv`), so that the theorems about the graph hold for the accesses that the tasks have at the moment (C81). With one
worker, and if no two tasks have more than one resource in common, the circumstances are always met.
`Model/DemotionsBodies` adds bodies that work on the data (C82): what a later task has used was not held any more by an
earlier one at that time, and accesses never come back, so the events can be sorted as in C76.

Demotion (C22) is one step on the states of `Model/Graph`; pausing (C23), the 16-bit counters (C25) and
the waking of threads (C38-C40, C60, C61) have their own machines.
`Model/GraphWait` adds waiting bodies to `Model/Graph`; `Model/System` runs it on workers with queues and the condition
variables of `Model/Sync`; `Model/Program` adds the main thread in `barrier()` and `finalize()` and the end of the workers.
In these three a body begins to wait, and is continued, in one step each. `Model/Full` has the individual steps instead;
every execution of it is one of `Model/Program` (`C71_pausing_refines`), so what was proved about the latter carries
over, until a body is continued twice. The claims that no thread waits for ever do not carry over
(`C71_lost_wakeup_false`); they are proved again for executions in which no result is set while a worker is about to
pause a body that waits for it, which includes all executions with one worker and those in which no body has to wait.

## Proof methods

* C01-C11, C47-C55: induction over policies, lists, operation sequences.
* C12-C22, C59: `Lemmas/GraphCore` (counting invariant: the counter of an event equals the number of
  pending in-edges), `GraphDom`, `GraphLife`, `GraphOrder` (who is behind whom in the user lists),
  `GraphExec` (started at most once), `GraphMain` (conflicting predecessors have finished or are linked,
  directly or through a synchronizing task), `GraphQuiet` and `GraphMeasure` (no deadlock: a stuck state is
  complete; a measure decreases with every step of work). The assumption `NestingOk` excludes programs
  whose task bodies return before their children are initialised; for these the properties are false.
  `Props/GraphWait` shows that programs whose task bodies wait for the results of their children satisfy it.
* C70: the futures that a body can have belong to tasks that come before it in the order of a depth-first execution
  (`Before`); induction along this order.
* C71, C73 with the steps of pausing: `Lemmas/Full` (in which phase of pausing the worker is determines the state of the
  pre-event and whether the task is among the followers; every waiting body has exactly one thread or list that will
  notify it), `Lemmas/FullProgress` (measure). The counterexamples are executions computed by `Lemmas/FullExec`.
* C14: `Lemmas/GraphAny`: a task has an edge only from a conflicting, earlier task; holds for all programs, without
  `NestingOk`.
* C71: `Lemmas/System` (counting invariant: each task is in exactly one queue or held by exactly one worker, according
  to its state in the task graph; a non-empty queue has a signal that will wake its worker), `SystemProgress` (a state
  without enabled work has all workers asleep and the task graph stuck; a measure decreases), `SystemStrict` (the
  assumption `NestingOk` follows from the bodies waiting for their children). C70 then gives the result.
* C73: `Lemmas/Program` (an empty root space has a signal that will wake the main thread; a worker that is told to stop
  has one too), `ProgramProgress` (if the root space is empty, all tasks have finished and all queues are empty; a measure
  decreases). C71 then gives the result.
* C72: `Lemmas/Race` (two tasks are related as ancestors or lie under two siblings; accesses of descendants are
  covered by the ones of the siblings), then C12.
* C63-C65: induction; counting invariant over all workers; the search theorem of C42.
* C26: refinement of the chunked list to a mathematical list for all chunk sizes and clients.
* C27-C30: invariants of interleaving machines; `ConcList` contains an `AtomicList` state and its steps
  embed the steps of that machine.
* C31-C36, C41-C46, C56: 64-bit arithmetic by `omega` on `toNat`, invariants of the allocator machine.
* C37-C40, C57, C58, C60, C61: invariants; progress is stated as "after a bounded number of own steps".

## Where the code does not have the property

Each entry has a theorem whose name contains `_false` with a concrete execution or value.

1. C08: the scope level of a resource user is stored in 8 bits; from depth 256 on resources look local.
2. C09, C22: `apply_patch` compares with a copy made by a list constructor that does not copy. Demotions
   that keep an access are rejected, after the access list has been changed.
3. C11: elements are accessed without regard to the extents of the container.
4. C12, C13, C18, C19, C20, C21, C59, C72: the edge from a child to its parent is created when the child is
   initialised, not when it is submitted. If the body of the parent returns earlier, the parent finishes
   before its child: successors start too early (C72: conflicting tasks of different subtrees run at the same time), the child uses freed memory, a task is started twice,
   `barrier()` returns too early, a task finishes although one of its own events has not been reached (C18; the
   events of a task and its children are counted in one counter).
5. C16: arguments register a resource once per argument; a task with two conflicting accesses to one
   resource waits for itself for ever.
6. C17: two threads that submit to one space can create a cyclic wait (pushes to several user lists are
   not atomic).
7. C20: `EventPtr::notify` reads `waker_id` after the decrement that may lead to the task being freed.
8. C22: `update_graph` erases all equal followers but notifies once; a task linked through two resources
   is never executed. The edge to the parent is treated like an edge to a successor; the parent can
   finish before its child.
9. C23: `add_follower` tests the event, pushes and counts in three steps; a notification in between is
   lost or counted twice: the task sleeps for ever or is resumed twice.
10. C24: without stack switching the event of a task is never cleared; the body is executed for ever.
11. C25: 16-bit counters wrap at 65536 predecessors.
12. C28: `remove` copies the skip distance of the preceding slot while this slot is being assigned: the new
    element is never visited. `rbegin` on a chunk without reserved slots finds nothing.
13. C29: `acquire` and `remove` race: a value is read after its destruction, destroyed twice, or leaked;
    the destructor of the list destroys slots that never held a value.
14. C34: requests between the usable size of a chunk and its nominal capacity loop for ever; requests
    above 2^63 bytes are answered with blocks of 0 bytes.
15. C35: a chunk can be released between the reservation of a block and its counting. C56: chunks whose
    blocks were given back before the chunk was exhausted are never released.
16. C36: workers beyond the number of processing units give memory back to another allocator.
17. C41, C44: `AtomicBitfield::set` truncates the previous word to 32 bits; workers 32-63 (mod 64) can never be
    claimed. C43: elements before the start are offered first, and the start itself although excluded.
18. C45: `activate_task` dereferences a null pointer on threads that are not workers if no worker is free.
19. C46: uneven after 2^32 submissions unless the number of workers is a power of two.
20. C55: `TagMatch::task_dependency_type` does not override the virtual function.
21. C57, C58: one condition variable for all threads outside of the runtime, one `waker_id` per event.
22. C57, C60: the function `Context::idle` that lets a thread wait is thread-local and set only in the thread
    that creates the context. `barrier()`, and waiting for a future outside of tasks, throw
    `std::bad_function_call` in every other thread; so does `barrier()` inside of a task.
23. C60: `TaskSpace::empty` truncates the task count to 32 bits.
24. C62: waker ids are 16 bits wide: with 32768 workers some are never woken, with 65535 `wake_all` does not
    end.
25. C63: `TaskSpace::submit` counts and registers the task before asking the scheduler; if this throws, the
    task stays counted and registered. `~TaskBuilder` submits, so that a refusal ends the program, and a task
    whose construction was interrupted by an exception is submitted nevertheless.
26. C65: after stealing a new task that is not ready, `steal_task` gives up although there are others.
27. C66: `skip_deleted_prev` of two threads race: a chunk that was erased before an iteration began can still be
    visited by it, because a stale store of the other thread comes between the store (83) and the second read
    (243) of the pointer. An erased chunk at the head is always visited (`ChunkedList` erases a chunk only when
    all of its elements have been removed, so that a visit finds nothing there and is harmless).
28. C67: if tasks of different spaces that use one resource are submitted at the same time, a task can be skipped by
    `init_graph` of all later tasks, which then do not wait for it.
29. C69: a resource that is created before `init` or after `finalize` (e.g. a global variable) divides by the number
    of workers, which is 0 (`get_arena_id`, `emplace_task`); the same happens if `init` is called with 0 workers, which
    is the default if `hardware_concurrency()` is 0. An object that is kept from one run to the next uses memory
    of the allocators of the first run, which `init` has destroyed. `barrier` and `finalize` after `finalize` follow a
    null pointer.
30. C70: a body that waits for a task submitted later (whose future it got e.g. through a global variable) and in
    conflict with it waits for ever.
31. C22: `update_graph` does not take the lock of the resource. A task that is being initialised and has been pushed to
    the followers (event.cpp:74) but not yet been counted (75) is notified once too often: it is started before tasks
    it conflicts with have finished (so that C12 fails for programs with demotions) and is executed twice (C13).
32. C73: `barrier()` and `finalize()` wait until the memory of all tasks of the root space has been released, and a task
    is released only after its future has been read or dropped. A user who calls `finalize()` while a future is in scope
    (the usual order of destruction) waits for ever, although all tasks have finished (`C73_held_future_blocks_false`).
33. C71, C73: the failure of C23 in the whole runtime. If the body of a task waits for the result of a child, and the child
    ends on another worker while the parent is being paused, then the parent may never be continued, whatever happens
    afterwards (`C71_lost_wakeup_false`), so that `finalize()` never stops the workers (`C73_lost_wakeup_false`); or the
    parent is given to a worker twice (`C71_resumed_twice_false`), so that two threads run the same body.
34. C74: the failure of C28/C67 in the task graph. While one thread is inside of `submit` of a task, and the body of a
    running task submits a child that uses the same resource, and this child is executed and removed from the list of
    users between the reservation of the slot and the store of the pointer, the first task is never found by later
    tasks. A later conflicting task of the same space then runs at the same time
    (`C74_conflicting_tasks_run_together_false`). One thread submits to each space in this execution.
35. C76 assumes what the user has to ensure: a body does only what the task has declared (`Respects`, resp. `Declared`:
    actions that cannot be exchanged imply a declared conflict on a resource that is not hidden from the ancestors of the
    tasks), children access only what their parent may access (`covered`, C09), one thread submits to a space, and a body
    continues with data of a child only after the child and its descendants have returned (`MayBegin`;
    `C76_waiting_is_enough`: in programs whose bodies wait for their children it suffices to wait for the direct
    children). The claim fails if a body returns before its children are initialised (`C76_early_return_false`,
    deviation of C10) and if two threads register tasks with the same resource at the same time
    (`C76_two_threads_false`, deviation 34): an increment is lost.
36. C77 and C78 assume that a body does only what its task has declared (`Proper`, which follows from `Honest`), that
    one thread submits to a space, and (`Structured`) that bodies wait for the tasks that they have submitted before they
    return and before they do something that is not independent of these tasks. A body waits for some or all of the
    tasks that it has submitted itself (`get()` of a future, `barrier()`), not for tasks of others. The claim fails if a
    body returns early (`C77_early_return_false`) and
    if the main program reads before it has waited (`C77_careless_false`). C78 does not count the creation of events by
    the user, and assumes that bodies cannot go on forever by themselves (`Next` is well-founded).

37. C79 and C80 are about `Model/System`, in which pausing a body is one step. Deviation 33 (a wake-up is lost when the result is
    set while the worker is about to pause the body, `C71_lost_wakeup_false`) is about the individual steps and limits
    both in the same way. What the main thread does while it waits (`idle()`) is not part of the machine (see C73).

38. C81: a demotion is one step (as in C22), and it removes accesses only. The conditions `Calm` exclude the three cases in
    which C22 refutes the code: a task is between the two statements of `add_follower` for the demoting task, a released
    task has been linked twice, the parent does not conflict any more. The first cannot happen with one worker, the second
    not if no two tasks share two resources; the third is a condition on the program. A task that is being initialised
    during the demotion can wait for the demoting task without need (`C81_waits_only_for_conflicting_false`).

39. C82: every phase of a body has a list of accesses that it needs. A phase begins only if the task still has them, and the
    body does not give them up before the phase is complete; this is a rule for the user, the code does not check it. It is
    necessary: a body that goes on to use what it has given up can change the result although all of it was declared when the
    task was submitted (`C82_careless_false`).

40. C83: the README promises access to data that is checked at compile time. This holds for data that is accessed with `*`,
    `[]`, `read()`, `area()` and `at()` of guards that are arguments of the task. It does not hold for `operator->` of field
    guards (fieldresource.hpp:159-162, 209-212), which returns the whole container whatever the area of the guard is, and
    not for the public member `obj` of every guard (resource.hpp:334-335, `protected` is commented out)
    (`C83_raw_pointer_false`). The type system does not see which resource a guard belongs to: that a task does not get two
    guards of one resource without a call of `resources` (C16), and that bodies wait for tasks before they use what these
    may use, are rules for the user (`Typed`, `Joins`).

41. C84: whole programs inherit the lost wake-up of C71. A program with a task that submits another one and waits for it satisfies
    every condition on the user, but on two workers there is an execution after which `finalize()` never returns
    (`C84_two_workers_false`). Total correctness is proved for one worker (all interleavings), for any number of workers if
    only the main program waits (all interleavings), and for any number of workers and all programs in executions in which
    no result is set while a worker is about to pause a body that waits for it.

42. C85: the happens-before relation is tracked for the data of the user only. `Model/Visible` lists for every step of `Model/Graph` which atomic operations it
    consists of and with which order (`sync`), and computes the sets of actions that happen before. The machine below is still an interleaving
    machine: that the runtime's own data (event states, lists, counters) behave as if they were sequentially consistent is assumed there. The
    queues are assumed to synchronize (push before pop). Synchronization that the code has in addition (pushes to the lists, what a
    thread knows from its earlier work) is left out, so the relation of the model is contained in the one of the code.
    `C85_undeclared_false` and `C85_not_waiting_false` show that the two conditions on the user are needed.

43. C86: `Model/Weak` repeats the condition variable with weaker memory. x86: stores with `release` order and plain stores go to a store buffer (at
    most one entry per thread is needed, since the next thing each of these threads stores is a locked instruction), loads are ordinary instructions, and locked instructions
    wait until the buffer is empty. C++: `should_wait` has a modification order and each message carries the view of its writer; a load returns any message
    not older than the view of the reader, and a failing compare-exchange is such a load without acquire. The queue is abstract: looking into it
    finds every item whose push happens before (`strong`: every item). Two faults were found. (a) `Context::yield` (redGrapes.cpp:166-167) stores `waker_id` with a plain
    store and then loads the state of the event; x86 may do this in the other order, `Event::notify` finds no waker (event.cpp:160) and the thread
    sleeps until somebody else wakes it (`C86_x86_main_thread_sleeps_on_false`). (b) `CondVar::notify` (cv.cpp:43) does nothing if its compare-exchange
    reads `false`; by the memory model this may be an old `false`, the thread has already set `true` again and has looked at its queue
    (`C86_cxx_stranded_false`). On x86 (b) cannot happen because a failing compare-exchange is locked, too (`C86_x86_no_stranded_task`).
44. C87: properties are a list of classes (`Kind`) with data, patch type and `apply_patch` (which may throw); which class gets which call is resolved by the C++
    compiler and not modelled. Task builders refer to the one task they build, so their calls are functions on its properties. Found: `update_properties`
    with a patch that is rejected throws after `apply_patch` has changed the list of accesses (resource.hpp:115-134), there is no rollback. The task goes on with the
    changed list; tasks that are initialised later do not wait for it (`C87_rejected_patch_no_exclusion_false`). Since by C09 every patch that leaves an access to a
    resource of the outermost scope is rejected, this is what happens in practice when an exception of `update_properties` is caught.
45. C88: the lock-free queue `moodycamel::ConcurrentQueue`, which everything else in the model takes as an atomic queue, is modelled with its real algorithm: optimistic
    and overcommitted counts, circular index of blocks that is replaced when full, blocks that go back to the pool. Memory is sequentially consistent, indices do not wrap around, allocation
    does not fail. Found: `try_dequeue` may return false although an element is there, was there before the call and is never taken by anybody else
    (`C88_fails_only_if_empty_false`): another `pop` that came too late has incremented `dequeueOptimisticCount` but not yet `dequeueOvercommit` (cq.h:2559, 2614).
    The machines of workers in `Model/Sync` and `Model/Handout` use the stronger specification.
46. C89: workers with the real queues of C88 instead of atomic ones. The property "a worker does not sleep beside a task unless a wake-up is under way" (C39, proved for
    atomic queues) is **false** with two or more workers: a worker B that tries to steal from the queue of W can be delayed between the increments of
    `dequeueOptimisticCount` and `dequeueOvercommit` (cq.h:2559, 2614). Meanwhile a task is pushed to W and W is woken; the `pop` of W fails although nobody will take the
    task; W is AVAILABLE, so B does not look at it again; both sleep. `C89_no_stranded_task_false` is a concrete execution after which no step of the workers, no
    spurious wake-up and no call under way ever takes the task: `barrier()` does not return. (The thread that emplaces the last task has counted it in `submit`,
    task_space.cpp:76, before the previous task ends, so `free_task` does not call `wake_all`.) Any later wake-up of W rescues the task.
    What holds: with one worker always (`C89_single_worker_*`); otherwise if nobody else was inside `pop` of the queue while its worker last found it empty
    (ghost field `sure`). C39, C64 and C71 assume atomic queues.

47. C90: the pool of blocks of C88. `C90_refines_set` says that it behaves like the abstract pool used in `Model/TaskQueue.lean` (a block that is not in use becomes used, and
    back). Stronger reuse is not provided by the code: a call whose compare-and-exchange of the head fails may have to put the block back itself and then continues with the
    head it has read before; it asks the heap although the list is not empty (`C90_heap_beside_free_block`). This costs memory only, not correctness.

48. C91: the table from threads to sub-queues. Without exits of threads no table ever gets full, because all threads in a table have different numbers below 3/4 of its
    capacity. A push is not lock-free: a thread that finds the table more than 3/4 full waits for the thread that builds the bigger one (`C91_waits_for_resize`).
    With threads that exit a table can get full (`C91_never_full_false`), contrary to two comments in the code, and then every new thread that pushes searches it for ever. A thread
    that takes a dead entry decrements the counter because the entry is "already counted"; but the counter is shared by all tables, and threads that were counted before a bigger table was built
    may still take the same dead entry of the old table one after the other and then enter the new table without being counted there. The execution has 21 threads suspended between two
    lines of their first push while the second table is built, and 87 threads in total; the hash function is chosen. It needs threads of the user that push tasks and exit; the workers
    of redGrapes exit only at the end.
49. C92: the queue of tasks (C88) with the memory orders in its code. Every atomic object has the list of its values, every thread has a vector clock, and a load returns any value that is
    not hidden by one the thread knows. The model allows more than C++ does: reads with relaxed order do not restrict later reads of the same thread and the acquire fence in line 2557 does nothing.
    It allows less in one respect: a load is executed before later stores of its thread (as in RC11). New values are put at the end of the order of values; `C92_stores_last` shows that this is no restriction, except for the entry of an
    index that is used again after the pushing thread has read with relaxed order that it is free, where another place would mean that a thread had read from a later store than its own.
    The proof follows what each thread knows: the second test of `tailIndex` (acquire) and the increment of `headIndex` (acquire and release) together tell a popping thread of the push of its element, by a counting argument
    over the tickets, even if its own test has read the tail for another one.
    Finding (`C92_no_race_false`): `Block::set_empty` increments `elementsCompletelyDequeued` with release order only. The thread that takes the last element of a block gives the block back without knowing
    that the other threads have moved their elements out, and the next user of the block constructs an element in a place whose destruction does not happen before: a data race in the sense of C++, for two or more popping threads
    (workers that steal). With `memory_order_acq_rel` there is none (`C92_no_race_acq_rel`). It is undefined behaviour by the
    standard and visible to tools like TSan; current hardware is likely to hide it, because there a release operation also passes on what its thread has only read.
50. C93: programs that come with the library, written in the language of guards (`Model/Guards`), so that their executions are those of the whole runtime (C84: any number of workers, every interleaving of the runtime's steps
    with the memory of C84, which is sequentially consistent). Sizes, numbers of tasks and data are parameters. What is printed is the result of the main program. The number of tasks has to be less than 2^32, and the coordinates of the board have to fit into `size_t`.
    The game of life is compared with Conway's rule on a torus, the Cholesky decomposition with the equation `C * star C = A` over any ring with an involution (matrices of any size, without rounding; and, with rounding, with the order of the calls).
    In the source `finalize()` does the waiting for the tasks; here `barrier()` is called before it.
    Findings: `examples/mpi.cpp:140` computes the rank to receive from as `(rank - 1) % size`, which is -1 for rank 0 (`C93_mpi_ring_false`). The `hash` of `test/random_graph.cpp` drops its SHA-256 state and only adds the
    numbers of the tasks, so the test would pass in every order of the tasks (`C93_random_graph_blind`). `game_of_life.cpp:105-107` does not print the last row and column, and line 129 reserves one row and column more of the old board than is read.

51. C94: the spin lock with the memory orders of its code. Threads do anything with locks and plain objects, except that they access an object with its lock held, do not
lock what they hold and do not unlock what they do not hold. A failing compare-exchange and the relaxed load of the inner loop may return any value and teach nothing (C++ is more
restrictive, so there are more executions in the model than in C++). `sync` stands for all other synchronization between threads. A store may be placed anywhere in the modification order behind what
the thread knows, but not between a value and the read-modify-write that has read it. The theorems: mutual exclusion, no race, and what threads observe is an execution of the machine with
ordinary memory. `Model/Sync` (C37) and `Model/Graph` use a lock with ordinary memory, so its assumption of sequentially consistent memory is discharged here. Both orders are needed: with a relaxed compare-exchange or a relaxed store there is a race.

52. C95: life time of the chunks of a list. `operator++` of the iterator copies the shared pointer `prev` without the atomic functions (atomic_list.hpp:243), while `skip_deleted_prev` of another
    thread stores to it (83). In libstdc++ the copy reads the pointer and then increments the count; in between, the other thread may have removed the last reference. The witness are two threads that give back memory of one arena
    at the same time (`deallocate` erases a chunk and calls `optimize`); the chunk is unmapped while the first thread is about to use it. With `std::atomic_load` in line 243 all executions are safe; without it those in which no store
    to `prev` falls in the middle of such a copy. Simplifications: the two words of a shared pointer are read together; the atomic functions are one step each (libstdc++ uses a lock), the release of the replaced value is a step
    of its own; numbers of chunks are not reused (a chunk that a compare-and-swap refers to is held by a shared pointer, C95). `volatile bool deleted` is treated like an atomic variable.
53. C96: `ChunkedList` never constructs its elements. A slot is created without touching its storage (chunked_list.hpp:95-97, 142), `push` assigns to it (162), and `~Chunk`
    destroys also slots that were never assigned (256-260). For elements with a `shared_ptr` (accesses, resources of a task, follower events) this drops whatever the memory
    contains. It is harmless only because memory is never handed out twice by a bump allocator and comes from `mmap`: the `memset` in hwloc_alloc.hpp is behind a `return`
    and never executed. `BumpAllocator::reset` must not be used, although bump_allocator.hpp:56 says that it is needed (`C96_needs_fresh_memory`). In the model an address is a
    word, an element is one pointer and every operation is one step; zero pages are an assumption (`code.zero = true`).
54. C97: the library has no `catch`. An exception that leaves the body of a task ends the program (`C97_exception_not_in_future_false`); `future::get` never sees it. Exceptions that
    are caught inside of a body work as long as the task does not wait in between. A task that calls `future::get` or `yield` in a `catch` block, or in a destructor during stack unwinding, is suspended
    by switching the stack (task_base.hpp:73-93), and the record of exceptions that the C++ runtime keeps for each thread stays with the worker: after it continues, `throw;` may throw the
    exception of another task (`C97_wrong_exception_false`), or terminate the program on another worker (`C97_terminates_false`), and unrelated tasks see a wrong
    `std::uncaught_exceptions` (`C97_uncaught_false`).
55. C98: the allocators ignore the alignment of types. Sizes are rounded to powers of two, but a block starts wherever the one before ended (bump_allocator.cpp:60), so that a block is
    aligned only to the size of the smallest block taken from the same chunk before. An object with `alignas(64)` after a request of 24 bytes is misaligned (`C98_overaligned_false`), which is undefined behaviour
    and crashes with aligned vector instructions. All requests of the library itself are for more than 8 bytes, so that types with the usual alignment are placed correctly
    (`C98_ordinary_objects_partial`), unless a program asks `StdAllocator` for less (`C98_small_request_false`).
56. C99: `redGrapes::emplace_task` (redGrapes.hpp:165-168) applies `std::move` to its callable even if the caller passed an lvalue. `emplace_task(f); emplace_task(f);` with a variable `f` of type `std::function`, or a lambda
    with captured strings or vectors, executes an empty callable the second time (`C99_callable_moved_false`). Arguments in contrast are always copied (task_builder.hpp:56),
    even if they are temporaries or given with `std::move`; types that can only be moved are rejected by the compiler.
57. C100: the destructor of `TaskBuilder` submits the task (task_builder.hpp:111-115), also when it runs because of an exception: if in `emplace_task(f).label(a).resources({b()})` the call of `b` throws, then the task is executed without its resources,
    although the caller sees the exception (`C100_half_built_false`). With the default chunk size of 64 KiB, tasks (including their captures and arguments) and resources of more than 32 KiB make the allocator append chunks for ever (`C100_hang_false`, the same as
    deviation of C34), and resources of more than 64 KiB are constructed at a null pointer, because `StdAllocator::allocate` returns the null block (`C100_null_resource_false`). Only tasks of more than 64 KiB are rejected with an
    exception. If copying the arguments throws, the memory of the task is lost (`C100_memory_lost_false`).
58. C101: the documented concept of an access policy (resource.hpp:215-231) does not mention `is_synchronizing`, on which the order of tasks depends. A policy with
    everything that is asked for there, e.g. modes for the parts of an object with `is_synchronizing` as in io.hpp:42-45, lets tasks overtake: a task that has found a
    conflicting predecessor with a synchronizing access stops searching (graph.cpp:67-68), although older ones conflict with it on another part. The concept also calls the superset test
    `is_superset`, while the code calls `is_superset_of` (resource.hpp:278). `DefaultAccessPolicy` (resource.hpp:207-213), the default argument of `Resource`, has neither
    `is_synchronizing` nor `is_superset_of`, so `Resource<>` does not compile.
59. C102: `emplace_task` (default_scheduler.cpp:33-38) wakes only the worker whose queue gets the task. If this worker executes a body, the task waits until the
    body ends, although other workers are asleep (`C102_idle_worker_false`, two workers and three tasks, no race is needed). The comment in the code knows of "stale tasks";
    the remedy `REDGRAPES_EMPLACE_NOTIFY_NEXT` is off by default and also leaves tasks behind, because the state of the worker that it wakes stays AVAILABLE until this worker
    has found a task: two submissions may wake the same worker (`C102_notify_next_false`). A body that waits for such a task
    by `get` lets its worker continue with other tasks; a body that spins until the task has run waits for ever.
60. C103: examples/5_access_demotion.cpp demotes a write access to a read access, which `update_properties` rejects with an exception (C09). It leaves the body of the task,
    where nothing catches it, so `std::terminate` is called: the program never prints "f1 done".
61. C104: memory is not given back to the system. `StaticAlloc` requests the size of a chunk (66080 bytes, 17 pages) but `StaticAlloc::deallocate` (atomic_list.hpp:120-123) gives back `sizeof(T) * n`, where
    `T` is the object created by `std::allocate_shared` (72 bytes, one page); hwloc passes this length to `munmap`. 16 of 17 pages of every chunk that is destroyed stay mapped for ever, also those destroyed at `finalize`.
    A program that takes and gives back blocks for long enough exhausts the address space or the memory of the machine. If the kernel refuses memory (exhausted, or `mbind` is not permitted: the flag
    `HWLOC_MEMBIND_STRICT` then makes the call fail, for example in containers that forbid it), `HwlocAlloc::allocate` returns a null block after printing a message, `allocate_item` does not check it and creates an object at
    the address null. The second of these remarks depends on hwloc (not part of the repository; its behaviour is an assumption, stated in Model/Pages.lean).
62. C105: the text of a task is not JSON although its parts are: `TaskPropertiesInherit` prints a comma between any two properties (inherit.hpp:182-186), and queue and graph print nothing (queue.hpp:56, graph.hpp:202), so
    every task is printed as `{ "id" : 5, "resources" : [...], , , "label" : ... }`. Labels are printed without escaping: quotation marks, backslashes and control characters make the text unreadable or change the label.
63. C106: memory is not always near the thread that uses it. `emplace_task` sets the thread-local `current_arena` to the arena of the worker that gets the new task (redGrapes.hpp:188) and never sets it back. In a worker
    the variable is set to the own arena only once (worker.cpp:94); as soon as a task on this worker has created a task, everything the thread takes from `memory::Allocator()` comes from the arena of another worker.
    Also, the code in `HwlocAlloc::allocate` that touches the memory on the right unit (hwloc_alloc.hpp:76-93) is behind the `return` and is never executed.
    C46: since `next_worker` is thread-local too and begins at 0 in every thread, the first task created on each worker goes to worker 0 (`C46_threads_false`).
64. C107: the constructor of `Resource` increments `static unsigned i` (resource.hpp:308-313), which is no atomic variable and not protected by a lock. Two threads (for example two tasks) that create resources of the same policy at the same
    time have a data race, which is undefined behaviour. The numbers of the resources come from an atomic counter and are not affected (C53). There is one `i` per policy but one counter of numbers, so with several policies the object
    and the list of users of a resource are in different arenas.
65. C108: the CUDA scheduler. `dispatch_task` calls `notify` of the pre-event while it holds the mutex of the stream (scheduler.hpp:78, 107), and this call dispatches the followers, to other streams. Two threads that do so on two streams
    can wait for each other for ever (`C108_deadlock_false`). The follower is also put into the queue of the stream before the task itself (107, 110), so that its post-event is notified first (`C108_completion_order_false`). A future of a CUDA task is ready when the body has returned, before the work on the device is complete (`C108_future_false`).
    The file does not compile when it is used: `task->` is applied to a reference, and `task.in_edges` is a comment now (graph.hpp:71-76, graph.cpp:101). To remove the loop over `in_edges` would be a wrong repair: with several
    streams the work of a task is then started before the work on which it depends is complete (`C108_no_edges_false`). With one stream, the default, the loop is not needed.

66. C109: waiting for MPI requests. `MPI_Testsome` never reports MPI_REQUEST_NULL, so `get_status` with it never returns (`C109_null_false`), unlike `MPI_Wait`. Outside of tasks `create_event` returns nothing, and `get_status` uses the
    value of the empty `std::optional` (request_pool.hpp:88, `C109_outside_false`). That `yield` returns when the event has been notified is taken from C23 and C71 and has their exceptions. That the mutex is held while events are
    notified is harmless, since tasks are only put into queues by this (default_scheduler.cpp:69-86).

## Mutation tests

`seeded/LOG.jsonl` has one line per mutant: the model was edited in a scratch copy, everything was rebuilt,
failing proofs were replaced by `sorry` so that all modules compile, and a property theorem counts as failed
if its own proof fails or it depends on `sorry`. "(repair)" mutants fix a bug of the code in the model; there
the `_false` theorems have to fail. Theorems that survived although their claim was broken were tightened.
The theorems about C109 (`Model/MpiCalls.lean`) have not been tested against mutants yet.

## Conformance tests of the model

`lean/Verif/Conformance.lean` (generated by `tools/gen_conformance.py`) contains the 119 `REQUIRE`s of test/access.cpp, test/resource.cpp and
test/resource_user.cpp as examples about the model, each with its line. They are tests of the model and no proofs: the model computes there what the
code is expected to compute. The other tests are programs with threads
(test/random_graph.cpp, test/cv.cpp, test/scheduler.cpp), or are commented out (test/task_space.cpp, test/chunked_list.cpp).

## Results

Generated by `tools/gen_design.py` from `properties.jsonl` and `MANIFEST.json`.

**C01 Conflict test does not depend on argument order** (proved)  
`C01_conflict_symmetric`, `C01_task_conflict_symmetric`  

**C02 A synchronizing access blocks everything that could conflict** (proved)  
`C02_sync_conflicts_with_all`  

**C03 A superset access conflicts with whatever its subset conflicts with** (proved)  
`C03_superset_conflicts`  

**C04 The superset test is a preorder compatible with equality** (proved)  
`C04_superset_refl`, `C04_superset_trans`, `C04_eq_iff_same_contents`, `C04_superset_antisymm`  

**C05 The default access is the strongest one** (proved)  
`C05_default_sync`, `C05_default_superset`  

**C06 Field accesses: no conflict means no shared element, and conflict is not spurious** (proved)  
`C06_no_conflict_no_shared_element`, `C06_conflict_is_real`  

**C07 Two tasks conflict iff they access one resource in a conflicting way** (proved)  
`C07_conflict_iff`, `C07_order_irrelevant`, `C07_disjoint_resources`  

**C08 A parent that covers its child represents it towards the outside** (partial)  
`C08_superset_iff`, `C08_parent_represents_child_partial`, `C08_false_at_depth_256`  
Holds for scope levels below 256; the scope level of a user is stored in 8 bits, which breaks the claim from depth 256 on (C08_false_at_depth_256).

**C09 Access demotion is accepted exactly for subsets** (partial)  
`C09_accepts_iff_partial`, `C09_accepted_is_subset_partial`, `C09_false_demotion_rejected`, `C09_patch_effect`, `C09_removed_is_gone`  
Acceptance is characterised exactly, but the code compares with an empty copy of the access list, so legal demotions are rejected (C09_false_demotion_rejected).

**C10 Restricting a field guard never widens it and rejects areas outside** (proved)  
`C10_derived_guard_is_restricted`, `C10_area_throws_iff`, `C10_area_granted_iff_inside`, `C10_at_single_position`, `C10_read_only_after_read`, `C10_fresh_covers_everything`  

**C11 Element access through a guard stays in the guarded area** (partial)  
`C11_outside_throws`, `C11_inside_touches_exactly_partial`, `C11_false_out_of_bounds`, `C11_no_shared_element`  
The guarded area is respected, but the container's own extents are not checked (C11_false_out_of_bounds).

**C12 Conflicting tasks of one space run in submission order** (partial)  
`C12_submission_order_partial`, `C12_flat_submission_order`, `C12_one_submitter_partial`, `C12_descendants_partial`, `C12_nested_order_false`, `C12_waiting_parents_partial`, `C12_workers_keep_order`  
Proved for all interleavings for flat programs (C12_flat_submission_order) and for nested programs whose task bodies return after their children have been initialised. False without that assumption: C12_nested_order_false. The programs do not demote accesses while tasks are being initialised; for these C22_demotion_during_init_starts_early_false.

**C13 Every task body is started at most once** (partial)  
`C13_started_at_most_once_partial`, `C13_flat_started_at_most_once`, `C13_nested_started_twice_false`, `C13_waiting_parents_partial`, `C13_one_worker`, `C13_workers_start_once`  
As for C12; C13_nested_started_twice_false is a nested program in which a task is started twice, C22_demotion_during_init_starts_twice_false a program with a demotion. A body that waits may be continued twice, see C71_resumed_twice_false.

**C14 No unnecessary ordering** (partial)  
`C14_waits_only_for_conflicting`, `C14_waits_only_for_earlier`, `C14_ready_after_conflicting_partial`  
For all programs: a task waits only for conflicting tasks of its space that are registered before it for one of its resources. With one submitting thread per space these were submitted before it, unless the task names a resource twice (then it may wait for itself, see C16). That a task becomes ready as soon as those tasks have finished is proved for flat programs and nested ones with NestingOk.

**C15 No deadlock** (partial)  
`C15_no_deadlock_partial`, `C15_work_ends_partial`, `C15_completion_possible_partial`, `C15_flat_completion`  
Proved for flat programs (C15_flat_completion) and nested ones with NestingOk: no stuck state, no infinite work, completion possible from every state.

**C16 A task may name one resource in several arguments** (partial)  
`C16_repeated_resource_never_starts_false`, `C16_repeated_read_false`, `C16_nonconflicting_repetition_partial`  
False: a repeated resource with conflicting accesses makes the task wait for itself, for ever. Holds for tasks that do not conflict with themselves.

**C17 Several threads may submit to one space** (partial)  
`C17_concurrent_submitters_deadlock_false`, `C17_one_submitter_no_cycle_partial`, `C17_one_resource_no_cycle_partial`  
False: two concurrent submitters can create a cyclic wait. Holds for one submitter at a time, and for tasks with one resource each.

**C18 A task waits for the events it created** (partial)  
`C18_waits_for_events_partial`, `C18_waits_for_body_partial`, `C18_event_ignored_false`, `C18_workers_wait_for_events`  
Proved for flat programs and nested ones with NestingOk, also with workers (C18_workers_wait_for_events). False if bodies of parents return before their children have been initialised: C18_event_ignored_false.

**C19 A parent task finishes after its children** (partial)  
`C19_parent_after_children_partial`, `C19_parent_finished_before_child_false`, `C19_waiting_parents_partial`, `C19_workers_parent_after_children`  
False if the body of the parent returns before the child has been initialised; proved otherwise.

**C20 A task is freed exactly once, after it finished and its result was taken** (partial)  
`C20_freed_once_partial`, `C20_freed_partial`, `C20_no_use_after_free_partial`, `C20_child_uses_freed_parent_false`, `C20_freed_while_future_held_false`, `C20_late_read_false`, `C20_waiting_parents_partial`, `C20_workers_free_once`  
Freed exactly once and only after the end, and no access afterwards, except for the read of waker_id in event.cpp:160, for which C20_late_read_false is a witness.

**C21 Barrier waits for all tasks of the root space** (partial)  
`C21_barrier_waits_for_all_partial`, `C21_held_future_blocks_barrier_partial`, `C21_barrier_returns_partial`, `C21_barrier_ignores_child_false`, `C21_barrier_reached_partial`, `C21_waiting_parents_partial`, `C21_workers_barrier`  
Proved for flat programs and nested ones with NestingOk; C21_barrier_ignores_child_false otherwise.

**C22 Demotion releases exactly the tasks that no longer conflict** (partial)  
`C22_waiting_after_partial`, `C22_others_unchanged`, `C22_released_partial`, `C22_parent_waits_partial`, `C22_linked_twice_never_released_false`, `C22_parent_released_false`, `C22_rejected_releases_nobody_partial`, `C22_demoted_writer_releases_no_reader_false`, `C22_demotion_during_init_starts_early_false`, `C22_demotion_during_init_starts_twice_false`  
Proved for every reachable state of the task graph: who waits afterwards; nothing changes for tasks that still conflict; tasks linked once are released; the parent still waits if the remaining accesses conflict with it. Refuted: tasks linked twice are never executed, the parent finishes too early, demotion of a writer to a reader is rejected and releases nobody, a demotion during the initialisation of a follower starts this too early and twice.

**C23 A task that waits for an event continues after the event** (partial)  
`C23_not_before_event_partial`, `C23_resumed_once_partial`, `C23_not_twice_partial`, `C23_lost_wakeup_false`, `C23_resumed_twice_false`  
Proved in all interleavings: not resumed before the event. Proved if the notification does not fall between the test of the event and the end of execute_task: resumed exactly once. Refuted otherwise: lost wake-up, double resume.

**C24 Waiting inside a task does not re-run its body** (partial)  
`C24_body_runs_once_partial`, `C24_never_reruns_with_stack_switching`, `C24_false_without_stack_switching`  
Holds with stack switching; without it a waiting body is re-executed for ever (C24_false_without_stack_switching).

**C25 Number of predecessors and children is unlimited** (partial)  
`C25_counter_modulo_partial`, `C25_exact_below_65536_partial`, `C25_wraps_around_false`, `C25_activated_too_early_false`  
Counters are 16 bit: exact below 65536 unfinished predecessors, refuted from 65536 on (wraps to ready).

**C26 A list of items behaves like a list** (proved)  
`C26_list_is_a_list`, `C26_iteration`  
Refinement of the sequential list (chunks, offsets, reference counts, iterators) to a specification on mathematical lists, for every chunk size and every client that obeys the contract. Counters are unbounded, chunk memory is not reused.

**C27 Concurrent pushes never collide** (proved)  
`C27_slots_do_not_collide`, `C27_values_kept`, `C27_one_allocator_per_chunk`, `C27_allocation`, `C27_no_slot_lost`, `C27_returns_after_storing`  
All interleavings, any number of threads and any chunk size, on top of the compare-and-swap machine of C30.

**C28 Concurrent iteration misses no element** (partial)  
`C28_iteration_complete_partial`, `C28_no_removals_partial`, `C28_skips_live_element_false`, `C28_finds_nothing_false`  
False (two witnesses: an element assigned while its successor is removed is skipped for ever; an iteration that begins at a chunk without a reserved slot finds nothing). Proved in all interleavings: nothing else is missed.

**C29 Elements are destroyed exactly once and never while in use** (partial)  
`C29_destroyed_once_single_thread_partial`, `C29_list_destructor_partial`, `C29_destroys_unused_slots_false`, `C29_not_before_removal`, `C29_counted_iterator_safe_partial`, `C29_not_in_use_partial`, `C29_destroyed_once_partial`, `C29_reads_destroyed_false`, `C29_destroyed_twice_false`, `C29_leaked_false`  
Concurrently false (three witnesses: a value is read after its destruction, destroyed twice, leaked), and the destructor of the list destroys slots that were never assigned. Proved: nothing is destroyed before its removal and counted iterators are safe in all interleavings; at most once and never in use if no stale count is loaded; exactly once if acquire and remove exclude each other, and for one thread.

**C30 Concurrent chunk appends lose nothing** (proved)  
`C30_reachable_once`, `C30_skips_only_deleted`, `C30_iteration_complete`  
All interleavings of the compare-and-swap loops, deletions and iterations by any number of threads. Chunks are not deallocated in the model; the plain copy of prev in line 243 is an atomic read.

**C31 Chunk memory is large enough** (proved)  
`C31_list_chunk_layout`, `C31_bump_chunk_layout`  
List chunks and allocator chunks.

**C32 Request sizes are rounded to the next power of two** (proved)  
`C32_least_power_of_two`, `C32_bounds`  
For requests of 1 to 2^63 bytes (larger ones: see C34).

**C33 Allocated blocks never overlap** (proved)  
`C33_blocks_disjoint`  
Any number n of threads; assumes the system does not hand out the lowest n*capacity bytes of the address space.

**C34 Every allocation request is answered** (partial)  
`C34_answered_partial`, `C34_never_answered_false`, `C34_huge_accepted_false`  
Holds for rounded sizes up to the usable size of a chunk. False between usable size and nominal capacity (never answered) and above 2^63 (answered with 0 bytes).

**C35 Live memory is never released** (partial)  
`C35_live_memory_kept_partial`, `C35_live_chunk_released_false`  
Holds in executions without the race between reserving and counting a block; false with it (C35_live_chunk_released_false).

**C36 Task memory goes back to where it came from** (partial)  
`C36_same_allocator_partial`, `C36_other_allocator_false`  
Holds with at most as many workers as processing units; false for workers beyond that.

**C37 The spin lock is mutually exclusive** (proved)  
`C37_mutual_exclusion`, `C37_free_lock_can_be_taken`, `C37_spinning_has_a_reason`  

**C38 A wake-up is never lost** (proved)  
`C38_blocked_waiter_will_be_woken`, `C38_no_lost_wakeup`, `C38_waiter_progress`, `C38_wait_returns`, `C38_no_return_without_notify`, `C38_pend_changes`  
One waiter, any number of notifiers, sequentially consistent memory.

**C39 No task is stranded while its worker sleeps** (partial)  
`C39_blocked_worker_will_be_woken`, `C39_no_stranded_task`, `C39_task_is_looked_at`, `C39_worker_can_run`, `C39_no_task_lost`  
Proved for queues that are linearizable bags; the condition variable is the machine of C38. The real queue is not linearizable for several popping threads: with it, the statement is proved for one worker and is false for two or more (C89, DESIGN 46).

**C40 A thread outside the runtime that waits for an event is woken** (proved)  
`C40_returns_only_when_reached`, `C40_blocked_main_thread_will_be_woken`, `C40_main_thread_returns`, `C40_notifiers_return`  
One thread outside of the runtime and nobody else waiting for this event (see C57, C58 for the other cases); sequentially consistent memory.

**C41 Setting a worker state reports the previous state** (partial)  
`C41_set_changes_exactly`, `C41_set_returns_previous_partial`, `C41_upper_half_false`  
The effect holds for all indices; the returned value only for the lower half of each 64-bit word (C41_upper_half_false).

**C42 Searching the worker states finds exactly the matching workers** (proved)  
`C42_probe`  
Arbitrary concurrent modifications; start position in range.

**C43 Search order and exclusion of the start position** (partial)  
`C43_start_word_first_partial`, `C43_order_false`, `C43_start_offered_false`  
Only the preference for the word of the start position holds; order inside the word and exclusion of the start are false of the code.

**C44 A free worker is claimed by one activator only** (partial)  
`C44_find_free_partial`, `C44_unique_claim`, `C44_not_claimed_false`  
Claims are unique for any number of workers; finding a free worker holds for at most 32 workers and is false beyond (C44_not_claimed_false).

**C45 Activating a task enqueues it at an existing worker** (partial)  
`C45_enqueued_partial`, `C45_emplaced`, `C45_activate_on_worker_partial`, `C45_off_worker_false`  
Holds on worker threads and whenever a free worker is found; a non-worker thread dereferences a null pointer if all workers are busy (C45_off_worker_false).

**C46 Submissions are spread evenly** (partial)  
`C46_even_spread_partial`, `C46_worker_exists`, `C46_false_after_wraparound`, `C46_unbounded_false`, `C46_even_spread_iff`, `C46_threads_partial`, `C46_threads_false`  
One thread: holds for ever exactly if the number of workers is a power of two (C46_even_spread_iff), for other numbers for the first 2^32 submissions; then the difference grows with every wrap-around of the counter. Several threads: the difference is at most the number of threads, and this is sharp (C46_threads_false).

**C47 Tag matching selects the first scheduler that supports all tags** (proved)  
`C47_first_supporting`, `C47_error_iff_none`, `C47_activate_same`, `C47_registration`  

**C48 MPI completions go to the right waiter** (proved)  
`C48_poll`, `C48_history`  

**C49 Backtrace lists the ancestors of the current task** (proved)  
`C49_backtrace_is_ancestry`  

**C50 Every built task is submitted exactly once** (proved)  
`C50_submitted_exactly_once`, `C50_never_lost_never_twice`  

**C51 Every result is released exactly once** (proved)  
`C51_released_exactly_once`, `C51_not_before_taken`, `C51_reading_twice_releases_twice`, `C51_get_returns_result`  
For futures that are read at most once; reading twice is shown to release twice.

**C52 A pooled event is not given out twice** (proved)  
`C52_not_in_use`, `C52_reuse_before_create`  

**C53 Identifiers are unique** (proved)  
`C53_identifiers_unique`, `C53_bound_is_sharp`  

**C54 Resource user bookkeeping lists each resource once** (proved)  
`C54_registered_iff_accessed`, `C54_resources_registers_once`, `C54_args_register_per_argument`  

**C55 The tag-matching scheduler asks the responsible scheduler for dependency types** (partial)  
`C55_false_dependency_type_ignored`, `C55_dependency_type_partial`  
False of the code: the function does not override the virtual one.

**C56 Unused memory is given back** (partial)  
`C56_released_partial`, `C56_unbounded_leak_false`  
Holds if the last block of a chunk is given back after the chunk is exhausted; otherwise chunks leak without bound (C56_unbounded_leak_false). Of the chunks that are given back, 16 of 17 pages stay mapped (C104).

**C57 Several threads outside of the runtime may wait at the same time** (partial)  
`C57_second_outside_thread_throws_false`, `C57_second_outside_thread_sleeps_on_false`, `C57_no_early_return_partial`  
False of the code. Context::idle is thread-local and set only in the thread that creates the context: in any other outside thread, waiting throws (C57_second_outside_thread_throws_false). If the user sets it there, all outside threads share one condition variable with a single flag, and a thread can sleep on for ever (C57_second_outside_thread_sleeps_on_false). Proved: no thread returns early; the case of one thread is C40.

**C58 One event may be awaited by several threads** (partial)  
`C58_waker_overwritten_false`, `C58_last_registered_is_woken_partial`  
False of the code: an event has one waker_id (C58_waker_overwritten_false). Proved: the thread which registered last is woken.

**C59 Internal assertions never fail** (proved)  
`C59_assertions_hold`, `C59_nested_assertion_fails_false`, `C59_waiting_parents`, `C59_workers_assertions_hold`  
The quantifier excludes nested programs whose parents return early; for these C59_nested_assertion_fails_false shows the negation.

**C60 barrier() returns when the root space is empty, and then it does return** (partial)  
`C60_returns_only_when_empty_partial`, `C60_blocked_barrier_will_be_woken`, `C60_main_thread_returns_partial`, `C60_other_thread_throws_false`, `C60_task_count_truncated_false`  
Proved for the thread which has created the context and fewer than 2^32 tasks. In other threads (in particular inside of tasks) barrier() throws std::bad_function_call as long as there are tasks (C60_other_thread_throws_false); empty() truncates the counter to 32 bits (C60_task_count_truncated_false).

**C61 Shut-down stops every worker before anything is destroyed, and does not hang** (proved)  
`C61_all_stopped_before_destruction`, `C61_runs_until_told`, `C61_join_returns`  
Any number of workers and other threads. The execution of a task is one step, so a task that does not end is outside of the claim; memory is sequentially consistent.

**C62 Waker ids identify workers, wake_all wakes everybody** (partial)  
`C62_waker_id_wakes_worker_partial`, `C62_wake_all_wakes_everybody_partial`, `C62_waker_id_iff`, `C62_waker_id_overflow_false`, `C62_waker_id_wraps_false`, `C62_wake_all_endless_false`  
Holds for fewer than 32768 workers; with more, the id of a worker wakes this worker exactly if there are fewer than 32767 workers before it (C62_waker_id_iff), because ids are 16 bits wide.

**C63 A task with scheduling tags is submitted completely or not at all** (partial)  
`C63_accepted_completely`, `C63_refused_is_reported_partial`, `C63_refused_leaves_traces_false`, `C63_refused_terminates_false`, `C63_bad_tag_submitted_false`  
Accepted tasks: proved. Refused tasks: reported if submit() is called explicitly, and never queued; but they stay counted and registered (C63_refused_leaves_traces_false), so that barrier() never returns and later conflicting tasks wait for ever; a dropped builder terminates the program (C63_refused_terminates_false); after a tag out of range the task is submitted without it (C63_bad_tag_submitted_false).

**C64 Every task is handed to exactly one worker** (proved)  
`C64_one_worker_per_task`, `C64_ready_task_not_lost`, `C64_nothing_invented`, `C64_new_task_not_lost`  
Queues are linearizable bags; workers may be probed in any order, whatever their state. That a task is reported ready exactly once is C13/C15. With the real queues: at most once in all executions (C89_taken_at_most_once); that a task is taken at all needs further conditions (C89).

**C65 A worker gives up searching only if there is nothing to do** (partial)  
`C65_returned_task_is_ready`, `C65_nothing_left_partial`, `C65_search_ends`, `C65_gives_up_early_false`  
False for new tasks: after stealing one new task that is not ready, the search is given up (C65_gives_up_early_false). Everything else is proved.

**C66 Chunk iterations end, appends are lock-free, erased chunks disappear** (partial)  
`C66_iteration_not_stuck`, `C66_iteration_ends`, `C66_append_completes`, `C66_append_lock_free`, `C66_erased_skipped_partial`, `C66_erased_visited_false`, `C66_erased_head_visited_false`  
Iterations end within (r+1)^2+4(r+1) steps of the thread and are never stuck; appends need at most 3 steps per chunk appended meanwhile. The last sentence is proved for an iteration that runs while no other thread is active; with other threads it is false (a stale store of skip_deleted_prev brings an erased chunk back between lines 83 and 243), and the head of the list is visited even if erased.

**C67 A task that is initialised finds all earlier users of its resources** (partial)  
`C67_finds_earlier_users_partial`, `C67_newest_first`, `C67_earlier_user_missed_false`  
Proved in all interleavings: newest first, each once, only registered tasks. Completeness is proved if registrations with one resource do not overlap (tasks using it are submitted by one thread at a time), with any removals and traversals at the same time. False otherwise: with tasks of different spaces registered at the same time an entry is skipped for ever (C67_earlier_user_missed_false), so that init_graph misses a dependency.

**C68 The operations of the chunked list end** (proved)  
`C68_iteration_ends`, `C68_iteration_not_stuck`, `C68_remove_wait_free`, `C68_push_completes`, `C68_push_alone`  

**C69 The runtime can be started and stopped again, and objects may be created and dropped at any time** (partial)  
`C69_rules_suffice_partial`, `C69_everything_given_back_partial`, `C69_before_start_false`, `C69_after_stop_false`, `C69_kept_over_restart_false`, `C69_no_workers_false`, `C69_repeated_false`  
Proved for all sequences of calls that obey simple rules (start with at least one worker, and only when nothing is left from the previous run; create objects and tasks only while the runtime is running; drop at any time): no error, and the counters of the allocators are exact (C69_rules_suffice_partial, C69_everything_given_back_partial). Each rule is necessary: C69_before_start_false, C69_after_stop_false, C69_kept_over_restart_false, C69_no_workers_false, C69_repeated_false.

**C70 Waiting for results in task bodies causes no deadlock** (partial)  
`C70_no_deadlock_partial`, `C70_work_ends_partial`, `C70_completion_possible_partial`, `C70_future_of_later_task_false`, `C70_waiting_parents_partial`  
Proved: no stuck state, no infinite work, completion possible from every state, for programs with one submitter per space and NestingOk; and without NestingOk for programs whose bodies wait for their children. False for a future that was passed in another way, e.g. through a global variable (C70_future_of_later_task_false). A body begins to wait in one step here; for the individual steps see C23 and C71.

**C71 The runtime as a whole executes all tasks and then sleeps** (partial)  
`C71_pausing_refines`, `C71_continued_once_partial`, `C71_pausing_no_deadlock_partial`, `C71_pausing_work_ends`, `C71_one_worker`, `C71_no_waiting`, `C71_lost_wakeup_false`, `C71_resumed_twice_false`, `C71_no_deadlock`, `C71_work_ends`, `C71_completion_possible`  
Proved for a machine that composes the task graph, waiting for results, the queues, the workers and their condition variables, in which a body begins to wait in one step; queues are linearizable bags (with the real queues and two or more workers a task can be overlooked: C89, DESIGN 46). With the individual steps of pausing (Model/Full): proved if no result is set while a worker is about to pause a body that waits for it; this holds with one worker (C71_one_worker) and for executions in which no body has to wait (C71_no_waiting). Otherwise false: a body may never be continued (C71_lost_wakeup_false) or be continued twice (C71_resumed_twice_false).

**C72 Tasks with conflicting accesses are never executed at the same time** (partial)  
`C72_no_race_partial`, `C72_bodies_do_not_overlap_partial`, `C72_waiting_parents`, `C72_early_return_false`, `C72_workers_no_race`  
Proved for programs whose task bodies wait for the results of their children or at least return after the children have been initialised, with one submitting thread at a time per space; false otherwise (C72_early_return_false).

**C73 barrier() and finalize() return, after all tasks** (partial)  
`C73_pausing_no_deadlock_partial`, `C73_pausing_finalize_returns_partial`, `C73_lost_wakeup_false`, `C73_barrier_returns_after_all_tasks`, `C73_stopped_after_all_tasks`, `C73_ended_worker_stays`, `C73_no_deadlock`, `C73_work_ends`, `C73_finalize_returns`, `C73_held_future_blocks_false`  
Proved for the composition of the whole runtime (Model/Program), in which a body begins to wait in one step. The restriction to futures that have been read or dropped is needed (C73_held_future_blocks_false). With the individual steps of pausing a body (Model/Full), that barrier() and finalize() return only after all tasks carries over (C71_pausing_refines); that they return is proved if no result is set while a worker is about to pause a body that waits for it (C73_pausing_finalize_returns_partial), and is false otherwise (C73_lost_wakeup_false).

**C74 The guarantees of the task graph hold with the lock-free lists** (partial)  
`C74_like_atomic_lists_partial`, `C74_submission_order_partial`, `C74_started_at_most_once_partial`, `C74_ready_after_conflicting_partial`, `C74_parent_after_children_partial`, `C74_barrier_waits_for_all_partial`, `C74_found_tasks_alive_partial`, `C74_conflicting_tasks_run_together_false`  
Refinement of the graph with atomic lists by the graph with the lock-free lists, if tasks are registered with a resource by one thread at a time. Without this the claim is false of the code: C74_conflicting_tasks_run_together_false. Nested programs are restricted by NestingOk as in C12.

**C75 No deadlock with the lock-free lists** (partial)  
`C75_no_deadlock_partial`, `C75_completion_possible_partial`, `C75_barrier_not_stuck_partial`  
A step of the graph with atomic lists that does not need the user is always followed by the lock-free lists: an iteration, a removal or a push in progress is completed first, if necessary by another thread that is inside of the same list. Together with the measure of C15 this gives completion. Partial as C74: tasks are registered with a resource by one thread at a time, nested programs are restricted by NestingOk; a task names a resource once or does not conflict with itself. The theorems say that steps exist, not that a scheduler takes them.

**C76 The parallel program computes the same as the sequential program** (partial)  
`C76_declared_is_enough`, `C76_like_sequential_partial`, `C76_after_barrier_partial`, `C76_deterministic_partial`, `C76_flat_like_sequential`, `C76_waiting_parents_like_sequential`, `C76_waiting_is_enough`, `C76_early_return_false`, `C76_workers_like_sequential`, `C76_pausing_like_sequential`, `C76_barrier_like_sequential`, `C76_finalize_like_sequential`, `C76_lists_like_sequential_partial`, `C76_two_threads_false`  
Full for programs without nested tasks, and for programs whose bodies wait for the results of their children (any number of workers, pausing, barrier, finalize). For the other nested programs under NestingOk; false without (C76_early_return_false), and if two threads register tasks with the same resource at the same time (C76_two_threads_false).

**C77 Programs whose tasks depend on the data compute the same as the sequential program** (partial)  
`C77_declared_is_enough`, `C77_like_sequential_partial`, `C77_after_barrier_partial`, `C77_deterministic_partial`, `C77_structured_like_sequential`, `C77_structured_deterministic`, `C77_checked_programs`, `C77_early_return_false`, `C77_careless_false`, `C77_workers_like_sequential`, `C77_workers_deterministic`, `C77_pausing_like_sequential`, `C77_barrier_like_sequential`, `C77_finalize_like_sequential`, `C77_lists_like_sequential_partial`  
The bodies are arbitrary state machines of the user; the accesses of the tasks, their number and their code depend on what has been read. C77_structured_like_sequential and C77_structured_deterministic hold for all programs whose bodies wait for their tasks; C77_checked_programs for programs of a small language that pass a syntactic check; workers, pausing, barrier(), finalize() in Props/DynamicRuntime. The _partial theorems are about programs that act before their tasks have returned (careful executions) and about the lock-free lists with one thread per resource. Bodies that return early and main programs that read before they wait: C77_early_return_false, C77_careless_false.

**C78 Programs whose tasks depend on the data come to their end** (proved)  
`C78_no_deadlock_partial`, `C78_structured_no_deadlock`, `C78_submission_possible`, `C78_ends_partial`, `C78_structured_ends`, `C78_comes_to_rest`, `C78_checked_programs_end`  
No deadlock, no infinite execution and total correctness on the task graph. Bodies wait for any of the tasks that they have submitted themselves (futures). The _partial theorems are about NestingOk configurations with any waiting; the others about programs whose bodies wait for their tasks before they return. Events that the program creates (reserve_event etc.) are not counted as steps of the runtime.

**C79 Programs whose tasks depend on the data come to their end on any number of workers** (partial)  
`C79_no_deadlock`, `C79_submission_possible`, `C79_ends`, `C79_comes_to_rest`, `C79_like_sequential`, `C79_checked_programs_end`  
Bodies make progress only while a worker executes them; a waiting body gives its worker away. Proved for the machine in which pausing a body is one step (Model/System); with the individual steps a wake-up can be lost with two or more workers (C71_lost_wakeup_false), so the claim is partial. Events that the program creates are not counted as steps of the runtime.

**C80 Total correctness: every execution on every number of workers ends with the result of the sequential program** (partial)  
`C80_no_deadlock`, `C80_ends`, `C80_comes_to_rest`, `C80_like_sequential`, `C80_total`, `C80_checked_programs`  
No task table is given in advance (Model/DynamicRun). Proved for the machine in which pausing a body is one step; with the individual steps a wake-up can be lost with two or more workers (C71_lost_wakeup_false), so the claim is partial. Resources are created outside of tasks; events that the program creates are not counted as steps of the runtime.

**C81 Tasks that give up accesses while they run stay synchronized** (partial)  
`C81_exclusion_partial`, `C81_submission_order_partial`, `C81_at_most_once_partial`, `C81_released_partial`, `C81_linked_once_partial`, `C81_no_deadlock_partial`, `C81_completion_partial`, `C81_waits_only_for_conflicting_false`, `C81_one_worker_partial`, `C81_one_worker_safe_partial`  
Partial: the demotions happen in the circumstances Calm; without them the code violates the claim (C22). For one worker and tasks that share at most one resource pairwise only the condition on the parent remains (C81_one_worker_partial). The claim that a task waits only for tasks it conflicts with is refuted for tasks that are initialised during a demotion.

**C82 Tasks that give up accesses compute the same as the sequential program** (partial)  
`C82_like_sequential_partial`, `C82_one_worker_partial`, `C82_deterministic_partial`, `C82_no_race_partial`, `C82_declared_is_enough`, `C82_completion_partial`, `C82_careless_false`  
Partial: the demotions happen in the circumstances Calm, without them the code violates the claim (C22); for one worker and tasks that share at most one resource pairwise there is no such assumption (C82_one_worker_partial). No nested tasks. That bodies use only what they still have is necessary (C82_careless_false).

**C83 Tasks that access data through the guards that they get as arguments are correct without declaring anything** (partial)  
`C83_accesses_are_declared`, `C83_total`, `C83_raw_pointer_false`  
The language is in Model/Guards: what the compiler accepts (Typed) and the sequential meaning (GCode.run) are defined there, independently of accesses and of the runtime. C83_raw_pointer_false: with operator-> of field guards or the public member obj the compiler does not prevent races. Partial for the same reason as C80 (pausing a body is one step), and because bodies with captured guards, resources created inside of tasks and resources that share an object are not in the language.

**C84 Whole programs: finalize() returns, and the memory is the one of the sequential program** (partial)  
`C84_refines`, `C84_no_deadlock_partial`, `C84_ends`, `C84_comes_to_rest`, `C84_like_sequential`, `C84_total_partial`, `C84_checked_programs_partial`, `C84_guards_partial`, `C84_task_count`, `C84_task_count_code`, `C84_two_workers_false`  
Proved without restriction: every execution ends, refines the coarser machines, and has the sequential result when finalize() has waited (C84_ends, C84_refines, C84_like_sequential). That finalize() is reached is proved for one worker, for programs in which only the main program waits on any number of workers, and for all programs on any number of workers in executions in which no result is set while a worker is about to pause a body that waits for it. Without this the claim is false: C84_two_workers_false.

**C85 Data-race freedom in the C++ memory model: conflicting accesses of tasks are ordered by happens-before** (partial)  
`C85_conflict_partial`, `C85_submit_partial`, `C85_get_partial`, `C85_barrier_partial`, `C85_free_partial`, `C85_no_data_race`, `C85_every_execution`, `C85_checked_programs`, `C85_workers`, `C85_whole_programs`, `C85_guards`, `C85_undeclared_false`, `C85_not_waiting_false`  
C85_no_data_race, C85_checked_programs, C85_workers, C85_whole_programs and C85_guards are complete for programs that meet the two conditions; the theorems about single tasks (ending in _partial) assume in addition that a task returns only when its children have been initialised (NestingOk), which holds for such programs but not for all. The runtime's own data is sequentially consistent in the model, see deviation 42.

**C86 Wake-ups are not lost with the memory of real processors** (partial)  
`C86_x86_worker_refines`, `C86_x86_worker_quiet`, `C86_x86_no_stranded_task`, `C86_x86_blocked_worker_will_be_woken`, `C86_x86_task_is_looked_at`, `C86_x86_main_thread_sleeps_on_false`, `C86_x86_main_thread_woken_partial`, `C86_cxx_blocked_will_be_woken_partial`, `C86_cxx_does_not_fall_asleep_partial`, `C86_cxx_finds_what_it_was_told_partial`, `C86_cxx_item_found_partial`, `C86_cxx_exchange_suffices`, `C86_cxx_stranded_false`, `C86_cxx_exchange_in_notify_false`  
x86, queues of workers: proved completely (the machine with store buffers refines the sequentially consistent one; C39 carries over). x86, a thread waiting for an event: false (C86_x86_main_thread_sleeps_on_false): the plain store of waker_id waits in the store buffer while is_reached() is loaded, the notifying thread finds no waker and the thread sleeps for ever; C86_x86_main_thread_woken_partial proves the claim if that has not happened. Memory of C++ (e.g. ARM): false (C86_cxx_stranded_false): a compare-exchange that fails in CondVar::notify is a relaxed load and may return an old false; proved for tasks whose notify() has returned true (the partial theorems). C86_cxx_exchange_suffices: with an exchange (acq_rel) in notify() and in wait() the claim holds; C86_cxx_exchange_in_notify_false: in notify() alone it is not enough.

**C87 A task has the properties that were given, and a patch changes what it says, or nothing** (partial)  
`C87_accepted_iff`, `C87_accepted_effect`, `C87_rejected_effect_partial`, `C87_task_patch`, `C87_sum_of_patches`, `C87_rejected_keeps_changes_false`, `C87_rejected_patch_no_exclusion_false`, `C87_patch_builders_are_values`, `C87_chain`, `C87_label`, `C87_tags`, `C87_accesses`, `C87_order_does_not_matter`  
Proved: acceptance and effect of patches for every list of properties, sums of patches, builders of patches are values, chains of calls, label, tags, accesses and independence of the order. False: a rejected patch leaves the changed accesses behind (no rollback), and as a consequence a task that is submitted later runs at the same time as the task although the two conflict with the accesses the task was created with (two witnesses). C87_rejected_effect_partial says exactly what a rejected patch has changed.

**C88 The queues of tasks neither lose nor duplicate nor corrupt tasks** (partial)  
`C88_no_fault`, `C88_no_use_after_free`, `C88_elements_exclusive`, `C88_returned_at_most_once`, `C88_nothing_lost`, `C88_no_leak`, `C88_bounded_memory`, `C88_fifo`, `C88_fails_only_if_empty_partial`, `C88_fails_only_if_empty_false`, `C88_pop_wait_free`, `C88_push_wait_free`  
For every block size >= 2 and index size >= 1. The last sentence (a pop finds nothing only if there is nothing) is false for two or more popping threads, C88_fails_only_if_empty_false (DESIGN 45); it holds, with strict first in first out, for a pop that no other pop of the same sub-queue overlaps (C88_fails_only_if_empty_partial). Sequentially consistent memory, unbounded indices. The pool of blocks and the table of sub-queues are abstract here and modelled in C90 and C91.

**C89 No worker sleeps beside a task in its lock-free queue** (partial)  
`C89_no_stranded_task_partial`, `C89_single_worker_no_stranded_task`, `C89_single_worker_all_taken`, `C89_taken_at_most_once`, `C89_no_stranded_task_false`  
Proved for one worker, without conditions (C89_single_worker_*), and for any number of workers if nobody else was inside pop of the queue while its worker last found it empty. In general false for two or more workers: C89_no_stranded_task_false, a concrete execution after which the task is never taken (DESIGN 46). At most once: for all executions. Sequentially consistent memory; for the table from threads to sub-queues see C91.

**C90 The memory blocks of the task queues are recycled without mix-up** (proved)  
`C90_given_once`, `C90_refines_set`, `C90_no_fault`, `C90_nothing_lost`, `C90_all_reusable`, `C90_no_use_after_free`, `C90_reused`, `C90_heap_beside_free_block`  
For every size of the initial pool and any number of threads (less than 2^31). C90_refines_set is what C88 assumes of the pool. With other calls under way the heap may be asked beside a free block, C90_heap_beside_free_block (DESIGN 47). Sequentially consistent memory, allocation does not fail.

**C91 Every thread pushes tasks to a sub-queue of its own** (partial)  
`C91_own_subqueue`, `C91_same_subqueue`, `C91_listed`, `C91_stays_listed`, `C91_exit_forgets`, `C91_never_full_partial`, `C91_probes`, `C91_one_resizer`, `C91_finishes`, `C91_finishes_no_exit`, `C91_full_table_traps`, `C91_never_full_false`, `C91_waits_for_resize`  
The tables never get full as long as no thread that has pushed exits, or as long as there is one table (C91_never_full_partial); with exits it is false, and a new thread then searches for ever, C91_never_full_false, C91_full_table_traps. While another thread builds a table a push may wait without end, C91_waits_for_resize (DESIGN 48). Everything else with threads that come and go. Sequentially consistent memory, allocation does not fail.

**C92 The queue of tasks is correct with the memory orders in its code** (partial)  
`C92_no_fault`, `C92_no_use_after_free`, `C92_returned_at_most_once`, `C92_nothing_lost`, `C92_fifo`, `C92_handover`, `C92_reads_race_free`, `C92_stores_last`, `C92_no_race_partial`, `C92_no_race_acq_rel`, `C92_no_race_false`, `C92_pop_finds_partial`, `C92_pop_finds_false`  
Everything except for two things holds for all executions. Data races on the elements: set_empty (line 1607) has release order only, so that with two popping threads a block may be used again before the thread that reuses it knows that an element has been moved out, C92_no_race_false (DESIGN 49); there is none with one popping thread (C92_no_race_partial) or if set_empty acquired as well (C92_no_race_acq_rel). A pop finds what its thread knows of: for one popping thread (C92_pop_finds_partial; for more see C88_fails_only_if_empty_false), and knowledge is needed (C92_pop_finds_false). The memory model is that of C++ without out-of-thin-air values; indices do not overflow; the pool of blocks hands over knowledge.

**C93 The programs that come with the library compute what they are meant to compute** (partial)  
`C93_game_of_life`, `C93_cholesky_tiles`, `C93_cholesky`, `C93_random_graph`, `C93_random_graph_blind`, `C93_mpi_ring_false`, `C93_mpi_ring_partial`  
The programs are written in the language of guards, so the theorems are about the whole runtime (C84). Game of life, Cholesky decomposition and random graph are proved for all sizes, data, workers and schedules. The ring of ranks in examples/mpi.cpp is false for rank 0, which receives from rank -1 (C93_mpi_ring_false), and proved for the others. C93_random_graph_blind shows that the test does not see the order of tasks.

**C94 What a spin lock protects behaves as with sequentially consistent memory** (proved)  
`C94_mutual_exclusion`, `C94_no_race`, `C94_handover`, `C94_sequentially_consistent`, `C94_free_lock_can_be_taken`, `C94_orders_needed`  
all of the statement; the machine allows more than C++ (a failing compare-exchange and the relaxed load return anything)

**C95 A chunk of a list lives exactly as long as somebody refers to it** (partial)  
`C95_no_use_after_free_partial`, `C95_life_time_partial`, `C95_count_partial`, `C95_destroyed_once_partial`, `C95_no_leak_partial`, `C95_release_ends_partial`, `C95_use_after_free_false`  
False of the code: the iterator copies the pointer prev without atomic operations while another thread stores to it; a chunk can be used after it was destroyed (C95_use_after_free_false). Proved: everything in the statement for executions without this data race, and for all executions if the copy were an atomic load.

**C96 A list holds exactly the references of its elements** (proved)  
`C96_counts`, `C96_elements_stay_alive`, `C96_destroyed_iff_unreferenced`, `C96_destroyed_once`, `C96_unused_slots_are_null`, `C96_push_takes_one_reference`, `C96_destroy_drops_the_elements`, `C96_needs_zero_pages`, `C96_needs_fresh_memory`  
Proved for pages that are zero (Linux: hwloc uses mmap). The code that would clear the memory (hwloc_alloc.hpp:76-92) comes after a return and is never executed. C96_needs_zero_pages and C96_needs_fresh_memory show executions in which an object is destroyed although somebody refers to it, with other pages, and if bump allocators were reset as their documentation demands. Operations are atomic (races: C29, C35, C95).

**C97 Exceptions in the bodies of tasks behave as in ordinary functions** (partial)  
`C97_as_the_language_says_partial`, `C97_terminates_only_by_escape_partial`, `C97_wrong_exception_false`, `C97_terminates_false`, `C97_uncaught_false`, `C97_exception_not_in_future_false`  
Proved for any number of workers and any schedule if no task waits inside of a catch block or while an exception is in flight. False otherwise: a stack switch does not exchange the exception state that the C++ runtime keeps per thread, so throw; may throw the exception of another task or terminate the program, and uncaught_exceptions counts exceptions of others. An exception that leaves a body terminates the program, it is not handed to the future.

**C98 Objects are placed at addresses that fit their alignment** (partial)  
`C98_addresses`, `C98_aligned_partial`, `C98_ordinary_objects_partial`, `C98_overaligned_false`, `C98_small_request_false`, `C98_list_items`  
Proved: the exact address of every block, and that the blocks of a chunk are aligned to the size of its smallest block, hence to 16 bytes if all requests are for more than 8 bytes. The alignment of a type is not asked for anywhere: false for types with a larger alignment, and for ordinary types with 16 bytes after a request of at most 8 bytes.

**C99 A task works with the values that its arguments had when it was submitted** (partial)  
`C99_values_of_submission_partial`, `C99_record`, `C99_caller_keeps_arguments_partial`, `C99_isolated`, `C99_once`, `C99_callable_moved_false`, `C99_callable_as_argument_false`  
Proved for all schedules: the body gets the callable and the values of submission, with the right value categories, once, and arguments of the caller stay as they are (even if given with std::move: they are copied). False for a callable that is an lvalue: emplace_task moves from it, so that a second submission of the same variable gets an empty callable; and for an object that is callable and argument at once.

**C100 Creating a task or a resource succeeds or fails cleanly** (partial)  
`C100_allocate_is_the_machine`, `C100_success`, `C100_failure_submits_nothing_partial`, `C100_too_large`, `C100_at_most_one`, `C100_half_built_false`, `C100_hang_false`, `C100_null_resource_false`, `C100_memory_lost_false`  
Proved: success for objects that fit into a chunk, a clean exception for tasks above the chunk size, nothing is submitted if the builder is not completed, at most one task per statement; the answers of the allocator are those of the concurrent machine of C34. False: an exception in a call on the builder submits the half built task (its destructor submits); tasks and resources between 32 and 64 KiB hang; resources above 64 KiB are constructed at a null pointer; memory is lost if a copy throws.

**C101 Access modes of the user: what a policy class must satisfy so that tasks stay in order** (partial)  
`C101_compose`, `C101_order_iff`, `C101_progress`, `C101_all_can_end`, `C101_documented_false`, `C101_same_tasks`, `C101_submission_order_partial`  
The requirements as documented do not keep tasks in order (C101_documented_false); the additional law of synchronizing accesses is necessary and sufficient (C101_order_iff). The order for the code in small steps is partial as C12 is (C101_submission_order_partial). Model/Access additionally has user-written policies with the laws as a building block of composed policies.

**C102 Tasks that can be executed are not left waiting while workers are idle** (partial)  
`C102_left_only_behind_bodies_partial`, `C102_search_ends`, `C102_one_task_per_worker`, `C102_idle_worker_false`, `C102_notify_next_false`  
Each task that is left is in the queue of a worker that executes a body (C102_left_only_behind_bodies_partial), this state is always reached (C102_search_ends), and one task per worker uses all workers (C102_one_task_per_worker). Idle workers are not woken for a task in the queue of a busy worker (C102_idle_worker_false), and with REDGRAPES_EMPLACE_NOTIFY_NEXT not for each of them (C102_notify_next_false).

**C103 The introductory example programs do what they show** (partial)  
`C103_resources`, `C103_functors`, `C103_functors_with_resources`, `C103_refinements`, `C103_scope`, `C103_access_demotion_false`, `C103_event`  
All programs but 5_access_demotion.cpp; that one throws in update_properties (C103_access_demotion_false, a consequence of C09), and as nothing catches the exception the process is terminated (C97). The programs 2 and 3 are instances of the theorems about whole programs on workers (C84), 4 and 6 of C49, 7 of C18 and C71.

**C104 Memory of the system is used with care** (partial)  
`C104_chunks_stay_mapped`, `C104_others_untouched`, `C104_footprint`, `C104_given_back_partial`, `C104_given_back_false`, `C104_footprint_of_programs`, `C104_destroyed_false`, `C104_long_running_false`, `C104_long_running_partial`, `C104_no_memory_partial`, `C104_no_memory_false`  
False of the code: StaticAlloc::deallocate passes sizeof of the object at the beginning of the chunk to hwloc_free, not the size of the chunk, so munmap removes one page of 17 and 16 stay mapped for ever (C104_given_back_false), also at finalize (C104_destroyed_false); a program with at most two blocks in use runs out of address space (C104_long_running_false). When the system refuses memory, the null block is not checked and an object is created at the address null (C104_no_memory_false). Proved: chunks in use stay mapped, nobody else's pages are touched, the exact number of pages in use, and that everything is given back if the two sizes need the same number of pages.

**C105 Accesses and tasks are printed as JSON that can be read back** (partial)  
`C105_access`, `C105_accesses_differ`, `C105_access_list`, `C105_properties_partial`, `C105_task_false`, `C105_label`, `C105_label_false`  
Accesses and access lists: proved. Tasks: false, every task prints commas around properties that print nothing; holds for lists of properties that all print something. Labels: exactly those without quotation marks, backslashes and control characters are read back.

**C106 Workers are spread over the processing units and memory is near its user** (partial)  
`C106_workers_spread`, `C106_tasks_local`, `C106_blocks`, `C106_blocks_local_partial`, `C106_blocks_local_false`  
Workers and tasks: proved. Other memory: false once a thread has created a task, because current_arena is not restored (C106_blocks_local_false); C106_blocks says exactly where it is.

**C107 Resources may be created by several threads at the same time** (partial)  
`C107_numbers`, `C107_together_partial`, `C107_race_false`, `C107_together_false`  
The numbers are proved for all interleavings. False: two threads race on a plain static counter, and with several policies a resource and its list of users are in different arenas. Holds for one policy if resources are created one after the other.

**C108 Work of CUDA tasks is executed in the order of the dependencies** (partial)  
`C108_device_order_partial`, `C108_notified_after_work`, `C108_events_not_shared`, `C108_events_not_lost`, `C108_device_not_stuck`, `C108_calls_not_stuck_partial`, `C108_all_notified_partial`, `C108_deadlock_false`, `C108_no_edges_false`, `C108_future_false`, `C108_completion_order_false`  
Proved for all threads and streams: notification once and after the work, events neither shared nor lost, the device is never stuck. Order on the device: if in_edges contains the dependencies (it is a comment at present) or there is one stream; false with an empty list and two streams (C108_no_edges_false). No task is forgotten: with one thread, with one stream, or if no thread waits for the mutex of a stream with a smaller number than one that it holds; false otherwise (C108_deadlock_false). Post-events are not notified in the order of the dependencies (C108_completion_order_false). Futures are ready before the work is complete (C108_future_false).

**C109 A task that waits for an MPI request gets the status of this request** (partial)  
`C109_own_status`, `C109_notified_once`, `C109_in_range`, `C109_not_stuck`, `C109_ends`, `C109_null_false`, `C109_no_ub_partial`, `C109_outside_false`  
Proved for calls in tasks and requests other than MPI_REQUEST_NULL: own status, one notification, no index out of range, no call forgotten, polling ends. False: with MPI_REQUEST_NULL the call never returns (C109_null_false), outside of tasks it is undefined behaviour (C109_outside_false). yield itself is the subject of C23 and C71.
