#!/usr/bin/env python3
# Writes ../properties.jsonl.  One entry per property; kept as a script only so that
# the long strings stay readable.
import json, os
P = []
def p(title, statement, quantifier, why, anchors):
    P.append(dict(id="C%02d" % (len(P) + 1), title=title, statement=statement,
                  quantifier=quantifier, why_tests_cant=why, anchors=anchors))

R = "redGrapes/"
p("Conflict test does not depend on argument order",
  "For every access policy that can be composed from the library's building blocks (IO modes, areas, arrays of policies with And/Or, pairs of policies with And/Or, hence also field accesses) and from policy classes of the user whose own conflict test is symmetric, asking whether access a conflicts with access b gives the same answer as asking whether b conflicts with a; the same holds for whole tasks (resource users).",
  "all finitely nested compositions of policies, all pairs of access values of that policy, all pairs of access lists",
  "the set of composed policies and of area bounds is infinite; the unit tests compare a handful of IO pairs and areas",
  [R+"resource/access/io.hpp: IOAccess::is_serial", R+"resource/access/area.hpp: AreaAccess::is_serial", R+"resource/access/combine.hpp: ArrayAccess::is_serial, CombineAccess::is_serial", R+"resource/resource_user.cpp: ResourceUser::is_serial"])
p("A synchronizing access blocks everything that could conflict",
  "If an access p is reported as synchronizing, then every access q that conflicts with at least one other access t of the same policy also conflicts with p. So once a task has been ordered behind a synchronizing predecessor, nothing older has to be examined.",
  "all composed policies, all triples of accesses p, q, t (including empty and inverted areas)",
  "needs all area bounds and all nestings; a failing triple would silently remove a dependency, which no output check notices",
  [R+"resource/access/*.hpp: is_synchronizing, is_serial", R+"task/property/graph.cpp: GraphProperty::init_graph (the break)"])
p("A superset access conflicts with whatever its subset conflicts with",
  "If access p is a superset of access c, then every access that conflicts with c also conflicts with p.",
  "all composed policies, all triples of accesses",
  "infinite set of areas and nestings; this is what makes it sound to represent a child task by its parent",
  [R+"resource/access/*.hpp: is_superset_of, is_serial"])
p("The superset test is a preorder compatible with equality",
  "Superset is reflexive and transitive for every composed policy, equal accesses (operator==) are supersets of each other, and operator== holds exactly for accesses with the same contents.",
  "all composed policies, all accesses",
  "universally quantified law over an infinite domain",
  [R+"resource/access/*.hpp: is_superset_of, operator=="])
p("The default access is the strongest one",
  "A default-constructed access of any composed policy is synchronizing and is a superset of every access of that policy.",
  "all composed policies, all accesses",
  "universally quantified law over an infinite domain",
  [R+"resource/access/io.hpp: IOAccess()", R+"resource/access/area.hpp: AreaAccess()", R+"resource/access/combine.hpp"])
p("Field accesses: no conflict means no shared element, and conflict is not spurious",
  "Take two accesses to the same n-dimensional field. If they do not conflict then no element position lies in both areas, unless both accesses use the same non-write mode. Conversely, if they conflict and both areas are non-empty then some element position lies in both areas and the modes are not both the same non-write mode.",
  "all dimensions n, all area bounds, all modes, all element positions",
  "the domain is 2^64-sized per bound and unbounded in the dimension",
  [R+"resource/access/field.hpp: FieldAccess", R+"resource/access/area.hpp", R+"resource/fieldresource.hpp: AreaGuard::contains"])
p("Two tasks conflict iff they access one resource in a conflicting way",
  "Two tasks are considered conflicting exactly if there is one resource and an access of each task to this resource such that these two accesses conflict under the resource's policy. Accesses to different resources never conflict; order and repetition inside the access lists do not matter.",
  "all access lists, all resources, all policies",
  "all pairs of lists of arbitrary length",
  [R+"resource/resource_user.cpp: ResourceUser::is_serial", R+"resource/resource.hpp: ResourceAccess::is_serial, Resource::Access::is_serial"])
p("A parent that covers its child represents it towards the outside",
  "If the access list of a parent task is accepted as a superset of the access list of its child, then every third task that conflicts with the child on a resource that is not local to the parent's scope also conflicts with the parent.",
  "all access lists, all scope levels, all resources",
  "all pairs of lists and scope depths; scope depth is stored in 8 bits, so the deep cases are not reached by tests",
  [R+"resource/resource_user.cpp: ResourceUser::is_superset_of", R+"task/task_space.cpp: TaskSpace::is_superset", R+"resource/resource_user.hpp: scope_level"])
p("Access demotion is accepted exactly for subsets",
  "Calling update_properties with a patch succeeds exactly if the access list after the patch is a subset (in the sense of the superset test) of the access list before; a rejected patch leaves the access list unchanged.",
  "all access lists before, all patches, all scope levels",
  "depends on all lists and patches, including patches that leave the list empty; the repository has no test of it",
  [R+"task/property/resource.hpp: ResourceProperty::apply_patch", R+"resource/resource_user.cpp: ResourceUser copy constructor", R+"util/chunked_list.hpp: ChunkedList copy constructor"])
p("Restricting a field guard never widens it and rejects areas outside",
  "Starting from any guard of a field, any chain of area(), at() and read() calls either throws or yields a guard whose element set is contained in the original one and whose access is covered by the original access; area() throws exactly if the requested area exceeds the current one.",
  "all chains of restrictions of any length, all bounds, all dimensions, including bounds at the maximum of size_t",
  "unbounded chains and 2^64 bounds; the wrap-around at the largest index is not tested",
  [R+"resource/fieldresource.hpp: AreaGuard::make_area, ReadGuard, WriteGuard"])
p("Element access through a guard stays in the guarded area",
  "Reading or writing an element through a guard throws if the position is outside the guard's area; otherwise it touches exactly that element. Two guards obtained by two tasks that do not conflict never both reach the same element unless both tasks use the same non-write mode.",
  "all guards, all positions, all pairs of non-conflicting tasks",
  "all positions and areas",
  [R+"resource/fieldresource.hpp: AreaGuard::get, contains", R+"resource/access/field.hpp"])
p("Conflicting tasks of one space run in submission order",
  "If two tasks of the same task space conflict, the one submitted later does not start executing before the one submitted earlier has completely finished, no matter how workers initialise, steal, activate and execute tasks.",
  "all programs (any number of tasks, resources, access lists), any number of worker threads, all interleavings of the locked scans, counter updates, list updates and notifications",
  "a race that drops a dependency only shows in one interleaving out of an astronomical number",
  [R+"task/property/graph.cpp: init_graph, add_dependency, delete_from_resources", R+"scheduler/event.cpp: EventPtr::notify, Event::add_follower", R+"task/task_space.cpp: TaskSpace::submit"])
p("Every task body is started at most once",
  "Whatever the interleaving of initialisation, notification and stealing, a submitted task is handed to execution (claimed or activated) at most once, and only after its initialisation has been completed.",
  "all programs, all interleavings",
  "double activation needs a precise race between the last predecessor's notification and the end of initialisation",
  [R+"scheduler/event.cpp: EventPtr::notify", R+"dispatch/thread/worker.cpp: init_dependencies", R+"task/property/graph.cpp: init_graph"])
p("No unnecessary ordering",
  "A task only ever waits for tasks of the same space that were submitted earlier and that it conflicts with; two non-conflicting tasks never get a direct dependency.",
  "all programs, all interleavings",
  "statement about every pair of tasks in every schedule",
  [R+"task/property/graph.cpp: init_graph, add_dependency"])
p("No deadlock",
  "If tasks are submitted to a space by one thread at a time, each naming every resource at most once, then whenever no thread can make a step and all task bodies have returned, every submitted task has finished: dependencies never form a cycle and no notification is lost.",
  "all programs in which a task does not wait inside its body, all interleavings",
  "absence of deadlock for every program and schedule",
  [R+"task/property/graph.cpp", R+"scheduler/event.cpp", R+"task/task_space.cpp: submit"])
p("A task may name one resource in several arguments",
  "A task whose arguments contain several (mutually conflicting) accesses to one resource becomes ready like any other task once its predecessors have finished.",
  "all tasks, all lists of accesses with repeated resources",
  "the hang depends on the combination of arguments; no test passes one resource twice",
  [R+"resource/resource_user.cpp: add_resource_access, build_unique_resource_list", R+"task/property/resource.hpp: add_resource", R+"task/task_space.cpp: submit", R+"task/property/graph.cpp: init_graph"])
p("Several threads may submit to one space",
  "Tasks submitted concurrently by several threads to one task space never wait for each other in a cycle.",
  "all programs, all interleavings of the submissions",
  "requires two submissions interleaved between their pushes to two resources",
  [R+"task/task_space.cpp: TaskSpace::submit"])
p("A task waits for the events it created",
  "A task that called create_event() is not finished (its successors do not start) before its body has returned and every event it created has been notified.",
  "any number of events created by any number of tasks, all orders of notification",
  "all orders of notification relative to the end of the body",
  ["redGrapes/redGrapes.cpp: Context::create_event", R+"task/property/graph.cpp: GraphProperty::make_event", R+"scheduler/event.cpp"])
p("A parent task finishes after its children",
  "A task that emplaced child tasks is not finished, and conflicting successors of it are not started, before all of its children have finished.",
  "all nested programs, all interleavings",
  "depends on whether a worker initialises the child before the parent's body returns",
  [R+"task/property/graph.cpp: init_graph (parent edge)", R+"task/task_space.cpp: submit", R+"dispatch/thread/execute.cpp: execute_task"])
p("A task is freed exactly once, after it finished and its result was taken",
  "The memory of a task is released exactly once: after the task has finished and after its future has been read or dropped; no thread touches a task after that.",
  "all programs without nesting, all interleavings of worker threads and of the threads owning the futures",
  "use-after-free only shows in rare interleavings and may stay silent",
  [R+"task/task.hpp: removal_countdown", R+"scheduler/event.cpp: EventPtr::notify", R+"task/task_space.cpp: free_task", R+"task/future.hpp"])
p("Barrier waits for all tasks of the root space",
  "barrier() returns only at a moment at which every task submitted to the root space so far has finished and its future has been read or dropped; in particular barrier() does not return while a future of a root task is still held.",
  "all programs, all interleavings",
  "all schedules",
  ["redGrapes/redGrapes.cpp: Context::barrier", R+"task/task_space.cpp: empty, free_task"])
p("Demotion releases exactly the tasks that no longer conflict",
  "After update_properties has reduced the accesses of a running task, each later task that waited for it only because of the removed accesses no longer waits for it, all other waiting tasks still do, and the parent of the running task still waits for it.",
  "all follower lists, all access lists before and after",
  "needs followers reached through several resources and nested tasks",
  [R+"task/property/graph.cpp: update_graph"])
p("A task that waits for an event continues after the event",
  "If a task pauses on an event (future.get() or yield()) then it is resumed after the event has been notified, whatever the relative timing of pausing and notification.",
  "all interleavings of the pausing worker and the notifying thread",
  "the lost wake-up needs the notification between two adjacent instructions",
  [R+"task/property/graph.hpp: sg_pause", R+"scheduler/event.cpp: Event::add_follower, notify_followers", R+"dispatch/thread/execute.cpp"])
p("Waiting inside a task does not re-run its body",
  "A task body that waits for an event inside the task (with or without stack switching) is executed once.",
  "all bodies, all numbers of waits, all orders of event completion",
  "depends on whether the event is already reached when get() is called",
  [R+"task/task_base.hpp: operator(), yield", R+"dispatch/thread/execute.cpp: execute_task", "redGrapes/redGrapes.cpp: Context::yield"])
p("Number of predecessors and children is unlimited",
  "The bookkeeping of unfinished predecessors/children of an event is exact for any number of them.",
  "all numbers of in-edges",
  "the counter is 16 bit wide; tests never create 65535 unfinished predecessors of one task",
  [R+"scheduler/event.hpp: Event::state"])
p("A list of items behaves like a list",
  "Used by one thread at a time, the lock-free list used for access lists, follower lists and resource users behaves like a mathematical list: iterating yields exactly the pushed and not removed values, latest first; removing through the position returned by push removes exactly this value; positions stay valid under other operations.",
  "all chunk sizes, all sequences of push, remove and erase",
  "needs all histories across chunk borders and all removal orders",
  [R+"util/chunked_list.hpp: push, remove, erase, BackwardIterator, ItemAccess"])
p("Concurrent pushes never collide",
  "Any number of concurrent push operations on the list store their values in pairwise different slots inside the allocated chunks, and for every chunk that becomes full exactly one thread allocates the next chunk.",
  "any number of threads, all interleavings",
  "all interleavings of fetch-and-add and chunk allocation",
  [R+"util/chunked_list.hpp: push", R+"util/atomic_list.hpp: append_item, try_append_first_item"])
p("Concurrent iteration misses no element",
  "An iteration over the list that overlaps with pushes and removals of other elements still visits every element that was pushed before the iteration started and is not removed.",
  "all interleavings of one iteration with pushes and removals",
  "requires a removal next to a reserved but unassigned slot, or an iteration that starts while a chunk is being appended",
  [R+"util/chunked_list.hpp: remove, rbegin, get_last_item, acquire_next_item"])
p("Elements are destroyed exactly once and never while in use",
  "The value of a removed list element is destroyed exactly once, after its removal and after the last iterator has left it; no iterator reads a destroyed value.",
  "any number of concurrent readers and one remover, all interleavings",
  "the window is between two adjacent atomic loads",
  [R+"util/chunked_list.hpp: Item::acquire, Item::release, remove"])
p("Concurrent chunk appends lose nothing",
  "Any number of threads appending chunks to the list of chunks concurrently: every appended chunk that is not deleted is reachable from the head exactly once, and traversing from any chunk only skips deleted chunks.",
  "any number of threads, all interleavings of append, delete and traversal",
  "all interleavings of the compare-and-swap loops",
  [R+"util/atomic_list.hpp: append_item, skip_deleted_prev, erase"])
p("Chunk memory is large enough",
  "For every chunk size, the control block, the chunk header and all item slots of a list chunk lie inside the memory requested for the chunk and do not overlap.",
  "all chunk sizes, all element sizes",
  "depends on template parameters; an overflow by a few bytes is not observable by tests",
  [R+"util/atomic_list.hpp: get_chunk_allocsize, allocate_item", R+"util/chunked_list.hpp: Chunk"])
p("Request sizes are rounded to the next power of two",
  "For every request of 1 to 2^63 bytes the rounded size is the least power of two that is not smaller than the request.",
  "all 64-bit sizes",
  "2^64 inputs",
  [R+"memory/chunked_bump_alloc.hpp: roundup_to_poweroftwo"])
p("Allocated blocks never overlap",
  "All blocks ever handed out by one chunk of the bump allocator are pairwise disjoint and lie inside the chunk, for any sequence (and any concurrent interleaving) of allocations and deallocations.",
  "all sequences of request sizes, any number of threads",
  "all request histories, including failing requests that move the pointer below the chunk",
  [R+"memory/bump_allocator.cpp: allocate, deallocate"])
p("Every allocation request is answered",
  "An allocation request returns a block of at least the requested size (or reports failure); it does not loop forever.",
  "all request sizes, all allocator states, all chunk capacities",
  "all sizes; the default chunk size is never nearly exhausted by a single request in the tests",
  [R+"memory/chunked_bump_alloc.hpp: allocate"])
p("Live memory is never released",
  "A chunk of memory is only given back when no block of it is in use; a block in use stays owned by exactly one chunk that is still part of the allocator.",
  "all histories of allocation and deallocation, all interleavings",
  "the race is between the two atomic updates inside one allocation",
  [R+"memory/chunked_bump_alloc.hpp: allocate, deallocate", R+"memory/bump_allocator.cpp"])
p("Task memory goes back to where it came from",
  "The memory of a task is returned to the allocator from which it was taken.",
  "all numbers of workers and processing units, all arenas",
  "only visible with more workers than processing units, and then only as a leak",
  [R+"task/task_space.cpp: free_task", R+"memory/allocator.cpp", R+"dispatch/thread/worker_pool.cpp: emplace_workers"])
p("The spin lock is mutually exclusive",
  "At most one thread is inside the critical section protected by a spin lock at any time, and a free lock can be taken.",
  "any number of threads, all interleavings including spurious CAS failures",
  "all interleavings",
  [R+"sync/spinlock.hpp"])
p("A wake-up is never lost",
  "If notify() is called on a condition variable object then the waiting thread returns from the wait() it is in, or from the next one it enters, after the notify; it never sleeps forever with the notification unseen, and wait() does not return before some notify() since the previous wait() began to return.",
  "all interleavings of one waiter with any number of notifiers, including spurious wake-ups",
  "the window lies between checking the flag and going to sleep",
  [R+"sync/cv.cpp: CondVar::wait, CondVar::notify"])
p("No task is stranded while its worker sleeps",
  "Whenever a worker is blocked in its condition variable, its queues are empty or a wake-up for it is already pending; so every enqueued task is eventually looked at.",
  "any number of producers, stealing workers, all interleavings",
  "all interleavings of enqueue, wake and going to sleep",
  [R+"dispatch/thread/worker.cpp: work_loop, gather_task", R+"scheduler/default_scheduler.cpp: emplace_task, activate_task, wake"])
p("A thread outside the runtime that waits for an event is woken",
  "If the main thread waits for an event (future.get()) it is woken after the event is reached, for every interleaving with the notifying worker.",
  "all interleavings",
  "all interleavings of registering the waker and reaching the event",
  ["redGrapes/redGrapes.cpp: Context::yield", R+"scheduler/event.cpp: EventPtr::notify", R+"scheduler/default_scheduler.cpp: idle, wake"])
p("Setting a worker state reports the previous state",
  "Setting element idx of the worker-state bitfield changes exactly this element and returns its previous value.",
  "all bitfield sizes, all indices, all contents",
  "needs more than 32 workers; tests run with a few",
  [R+"util/bitfield.hpp: AtomicBitfield::set, get"])
p("Searching the worker states finds exactly the matching workers",
  "Probing for an expected value only offers indices that are in range and were observed with that value, offers no index twice, terminates whatever other threads do meanwhile, and misses no index that keeps the expected value during the search.",
  "all sizes, all start positions, all contents, all concurrent modifications",
  "all sizes/contents; bit tricks over 64-bit words",
  [R+"util/bitfield.hpp: probe_by_value, probe_chunk_by_value, first_one_idx"])
p("Search order and exclusion of the start position",
  "Elements following the start position are offered before those preceding it, and with exclude_start the start position itself is not offered.",
  "all sizes, start positions and contents",
  "all combinations of start position and contents",
  [R+"util/bitfield.hpp: probe_by_value"])
p("A free worker is claimed by one activator only",
  "find_free_worker() returns a worker that was available and marks it busy; two concurrent calls never claim the same availability; and if a worker stays available during the call then some worker is returned.",
  "all numbers of workers, all concurrent calls",
  "needs many workers and concurrent activations",
  [R+"dispatch/thread/worker_pool.cpp: find_free_worker", R+"dispatch/thread/worker_pool.hpp: set_worker_state"])
p("Activating a task enqueues it at an existing worker",
  "Activating a ready task puts it into the ready queue of exactly one existing worker and never performs an invalid operation, whichever thread activates it.",
  "all numbers of workers, all worker states, activation from workers and from other threads",
  "the failing case needs all workers busy while a non-worker thread notifies an event",
  [R+"scheduler/default_scheduler.cpp: activate_task, emplace_task"])
p("Submissions are spread evenly",
  "The tasks submitted by one thread are distributed over the workers in turn: after any number of submissions the numbers of tasks assigned to two workers differ by at most one.",
  "all numbers of workers and submissions",
  "unbounded number of submissions",
  ["redGrapes/redGrapes.hpp: Context::emplace_task", R+"scheduler/default_scheduler.cpp: emplace_task"])
p("Tag matching selects the first scheduler that supports all tags",
  "The tag-matching scheduler hands a task to the first registered scheduler that supports all of the task's tags, and reports an error exactly if there is none; emplacing and activating use the same scheduler.",
  "all lists of registered schedulers, all tag sets",
  "all combinations of tag sets",
  [R+"scheduler/tag_match.hpp: get_matching_scheduler, emplace_task, activate_task"])
p("MPI completions go to the right waiter",
  "When the MPI request pool is polled, every request reported as completed gets its own status and its own event notified exactly once, and the remaining requests stay registered with their own status and event, in order.",
  "all numbers of pending requests, all sets and orders of completed indices",
  "all index permutations; MPI implementations usually report ascending indices so tests only see those",
  [R+"dispatch/mpi/request_pool.hpp: RequestPool::poll, get_status"])
p("Backtrace lists the ancestors of the current task",
  "backtrace() lists the running task and its chain of parents in order, ends at a root task, and has as many entries as the current scope depth.",
  "all nestings of any depth",
  "unbounded nesting",
  ["redGrapes/redGrapes.cpp: backtrace, scope_depth, current_task_space", R+"task/task_space.cpp: TaskSpace constructor"])
p("Every built task is submitted exactly once",
  "However a task builder is moved, explicitly submitted or destroyed, the task it holds is submitted exactly once.",
  "all sequences of moves, submit() and destruction of builders",
  "all sequences",
  [R+"task/task_builder.hpp: TaskBuilder, submit, ~TaskBuilder"])
p("Every result is released exactly once",
  "However a future is moved, read (once) or destroyed, the task is told exactly once that its result is no longer needed, and get() only returns after the result was stored.",
  "all sequences of moves, get() and destruction of futures",
  "all sequences",
  [R+"task/future.hpp: Future", R+"task/task.hpp: ResultTask"])
p("A pooled event is not given out twice",
  "The CUDA event pool never returns an event that is still in use; freed events are reused before new ones are created.",
  "all sequences of alloc and free, all interleavings under the lock",
  "all histories",
  [R+"dispatch/cuda/event_pool.hpp: EventPool::alloc, free"])
p("Identifiers are unique",
  "Resources and tasks get pairwise different identifiers as long as no more than 2^32 are created, for all interleavings of the creating threads; a copy of a resource handle keeps its identity.",
  "all interleavings, all numbers of created objects",
  "the counter wraps only after 2^32 objects",
  [R+"resource/resource.cpp: ResourceBase::generateID", R+"task/property/id.hpp"])
p("Resource user bookkeeping lists each resource once",
  "After the accesses of a task have been declared, the task is registered with every resource it accesses and, if declared through resources(), exactly once with each.",
  "all access lists, all sequences of declarations",
  "all lists",
  [R+"resource/resource_user.cpp: build_unique_resource_list, add_resource_access"])
p("The tag-matching scheduler asks the responsible scheduler for dependency types",
  "With the tag-matching scheduler, whether a successor may be enqueued before its predecessor has completed is decided by the sub-scheduler that is responsible for the task.",
  "all lists of registered schedulers, all tag sets, all answers of the sub-schedulers",
  "whether a member function overrides a virtual one depends on a const qualifier; no test calls it through the interface",
  [R+"scheduler/tag_match.hpp: task_dependency_type", R+"scheduler/scheduler.hpp: IScheduler::task_dependency_type"])
p("Unused memory is given back",
  "A chunk of memory all of whose blocks have been given back and that is not worked on any more is returned to the system; an allocator with no block in use does not hold an unbounded amount of memory.",
  "all histories of allocation and deallocation, all interleavings, all chunk sizes",
  "a leak of whole chunks is invisible to functional tests and depends on the order of frees relative to the exhaustion of the chunk",
  [R+"memory/chunked_bump_alloc.hpp: allocate, deallocate", R+"memory/bump_allocator.cpp: full, deallocate"])
p("Several threads outside of the runtime may wait at the same time",
  "If several threads which are not workers wait for events at the same time (each with its own future), each of them is woken after its event is reached.",
  "any number of outside threads, all interleavings",
  "both notifications have to arrive before the first thread has returned",
  [R+"redGrapes.cpp: Context::yield", R+"sync/cv.cpp: CondVar::wait, CondVar::notify", R+"scheduler/default_scheduler.cpp: idle, wake"])
p("One event may be awaited by several threads",
  "If a thread outside of the runtime and a task (or tasks on different workers) wait for the same event, all of them are woken after the event is reached.",
  "any number of waiting threads and tasks, all interleavings",
  "depends on the order in which the waiters register",
  [R+"redGrapes.cpp: Context::yield", R+"dispatch/thread/execute.cpp: execute_task", R+"scheduler/event.hpp: Event::waker_id"])
p("Internal assertions never fail","While tasks are initialised, executed and finished, the internal consistency checks hold: the counter of an event is never decremented below zero, and a task is ready at the moment its execution begins.","all programs in which child tasks are initialised before the body of their parent returns, all interleavings","An assertion failure needs a particular interleaving of initialisation and notification; release builds do not even check it.",[R+"scheduler/event.cpp: EventPtr::notify", R+"dispatch/thread/execute.cpp: execute_task"])
p("barrier() returns when the root space is empty, and then it does return",
  "A thread in barrier() returns only at a moment when the root space has no task; if the last task is freed while the thread sleeps or is about to sleep, it is woken; and once the last task has been freed and the freeing threads are done, it returns after a bounded number of its own steps. This holds for every thread that calls barrier().",
  "all interleavings of the barrier thread with any number of threads that submit and free tasks, notify, and wake it spuriously; all task counts; all calling threads",
  "the window between the emptiness test and going to sleep is a few instructions wide, and tests call barrier() from the main thread only",
  [R+"redGrapes.cpp: Context::barrier", R+"task/task_space.cpp: TaskSpace::empty", R+"task/task_space.cpp: TaskSpace::free_task", R+"scheduler/default_scheduler.cpp: DefaultScheduler::idle", R+"scheduler/default_scheduler.cpp: DefaultScheduler::wake_all", R+"sync/cv.hpp: CondVar"])
p("Shut-down stops every worker before anything is destroyed, and does not hang",
  "When finalize() destroys the workers, every worker thread has left its loop and does nothing any more; no worker leaves its loop before it was told to stop; and if a worker has nothing left to do, the join on it returns after a bounded number of steps of this worker, even if it was just going to sleep.",
  "all pool sizes, all interleavings of the stopping thread, the workers and other threads that push tasks and wake workers",
  "a worker that misses its stop request hangs the program only if the request falls between its last test and its wait",
  [R+"dispatch/thread/worker_pool.cpp: WorkerPool::stop", R+"dispatch/thread/worker.cpp: WorkerThread::stop", R+"dispatch/thread/worker.cpp: Worker::stop", R+"dispatch/thread/worker.cpp: Worker::work_loop", R+"redGrapes.cpp: Context::finalize"])
p("Waker ids identify workers, wake_all wakes everybody",
  "The id under which a worker registers for a wake-up wakes exactly this worker, for any number of workers; wake_all wakes the main thread and each worker exactly once, and ends.",
  "all numbers of workers",
  "needs pools with more than 32767 workers",
  [R+"scheduler/scheduler.hpp: WakerId", R+"dispatch/thread/worker.hpp: Worker::get_waker_id", R+"scheduler/default_scheduler.cpp: DefaultScheduler::wake", R+"scheduler/default_scheduler.cpp: DefaultScheduler::wake_all"])
p("A task with scheduling tags is submitted completely or not at all",
  "If some registered scheduler supports all scheduling tags of a task, creating the task counts it once, enters it at each of its resources behind the earlier tasks, and gives it to the first such scheduler, and to no other. If none does, or if a tag is out of range, the program gets an exception and the task leaves no trace: it is not counted, not registered at its resources, and not given to any scheduler.",
  "all sets of registered schedulers, all sequences of scheduling_tags calls, all resource lists, all states of the space; builders that are submitted explicitly or dropped",
  "error paths of task creation are not tested, and their effects show up later, e.g. as a barrier that never returns",
  [R+"task/task_builder.hpp: TaskBuilder::submit", R+"task/task_builder.hpp: ~TaskBuilder", R+"task/task_space.cpp: TaskSpace::submit", R+"scheduler/tag_match_property.hpp: scheduling_tags", R+"scheduler/tag_match.hpp: emplace_task"])
p("Every task is handed to exactly one worker",
  "Each submitted task is initialised exactly once, by one worker, and each task that was reported ready (by the worker that initialises it, or by an activation) is executed exactly once, by one worker, no matter which workers look into which queues: nothing is lost, duplicated or invented, and no two workers execute one task at the same time.",
  "all numbers of workers, all interleavings of submissions, activations, gathering and stealing",
  "losing or duplicating a task while stealing needs a particular interleaving of two workers and a producer",
  [R+"dispatch/thread/worker.cpp: Worker::gather_task", R+"dispatch/thread/worker.cpp: Worker::init_dependencies", R+"scheduler/default_scheduler.cpp: DefaultScheduler::steal_task", R+"scheduler/default_scheduler.cpp: DefaultScheduler::steal_new_task", R+"scheduler/default_scheduler.cpp: DefaultScheduler::steal_ready_task", R+"scheduler/default_scheduler.cpp: DefaultScheduler::activate_task", R+"scheduler/default_scheduler.cpp: DefaultScheduler::emplace_task"])
p("A worker gives up searching only if there is nothing to do",
  "A task returned by gather_task is ready. If gather_task returns nothing, then its own queues were empty, and each worker that was busy during the search had no ready task and no new task that is ready. The search ends unless new tasks keep arriving.",
  "all numbers of workers, all contents of the queues and all worker states, changing arbitrarily during the search",
  "the result depends on what other threads do during the search; a missed task is executed later by someone else, so that only time is lost",
  [R+"dispatch/thread/worker.cpp: Worker::gather_task", R+"dispatch/thread/worker.cpp: Worker::init_dependencies", R+"scheduler/default_scheduler.cpp: DefaultScheduler::steal_task", R+"util/bitfield.hpp: probe_by_value"])
p("Chunk iterations end, appends are lock-free, erased chunks disappear",
  "Iterating over the chunks of a list ends after a number of steps bounded by the number of chunks appended before, whatever other threads append or erase meanwhile, and is never stuck. Appending a chunk succeeds unless other threads keep appending. An iteration that begins after a chunk has been erased does not visit it.",
  "any number of threads and chunks, all interleavings",
  "lock-freedom and the effect of stale skip pointers show only in particular interleavings",
  [R+"util/atomic_list.hpp: skip_deleted_prev, operator++, rbegin, append_item, erase"])
p("A task that is initialised finds all earlier users of its resources",
  "When a task is initialised, the traversal of the users of a resource starts at the task's own entry and visits, newest first and each at most once, every task that was registered with the resource earlier and has not been removed. Only registered tasks are visited.",
  "any number of threads that submit, initialise and finish tasks, all chunk sizes and interleavings",
  "the traversal overlaps with registrations and removals by other threads",
  [R+"task/property/graph.cpp: init_graph, delete_from_resources", R+"task/task_space.cpp: submit", R+"util/chunked_list.hpp: push, remove, operator++"])
p("The operations of the chunked list end",
  "Iterating over a list ends after a bounded number of steps of the thread, whatever other threads push or remove meanwhile. Removing is wait-free. A push can always be completed: it waits at most for one other thread, which allocates the next chunk.",
  "any number of threads, all chunk sizes and interleavings",
  "termination of lock-free loops in all interleavings",
  [R+"util/chunked_list.hpp: push, remove, acquire_next_item, operator++"])
p("The runtime can be started and stopped again, and objects may be created and dropped at any time",
  "init() and finalize() may be called alternately any number of times; resources, accesses and tasks may be created at any time, and dropped at any time, also after finalize() or after a restart. No call divides by zero, follows a null pointer, or accesses memory that has been released, and when all objects have been dropped all memory has been given back to the allocators.",
  "all sequences of calls of init, finalize, barrier, resource creation, access creation, registration, drop and task creation, all numbers of workers",
  "static objects, restarts and unusual machines (unknown number of processing units) are hardly covered by tests; use after free is often invisible",
  [R+"redGrapes.cpp: Context::init, Context::barrier, Context::finalize", R+"redGrapes.hpp: init, emplace_task", R+"dispatch/thread/worker_pool.cpp: emplace_workers, stop", R+"memory/allocator.cpp: Allocator::allocate, Allocator::deallocate", R+"resource/resource.hpp: Resource::Resource, make_access", R+"resource/resource.cpp: get_arena_id"])
p("Waiting for results in task bodies causes no deadlock",
  "A task body may wait for the result (future) of any task it has submitted, of any task whose future it captured when it was created, and of any task whose future was part of a result it has read. While bodies wait, the other tasks go on; all results that are waited for are eventually set, and all tasks complete. There is no state in which tasks remain and nothing can happen.",
  "all programs (any numbers of tasks, nesting, conflicts), all ways of passing futures from parents to children, to later tasks and through results, all interleavings",
  "deadlocks depend on which task waits for which other one in which schedule",
  [R+"task/future.hpp: Future::get", R+"redGrapes.cpp: Context::yield", R+"task/property/graph.cpp: init_graph", R+"task/task.hpp: ResultTask::operator()", R+"dispatch/thread/execute.cpp: execute_task"])
p("The runtime as a whole executes all tasks and then sleeps",
  "Whatever tasks are submitted, and whichever results their bodies wait for, the workers initialise, steal, execute, pause and continue them until all have finished; only then all workers are asleep, with empty queues. No worker falls asleep for ever while a task could be executed or continued, and the workers do not go on working for ever without a new request.",
  "any number of workers and of other threads, all programs in which tasks are submitted to a space by one thread at a time, no task accesses one resource twice in a conflicting way, and bodies wait for the results of their children; all interleavings of submissions, queues, stealing, condition variables, initialisation, execution and notifications",
  "liveness depends on the interplay of all parts in all schedules; tests see only few schedules and hang only rarely",
  [R+"dispatch/thread/worker.cpp: Worker::work_loop, gather_task, init_dependencies", R+"scheduler/default_scheduler.cpp: emplace_task, activate_task, steal_task", R+"sync/cv.cpp: CondVar::wait, notify", R+"dispatch/thread/execute.cpp: execute_task", R+"task/property/graph.cpp: init_graph", R+"scheduler/event.cpp: Event::notify"])
p("Tasks with conflicting accesses are never executed at the same time",
  "If the accesses of two tasks to a resource conflict, then the bodies of the two tasks are never executed at the same time, wherever the tasks are in the tree of tasks, unless one of them is an ancestor of the other. The resource has to be created outside of those ancestors that the tasks do not share, and the accesses of every task have to cover the ones of its children, as is asserted at submission.",
  "all trees of tasks, all access policies, all numbers of workers, all interleavings",
  "a race between tasks of different subtrees shows only if the workers happen to execute them at the same moment",
  [R+"task/property/graph.cpp: init_graph, update_graph", R+"task/task_space.cpp: submit, is_superset", R+"resource/resource_user.cpp: is_superset_of, is_serial", R+"dispatch/thread/execute.cpp: execute_task"])
p("barrier() and finalize() return, after all tasks",
  "When barrier() returns, all tasks submitted before have completely finished, including nested ones, and no worker executes a task. finalize() tells a worker to stop only then, and destroys the workers only after their threads have ended. If the user holds no future of a task of the root space, finalize() and barrier() do return: no thread waits for ever.",
  "all programs whose bodies wait for their children, any number of workers, all interleavings, also with spurious wake-ups; fewer than 2^32 tasks",
  "lost wake-ups of the main thread or of a worker that is told to stop need a particular interleaving and show up as a program that does not end",
  [R+"redGrapes.cpp: Context::barrier", R+"redGrapes.cpp: Context::finalize", R+"task/task_space.cpp: TaskSpace::free_task", R+"task/task_space.cpp: TaskSpace::empty", R+"dispatch/thread/worker_pool.cpp: WorkerPool::stop", R+"dispatch/thread/worker.cpp: WorkerThread::stop", R+"dispatch/thread/worker.cpp: Worker::stop", R+"dispatch/thread/worker.cpp: Worker::work_loop", R+"scheduler/default_scheduler.cpp: DefaultScheduler::idle", R+"scheduler/default_scheduler.cpp: DefaultScheduler::wake"])
p("The guarantees of the task graph hold with the lock-free lists",
  "The order of conflicting tasks, the single start of every task, the end of a parent after its children and the return of barrier() after all tasks do not depend on the internal steps of the lists of users and followers: a submission, a removal, a dependency search and a notification that run at the same time on these lists do not lose a dependency or a notification, and a task that is found in a list has not been released.",
  "all programs, any number of threads and resources, all chunk sizes, all interleavings of the memory accesses of the lists",
  "an element that is skipped by an iteration because a removal overlaps with a push shows only in a window of a few instructions, and only if two conflicting tasks then happen to run at the same time",
  [R+"task/property/graph.cpp: init_graph", R+"task/property/graph.cpp: delete_from_resources", R+"task/task_space.cpp: TaskSpace::submit", R+"scheduler/event.cpp: add_follower", R+"scheduler/event.cpp: notify_followers", R+"util/chunked_list.hpp: push, remove, operator++", R+"util/atomic_list.hpp: append_item, operator++"])
p("No deadlock with the lock-free lists",
  "In whatever state the threads are inside of the lists of users and followers and of their locks, some thread can make a step as long as a submitted task has not finished, and the tasks submitted so far can be completed without any help of the user except that task bodies return and events are notified. In particular a thread that is stopped inside of a push, an iteration or a removal does not leave the list in a state that the other threads can not get out of once it goes on.",
  "all programs in which one thread at a time submits to a space, any number of threads and resources, all chunk sizes, all reachable states of the memory of the lists",
  "a test sees only the schedules that happen; a deadlock between a lock, a list that is being extended and a waiting task needs a certain position of several threads at the same time",
  [R+"task/property/graph.cpp: init_graph", R+"task/property/graph.cpp: delete_from_resources", R+"task/task_space.cpp: TaskSpace::submit", R+"scheduler/event.cpp: add_follower", R+"scheduler/event.cpp: notify_followers", R+"util/chunked_list.hpp: push, remove, operator++", R+"util/atomic_list.hpp: append_item, operator++"])
p("The parallel program computes the same as the sequential program",
  "If the bodies of the tasks do with the data only what the tasks have declared, then after all tasks have returned - e.g. after barrier() or finalize() - the data are the same as if every call of emplace_task had executed the task right away, as a function call. In particular the result does not depend on the number of workers, on the order in which they execute tasks, or on how the actions of tasks that run at the same time interleave.",
  "all programs and all data, any nesting, any number of workers, all interleavings of the actions of the bodies and of the steps of the runtime system; bodies that read, write, and atomically add or multiply, on whole resources and areas of fields",
  "A test compares the results of a few schedules of one program. That no schedule of any program gives another result is a statement about all interleavings of actions that cannot be enumerated, and a result can be right by accident although the order of two conflicting tasks was not respected.",
  [R+"redGrapes.hpp: emplace_task", R+"dispatch/thread/execute.cpp: execute_task", R+"task/property/graph.cpp: init_graph", R+"redGrapes.cpp: barrier, finalize", R+"resource/access/io.hpp: is_serial", R+"resource/access/field.hpp: is_serial"])
p("Programs whose tasks depend on the data compute the same as the sequential program",
 "The tasks that are submitted, what they declare and what they do may depend on what the main program and the task bodies have read, including results of other tasks. If every body does with the data only what its task has declared, and waits for the tasks that it has submitted before it returns or uses their data, then the memory at the end is what the program computes if every call of emplace_task executes the task right away. In particular which tasks are created, and all results, are the same in all executions, although tasks are submitted in different orders.",
 "all programs in which the next action, submission or wait of a body is any function of its local state, all data, any number of workers, all interleavings; and for a small language in which the conditions are checked on the program text",
 "The tasks of such a program are not known before it runs. A test follows one path through the program; a dependency that is missing on another path, or in another order of submission, is not noticed.",
 [R+"redGrapes.hpp: emplace_task", R+"task/future.hpp: get", R+"redGrapes.cpp: barrier, finalize", R+"dispatch/thread/execute.cpp: execute_task", R+"task/property/graph.cpp: init_graph"])
p("Programs whose tasks depend on the data come to their end",
 "If the bodies do not run forever by themselves and wait for the tasks that they have submitted, and no task has two conflicting accesses to one resource, then every execution of the program ends: bodies that wait for tasks never wait for each other, a body can always submit its next task, and when nothing more can happen then the main program is complete, all tasks have finished, and the memory is what the sequential program computes.",
 "all programs whose submissions, waits and actions depend on the data, all interleavings, all states on the way; every checked program of the small language",
 "Deadlock and endless execution depend on the schedule. A test that ends says nothing about other schedules, and a test that does not end does not tell why.",
 [R+"task/future.hpp: get", R+"redGrapes.cpp: barrier, yield", R+"scheduler/event.cpp: notify", R+"task/property/graph.cpp: init_graph", R+"task/task_space.cpp: submit"])
p("Programs whose tasks depend on the data come to their end on any number of workers",
"On any number of workers, at least one, a program whose bodies wait for the tasks that they submit comes to its end: it does not happen that all workers are occupied by bodies that wait, because a waiting body gives its worker away; when nothing more can happen, then the main program is complete, all tasks have finished, all workers sleep with empty queues, and the memory is what the sequential program computes.",
"all programs whose submissions, waits and actions depend on the data, all numbers of workers from one on, all interleavings, all distributions of the tasks to the queues of the workers",
"Whether the workers suffice depends on the depth of nested waits, on the queues in which the tasks are and on the order in which workers sleep and wake up; a test sees few of them.",
[R+"redGrapes.cpp: yield", R+"dispatch/thread/execute.cpp: execute_task", R+"dispatch/thread/worker.cpp: work_loop, gather_task", R+"scheduler/default_scheduler.cpp: emplace_task, activate_task", R+"task/future.hpp: get"])
p("Total correctness: every execution on every number of workers ends with the result of the sequential program",
"For a program whose bodies do what their tasks declare, declare at least the accesses of the tasks that they submit, and wait for these tasks before they use their data and return, there is one result, the one of the sequential program, such that on every number of workers every execution ends, is never stuck before its end, and leaves this result in memory. Nothing has to be known in advance about the tasks: which tasks are submitted, with which accesses and by which body, may depend on the data and on the order of events.",
"all disciplined programs (in particular all programs of a small language that pass a syntactic check), all initial memories, all numbers of workers from one on, all interleavings",
"It is the sum of all guarantees: a test can compare the result of one schedule with the sequential one, but neither all schedules nor all programs.",
[R+"redGrapes.hpp: emplace_task", R+"redGrapes.cpp: yield, barrier", R+"task/property/graph.cpp: init_graph", R+"scheduler/event.cpp: notify", R+"dispatch/thread/worker.cpp: work_loop, gather_task", R+"dispatch/thread/execute.cpp: execute_task"])
p("Tasks that give up accesses while they run stay synchronized",
  "A task may give up accesses while it runs, as often as it wants. At every moment two tasks of a space that have been started and have not finished do not conflict with the accesses that they have at this moment; a task is started before an earlier one has finished only if the two do not conflict any more. Every task is started at most once, no assertion of the runtime fails, tasks that wait only because of an access that is given up are given to a worker by the demotion, and after any demotions all tasks come to their end.",
  "all programs, any number of tasks and resources, all sequences of demotions, all interleavings in which a demotion does not meet one of the three defects of C22; with one worker all interleavings",
  "The order of demotions, submissions and initialisations is decided by the scheduler; what goes wrong (a lost decrement, a released task that still conflicts) shows up only in rare interleavings and many steps later.",
  [R+"redGrapes.cpp: update_properties", R+"task/property/graph.cpp: update_graph, init_graph", R+"task/property/resource.hpp: apply_patch", R+"scheduler/event.cpp: add_follower, notify"])

p("Tasks that give up accesses compute the same as the sequential program",
  "A task that gives up accesses while it runs lets later tasks start earlier. If every part of a body uses only data for which the task still has the access at that time, then the result of the program is the one of the sequential program, in which the tasks are executed one after the other in the order of their submission, whatever has been given up and whether or not update_properties has thrown exceptions; parts of bodies that are executed at the same time do not interfere.",
  "all programs without nested tasks, all bodies (sequences of phases of atomic actions on an arbitrary memory), all interleavings of the actions with the steps of the runtime, all demotions at any time",
  "Whether a later task reads the data before or after the earlier one has changed it depends on the interleaving of the bodies with the demotion; a test observes a few interleavings of one program.",
  [R+"redGrapes.cpp: update_properties", R+"task/property/graph.cpp: update_graph", R+"dispatch/thread/execute.cpp: execute", R+"task/property/resource.hpp: apply_patch"])
p("Tasks that access data through the guards that they get as arguments are correct without declaring anything",
  "A user who accesses data only through guards (operator* and operator[] of IOResource and FieldResource guards, narrowed with read(), area() and at()) and passes guards as arguments to tasks does not have to declare accesses: what is derived from the arguments covers everything that the body of the task and the tasks submitted by it read and write. If such bodies also wait for the tasks that they submit before they use their data and return, every execution on every number of workers ends, and the result and all objects are the ones of the program in which emplace_task is a function call.",
  "all programs of a language with guards that pass the checks of the compiler and do not take pointers to whole objects out of guards; all data, all numbers of workers from one on, all interleavings; all orders in which the compiler evaluates the arguments of a call; any nesting, any derivation of sub-areas, tasks that depend on the data",
  "The accesses are derived by conversions of the arguments; a guard that gives access to more than it declares is noticed only if two tasks happen to use the difference at the same time.",
  [R+"resource/ioresource.hpp: ReadGuard, WriteGuard", R+"resource/fieldresource.hpp: AreaGuard, ReadGuard, WriteGuard", R+"resource/resource.hpp: BuildProperties, SharedResourceObject", R+"task/task_builder.hpp: TaskBuilder", R+"redGrapes.hpp: emplace_task"])
p("Whole programs: finalize() returns, and the memory is the one of the sequential program","A program that calls init(), runs a main program with tasks that submit tasks and wait for them, uses barrier() and futures, and ends with finalize(), comes to its end: finalize() returns, the threads of the workers have ended, all tasks have finished, no body is paused, and the memory is the one of the program in which tasks are function calls, provided that bodies do what their tasks declare and wait for the tasks that they submit before they use their data and return, and the futures are read or dropped. The number of tasks that a program submits is at most the one that its text shows.","all disciplined programs (in particular all that pass the checks of the small language or of the language with guards), all initial memories, all numbers of workers, all interleavings of the individual steps of pausing, notifying, stealing, sleeping, waking, barrier() and finalize()","A test can observe that one run ends; that every run ends, whatever the interleaving of pausing a body with the notification that continues it and with the shutdown, needs a proof. (It is false for nested waiting on two workers; a test finds this only with the unlucky interleaving.)",[R+"redGrapes.cpp: barrier, finalize, yield",R+"dispatch/thread/execute.cpp: execute_task",R+"scheduler/event.cpp: add_follower, notify",R+"dispatch/thread/worker.cpp: work_loop, stop",R+"redGrapes.hpp: emplace_task",R+"task/future.hpp: Future::get"])
p("Data-race freedom in the C++ memory model: conflicting accesses of tasks are ordered by happens-before",
  "The order that redGrapes establishes is not only an order in time but the happens-before relation of C++, through the atomic operations and locks of the runtime: what a task (with its descendants and its events) did happens before what a later conflicting task does; what a body did before emplace_task happens before what the task does; what a task did happens before what follows get() of its future; what all tasks did happens before what follows barrier(); and everything happens before the task is freed. Therefore a program whose tasks do only what they declare, and whose bodies wait for their tasks before using the tasks' data and before returning, has no data race, and hence no undefined behaviour from unsynchronized plain accesses, on any number of workers. Without one of the two conditions there are races.",
  "all programs that satisfy the two conditions (in particular all that pass the checks of the small language or of the language with guards), all numbers of workers, all interleavings, with the acquire/release semantics of each atomic operation as it is written in the code",
  "A data race on real hardware shows up rarely and only as a wrong value; on x86 many missing acquire/release edges never show up at all. Race detectors see the one interleaving that was executed.",
  [R+"scheduler/event.cpp: notify, add_follower, is_reached", R+"scheduler/event.hpp: Event::state", R+"task/property/graph.cpp: init_graph, delete_from_resources, add_dependency", R+"sync/spinlock.hpp: SpinLock", R+"dispatch/thread/execute.cpp: execute_task", R+"dispatch/thread/worker.cpp: init_dependencies", R+"task/queue.hpp: push, pop", R+"task/task.hpp: operator()", R+"task/future.hpp: Future::get", R+"task/task_space.cpp: submit, free_task, empty", R+"redGrapes.cpp: barrier, yield"])
p("Wake-ups are not lost with the memory of real processors",
"If a task is put into the queue of a worker and the worker is woken (`wake()` has returned), the worker looks at its queue again before it sleeps; and a thread outside of the runtime that waits for an event or a barrier is woken when the event is reached. This holds not only if memory is sequentially consistent but also with the store buffers of x86 and with every behaviour that the memory model of C++ allows for the orders given in the code.",
"all numbers of producing and notifying threads, all interleavings, all times at which store buffers are emptied, all values a load may return by the memory model",
"Whether a store is delayed or an old value is read depends on the processor and on timing in the range of nanoseconds; a test on x86 can never show the behaviour of ARM, and a lost wake-up is usually hidden by the next one.",
[R+"sync/cv.cpp: CondVar::wait, CondVar::notify", R+"redGrapes.cpp: Context::yield, Context::barrier", R+"scheduler/event.cpp: Event::notify", R+"scheduler/event.hpp: Event::waker_id", R+"dispatch/thread/worker.hpp: Worker::emplace_task, Worker::activate_task", R+"scheduler/default_scheduler.cpp: activate_task"])
p("A task has the properties that were given, and a patch changes what it says, or nothing",
 "Each argument of emplace_task and each call of the builder (resources, add_resource, label, scheduling_tags, enable_stack_switching) sets exactly its own property; accesses and tags add up, the last label counts; neither the order in which C++ evaluates the arguments nor the order of the calls matters for the scheduling. A patch that is written as a chain of calls contains exactly these changes in their order, and builders of patches behave like values: they can be copied, stored and changed independently. An accepted patch changes every property as the part for this property says and leaves id, queue and graph alone; the sum of two patches does what they do one after the other; a patch that is rejected with an exception changes nothing.",
 "all lists of properties including classes of the user, all data and patches, all programs that construct, copy, change and destroy builders, all lists and permutations of arguments and calls",
 "The properties are composed with templates and references between subobjects; a reference into a copied-from or destroyed object or a property that is skipped shows up only for certain combinations of classes and temporaries.",
 [R+"task/property/inherit.hpp: TaskProperties1", R+"task/property/resource.hpp: Patch, Patch::Builder, apply_patch", R+"task/property/trait.hpp: BuildProperties", R+"task/task.hpp: TaskProperties", R+"task/task_builder.hpp: TaskBuilder", R+"task/property/label.hpp: LabelProperty", R+"scheduler/tag_match_property.hpp: SchedulingTagProperties", R+"redGrapes.cpp: update_properties"])
p("The queues of tasks neither lose nor duplicate nor corrupt tasks",
  "Every task that is pushed into a queue of a worker is returned by at most one pop, nothing else is returned, and nothing is lost: when no pop is under way, the tasks returned are the oldest ones pushed, by each thread. Tasks of one thread come out in the order they went in: a pop returns a task pushed later than everything returned before the pop began. No thread reads an element that is not there, that another thread is constructing or destroying, or in a block that has been given back, whatever the sizes of blocks and index and however often blocks are reused. push and pop end after a bounded number of steps of the calling thread, whatever other threads do. Blocks from which everything has been popped are given back, so that the memory in use is bounded by what is in the queue. A pop finds nothing only if there is nothing.",
  "all numbers of pushing and popping threads, all interleavings of their atomic accesses, all block sizes >= 2 and initial sizes of the index >= 1, all sequences of elements",
  "The index of blocks is read while it is replaced and blocks are reused while others look them up; an error needs a thread to be suspended between two particular atomic accesses while others go through whole blocks.",
  [R+"task/queue.hpp: Queue", "share/thirdParty/cameron314/concurrentqueue/include/moodycamel/concurrentqueue.h: ImplicitProducer::enqueue, dequeue, insert_block_index_entry, new_block_index, get_block_index_index_for_index"])
p("No worker sleeps beside a task in its lock-free queue",
"Whatever threads emplace and activate tasks, and however the workers take tasks out of their own queues and steal from each other's, with the queue implementation that is actually used: if a worker sleeps while there is a task in one of its queues, then somebody is about to wake it. When all workers sleep and all calls of emplace and activate have returned, every task that was pushed has been taken out, once.",
"all executions: any number of workers, of pushing threads and of tasks, all interleavings of the atomic accesses of the queues, the condition variables and the worker states, all block sizes and index sizes",
"The window is a few instructions of a stealing worker, between two increments of different counters, during which another thread has to push, wake, look and go back to sleep; a test would have to stop a thread there.",
[R+"dispatch/thread/worker.cpp: Worker::work_loop, gather_task, init_dependencies", R+"scheduler/default_scheduler.cpp: emplace_task, activate_task, steal_new_task, steal_ready_task, steal_task", R+"task/queue.hpp: Queue::push, Queue::pop", "share/thirdParty/cameron314/concurrentqueue/include/moodycamel/concurrentqueue.h: try_dequeue, ImplicitProducer::dequeue"])
p("The memory blocks of the task queues are recycled without mix-up",
"A block that a queue takes from its pool (initial pool, free list or heap) is not in use: no two users get the same block at the same time, however many threads take and give back blocks at once, and even if a thread is suspended for long in the middle of taking one (no ABA problem). No block is lost: when no call is under way, the free list contains exactly the blocks of the initial pool that have been given back, each once, and the heap blocks that exist are those in use. The pool never touches a block that has been destroyed, its reference counts do not overflow and its assertion holds. A block that has been given back is reused before the heap is asked, if no other call is under way.",
"all executions: any number of threads, any sizes of the initial pool, any sequences of calls, all interleavings of the atomic accesses",
"The reference counting of the lock-free free list guards against a thread that was suspended between reading the next pointer and exchanging the head while the same node is removed and inserted again; tests do not hit this window.",
["share/thirdParty/cameron314/concurrentqueue/include/moodycamel/concurrentqueue.h: FreeList::add, try_get, add_knowing_refcount_is_zero, requisition_block, try_get_block_from_initial_pool, add_block_to_free_list", R+"task/queue.hpp: Queue"])
p("Every thread pushes tasks to a sub-queue of its own","When threads submit or activate tasks, each of them pushes to a sub-queue of the queue of tasks that no other thread pushes to; it always gets the same one, however many threads there are and while the table of sub-queues is being replaced by a bigger one. The sub-queue is in the list searched by workers before the first task is pushed. When a thread exits, its sub-queue stays in the list and may be given to a new thread, but never to two, and a later thread with the same id is not taken for it. The tables never get full, so that every search ends, and a push waits for another thread only while this is building a bigger table.","all numbers of threads that come and go, all hash functions, all initial capacities, all interleavings of the calls","The windows (a thread inserts itself in the old table while the new one is published; two threads want to build at once) need more than 16 threads and exact timing; the probing loops are claimed to end only by a comment.",["share/thirdParty/cameron314/concurrentqueue/include/moodycamel/concurrentqueue.h: get_or_add_implicit_producer (3387-3533)","share/thirdParty/cameron314/concurrentqueue/include/moodycamel/concurrentqueue.h: recycle_or_create_producer, add_producer (3227-3277)","share/thirdParty/cameron314/concurrentqueue/include/moodycamel/concurrentqueue.h: implicit_producer_thread_exited (3535-3564)",R+"scheduler/default_scheduler.cpp: emplace_task (33-63)",R+"dispatch/thread/worker.cpp: gather_task (157-201)"])
p("The queue of tasks is correct with the memory orders in its code",
"With only the release and acquire orders that the code asks for (as on ARM and POWER, or after reordering by the compiler): every task pushed is returned by at most one pop, nothing else is returned and nothing is lost, the tasks of a thread come out in the order they were pushed, and no null pointer, destroyed element or block that has been given back is used. What a thread did before it pushed a task is visible to the worker that has popped it. No access to an element or to an index is a data race. A pop finds an element that its thread knows to be there.",
"all numbers of pushing and popping threads, all executions of the memory model (every load may return any value not hidden by one that the thread knows), all block sizes >= 2 and initial sizes of the index >= 1",
"On x86 most of these orders are implied by the hardware, so that a missing acquire or release cannot show in a test there; elsewhere it shows only if a load is delayed across the reuse of a whole block.",
["share/thirdParty/cameron314/concurrentqueue/include/moodycamel/concurrentqueue.h: ImplicitProducer::enqueue, dequeue (2486-2619)","share/thirdParty/cameron314/concurrentqueue/include/moodycamel/concurrentqueue.h: insert_block_index_entry, get_block_index_index_for_index, new_block_index (2901-3008)","share/thirdParty/cameron314/concurrentqueue/include/moodycamel/concurrentqueue.h: Block::set_empty, reset_empty (1605-1650)",R+"task/queue.hpp: Queue"])
p("The programs that come with the library compute what they are meant to compute",
  "The example programs and the randomized test that are shipped with the library, executed on the runtime, end and deliver the mathematical result they stand for: the game of life prints the generations of Conway's rule on a torus and leaves the last one in its buffer, the tiled Cholesky decomposition leaves a factor C with C * C^t = A in the lower triangle (and, with rounding, the result of exactly the calls of the sequential algorithm), the random task graph leaves the values that were computed in advance, and in the ring of ranks every rank receives from the rank that sends to it.",
  "for every board, chunk size, number of buffers and generations; every positive definite matrix of tiles over any ring with an involution; every task list and hash function; every number of workers, every order of evaluation of arguments, and every schedule",
  "the programs are run by hand with fixed sizes and a fixed seed, most of their results are only printed, and the test's hash function commutes, so that it accepts every order of the tasks",
  ["examples/game_of_life.cpp: main, next_state","examples/cholesky.cpp: main","test/random_graph.cpp: TEST_CASE(RandomGraph), hash","examples/mpi.cpp: main"])
p("What a spin lock protects behaves as with sequentially consistent memory",
"The spin lock (compare-exchange with acquire, relaxed loads while waiting, store with release) protects data in the memory model of C++: no two threads hold it at the same time, although loads may return old values and stores may be placed in the middle of the modification order; accesses of data with the lock held do not race; whoever gets the lock knows everything that has happened before earlier unlocks of it; and what the threads observe (the order of lock and unlock and the values read) is an execution of a machine with ordinary memory. A thread that waits for a lock that nobody holds can take it with two steps of its own. With a weaker order of either operation there are data races.",
"for any number of threads, locks and protected objects, any values and any sequence of operations of the threads; every choice of the memory allowed by C++; any other synchronization between the threads",
"the memory orders make no difference on x86, where tests are usually run; a lock with relaxed orders passes them, and on other machines wrong values appear only with rare timing",
[R+"sync/spinlock.hpp: SpinLock::lock", R+"sync/spinlock.hpp: SpinLock::unlock", R+"task/property/graph.cpp: GraphProperty::init_graph", R+"task/property/graph.cpp: GraphProperty::delete_from_resources", R+"resource/resource.hpp: ResourceBase::users_mutex"])
p("A chunk of a list lives exactly as long as somebody refers to it",
"The chunks of the lists (of memory, of users of a resource, of accesses, of followers) are managed by reference counts. However many threads append chunks, iterate, erase chunks and drop iterators at the same time: no thread accesses a chunk that has been destroyed; a chunk is destroyed when the last shared pointer to it is gone, and not earlier, and only once; the count of a chunk is the number of shared pointers to it; when no operation is running and no iterator is left, the chunks that exist are those of the list (nothing leaks); and giving up a reference ends.",
"for any number of threads, chunks and iterators, every interleaving of the steps of the operations on shared pointers",
"a use after free needs two threads that meet between two machine instructions, at the moment when a chunk is erased; tests do not hit this and usually do not notice it",
[R+"util/atomic_list.hpp: BackwardIterator::operator++", R+"util/atomic_list.hpp: ItemControlBlock::skip_deleted_prev", R+"util/atomic_list.hpp: append_item", R+"util/atomic_list.hpp: try_append_first_item", R+"util/atomic_list.hpp: erase", R+"memory/chunked_bump_alloc.hpp: deallocate"])
p("A list holds exactly the references of its elements","Lists of accesses, of resources and of follower events contain shared pointers. At any time the reference count of an object is the number of references outside of lists plus the number of list elements that refer to it; hence an object in a list stays alive until its element is removed (and the last iterator has left it) or the list is destroyed, it is destroyed then and not earlier or later, and using a list never affects the count of an object that is not in it. This holds although the elements are assigned without having been constructed, and destroyed although some were never assigned, whatever the memory was used for before; all that is needed is that the operating system hands out pages that are zero.","all sequences of mapping and releasing pages, allocating, writing and freeing blocks, creating objects, copying and dropping references, pushing, iterating, removing and destroying chunks, with any number of lists, arenas, objects and iterators","The elements are used without having been constructed. Tests see fresh pages that are zero; on recycled memory the first push would drop a reference of an unrelated object, which shows as a crash somewhere else.",[R+"util/chunked_list.hpp: Item::operator=, Item::release, ~Chunk, push, remove",R+"memory/bump_allocator.cpp: allocate, deallocate, reset",R+"memory/hwloc_alloc.hpp: allocate",R+"memory/chunked_bump_alloc.hpp: deallocate"])
p("Exceptions in the bodies of tasks behave as in ordinary functions","A task body may use exceptions as any function does: `throw;` in a catch block throws the exception that is being handled, the end of the block destroys this one, `std::current_exception` and `std::uncaught_exceptions` tell about the calling task, whatever other tasks do and wherever the task waits for others; an exception that is not caught is a matter of the task that threw it.",
"for any number of workers and tasks, any nesting of handlers, every schedule, and every point at which a task may wait","the C++ runtime keeps the state of exceptions per thread, while tasks that wait are suspended and may continue on another thread; it goes wrong only if a task waits inside of a handler and others use exceptions meanwhile",
[R+"task/task_base.hpp: TaskBase::operator(), yield", R+"task/task.hpp: ResultTask::run, FunTask::run_result", R+"dispatch/thread/execute.cpp: Context::execute_task", R+"redGrapes.cpp: Context::yield", R+"dispatch/thread/worker.cpp: Worker::work_loop"])
p("Objects are placed at addresses that fit their alignment","Tasks (with the callable and the arguments they carry), resources and other objects that are created through the library's allocators are placed at addresses that are multiples of the alignment of their types, whatever else has been allocated before and by however many threads.",
"for every type, every sequence of allocations and deallocations, any number of threads, every interleaving","misaligned objects work on x86 until the compiler uses an aligned vector instruction; whether an object is misaligned depends on everything that has been allocated before in the same chunk",
[R+"memory/chunked_bump_alloc.hpp: roundup_to_poweroftwo, allocate", R+"memory/bump_allocator.cpp: BumpAllocator::allocate", R+"memory/allocator.hpp: StdAllocator::allocate, alloc_shared", R+"task/task_builder.hpp: TaskBuilder", R+"util/atomic_list.hpp: allocate_item", R+"util/chunked_list.hpp: Chunk"])
p("A task works with the values that its arguments had when it was submitted","The body of a task is called with the callable and the values of the arguments at the time of emplace_task; what the caller does to its variables afterwards, what other tasks do to their parameters and when the task is executed makes no difference. The caller's variables are not changed by emplace_task or by the task.",
"for every sequence of submissions and assignments in the submitting thread, every number of arguments given as lvalues, temporaries or with std::move, every behaviour of the bodies towards their parameters, every schedule","a task that works on a reference to a variable of the caller, or a variable that has been moved from, shows only for types with a nontrivial move, or if the task happens to be executed late; the library's tests pass lambdas as temporaries and numbers as arguments",
[R+"redGrapes.hpp: emplace_task, Context::emplace_task", R+"task/task_builder.hpp: TaskBuilder, BindArgs", R+"task/task.hpp: FunTask::run_result"])
p("Creating a task or a resource succeeds or fails cleanly","Creating a task or a resource either succeeds, or ends with an exception after which the runtime is as before: a task whose creation fails is not executed, no memory is lost, and the program goes on; a task that is executed has all properties that it was meant to have.",
"for every size of the task or resource, every point of failure (memory, hooks of arguments, copies of callable and arguments, calls on the builder), every number of threads","the tests create small tasks and nothing throws in them",
[R+"task/task_builder.hpp: TaskBuilder::TaskBuilder, ~TaskBuilder, submit", R+"redGrapes.hpp: Context::emplace_task", R+"memory/chunked_bump_alloc.hpp: ChunkedBumpAlloc::allocate", R+"memory/allocator.hpp: StdAllocator::allocate, alloc_shared, alloc_shared_bind", R+"resource/ioresource.hpp: IOResource", R+"resource/fieldresource.hpp: FieldResource"])
p("Access modes of the user: what a policy class must satisfy so that tasks stay in order",
  "The README promises arbitrary, user-configurable access modes. For any policy class, with any answers of is_serial, is_synchronizing and is_superset_of: conflicting tasks run in the order of submission in every program if and only if every access that conflicts with some access also conflicts with each access that is_synchronizing. The requirements that the documentation of the concept lists (is_serial symmetric, supersets conflict with whatever their subsets conflict with) are kept by pairs and arrays of such policies but are not enough: a policy that keeps them lets two conflicting tasks run at the same time. No policy, whatever it answers, causes a deadlock or a wait for a task that does not conflict. With symmetric conflicts and the law above, everything that is proved about tasks with the policies of the library also holds for tasks with the user's policies.",
  "all policy classes (any set of values, any answers), all compositions in pairs and arrays, all programs with any number of resources and tasks, all executions",
  "policy classes are written by users; a test can only try particular ones, and a wrong is_synchronizing loses a dependency only if the synchronizing task has ended or been passed",
  ["README.md: custom access modes", R+"resource/resource.hpp: concept AccessPolicy, Resource::Access", R+"resource/access/combine.hpp: ArrayAccess, CombineAccess", R+"task/property/graph.cpp: init_graph", R+"resource/resource_user.cpp: is_serial, has_sync_access"])
p("Tasks that can be executed are not left waiting while workers are idle",
 "Submit independent tasks with any durations from one thread. Whenever nothing happens any more except that running bodies continue, each worker executes a body or is asleep with an empty queue, and a task that is not being executed is in the queue of a worker that executes a body; such a state is always reached, as searches end. If at most one task per worker is submitted and none ends, all of them are executed at the same time (test/scheduler.cpp). That an idle worker takes over a task that waits in the queue of a busy worker is not guaranteed: after one worker has fallen asleep, a task given to another one waits for the body that runs there, and with REDGRAPES_EMPLACE_NOTIFY_NEXT one of two such tasks may still wait while a worker is idle.",
 "any number of workers, any number of tasks, any durations, any order of the searches, any interleaving of workers and the submitting thread",
 "Whether tasks wait behind a long body depends on the time at which workers fall asleep; the existing test only submits one task per worker.",
 [R+"dispatch/thread/worker.cpp: work_loop, gather_task, init_dependencies", R+"scheduler/default_scheduler.cpp: emplace_task, steal_new_task, steal_task", R+"dispatch/thread/worker.hpp: emplace_task"])
p("The introductory example programs do what they show",
 "examples/1_resources.cpp prints 1, 1, 1, 0 for every area; 2_functors.cpp prints the value of the function for every function and argument; in 3_functors_with_resources.cpp the tasks that read print the values of their own round, for any number of rounds and any values, and the program ends; in 4_refinements.cpp the backtraces are the parent, and the child with its parent; in 6_resource_scope.cpp the depths are 1, 2, 1; in 7_event.cpp task 2 is not started before the event of task 1 has been notified, and then everything finishes. 5_access_demotion.cpp in contrast always ends with an exception from update_properties.",
 "any values, rounds, areas, numbers of workers and schedules",
 "The examples are compiled but not run or checked by the tests; a schedule in which the output is wrong need not occur in a run.",
 ["examples/1_resources.cpp: main","examples/2_functors.cpp: main","examples/3_functors_with_resources.cpp: main","examples/4_refinements.cpp: main","examples/5_access_demotion.cpp: main","examples/6_resource_scope.cpp: main","examples/7_event.cpp: main"])
p("Memory of the system is used with care",
  "The memory that the allocators obtain from the operating system stays theirs as long as it is used, nobody else's memory is unmapped, all of it is given back when it is no longer needed (so that a program that uses a bounded number of blocks at a time runs as long as it likes), and if the system refuses memory then the request is answered with a failure.",
  "for all sequences of allocations, deallocations and destructions of allocators, all interleavings with other threads and other users of the address space, all behaviours of the kernel, and all sizes of the address space",
  "The leak shows only in programs that run long or in the size of the process, which tests do not look at; tests run with enough memory and cannot make the kernel refuse at every point.",
  [R+"memory/hwloc_alloc.hpp: HwlocAlloc::allocate, HwlocAlloc::deallocate", R+"util/atomic_list.hpp: StaticAlloc, allocate_item", R+"memory/chunked_bump_alloc.hpp: allocate, deallocate"])
p("Accesses and tasks are printed as JSON that can be read back",
"Formatting an access, the access list of a task, or the properties of a task with fmt yields valid JSON. It denotes the mode, the borders of areas, the parts of combined accesses in order, the number and level of each resource, and the number, label and tags of the task; different accesses of one policy have different texts.",
"For all policies built from the library's classes and from user classes that print JSON, all accesses, access lists, numbers, labels, tags, and all lists of properties a program adds.",
"Tests could only compare a few printed strings. That every text is JSON and has one reading is a statement about all nestings of policies and all labels; that no task at all is printed as JSON is a statement about all tasks.",
[R+"resource/access/io.hpp: fmt::formatter", R+"resource/access/area.hpp: fmt::formatter", R+"resource/access/combine.hpp: fmt::formatter", R+"resource/resource.hpp: fmt::formatter<ResourceAccess>", R+"resource/resource_user.hpp: fmt::formatter<ResourceUser>", R+"task/property/inherit.hpp: fmt::formatter", R+"task/property/label.hpp: fmt::formatter", R+"scheduler/tag_match_property.hpp: fmt::formatter"])
p("Workers are spread over the processing units and memory is near its user",
"Workers are distributed evenly over the processing units, with at most one per unit as long as there are enough units. The object of a task lies in memory of the unit of the worker to which the task is given, and what a worker allocates lies in memory of its own unit.",
"For all numbers of workers and processing units, all threads, and all sequences of creating tasks and taking memory.",
"Placement has no effect on results, only on speed, and differs only on machines with several memory nodes; a test would need such machines and could check only some numbers of workers and units.",
[R+"dispatch/thread/worker_pool.cpp: emplace_workers", R+"dispatch/thread/worker.cpp: cpubind, membind, run", R+"memory/hwloc_alloc.hpp: allocate", R+"memory/allocator.cpp: Allocator", R+"redGrapes.hpp: emplace_task"])
p("Resources may be created by several threads at the same time",
"Threads may create resources at any time without a data race. The resources get consecutive numbers, their objects are spread over the arenas in turn, and the object of a resource lies in the arena of its list of users.",
"For all numbers of threads and policies and all interleavings of the creating threads.",
"The window of the race is a few instructions, and a lost increment has no visible effect on most machines, although it is undefined behaviour.",
[R+"resource/resource.hpp: Resource::Resource", R+"resource/resource.cpp: generateID, ResourceBase, get_arena_id"])
p("Work of CUDA tasks is executed in the order of the dependencies",
"The work that CUDA tasks submit to the device is executed in the order of their dependencies, in whichever streams it is, although the tasks are dispatched without waiting for it. The post-event of a task is notified exactly once, after its work has been completed and after the post-events of the tasks on which it depends. A future of a task is ready only when its work has been completed. Activating and polling tasks never gets stuck, no task is forgotten, and no event of the device is used by two tasks at a time or lost.",
"For all graphs of CUDA tasks, all numbers of threads and streams, all amounts of work and all interleavings of the threads and of the device.",
"Needs a device, and the order of work in different streams depends on its load; the deadlock needs two threads that dispatch dependent tasks at the same time.",
[R+"dispatch/cuda/scheduler.hpp: CudaStreamDispatcher::dispatch_task, CudaStreamDispatcher::poll, CudaScheduler::activate_task", R+"dispatch/cuda/event_pool.hpp: alloc, free", R+"dispatch/cupla/scheduler.hpp"])
p("A task that waits for an MPI request gets the status of this request",
"A call of get_status in a task returns exactly when MPI has completed its request and a thread polls, and returns the status of its own request, however many other tasks wait and whatever MPI reports in which order. No call is forgotten, polling comes to an end, no index outside of the vectors is used, and a status is not overwritten. The function can be called wherever MPI_Wait can be called.",
"For all numbers of calls, all requests, all orders in which MPI completes and reports requests, all interleavings of calls, polling threads and MPI.",
"Depends on which requests MPI reports together and in which order, and on requests that are added while others are polled.",
[R+"dispatch/mpi/request_pool.hpp: RequestPool::poll, RequestPool::get_status", R+"redGrapes.cpp: Context::create_event"])
with open(os.path.join(os.path.dirname(__file__), "..", "properties.jsonl"), "w") as f:
    for x in P:
        f.write(json.dumps(x) + "\n")
print(len(P))
