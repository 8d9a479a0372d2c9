# Formal model of managarm/libasync in Lean 4

The code under study is the header library in `/repo/include/async`. This file says what is
modelled, how each property of `properties.jsonl` is proved, what is trusted, and where the
code disagrees with a property.

## 1. Modelling approach

libasync is a library of operation state machines that race with each other. The model is a
family of small-step transition systems (`Mach` in `Verif/Base.lean`), one per component.

* **Activities.** Every running library call is an *activity*: a stack of pending atomic
  instructions. One step executes the top instruction of one activity, chosen by the schedule,
  or lets the environment begin a new call (`env`). There is no bound on the number of
  activities, operations, events, threads or steps. `Reach` is the set of reachable
  configurations over all schedules.
* **Atomicity.** One instruction is one access to an atomic variable, or one critical section
  of a `platform::mutex` provided that the section makes at most one access to state that is
  also accessed without the mutex. Sections that make several such accesses (`mutex`,
  `shared_mutex`) are split into single accesses with an explicit lock holder. C90 proves that this is
  the right granularity (for the fields of the objects; see C92 for fields of operations). Where user code
  runs under a lock (constructor of `cancellation_callback`) the lock is explicit, too.
* **Re-entrancy.** User code runs inside `set_value` and inside functors. All library locks are
  released at these points (with the exception above). A re-entrant call is therefore a special
  case of an interleaving: the outer activity stays where it is while a new activity runs.
  Theorems over all interleavings cover re-entrant single-threaded programs and multi-threaded
  programs.
* **Memory model.** The machines are sequentially consistent. `Hb` adds happens-before on top of them. `Sc`
  shows that the primitives have no other executions (C66).
* **Failures.** A failing `assert`, an erase of an element that is not in the list, a null
  dereference, use of a destroyed object and a panic are distinct outcomes (`Out.fault`, recorded
  in `Conf.bad`), never silently totalised. For the resolver, access to an operation after its
  receiver was completed is tracked by a separate predicate (C05).
* **Compare-exchange.** `compare_exchange_weak` may fail spuriously; the schedule decides.
* **Log.** Each step appends observable events (call begins, linearization points, completions)
  to a history. Properties are stated over the history and over *quiescent* states, in which no
  library call is running. Liveness is stated as: in a quiescent state nobody who should have
  completed is still suspended, internal steps never get stuck, and the number of internal steps
  is bounded (`Bounded`, `CanFinish` in `Verif/Termination.lean`, `Steps` in `Verif/Finish.lean`).
* **Contracts.** What the caller must not do (unlock a mutex that is not held, start an
  operation twice, …) is a guard of the `env` step, with a comment. Each theorem quantifies over
  all environments that respect the guards.
* **Integers** are `Nat` unless wrap-around matters.

`frg::intrusive_list` is modelled by `List`: push at the back, pop at the front, splice, erase.
Erase of a non-member is a fault.

The proofs are inductive invariants. Most are linear: a *weight* counts how many pending
instructions of a kind exist for an operation (`wl`, `ws`), and the invariant equates sums of
weights with state. `Hist P log` says that `P` held whenever an event was appended, which turns
state invariants into theorems about the order of events.

## 2. Modules

| module | code |
| --- | --- |
| `Base`, `Weights`, `Induct` | machines, reachability, weights, histories |
| `Termination`, `Finish` | bounded number of internal steps, absence of stuck states |
| `Resolver` | `cancellation_event` (list and lock), `cancellation_resolver` (cancellation.hpp 228-347), `cancellable_operation` use pattern, generic over a lawful data structure (`Laws`) |
| `Hb` | happens-before: views and messages on top of any machine (`Base`), strict order (`Order`), annotations of the components with the memory orders of the code |
| `Sc` | executions as partial orders, with the axioms of C++20; executions of the primitives are interleavings |
| `Liveness` | bounds on the number of steps of calls that use the resolver |
| `Queue` | queue.hpp |
| `Recurring` | recurring-event.hpp |
| `Sequenced` | sequenced-event.hpp, as a program over `Recurring` |
| `Barrier` | barrier.hpp, as a program over `Recurring` |
| `WaitGroup` | wait-group.hpp (with `wait_in_group`), `oneshot_event` |
| `Promise` | promise.hpp: shared state and `get` operations; `Promise/Handles`: copies, moves, assignment, destruction and reference counts of promises and futures; `Promise/Alloc`: their allocators; `Promise/RefCountModel`: concurrent reference counting; `Promise/Owner`: the life of the promise object |
| `PostAck` | post-ack.hpp; `PostAck/Handles`: `post_ack_handle` |
| `Mutex`, `SharedMutex` | mutex.hpp, single atomic accesses |
| `OneshotPrim` | `oneshot_primitive`: lock-free list with explicit pointers |
| `Callback` | `cancellation_callback`, `cancellation_observer`, `cancellation_token`; `Objects`/`Strict` are the object-lifetime argument and the contract under which C02 holds |
| `Suspend` | `suspend_indefinitely` |
| `Width` | the state words of `cancellation_resolver`, `suspend_indefinitely` and `shared_mutex`; the counters of `wait_group`, `sequenced_event`, `barrier`, `post_ack_mechanism`; the reference count of promises |
| `WithCancel` | `with_cancel_cb` |
| `Tree` | algorithm.hpp: invocable, transform, ite, repeat_while, race_and_cancel, let, sequence, when_all, lambda, as arbitrarily nested expressions over leaves that complete at any time on any thread; `Tree/Life*`: construction and destruction of their operation objects |
| `Result` | result.hpp and `sender_awaiter` (co_await): arbitrary coroutine bodies |
| `Destroy` | destruction of a `cancellation_event` (`Event`) and of synchronisation objects (`Object`), on top of the machines of their users |
| `Compose` | several objects that share `cancellation_event`s (`FamilyModel`); sender expressions whose leaves are operations of the library (`JointModel`) |
| `Prog` | coroutines that await expressions whose leaves are operations of the library or coroutines |
| `Effect` | calls and their effects are counted |
| `Linear` | linearizability and strong linearizability, linearization points |
| `Handout` | lifetimes of the variable of `let`, the arguments of `lambda`, the events of `race_and_cancel`, and the closures |
| `Depth` | depth of the call stack, on top of `Tree` and `Result` |
| `WakeOrder` | order of completion for all structures on the resolver machine, and `oneshot_primitive` |
| `Fields` | accesses to the fields of operations, for all structures on the resolver machine |
| `Locks` | all functions that use a `platform::mutex`, by what they do to locks, ordinary fields and atomic variables; `Section*`: when sections take place at once |
| `Env` | `get_env`: where receivers are stored and moved by the algorithms, `with_cancel_cb`, `wait_in_group`, `any_receiver` and `spawn_with_allocator` |
| `Calls` | how many steps the calls on compositions (`Tree`) take |
| `Detached` | `detached` coroutines: arbitrary bodies |
| `Generator` | generator.hpp: arbitrary bodies |
| `Owner` | constructors, assignment and destructors of `generator` and `result` objects |
| `Erase` | `any_receiver`, `callback`, `run_queue_item::arm` |
| `Run` | `run` (with and without an I/O service), `run_forever` |
| `Detach` | `detach`, `detach_with_allocator`, `spawn_with_allocator` |

Each component has `Model.lean` (definitions with citations), proof files, and `Props.lean`
(property theorems, with examples that meet their hypotheses). `Spec.lean`, where present, is
the specification the property theorems refer to.

## 3. Properties

The theorems of each property are listed in `MANIFEST.json`.

* **C01, C03** `Callback`: events with an explicit lock, callbacks and observers with
  constructor, bind, unbind, try_reset, destructor and functor body as separate steps. Invariants
  relate the list, the pending list of `cancel()`, the pending functor calls and the log.
* **C02** false in three ways, see section 4. Partial: objects that are unbound or destroyed
  before `cancel()`; and no access to dead objects under the strict contract (`Callback/Strict`).
* **C04, C06, C07** `Resolver`: the machine is generic over the data structure `D`, which is given
  by its critical sections. `Laws D` says how they treat waiters. Exactly-once, promptness and
  progress are proved from the laws; C07 comes from the instances. Instances: queue,
  recurring_event, wait_group, promise, post_ack.
* **C05** false, see section 4. Partial: an access after completion only happens in the
  unregistration of the operation that `transition_` performs after its `fetch_or`; it does not
  occur without preemption at that point.
* **C08, C09** machines with any number of tokens per operation; the counter equals the number of
  outstanding parties.
* **C10–C12** history invariant: puts = gets ++ content, for all schedules.
* **C13–C15** `Mutex`: ownership tokens counted over state word, waiter list and pending
  instructions; the grant order is the order of list insertion.
* **C16–C18** `SharedMutex`: same with reader counts; head of the list is always blocked by a
  current holder at quiescence.
* **C19–C23** `WaitGroup`; C21 and C22 partly false, see section 4.
* **C24** `OneshotPrim`: the chain reachable from `state_` is the set of waiters; the pointers
  are explicit, so a lost or a shared suffix would be visible.
* **C25, C26** `Recurring`: the condition is an arbitrary shared predicate changed by the
  environment.
* **C27, C28** false under preemption, see section 4. **C29, C30** invariants of `Barrier`.
* **C31–C34** `PostAck`, contract: at most one running poll per agent, no detach during a poll.
* **C35** `Promise` as resolver instance. **C36** `Promise/Handles`: sequential machine over
  arbitrary programs of handle operations; reference count = number of handles; see section 4.
* **C37, C49** `Result`: coroutine bodies are an inductive type `Body` (return or await a sender and
  continue with its value), so the theorem is for all bodies. The value is that of the
  specification (`Spec.lean`): the run of the body over the values the senders delivered.
* **C38** `Generator`: body = await/yield/return; the results of `next()` are the yields of the body.
* **C39, C40** driver machines `Run` and `Detach`.
* **C41–C45, C48** `Tree`: an expression is an inductive type; every operation is addressed by its
  path. `Spec.lean` (`Ok`) says which event may follow which history. `C48_order` is the
  refinement; the other theorems are consequences and liveness (`Live`, `Once`).
* **C46, C47** false for one kind of schedule each, see section 4. The remaining parts are proved, and
  `fault_kinds` proves that these are the only faults.
* **C50, C51** `Hb`: every instruction of a machine is annotated with its lock, load, store and
  read-modify-write accesses and their memory orders; events of the history are ordered by the C++20
  rules. C50 by an invariant (whoever owns the mutex has seen the end of all earlier sections); C51 is
  false, see section 4; the partial theorems exclude exactly the two kinds of hand-over at fault.
* **C52, C53** `Hb/Resolver`, `Hb/ResolverProps`: for every data structure that uses the resolver, critical
  sections are ordered, the event that decides an operation happens before its completion, so does its
  creation, and a withdrawal happens after a cancellation. `Hb/Marks`: every completion was decided by an
  earlier event. `Hb/Carry`: program order. The components provide their accesses (`ords`) and say which
  events decide.
* **C54** `Hb/Promise`, same method. **C55** `Promise/RefCountModel`, `Hb/RefCount`: concurrent machine of
  the reference count; the count equals the number of handles; the destruction knows of all uses because
  the decrements form a release sequence that the last one acquires.
* **C56** `Hb/Recurring`, for every program around the event, with its memory accesses as a parameter.
  **C57** `Hb/Sequenced`: instance; `Hb/Sync`: synchronisation through variables and locks of the program.
  **C58** `Hb/Barrier`: instance; false for waits that start during the last arrival, see section 4.
* **C59** `Hb/Result`: at any time one activity runs or completes a coroutine, and it knows of everything that
  the coroutine has done. **C60**: the exchange in `start()`; false if the coroutine ends after it.
* **C61** `Hb/OneshotPrim`: the compare-exchange of `start()` releases what it did, the exchange of `raise()`
  acquires it, and publishes to those that find the event raised.
* **C62** `Hb/PostAck`: the critical sections order posts and polls; the decrements of `acks_left` form a chain, and
  the last one is made by the activity that completes the post. `Resolver/Also` adds invariants to a contract.
* **C63** `Hb/TreeTok`, `Hb/Tree`: instructions are tokens; two tokens inside one operation belong to different
  senders of a `when_all` or `race_and_cancel`, everything else is done by one activity after the other. The
  acq_rel counters pass the knowledge of all senders to the one that completes the whole. **C64**: the
  cancellation loop; false if senders complete at the same time.
* **C65** `Owner`: the code of both classes refines a table of owners.
* **C66** `Sc`: in each primitive at most one atomic variable is accessed by anything else than `acq_rel`
  read-modify-writes. The accesses to this variable have a place in its modification order, which happens-before
  respects; the union of both orders is acyclic and has a linear extension. With two such variables the claim is
  false (`storeBuffering`).
* **C67** `Resolver/Terminates`, `Liveness`: what is left to do for an operation is a function of its bits and its
  pending instructions, at most 54; each data structure adds a measure of its own (`Costs`). In `wait_group` a failed
  compare-exchange is paid for by the call that changed the count.
* **C68** `Hb/WithCancel`, **C69** `Hb/Suspend`: the lock of the event orders registration and cancellation, the acq_rel
  counter of the operation collects the knowledge of its sides; the activity that brings it to zero completes.
* **C70** `Hb/Section`, `Hb/MutexQueue`, `Hb/SharedMutexQueue`: an event is protected by a lock if everyone inside of a
  critical section knows it and the free lock carries it.
* **C71** `Tree/Life*`: a memory of live objects and box contents runs along with the machine of C48, and the user may destroy
  finished operations. The invariant says which objects belong to each live operation, depending on its sender and on what it has
  done so far. False in two ways, see section 4.
* **C72** `Mutex/AdmitProps`, `SharedMutex/Admit`, `SharedMutex/AdmitProps`: the histories of C14 and C17 say who owns the mutex at each moment.
  For `try_lock_shared`, a value of `st_` that makes it give up is traced back to the moment of the load (`Adm.shut`), where the invariant of C16
  gives a writer that owns the mutex or a request that waits.
  `Mutex/TryProps`, `SharedMutex/TryProps`: only requests that were started with `async_lock` or `async_lock_shared` get to the queue;
  a `try` call that runs alone returns after at most three steps, from every reachable configuration.
* **C73** `PostAck/Handles`, `PostAck/Props`: an invariant ties each delivery to the one variable that holds it, or to its
  acknowledgement; `ack` is two steps, between which the user's code runs. False without a contract, see section 4.
* **C74** `Erase`: a relation between storage and objects; the specification is the same program on the objects themselves.
* **C75** `Hb/Callback`: the event's mutex carries what was done inside of its critical sections.
* **C76** `Run/Forever`, `Hb/Run`. False if the sender completes on another thread, see section 4.
* **C77** `Detached`: like C37, but nobody owns the frame; the call is an activity of its own.
* **C78** `Callback/Destroy`, `Destroy/Event`. False with threads for operations that use the resolver, see section 4.
* **C79** `Mutex/Destroy`, `SharedMutex/Destroy`, `OneshotPrim/Destroy`, `Destroy/PostAck`, `Destroy/Object` (with `Resolver/Account`, which counts calls,
  pending instructions and events). False for sequenced_event and barrier, see section 4. `Destroy/Callers`: the calls that C78 and C79 assume
  not to be pending are made by callers only, never by the library.
* **C80** `Compose/Family*`. A family of objects is again a data structure of the resolver machine; every step of the family is a step, or no
  step, of each object alone.
* **C81** `Compose/Joint*`. The machine of the algorithms and the machine of the objects run together: leaves start operations, completions
  call receivers, `race_and_cancel` cancels events, all on the same call stacks. Every execution projects to an execution of each part
  (`parts`, with `Split` for the stacks), so that C41-C48 and the theorems about objects apply at once. `Compose/FamilyLaws`: a
  collection of objects keeps the contract of the resolver if each of them does, so that the leaves may belong to different objects.
* **C82** `Handout`. The history of constructions, destructions and uses; what the user's code uses is a parameter (a table). For lambda and
  race_and_cancel the theorems say exactly which tables are safe. False, see section 4.
* **C83** `Depth`. Any machine with the number of stack frames attached to each pending instruction (`Mach.deep`). The invariant bounds, for each
  operation, the chain of calls that its completion leads to. False, see section 4.
* **C84**, **C85** `Locks`. A machine of threads with call stacks. Branches on data are left to the schedule, so that its executions
  include those of the code. The invariant (`Seg`) says which locks each pending segment of code needs and leaves. Both false, see section 4.
* **C86**, **C87** `Env`. Operations are objects in a heap, receivers are values or pointers to operations. Each question asked by a leaf is
  recorded with the heap at that moment; `C86_exact` gives the answer to all of them (`expected`, in `Env/Spec`). Both false, see section 4.
* **C88** `Calls`. `Tame` (in `Calls/Spec`) says when loops wait or end. Every operation has a certificate with the number of steps that its completion
  costs; a pending instruction owes what it may still lead to, and every step decreases the sum of all debts.
* **C89** `Promise/Alloc`: the handles of C36 with their allocators. False, see section 4.
* **C90** `Locks/Section*`. Executions are lists of events. Each section gets a position: that of its only access to something that is not protected
  by its mutex, or else its beginning. Sorting by these positions swaps only neighbours that are independent (`Swap`). `Once` counts the accesses in all
  functions. False, see section 4.
* **C91** `WakeOrder`. `Line` says what a list of waiting operations in a data structure of the resolver machine has to satisfy: operations are added at the
  end and taken off at the front, all at once (`Whole`) or one at a time (`Single`). `Ahead` is preserved by all steps: `i` is in front of `j` in the list, or
  in front of it in the program of the same call, or completed. For `oneshot_primitive`: completed, being completed and listed operations together are the
  reversed history. False, see section 4.
* **C92** `Fields`. `fieldAccesses` lists for each instruction of the resolver machine the ordinary fields of operations that it accesses and the mutex with which
  it does so. The theorem follows from the invariant of the machine, which counts the pending instructions of each operation.
* **C93** `Sc/Part*`. The accesses to one object of a larger program are again an execution, with the happens-before of the whole program, so that C66 applies
  to each object. For `result`, `C93_result_agree` shows from the axioms of C++20 what C37 and C59 rely on, since two coroutines that end each other do
  not have a common sequence (`C93_no_sequence_coroutines`; load buffering).
* **C94** `Prog`. The machine of the coroutines and the joint machine of C81 run together: `await_suspend` starts an expression, a leaf starts a
  coroutine, and completions resume and complete them, on the same stack. Every execution consists of an execution of each machine (`parts`), so that
  the theorems about both apply at once. What waits for what is well-founded since a coroutine is started after the one that awaits it.
* **C95** `CallCount`, `Effect`. Calls are counted in the schedule (`Mach.runs`), effects in the history. A weight on pending instructions makes
  the number of effects plus the weight equal to the number of calls at all times; no contract is needed.
* **C96** `Hb/Baton`, `Hb/Generator`, `Hb/Detached`. General lemma: if at most one activity at a time runs a coroutine, and whoever is
  called to continue it knows its last event, then all its events are ordered, whatever atomics are used.
* **C97** `Hb/Steps`, `Hb/*Steps`. `traced` records every instruction that is executed, and `Relay` generalises the lemma of C96: a coroutine
  is run by at most one activity, or waits for a call that knows the step after which it waits, or is parked and
  handed over through an atomic variable (`cfp_` of `result<T>`). Then all its steps are ordered.
* **C98** `Linear/*`. `StronglyLinearizable` asks for a function from executions to sequences of calls that is monotone with respect to
  prefixes, accepted by the sequential object, and contains every call between invocation and return. `Points` says where the
  calls of a resolver machine take effect (`pt`: which instruction; an operation takes effect when it is taken from the list, when
  it completes at once, or when its cancellation removes it) and the generic theorem builds the order from it.
  For mutex, shared_mutex and oneshot_primitive (`Linear/Log`) the calls take effect at events of the history; a failing `try_lock_shared`
  takes effect when it reads `st_`.
* **C99** `Promise/Owner`: the promise as an object with a pointer that `set_value` and the destructor read and clear, shared state, futures
  and `get` operations, with concurrent users. The contract of the user is a parameter: `strict` forbids to destroy the promise before
  `set_value` has returned. False without it and false of the documentation, see section 4.
* **C100** `Width`: the machines of `Suspend` and `SharedMutex` again, with the words of the code: `fetch_or`, `fetch_sub` and masks on one number modulo
  `2 ^ w`, and a counter modulo `2 ^ 32`. Both refine the machines with separate flags and natural numbers, so the other properties carry over. False for
  `2 ^ 32` shared owners and for `2 ^ 30 - 1` tokens, see section 4. `Width/Trunc`, `Width/PostAck` do the same for `wait_group`, `sequenced_event`, `barrier` and
  `post_ack_mechanism`: every instruction leaves the counter modulo `M`; as long as there are fewer than `M` units, phases or agents, every configuration
  is one of the machine with natural numbers.
  `Width/Resolver` writes `transition_` of `cancellation_resolver` with masks on a number and shows that it does the same as the three flags of `Resolver`, in all cases.
  `Width/PostSeq` also takes the sequence numbers of `post_ack_mechanism` modulo `2 ^ 64`; it needs that no agent, attached or not, is ahead of the posts.
  `Width/Handles` takes the reference count of promises modulo `2 ^ w`; with fewer than `2 ^ w` handles of one state nothing changes.

## 4. Where the code disagrees with a property

Each item is a theorem with a concrete execution of the model.

1. **C02** `cancellation_callback`: `C02_unbound_is_called` (the functor is called after `unbind()`
   returned, because `cancel()` had already taken the list), `C02_destroyed_is_used` (`cancel()`
   accesses a destroyed callback), `C02_unbind_then_destroy` (`unbind()` leaves `_event` set, so the
   destructor erases a second time). Also, the constructor runs the functor under the event's
   lock, so a functor that uses the event deadlocks.
2. **C05** resolver: `C05_queue_false`. `transition_` reads `event_` to unregister after its
   `fetch_or`; another thread can complete the operation in between.
3. **C21** wait_group: `C21_reuse_false`. `try_cancel` tests `ctr > 0` instead of membership, so
   after `add()` a woken waiter that is cancelled is erased from a list that no longer holds it.
4. **C22** oneshot_event: `C22_second_raise_false`. A second `raise()` fails an assertion, the
   documentation says it is a no-op.
5. **C27** sequenced_event: `C27_strictly_greater_false`, **C28** barrier:
   `C28_nobody_early_false`. The sequence number is changed before the wakeup, outside of the
   lock of the recurring event: a waiter that suspends for the next phase in between is woken by
   the old raise. (`next_sequence()` returns `seq + 1`; passing it to `async_wait` fails an
   assertion unless a raise comes first.)
6. **C36** future copy assignment: `C36_assign_empty_false` (null dereference),
   `C36_self_assign_false` (use after free). `C36_copy_assign_faults_iff`: these are the only cases.
7. **C46** when_all: `C46_violated`. `start_inline` is never true for the children, so the
   trailing `fetch_sub` of `start()` runs after the last child has completed the operation.
8. **C47** race_and_cancel: `C47_violated`. The cancellation loop of the first finisher uses `cs_`
   after other threads completed the operation. (Also, `ops_` is constructed before the member
   `cs_` whose tokens it takes.)
9. **C39** run: `C39_waits_false`. `done` is a plain flag; if the sender completes on another thread
   between the test and `wait()`, then `wait()` is called although the sender has completed. `C39_waits`
   holds if completion happens inside `start()` or `wait()`.
10. **C51** shared_mutex: `C51_reader_before_writer_false`. The last reader hands the mutex over to a
   writer after relaxed accesses only (mutex.hpp 512, 546-583), so the sections of the other readers do
   not happen before the writer's. `C51_writer_before_reader_false`. `unlock()` hands over to readers
   with a relaxed store (493-501); a reader that joins by its acquire compare-exchange (339, 428) is not
   ordered after the writer's section.
11. **C58** barrier: `C58_arrivals_before_wait_false`. The last arrival advances `seq_` with a relaxed store and
   calls `raise()` later. A wait that starts in between reads the new `seq_` with a relaxed load
   (barrier.hpp 27) and completes at once; the last arrival does not happen before it.
12. **C60** result: `C60_start_before_completion_false`. `start()` exchanges `cfp_` with relaxed order
   (result.hpp 297) and final suspension with release only (123; the comment says that synchronisation is
   not needed), so the receiver may destroy the frame without the exchange happening before.
13. **C64** race_and_cancel: `C64_cancel_before_completion_false`. Even if the cancellation loop (algorithm.hpp
   365-369) ends before another sender completes the operation, nothing orders it before the completion: the loop
   comes after the increment of `n_done_`. The loop and the destruction of `cs_` are a data race.
14. **C71** let: `C71_unstarted_let_false`. `~let_operation` (algorithm.hpp 463-465) calls `op_.destruct()` unconditionally, which
   asserts that the box is full; destroying a `let` operation that was never started fails. `ite` tests `valid()` first.
   `C71_lifetimes_false`: item 7 as an access to a destroyed object.
15. **C72** shared_mutex: `C72_shared_blocks_false`. The documentation says that acquiring in shared mode only blocks if the mutex is
   owned exclusively. The code also queues readers behind a waiting writer (C17). `try_lock_shared` fails in that case.
16. **C73** post_ack_handle: `ack` sets `acked_` after `complete()` has run (post-ack.hpp 221-223), while the receiver of the post may
   already use the handle: moving it there allows a second acknowledgement (`C73_reentrant_move_false`), destroying it fails the
   assertion of the destructor (`C73_reentrant_destroy_false`). The pointer is kept after `ack` (`C73_access_after_ack_false`).
17. **C74** callback: `C74_callback_state_false`. `invoke` gets the storage by value (basic.hpp 259), so that changes that a functor
   makes to itself are lost. The type accepts functors whose `operator()` is not const.
18. **C76** run: `C76_other_thread_false`. `st.done` and `st.value` (basic.hpp 404-407) are ordinary variables. If the sender
   completes on another thread, which the documentation of `run` does not exclude, reading them is a data race, and the completion does not happen before
   the return of `run`.
19. **C78** cancellation_event: `C78_queue_false`. `complete()` is preempted between its `fetch_or` and locking the event's mutex;
   `cancel()` on another thread then completes the operation, whose continuation destroys the event. The same window as item 2.
20. **C79** sequenced_event and barrier: `C79_sequenced_false`, `C79_barrier_false`. `raise()` increments `seq_` and then calls
   `ev_.raise()` (sequenced-event.hpp 13-14); `do_arrive` releases its lock before `evt_.raise()` (barrier.hpp 53). A wait that
   starts in between completes at once. If its thread then destroys the object, the other thread locks a destroyed mutex.
21. **C82** lambda and race_and_cancel: `C82_lambda_false`, `C82_race_and_cancel_false`, `C82_race_and_cancel_dtor_false`. The arguments of
   `lambda(f)(args…)` that are not lvalues live in a tuple that is a parameter of the constructor (algorithm.hpp 756) and is gone before `start()`: a
   coroutine that takes them by reference reads a destroyed object. `race_and_cancel` declares `ops_` before `cs_` (427-428): functors
   are called and senders are connected before the events that their tokens refer to exist, and the operations are destroyed
   after the events. (That closures do not outlive the calls of the functors is documented, lambda.md.)
22. **C83** repeat_while and co_await: `C83_repeat_while_false`, `C83_coroutine_false`. `start_inline` (execution.hpp 63-77) never returns true, so
   that the `while` of `loop_` (algorithm.hpp 270) never gets to a second iteration: an iteration that completes inside of `start()` calls
   `loop_` again from `set_value`. The same holds for `await_suspend` (basic.hpp 140-143), which resumes the coroutine from within. A loop of
   `n` iterations that do not wait needs a number of stack frames proportional to `n`, unless the compiler turns the calls into jumps.
23. **C84** internal locks: `C84_reentrant_false`. Code of the user runs with a lock held in the constructor of `cancellation_callback`
   (cancellation.hpp 102-104), for the condition of `async_wait_if` (recurring-event.hpp 100-102), for constructors and
   assignments of items in `emplace`, `async_get` and `maybe_get` (queue.hpp 58, 61, 85-86, 153-154), and for the value of a promise (promise.hpp 370-371). If it uses
   the same object, the thread blocks forever.
24. **C85** queue: `C85_empty_false`. `empty()` (queue.hpp 144-146) reads `buffer_` without the lock. It is not documented.
25. **C86** environments: `C86_spawn_false`, `C86_any_false`. `final_receiver` of `spawn_with_allocator` (basic.hpp 564-576) and
   `any_receiver` (196-246) have no `get_env`: the environment of the receiver of the user is lost. All other receivers of the library forward it.
26. **C87** with_cancel_cb: `C87_false`. `op_` is declared before `dr_` (cancellation.hpp 542-544), so that the sender is connected while `dr_` is not
   initialised; `get_env` of the intermediate receiver (514-516) reads it. `when_all`, `race_and_cancel` and `wait_in_group` have the opposite
   order.
27. **C89** promise and allocators: `C89_move_false`, `C89_assign_false`. `swap` of `promise_base` (promise.hpp 145-148) exchanges `state_` only, and its move
   constructor (159-162) default constructs `alloc_`. A moved promise frees its state by a default constructed allocator, and hands that allocator to
   its futures; an assignment frees the old state by a default constructed allocator and keeps the allocator of the old state for the new one. `future` (202-206) is right.
28. **C90** sections: `C90_empty_false`. `queue::empty` (queue.hpp 144-146) may run between two writes of `emplace` to the buffer (the same line as in C85).
   `C90_lock_false`: the slow path of `lock` reads and then writes the state of the mutex in one section, and `try_lock` may come in between. This one is
   intended (the loop tries again); C13 to C18 cover it step by step.
29. **C91** order: `C91_queue_false`. `put` takes the first operation off the list, releases the mutex and then completes it (queue.hpp 47-70); another `put`
   may take off and complete the next one in between. Both still get the right items (C10). `C91_primitive_false`: `oneshot_primitive` completes the waits in
   the reverse order, although the documentation says that it is identical to `oneshot_event` except for cancellation.
30. **C99** promise: `C99_destroy_after_value_false`, `C99_value_lost_false`. `set_value` wakes the operations (line 374) and then calls `disown_state()` (line 375).
   A receiver of the value that destroys the promise - a continuation run by `wake()`, or another thread - destroys it under the feet of `set_value`: access to a
   destroyed object, or two decrements for one reference, which destroys the value while a future exists. `C99_value_in_scope_false`: the documentation says that
   the data is destroyed only when the promise and all futures go out of scope. `set_value` gives up the reference of the promise, so the data is destroyed when the
   futures are gone (at once, if there are none), and `get_future()` after `set_value()` returns an empty future, whose `get()` would access a null pointer.
31. **C100** words: `C100_suspend_tokens_false`: with `2 ^ 30 - 1` tokens the counter of `suspend_indefinitely` starts as the flag `state_cancel`, and the assertion in `start()` fails;
   there is no `static_assert` on `N`. `C100_shared_count_false`, `C100_shared_exclusion_false`. `shared_cnt` is an `unsigned int` (mutex.hpp 193) and nothing checks for overflow. After `2 ^ 32`
   successful `try_lock_shared` calls it is zero, which stands for an exclusive owner, and the assertion of the next `unlock_shared` fails (line 514). If a writer
   unlocks while `2 ^ 32 + 1` readers are queued, the counter is one, the first reader that unlocks frees the mutex, and a writer gets it while readers have it.
   `C100_post_ack_false`: with `2 ^ 32` attached agents `active_agents_` (post-ack.hpp 154) is zero, and a post completes although no agent has seen it. `C100_wait_group_false`,
   `C100_sequenced_assert_false`, `C100_sequenced_missed_false`, `C100_barrier_false`, `C100_post_seq_false`: the same for `2 ^ 64` units of work, phases or posts; of no practical importance, but the 64-bit
   numbers are compared with `>=` and `==`, not by differences, so a wrap-around would not be harmless.
   `C100_promise_count_false`: with `2 ^ w` futures of one promise (`w` is the width of `size_t`) the count is one, and destroying a future frees the state that the others use.

Preconditions that the documentation does not state, found while modelling (guards of `env`):
`cancellation_event::reset` only when no operation of it is attached or completing;
`oneshot_primitive::raise` at most once; one running `poll` per post_ack agent; no `detach` during
a poll; no `next()` after the end of a generator; `co_yield` without a consumer panics;
`future::get` operations do not keep the state alive; `promise::set_value` at most once.
By reading only: `promise_base` swap does not swap allocators; `invocable_sender::operator co_await`
would not compile if it were instantiated; `race_and_cancel()` without functors never completes
(nothing ever calls the completion), so C47 is about one or more functors.

## 5. Trusted base

* Lean 4.33.0 kernel. Each property theorem depends on at most `propext`, `Classical.choice` and
  `Quot.sound` (checked with `#print axioms` for all theorems in `MANIFEST.json`).
* The reading of the C++ code, cited in each definition. Each definition says where it
  simplifies.
* Machines are sequentially consistent; in `Hb`, reads return the latest value, and happens-before
  is computed from the memory orders. C66 and C93 justify this from the axioms of C++20 (`CExec.Valid`) for each object and for each coroutine by itself. Machines
  with several objects or coroutines interleave all accesses; programs need not have a common sequence (C93). Atomicity of critical sections as described in section 1; proved as C90 for the fields of objects; races on fields of operations are excluded by C92.
* `frg` containers, `std::optional`, the C++ coroutine machinery, allocators.
* In `Tree`, the `start_inline` shortcuts are taken out: all children report through `set_value`
  (`start_inline` always returns false, execution.hpp 63-77); destruction of child
  operations is not a separate step, except in `Tree/Life*`.
* Counters are natural numbers, except in `Width` (C100). The counters of `algorithm.hpp` (bounded by the number of template arguments) are natural numbers everywhere, and the reference count of promises everywhere but in `Width/Handles`; the signed counters of `barrier` are integers.
* Not modelled: allocation failure, exceptions, `frg` internals, types and
  templates, `run_queue` (its member functions are
  declared but not defined in this repository).

## 6. Seeded bugs

`seeded/LOG.jsonl` lists wrong programs: single edits of model definitions made in a scratch copy,
with the claim each one breaks, the theorems that stopped proving, and what was tightened where
they all still proved. `lin-20`, `try-3` and `try-4` were repeated with more memory, because
the first runs ended for lack of it and said nothing about the theorems. A theorem that stops proving need not be false of the edited program; where this is known, the entry has a note.
