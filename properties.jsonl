{"id": "C01", "title": "cancellation_callback fires at most once and exactly once when cancelled", "statement": "A functor registered with cancellation_callback is invoked at most once; it is invoked exactly once, in registration order, if cancel() runs while the callback is bound or ran before construction, and it is never invoked if cancel() is never called.", "quantifier": "every number of callbacks on one event, every interleaving of construction, unbind/destruction, cancel() and token queries from any number of threads", "why_tests_cant": "the outcome depends on the order of list splice, per-callback calls and concurrent registration; tests see a handful of orders", "anchors": ["include/async/cancellation.hpp: cancellation_event::cancel, cancellation_callback, cancellation_token::is_cancellation_requested"]}
{"id": "C02", "title": "A destroyed or unbound cancellation_callback is never invoked", "statement": "Once unbind() or the destructor of a cancellation_callback has returned, its functor is not invoked any more, and unbind() followed by destruction is harmless.", "quantifier": "every interleaving of cancel() with unbind()/destruction, including destruction of one callback from inside another", "why_tests_cant": "needs the exact schedule in which cancel() already detached the list but has not reached the callback yet", "anchors": ["include/async/cancellation.hpp: cancellation_callback::~cancellation_callback, unbind, cancellation_event::cancel"]}
{"id": "C03", "title": "cancellation_observer: reset and cancellation exclude each other", "statement": "For an observer attached with try_set/force_set to a token, exactly one of the following happens: try_reset() returns true and the functor is never invoked, or the functor is invoked exactly once (by cancel() or by force_set()) and try_reset() returns false.", "quantifier": "every interleaving of cancel() calls on the event with attach and reset of any number of observers", "why_tests_cant": "the two outcomes race on one lock; a test observes one winner per run", "anchors": ["include/async/cancellation.hpp: cancellation_observer::try_set, force_set, try_reset"]}
{"id": "C04", "title": "cancellation_resolver resumes exactly once", "statement": "For every operation built on cancellation_resolver (queue get, wait_group wait, recurring_event wait, future get, post_ack poll) the downstream receiver is completed at most once, and it is completed only after start() has finished registering, and after each of the completion path and the cancellation path has either finished or is known never to run. No internal assertion fails.", "quantifier": "any number of operations on any number of cancellation events, every interleaving of start, completion and cancellation at atomic-access granularity", "why_tests_cant": "three-way race over an atomic bit set and a lock; the failing window is a few instructions wide", "anchors": ["include/async/cancellation.hpp: cancellation_resolver::listen, complete, call, transition_"]}
{"id": "C05", "title": "No operation is touched after it completed", "statement": "The library never reads or writes an operation object after it called set_value on the receiver of that operation (the receiver is allowed to destroy the operation).", "quantifier": "every interleaving of start, completion and cancellation for every resolver-based operation", "why_tests_cant": "a late access is only visible under one specific preemption and usually does not crash", "anchors": ["include/async/cancellation.hpp: cancellation_resolver::transition_"]}
{"id": "C06", "title": "Cancellation is prompt: no cancelled operation stays suspended", "statement": "After cancel() on an event, once every running library call has returned, every started operation whose token refers to that event has completed.", "quantifier": "every set of operations, events and interleavings, both orders of start() and cancel()", "why_tests_cant": "a lost cancellation shows up as a hang in one schedule only", "anchors": ["include/async/cancellation.hpp: cancellation_event::cancel, cancellation_resolver::listen"]}
{"id": "C07", "title": "No spurious cancellation", "statement": "An operation reports cancellation (null optional, false, maybe_cancelled::cancelled, empty handle) only if cancel() was called on the event of its own token before.", "quantifier": "every history of operations on any number of events", "why_tests_cant": "absence over all histories cannot be sampled", "anchors": ["include/async/cancellation.hpp: cancellation_resolver::call", "include/async/queue.hpp: queue::try_cancel", "include/async/recurring-event.hpp: recurring_event::try_cancel", "include/async/wait-group.hpp: wait_group::try_cancel", "include/async/promise.hpp: promise_state_base::try_cancel"]}
{"id": "C08", "title": "suspend_indefinitely completes exactly once and only on cancellation", "statement": "suspend_indefinitely(tokens...) completes at most once, never before one of its tokens was cancelled, never before start() finished attaching all observers, and always completes once one token is cancelled and all calls returned; it does not touch its own state afterwards.", "quantifier": "any number N>0 of tokens (null tokens and several tokens of one event included), every interleaving of start() and of cancel() calls on the events", "why_tests_cant": "counter/bit arithmetic shared by N+1 racing parties", "anchors": ["include/async/cancellation.hpp: suspend_indefinitely_operation"]}
{"id": "C09", "title": "with_cancel_cb completes once with the inner value after the callback finished", "statement": "with_cancel_cb(s, cb, ct) completes exactly once, with the value produced by s, after s completed; cb is invoked at most once, only if ct was cancelled, and if cb was invoked the completion happens only after cb returned.", "quantifier": "every interleaving of start, inner completion (synchronous or not) and cancel()", "why_tests_cant": "the completion is handed over through an atomic countdown; each side wins in a different schedule", "anchors": ["include/async/cancellation.hpp: with_cancel_cb_operation"]}
{"id": "C10", "title": "queue is FIFO, loses nothing and duplicates nothing", "statement": "The items handed out by async_get and maybe_get, in the order in which they are claimed, are a prefix of the items put, in the order of the puts; every item is handed to exactly one consumer.", "quantifier": "every history of put/emplace, async_get, maybe_get and cancellations, any number of producers and consumers, any interleaving", "why_tests_cant": "quantifies over all histories and races between put and get", "anchors": ["include/async/queue.hpp: queue::emplace, get_operation::start, maybe_get"]}
{"id": "C11", "title": "queue never strands an item next to a waiting consumer; waiting consumers are served in order", "statement": "Whenever an item is stored in the queue no consumer is suspended on it; suspended consumers receive items in the order in which they suspended (cancelled ones skipped); when all calls have returned every consumer that was assigned an item has received exactly that item.", "quantifier": "every history and interleaving", "why_tests_cant": "lost wakeups only appear in specific races", "anchors": ["include/async/queue.hpp: queue::emplace, get_operation::start"]}
{"id": "C12", "title": "A cancelled async_get consumes no item", "statement": "If async_get completes with a null optional, no item was taken from the queue on its behalf; if it was assigned an item it completes with that item even if its token is cancelled concurrently.", "quantifier": "every race between put and cancel", "why_tests_cant": "the put/cancel race has two winners that must both be consistent", "anchors": ["include/async/queue.hpp: queue::try_cancel, get_operation::resume_fn"]}
{"id": "C13", "title": "mutex: mutual exclusion", "statement": "Between the completion of async_lock (or a successful try_lock) and the matching unlock() no other async_lock completes and no other try_lock succeeds.", "quantifier": "any number of lockers and threads, every interleaving at the granularity of single atomic accesses, including spurious compare-exchange failures", "why_tests_cant": "data races over an atomic plus a lock-protected list", "anchors": ["include/async/mutex.hpp: mutex::lock_operation::start, try_lock, unlock"]}
{"id": "C14", "title": "mutex: FIFO hand-off without barging", "statement": "Lockers that had to wait acquire the mutex in the order in which they were queued, and while a locker is queued no later async_lock or try_lock acquires the mutex before it.", "quantifier": "every history and interleaving", "why_tests_cant": "fairness is a statement over all histories", "anchors": ["include/async/mutex.hpp: mutex::unlock, lock_operation::start"]}
{"id": "C15", "title": "mutex: no lost wakeup and no deadlock", "statement": "If no library call is running and some locker is still waiting then the mutex is held by somebody whose unlock() will hand it over; a running call can always make progress; no internal assertion fails as long as unlock() is only called by the holder.", "quantifier": "every history and interleaving", "why_tests_cant": "lost wakeups are schedule-specific", "anchors": ["include/async/mutex.hpp: mutex::unlock"]}
{"id": "C16", "title": "shared_mutex: writers exclude everybody, readers exclude writers", "statement": "While an exclusive acquisition is held no other acquisition (exclusive or shared) is held; while shared acquisitions are held no exclusive one is.", "quantifier": "any number of readers and writers, every interleaving at atomic-access granularity", "why_tests_cant": "state word and reader count are modified lock-free outside the internal mutex", "anchors": ["include/async/mutex.hpp: shared_mutex"]}
{"id": "C17", "title": "shared_mutex: FIFO admission, no writer starvation", "statement": "Queued requests are admitted in FIFO order, adjacent queued readers being admitted together when a writer releases; once a writer is queued no later reader or writer is admitted before it.", "quantifier": "every history and interleaving", "why_tests_cant": "fairness is a statement over all histories", "anchors": ["include/async/mutex.hpp: shared_mutex::unlock, unlock_shared, try_lock_shared"]}
{"id": "C18", "title": "shared_mutex: no lost wakeup, no failing assertion", "statement": "If no library call is running and a request is queued then somebody holds the mutex; a running call can always make progress; no assertion fails as long as only holders unlock, in the mode they hold.", "quantifier": "every history and interleaving", "why_tests_cant": "lost wakeups are schedule-specific", "anchors": ["include/async/mutex.hpp: shared_mutex::unlock, unlock_shared"]}
{"id": "C19", "title": "wait_group: a wait succeeds only if the work count reached zero", "statement": "wait() completes with true only if the outstanding work count was zero at some moment after the wait was started (or when it started).", "quantifier": "every history of add, done, wait, cancel and every interleaving", "why_tests_cant": "counter is modified both outside and inside the lock", "anchors": ["include/async/wait-group.hpp: wait_group::done, wait_operation::start"]}
{"id": "C20", "title": "wait_group: reaching zero wakes every waiter", "statement": "When the count reaches zero every wait started before completes; when all calls have returned and the count was not raised again nobody is still waiting while the count is zero.", "quantifier": "every interleaving of concurrent done() calls", "why_tests_cant": "lost wakeups are schedule-specific", "anchors": ["include/async/wait-group.hpp: wait_group::done"]}
{"id": "C21", "title": "wait_group: add() after zero is safe with concurrent cancellation", "statement": "A wait_group may be reused: calling add() after the count reached zero while woken waiters are still being resumed does not corrupt the group, and those waiters still complete exactly once with true.", "quantifier": "every interleaving of done, add, cancel and wait", "why_tests_cant": "needs add() and cancel() inside the window in which done() walks its private list", "anchors": ["include/async/wait-group.hpp: wait_group::try_cancel, wait_group::add, wait_group::done"]}
{"id": "C22", "title": "oneshot_event: waits complete iff the event was raised; later raises are no-ops", "statement": "Every wait on a oneshot_event completes with true iff raise() was called (or with false if cancelled first); waits started after raise() complete immediately; as documented, further raises are a no-op.", "quantifier": "every history of raise, wait and cancel", "why_tests_cant": "quantifies over all histories", "anchors": ["include/async/oneshot-event.hpp: oneshot_event", "docs/src/headers/oneshot-event.md"]}
{"id": "C23", "title": "wait_in_group brackets the wrapped sender", "statement": "wait_in_group(wg, s) increases the count by one before s is started and decreases it exactly once after s completed, before forwarding exactly the value of s; waiters of wg cannot be woken while a wrapped sender runs.", "quantifier": "every number of wrapped senders, every interleaving", "why_tests_cant": "quantifies over all interleavings", "anchors": ["include/async/wait-group.hpp: wait_in_group"]}
{"id": "C24", "title": "oneshot_primitive: every waiter completes exactly once after raise, none is lost", "statement": "Each wait() on a oneshot_primitive completes at most once, never before raise(), and after raise() returned and all calls finished every started wait has completed; raise() never touches a waiter after completing it.", "quantifier": "any number of waiters, every interleaving of the lock-free push loops with raise(), including spurious compare-exchange failures", "why_tests_cant": "lock-free linked list; bad interleavings are rare", "anchors": ["include/async/oneshot-event.hpp: oneshot_primitive::raise, wait_operation::start"]}
{"id": "C25", "title": "recurring_event: raise wakes exactly the waiters present", "statement": "raise() completes every waiter queued at that moment, each exactly once and in queue order, and no waiter that is queued later; a waiter completes with awaited only because of a raise() after it was queued.", "quantifier": "every history and interleaving", "why_tests_cant": "quantifies over all histories", "anchors": ["include/async/recurring-event.hpp: recurring_event::raise"]}
{"id": "C26", "title": "recurring_event: condition-checked waits miss no wakeup", "statement": "If every change that makes the condition of async_wait_if false is followed by a raise(), no wait stays suspended once its condition is false and all calls have returned; a wait whose condition is false at start completes immediately with condition_failed.", "quantifier": "every interleaving of condition changes, raises and waits", "why_tests_cant": "lost wakeups are schedule-specific", "anchors": ["include/async/recurring-event.hpp: wait_if_operation::start"]}
{"id": "C27", "title": "sequenced_event: no missed raise, and progress of the sequence number", "statement": "async_wait(seq) with an outdated seq completes immediately; with the current seq it completes after the next raise(); an uncancelled wait returns a sequence number strictly greater than its argument.", "quantifier": "every interleaving of raise() and async_wait()", "why_tests_cant": "the increment and the wakeup are two separate steps", "anchors": ["include/async/sequenced-event.hpp: sequenced_event"]}
{"id": "C28", "title": "barrier: nobody passes a phase early", "statement": "async_wait(token) completes only after the phase for which the token was issued has completed, i.e. after the expected number of participants arrived.", "quantifier": "every number of participants, every interleaving of arrive/arrive_and_join/arrive_and_drop/async_wait", "why_tests_cant": "sequence update and wakeup are two separate steps", "anchors": ["include/async/barrier.hpp: barrier::do_arrive, async_wait"]}
{"id": "C29", "title": "barrier: nobody stays behind", "statement": "When the expected number of arrivals of a phase is reached and all calls have returned, every async_wait with a token of that phase has completed.", "quantifier": "every interleaving", "why_tests_cant": "lost wakeups are schedule-specific", "anchors": ["include/async/barrier.hpp: barrier::do_arrive, async_wait"]}
{"id": "C30", "title": "barrier: arrival accounting", "statement": "A phase completes exactly when the arrivals counted since the previous phase equal the expected number as adjusted by joins and drops; tokens returned by arrivals of one phase are equal and phases are numbered consecutively.", "quantifier": "every sequence of arrive/join/drop calls", "why_tests_cant": "quantifies over all call sequences", "anchors": ["include/async/barrier.hpp: barrier::do_arrive"]}
{"id": "C31", "title": "post_ack: every agent sees every post exactly once and in order", "statement": "The objects obtained by the polls of an attached agent are exactly the objects posted since it attached, in post order, without gaps or duplicates.", "quantifier": "any number of agents and posts, every interleaving of post, poll, ack, attach, detach and poll cancellation", "why_tests_cant": "quantifies over all histories", "anchors": ["include/async/post-ack.hpp: post_operation::start, poll_operation, post_ack_agent::attach"]}
{"id": "C32", "title": "post_ack: a post completes exactly once, after all its agents acknowledged or detached", "statement": "post() completes at most once and only after each agent attached at the time of the post has acknowledged it or detached; with no agent attached it completes immediately; when all calls returned and all acknowledgements were given it has completed.", "quantifier": "every interleaving of ack, detach and post", "why_tests_cant": "the last acknowledgement is found by an atomic countdown", "anchors": ["include/async/post-ack.hpp: post_ack_handle::ack, post_ack_agent::detach, post_operation::start"]}
{"id": "C33", "title": "post_ack: cancelling a poll loses nothing", "statement": "A poll that completes with an empty handle leaves the position of the agent unchanged, the next poll returns the object the cancelled one would have returned.", "quantifier": "every race between post and cancel", "why_tests_cant": "race with two winners", "anchors": ["include/async/post-ack.hpp: post_ack_mechanism::try_cancel, poll_operation::resume_fn"]}
{"id": "C34", "title": "post_ack: detach releases all posts and internal lookups never fail", "statement": "detach() acknowledges every post the agent has not polled yet; the internal queue lookups of poll and detach always find their node; no assertion fails when each agent has at most one running poll and detaches only when no poll is running.", "quantifier": "every history", "why_tests_cant": "quantifies over all histories", "anchors": ["include/async/post-ack.hpp: post_ack_agent::detach, poll_operation::start"]}
{"id": "C35", "title": "promise/future: all gets see the one value, exactly once each", "statement": "Every get() on any future of a promise completes at most once; uncancelled gets complete with the value given to set_value, and only after set_value was called; after set_value returned and all calls finished no get is still suspended.", "quantifier": "any number of futures and gets, every interleaving of set_value, get and cancel", "why_tests_cant": "publication and wakeup take the lock in two separate sections", "anchors": ["include/async/promise.hpp: promise::set_value, promise_state_base::wake, future::get_operation"]}
{"id": "C36", "title": "promise/future: shared state is freed exactly once, with the last handle", "statement": "The state shared by a promise and its futures stays alive while any handle refers to it and is destroyed exactly once when the last handle goes away, for every sequence of copies, moves, assignments, swaps and destructions.", "quantifier": "every sequence of handle operations", "why_tests_cant": "quantifies over all operation sequences", "anchors": ["include/async/promise.hpp: promise_base, future"]}
{"id": "C37", "title": "result<T>: awaiting a coroutine completes exactly once with its return value", "statement": "When a result<T> operation is started its receiver is completed exactly once with the co_returned value, whether the coroutine finishes inside start() or later on another thread, and neither side touches the coroutine frame or the operation afterwards.", "quantifier": "every interleaving of the starting thread with the thread finishing the coroutine", "why_tests_cant": "a two-way exchange race", "anchors": ["include/async/result.hpp: result_operation::start, promise_type::final_suspend"]}
{"id": "C38", "title": "generator: next() yields the values in order and then the end marker", "statement": "The results of successive next() calls are the co_yielded values in order, each exactly once, followed by one empty optional when the coroutine returns; with at most one next() outstanding the generator never panics. When the generator is destroyed between two next() calls, nothing of it runs afterwards.", "quantifier": "every generator body, including bodies that suspend between yields", "why_tests_cant": "quantifies over all bodies", "anchors": ["include/async/generator.hpp: generator::promise_type, next_operation"]}
{"id": "C39", "title": "run() returns exactly the value of the sender, and only then", "statement": "async::run(s, ios) returns iff the sender completed, with its value, calling ios.wait() only while the sender has not completed.", "quantifier": "every sender and every io-service behaviour", "why_tests_cant": "quantifies over all schedules", "anchors": ["include/async/basic.hpp: run"]}
{"id": "C40", "title": "detach/spawn free the operation exactly once and run the continuation once", "statement": "A detached (spawned) sender has its heap block destroyed exactly once, after its completion; the continuation (receiver) runs exactly once, and the block is not accessed after it was freed.", "quantifier": "synchronous and asynchronous completion", "why_tests_cant": "quantifies over all completion times", "anchors": ["include/async/basic.hpp: detach_with_allocator, spawn_with_allocator"]}
{"id": "C41", "title": "invocable/transform apply the functor once and forward its result", "statement": "transform(s, f) completes exactly when s completes, with f applied once to the value; invocable(f) completes inside start() with the result of one call of f.", "quantifier": "every sender and functor, synchronous or asynchronous completion", "why_tests_cant": "quantifies over all senders", "anchors": ["include/async/algorithm.hpp: transform, invocable"]}
{"id": "C42", "title": "ite starts exactly one branch", "statement": "ite(c, a, b) evaluates c once, starts exactly the selected sender, and completes with its value.", "quantifier": "every condition and sender", "why_tests_cant": "quantifies over all senders", "anchors": ["include/async/algorithm.hpp: ite_operation"]}
{"id": "C43", "title": "let keeps the variable alive and starts the produced sender", "statement": "let(p, f) evaluates p once, passes the stored value to f once, starts the resulting sender and completes with its value; the variable outlives the sender.", "quantifier": "every functor and sender", "why_tests_cant": "quantifies over all senders", "anchors": ["include/async/algorithm.hpp: let_operation"]}
{"id": "C44", "title": "sequence runs its senders one after another", "statement": "sequence(s1..sn) starts s(k+1) only after s(k) completed and was destroyed, starts every sender exactly once, and completes exactly once with the value of the last one.", "quantifier": "every n>0, every mixture of synchronous and asynchronous completions", "why_tests_cant": "unbounded n and all mixtures", "anchors": ["include/async/algorithm.hpp: sequence_operation"]}
{"id": "C45", "title": "repeat_while alternates condition and body", "statement": "repeat_while(c, f) evaluates c, and as long as it is true runs one sender from f to completion before evaluating c again; it completes exactly once, as soon as c is false; it never has two bodies alive.", "quantifier": "every number of iterations, every mixture of synchronous and asynchronous completions", "why_tests_cant": "unbounded iterations", "anchors": ["include/async/algorithm.hpp: repeat_while_operation"]}
{"id": "C46", "title": "when_all completes exactly once, when all senders completed", "statement": "when_all(s1..sn) starts all senders and completes exactly once, after all of them completed, whether they complete synchronously inside start() or later on any thread.", "quantifier": "every n>0 and every interleaving of start() with the completions", "why_tests_cant": "all mixtures of synchronous and racing completions", "anchors": ["include/async/algorithm.hpp: when_all_operation"]}
{"id": "C47", "title": "race_and_cancel completes once after all senders finished and cancels the losers", "statement": "race_and_cancel(f1..fn) completes exactly once, after all n senders completed; the first completion requests cancellation of all the others; it does not touch its state after completing.", "quantifier": "every n >= 1 and every interleaving of start() with the completions", "why_tests_cant": "all interleavings of the completions with the cancel loop", "anchors": ["include/async/algorithm.hpp: race_and_cancel_operation"]}
{"id": "C48", "title": "Arbitrarily nested compositions complete exactly once", "statement": "Any sender expression built from the algorithms completes at most once, and exactly once when its leaves complete, in the order of effects prescribed by the combinators.", "quantifier": "every finite composition tree and every completion order of the leaves", "why_tests_cant": "unbounded nesting", "anchors": ["include/async/algorithm.hpp", "include/async/basic.hpp"]}
{"id": "C49", "title": "co_await of a sender returns its value and resumes the coroutine once", "statement": "In a coroutine, co_await of a sender starts it, and returns the value with which it completed, exactly once per completion; the senders awaited by one coroutine are started one after the other, each after the previous co_await returned.", "quantifier": "every coroutine body, every completion time of the awaited senders (inside start() or later, on any thread)", "why_tests_cant": "quantifies over all bodies and all completion times", "anchors": ["include/async/basic.hpp: sender_awaiter"]}
{"id": "C50", "title": "Critical sections of a mutex are ordered by happens-before", "statement": "What a thread does before unlock() of an async::mutex happens before (in the sense of C++20) everything that follows a later acquisition by lock() or try_lock(), so data protected by the mutex is free of data races.", "quantifier": "all executions, any number of tasks, every pair of critical sections", "why_tests_cant": "a missing memory order is invisible on strongly ordered hardware and in most schedules", "anchors": ["include/async/mutex.hpp: mutex"]}
{"id": "C51", "title": "Conflicting critical sections of a shared_mutex are ordered by happens-before", "statement": "What a task does before unlock() or unlock_shared() happens before everything that follows a later acquisition, whenever at least one of the two sections is exclusive.", "quantifier": "all executions, any number of readers and writers, every pair of conflicting critical sections", "why_tests_cant": "a missing memory order is invisible on strongly ordered hardware and in most schedules", "anchors": ["include/async/mutex.hpp: shared_mutex"]}
{"id": "C52", "title": "queue: put happens before get", "statement": "The call of put() or emplace() that inserted an item happens before (in the sense of C++20) the completion of the get() or the return of the maybe_get() that delivers this item. If a get() is cancelled, a cancel() of its cancellation event happens before its completion. Starting a get() happens before its completion.", "quantifier": "all executions, any number of threads, items and operations", "why_tests_cant": "a missing memory order is invisible on strongly ordered hardware and in most schedules", "anchors": ["include/async/queue.hpp: queue", "include/async/cancellation.hpp: cancellation_resolver"]}
{"id": "C53", "title": "wait_group and oneshot_event: done() happens before the completion of a wait", "statement": "If a wait() completes with true, then at some moment after it was started the work count was zero, and all calls of done() before that moment happen before (in the sense of C++20) the completion of the wait; so do the completions of all senders wrapped by wait_in_group that were started before that moment. A wait on a oneshot_event completes with true only if a raise() happens before. If a wait is cancelled, a cancel() of its cancellation event happens before its completion. Starting a wait happens before its completion.", "quantifier": "all executions, any number of threads and operations, every initial count", "why_tests_cant": "the counter is modified with atomic operations outside of the lock; a missing memory order is invisible on strongly ordered hardware and in most schedules", "anchors": ["include/async/wait-group.hpp: wait_group, wait_in_group", "include/async/oneshot-event.hpp: oneshot_event", "include/async/cancellation.hpp: cancellation_resolver"]}
{"id": "C54", "title": "promise and future: set_value happens before get", "statement": "If get() on a future delivers a value, then the call of set_value() that provided this value happens before (in the sense of C++20) its completion, so the completion may read the value without the lock. If a get() is cancelled, a cancel() of its cancellation event happens before its completion. Starting a get() happens before its completion.", "quantifier": "all executions, any number of futures, threads and operations, every value type", "why_tests_cant": "a missing memory order is invisible on strongly ordered hardware and in most schedules", "anchors": ["include/async/promise.hpp: promise, future", "include/async/cancellation.hpp: cancellation_resolver"]}
{"id": "C55", "title": "promise and future: the shared state outlives its last use and every use happens before its destruction", "statement": "Handles of the shared state (promise and futures) may be copied and destroyed concurrently by any threads. The state is destroyed exactly once, when the last handle is destroyed; it is not used afterwards; it is destroyed once all handles are gone; and every access through any handle happens before (in the sense of C++20) the destruction, provided that whoever destroys a handle knows of the accesses through it.", "quantifier": "all executions, any number of handles and threads", "why_tests_cant": "reference counts fail only in rare interleavings, and a missing memory order is invisible on strongly ordered hardware", "anchors": ["include/async/promise.hpp: promise_state_base::ref, unref; promise_base::disown_state; future"]}
{"id": "C56", "title": "recurring_event: raise happens before the completion of the waits it wakes", "statement": "If a wait completes because it was woken, then a call of raise() that woke it happens before (in the sense of C++20) its completion. If it completes because its condition was false, then all calls of raise() that took effect before the evaluation of the condition happen before its completion. What a thread does before it calls raise() happens before this raise(). If a wait is cancelled, a cancel() of its cancellation event happens before its completion. Starting a wait happens before its completion.", "quantifier": "all executions, every program around the event, whatever memory orders it uses itself", "why_tests_cant": "a missing memory order is invisible on strongly ordered hardware and in most schedules", "anchors": ["include/async/recurring-event.hpp: recurring_event", "include/async/cancellation.hpp: cancellation_resolver"]}
{"id": "C57", "title": "sequenced_event: the counted raises happen before the result", "statement": "If a wait returns the sequence number s, then exactly s calls of raise() have incremented the number and all of them happen before (in the sense of C++20) the return, however the wait ends. If the wait was woken, the raise() that woke it happens before, too. Starting a wait happens before its completion.", "quantifier": "all executions, any number of raises, waits and threads", "why_tests_cant": "a missing memory order is invisible on strongly ordered hardware and in most schedules", "anchors": ["include/async/sequenced-event.hpp: sequenced_event", "include/async/recurring-event.hpp: recurring_event"]}
{"id": "C58", "title": "barrier: arrivals happen before the completion of a wait", "statement": "Arrivals at a barrier are totally ordered by happens-before, and all arrivals of the phase of a token, and of earlier phases, happen before (in the sense of C++20) the completion of a wait with this token.", "quantifier": "all executions, every number of participants, any number of phases and threads", "why_tests_cant": "a missing memory order is invisible on strongly ordered hardware and in most schedules", "anchors": ["include/async/barrier.hpp: barrier", "include/async/recurring-event.hpp: recurring_event"]}
{"id": "C59", "title": "result: everything that a coroutine does is ordered", "statement": "The call of start(), the co_awaits of the coroutine, the completions of the awaited senders, the resumptions, the co_return and the completion of the receiver are totally ordered by happens-before (in the sense of C++20), in the order in which they occur, however the threads change, provided that whoever completes an awaited sender is ordered after its start.", "quantifier": "all coroutine bodies, all executions, any number of coroutines and threads", "why_tests_cant": "a missing memory order is invisible on strongly ordered hardware and in most schedules", "anchors": ["include/async/result.hpp: result, result_operation, result_promise"]}
{"id": "C60", "title": "result: start() is done with the operation before the receiver is completed", "statement": "The last access of start() to the operation or to the coroutine frame happens before (in the sense of C++20) the completion of the receiver, which may destroy both.", "quantifier": "all coroutine bodies, all executions, any number of coroutines and threads", "why_tests_cant": "a missing memory order is invisible on strongly ordered hardware and in most schedules", "anchors": ["include/async/result.hpp: result_operation::start, final_suspend"]}
{"id": "C61", "title": "oneshot_primitive: raise() happens before the completions, and start() is done with the operation", "statement": "The call of raise() on a oneshot_primitive happens before (in the sense of C++20) every later completion of a wait, and the last access of start() to a wait operation happens before the completion of that wait, which may destroy it.", "quantifier": "all executions, any number of waits, threads and spurious compare-exchange failures", "why_tests_cant": "a missing memory order is invisible on strongly ordered hardware and in most schedules", "anchors": ["include/async/oneshot-event.hpp: oneshot_primitive"]}
{"id": "C62", "title": "post_ack: posts happen before the polls that return them, acknowledgments before the completion of the post", "statement": "The call of post happens before (in the sense of C++20) the completion of every poll that returns this post. Every acknowledgment of the post, by ack() or because an agent detaches, and every completion of a poll that returned it, happens before the completion of the post, provided that whoever calls ack() is ordered after the completion of the poll. Starting a poll happens before its completion, and the cancellation before the completion of a cancelled poll.", "quantifier": "all executions, any number of agents, posts, polls and threads", "why_tests_cant": "a missing memory order is invisible on strongly ordered hardware and in most schedules", "anchors": ["include/async/post-ack.hpp: post_ack_mechanism, post_ack_agent"]}
{"id": "C63", "title": "Compositions of senders are ordered by happens-before", "statement": "In any nesting of transform, ite, repeat_while, sequence, let, lambda, invocable, when_all and race_and_cancel, of two events (start and completion of an operation, call of a user function) the earlier one happens before (in the sense of C++20) the later one, unless they belong to different senders of the same when_all or race_and_cancel. In particular everything that an operation and its parts do happens after its start and before its completion, each sender of when_all and race_and_cancel completes before the whole, and race_and_cancel cancels a sender only after another one completed. Provided that whoever completes a leaf is ordered after the start of that leaf.", "quantifier": "all expressions of any size and depth, all executions, any number of threads", "why_tests_cant": "infinitely many expressions and schedules; a missing memory order is invisible on strongly ordered hardware", "anchors": ["include/async/algorithm.hpp: transform, ite, repeat_while, race_and_cancel, let, sequence, when_all, lambda, invocable"]}
{"id": "C64", "title": "race_and_cancel: cancelling the losers happens before the completion", "statement": "Each cancellation of a sender by race_and_cancel happens before (in the sense of C++20) the completion of race_and_cancel, which ends the lifetime of the cancellation events.", "quantifier": "all expressions, all executions, any number of threads", "why_tests_cant": "needs two senders that complete at the same time and a thread that is delayed between an atomic increment and a loop; the damage is a use after free or a data race", "anchors": ["include/async/algorithm.hpp: race_and_cancel_operation::internal_receiver::set_value"]}
{"id": "C65", "title": "generator and result objects own their coroutine", "statement": "For every program that constructs, moves, assigns (including self-assignment) and destroys generator objects or result objects: a coroutine frame has at most one owner, it is destroyed at most once, it is destroyed exactly when its owner is destroyed or assigned to, moving and assigning transfer ownership and leave the source empty, and when no object is left every frame was destroyed exactly once.", "quantifier": "all sequences of calls of any length, any number of objects and coroutines", "why_tests_cant": "infinitely many programs; a double destroy or a leak needs a particular aliasing of moves", "anchors": ["include/async/generator.hpp: generator move constructor, move assignment, destructor", "include/async/result.hpp: result constructors, move assignment, destructor"]}
{"id": "C66", "title": "no outdated values", "statement": "In every execution that the C++20 memory model allows for mutex, shared_mutex, oneshot_primitive, oneshot and recurring and sequenced events, wait_group, queue, promise, barrier, post_ack_mechanism and compositions of senders, the accesses to locks and atomic variables can be arranged in one sequence that respects happens-before and in which each read (relaxed or not) yields the value that was written last.", "quantifier": "all executions in the sense of C++20 (accesses, happens-before, modification orders), of any size, any number of threads", "why_tests_cant": "outdated values of relaxed loads do not occur on common processors, and depend on the compiler", "anchors": ["include/async/mutex.hpp", "include/async/oneshot-event.hpp: oneshot_primitive", "include/async/wait-group.hpp: ctr_", "include/async/barrier.hpp: seq_", "include/async/sequenced-event.hpp: seq_", "include/async/post-ack.hpp: acks_left", "include/async/promise.hpp: ctr_", "include/async/algorithm.hpp: counters"]}
{"id": "C67", "title": "calls on events, queues, promises, wait groups, barriers and post_ack come to an end", "statement": "Calls of the member functions of queue, recurring_event, sequenced_event, barrier, promise, wait_group (and oneshot_event) and post_ack_mechanism, calls of cancellation_event::cancel(), and starts of wait operations never run for ever: however the running calls of all threads are scheduled, they execute at most a bounded number of steps altogether, where the bound is linear in the number of operations started and calls running, except for a factor for the number of running calls in wait_group (whose done() retries when another call changed the count) and for the number of posts in post_ack (whose detach() loops over posts). None of them ever waits for another call. When the running calls have ended, every operation whose cancellation was requested has completed.", "quantifier": "all reachable states, all schedules of the running calls, any number of threads, operations, cancellations", "why_tests_cant": "a livelock of retry loops needs particular schedules of several threads; a test cannot tell a long run from an infinite one", "anchors": ["include/async/cancellation.hpp: cancellation_resolver, cancellation_event::cancel", "include/async/queue.hpp", "include/async/recurring-event.hpp", "include/async/sequenced-event.hpp", "include/async/barrier.hpp", "include/async/promise.hpp", "include/async/wait-group.hpp: done", "include/async/post-ack.hpp: detach"]}
{"id": "C68", "title": "with_cancel_cb: happens-before", "statement": "For an operation of with_cancel_cb (a sender with a cancellation callback): the start of the inner operation, the call of the callback and the completions happen after the call of start(); the receiver is completed after the inner operation completed and after the callback returned, even if these happen on different threads; the callback is called after a call of cancel() on the event of the token, with no reset of the event in between. 'After' is happens-before in the sense of C++20.", "quantifier": "all executions, any number of operations, events and threads", "why_tests_cant": "needs a cancellation, a completion and a start on three threads; a missing order shows up only as a data race", "anchors": ["include/async/cancellation.hpp: with_cancel_cb_operation, cancellation_observer, cancellation_event::cancel"]}
{"id": "C69", "title": "suspend_indefinitely: happens-before", "statement": "For an operation of suspend_indefinitely: the registration of its observers, the calls of its handlers and its completion happen after the call of start(); it completes after all of these and after the removal of its observers, on whatever threads they run; each handler is called after a call of cancel() on the event of its token, with no reset of the event in between; so the completion happens after a cancellation of one of the tokens. 'After' is happens-before in the sense of C++20.", "quantifier": "all executions, any number of operations, tokens, events and threads", "why_tests_cant": "needs cancellations of several events at once on different threads; a missing order shows up only as a data race", "anchors": ["include/async/cancellation.hpp: suspend_indefinitely_operation, cancellation_observer, cancellation_event::cancel"]}
{"id": "C70", "title": "mutex and shared_mutex: waiting is synchronised", "statement": "For mutex and shared_mutex: whatever happens to an acquisition (taking the mutex, being queued, being handed the mutex by the unlock of another thread, its completion, the failure of try_lock) happens after the call that began it, so that the thread that completes a waiter sees the whole lock operation; and any two accesses to the queue of waiters are ordered, so that there is no data race on it. 'After' and 'ordered' are happens-before in the sense of C++20.", "quantifier": "all executions, any number of acquisitions and threads", "why_tests_cant": "needs an unlock that races with the queueing of a waiter; a missing order shows up only as a data race on the intrusive list or on the operation object", "anchors": ["include/async/mutex.hpp: mutex::lock_operation::start, mutex::unlock, shared_mutex::lock_operation::start, lock_shared_operation::start, unlock, unlock_shared"]}
{"id": "C71", "title": "lifetimes of operations in algorithm.hpp", "statement": "In every composition of invocable, transform, ite, repeat_while, race_and_cancel, let, sequence, when_all and lambda, the operation objects of the senders are constructed and destroyed properly: no operation is accessed, started or destroyed outside of its lifetime, none is constructed over an existing one, and no assertion of the boxes that hold them fails, even if the user destroys the outermost operation as soon as it has completed. An operation exists while it runs. sequence and repeat_while never have two operations at a time, and have none when they complete. When the outermost operation is destroyed, nothing that was constructed for it is left. An operation that was connected but never started can be destroyed too.", "quantifier": "all sender expressions of any size, nesting and behaviour of functors, all schedules of completions on any threads, all points of destruction after completion", "why_tests_cant": "Use after destruction and leaked objects depend on the nesting, on when the leaves complete and on when the user destroys the operation; tests run a few compositions and usually do not notice either.", "anchors": ["include/async/algorithm.hpp: constructors, destructors, start and set_value of the operations of transform, ite, repeat_while, race_and_cancel, let, sequence, when_all, lambda"]}
{"id": "C72", "title": "when lock requests wait or are refused", "statement": "mutex: try_lock fails, and async_lock waits, only if somebody else owns the mutex at that moment; a request takes the mutex at once only if nobody owns it and nobody waits. shared_mutex: async_lock waits and try_lock fails only if somebody owns the mutex. async_lock_shared waits only if the mutex is owned exclusively. try_lock_shared fails only if, at some moment since it was called, the mutex was owned exclusively or somebody else was waiting for it. When a call runs alone, 'owns' means 'acquired and not yet unlocked'. try_lock and try_lock_shared never wait in the queue: when no call is running, each of them has returned true or false, whoever holds the mutex. They do not depend on other threads: three steps of their own suffice, wherever the other calls stop, for example while one of them has the internal mutex.", "quantifier": "all executions with any number of requests of all kinds on any threads, every request in them", "why_tests_cant": "Whether a request is refused or queued without reason depends on the exact value of the state word at the moment of the access, including transient values between the steps of a concurrent unlock; tests that only lock free or held mutexes do not see them.", "anchors": ["include/async/mutex.hpp: mutex::try_lock, async_lock, lock_operation::start", "include/async/mutex.hpp: shared_mutex::try_lock, try_lock_shared, async_lock, async_lock_shared", "docs/src/headers/mutex/shared_mutex.md: acquiring in shared mode only blocks if it's currently owned exclusively"]}
{"id": "C73", "title": "post_ack handles: each delivery is acknowledged exactly once", "statement": "However post_ack handles are moved, swapped and assigned, each delivery belongs to exactly one handle until it is acknowledged, it is acknowledged at most once, and when all handles are destroyed every delivery has been acknowledged. operator bool tells whether a handle holds a delivery (false for new handles, moved-from handles and cancelled polls). ack fails its assertions exactly on empty or acknowledged handles, access fails exactly on empty handles, and destruction of, or assignment to, a handle fails exactly if it holds an unacknowledged delivery. Until a delivery is acknowledged the posted object exists. This holds no matter what the receiver of the post does when it is completed from within ack.", "quantifier": "all programs with any number of handle variables, mechanisms and posts, all sequences of construction, poll, swap, move, assignment, ack, access and destruction", "why_tests_cant": "Tests acknowledge a handle where they received it. Whether a flag travels with the pointer through every chain of moves, and what happens when the completion that ack runs uses the handle itself, is only visible over all programs.", "anchors": ["include/async/post-ack.hpp: post_ack_handle", "docs/src/headers/post-ack/post_ack_handle.md"]}
{"id": "C74", "title": "type-erased receivers and callbacks behave like the objects they wrap", "statement": "A program that uses any_receiver gives the same results as the program that uses the wrapped receivers themselves: each set_value reaches the wrapped receiver in the state in which the previous call left it, copies have a state of their own, and nothing is accessed outside of the storage. The same holds for callback and the functors wrapped in it; an empty callback converts to false and must not be called; a run_queue_item can be armed exactly once, with a non-empty callback, which it calls afterwards.", "quantifier": "all trivially copyable classes of at most pointer size, all programs with any number of variables, constructions, copies, calls, tests and arm calls, any previous contents of the memory", "why_tests_cant": "The wrapped object is stored as bytes and recovered by a cast; the tests use functors without state. Losing the state of a functor, or part of its bytes, only shows with particular classes and sequences of calls.", "anchors": ["include/async/basic.hpp: any_receiver, callback, run_queue_item::arm", "docs/src/headers/basic/any_receiver.md"]}
{"id": "C75", "title": "cancellation is synchronised: handlers see what happened before registration and before cancel()", "statement": "Whatever the thread that constructs a callback (or attaches an observer) did before is visible to the functor, on whichever thread cancel() calls it. Whatever was done before cancel() is visible to everyone who learns of the cancellation: to the functors that are called, to whoever gets true from is_cancellation_requested(), and to whoever gets false from try_set() or try_reset(). Registrations, removals, refusals, queries and cancel() of one event are ordered by happens-before in the order in which they take effect.", "quantifier": "all executions with any number of events, callbacks, observers and threads, with and without reset() of the events", "why_tests_cant": "Missing synchronisation does not show on strongly ordered hardware, and tests run on one thread.", "anchors": ["include/async/cancellation.hpp: cancellation_event::cancel, cancellation_callback, cancellation_observer, cancellation_token::is_cancellation_requested"]}
{"id": "C76", "title": "run: the completion of the sender happens before the return; run_forever never returns", "statement": "What happens before the completion of the sender happens before the return of run(), whatever thread the sender completes on, and all accesses to the state that run() shares with its receiver are ordered. run_forever() never returns and calls wait() of the I/O service again each time it returns.", "quantifier": "all executions with any number of calls of run(), senders that complete inline, inside wait() or on other threads, I/O services whose wait() returns at any time", "why_tests_cant": "The tests complete senders inline on the calling thread. A data race on a plain flag is not visible in a single run.", "anchors": ["include/async/basic.hpp: run, run_forever, forever_sender", "docs/src/headers/basic/run.md"]}
{"id": "C77", "title": "detached coroutines run to their end on their own and free themselves exactly once", "statement": "Calling a coroutine of type detached runs its body up to the first co_await that has to wait and then returns to the caller, which never waits for the coroutine. Each co_await returns the value with which the awaited sender completed, whether it completes inside start() or later on any thread. The frame is destroyed exactly once, when the body has returned, and is not used after that; when no call is running, a coroutine whose frame still exists waits for a sender that has not completed.", "quantifier": "all coroutine bodies, any number of coroutines, all completion times and threads of the awaited senders", "why_tests_cant": "The tests use few detached coroutines, on one thread. A leaked or doubly destroyed frame shows only for particular orders of suspension and completion.", "anchors": ["include/async/basic.hpp: detached, sender_awaiter", "docs/src/headers/basic/detached.md"]}
{"id": "C78", "title": "a cancellation_event may be destroyed once everything given its token has completed", "statement": "When every callback and observer registered with a token of a cancellation_event has been removed, every operation started with such a token has completed, and no call of cancel() is still to take effect, the event can be destroyed, even by code that cancel() itself runs: the assertion of its destructor holds and nothing accesses the event afterwards.", "quantifier": "all numbers of callbacks, observers and operations, all interleavings of registration, completion, cancel() and destruction", "why_tests_cant": "The access after destruction needs an operation that is preempted between two instructions of its completion. The tests keep their events alive until the end and use one thread.", "anchors": ["include/async/cancellation.hpp: cancellation_event::~cancellation_event, cancellation_event::cancel, cancellation_resolver, cancellation_callback, cancellation_observer"]}
{"id": "C79", "title": "a synchronisation object may be destroyed once its last user has been told", "statement": "A thread that has learned from a completed operation that a call by another thread (unlock, put, done, raise, arrive) took effect, and that knows of no other users, may destroy the object: the other call does not access the object any more, even if it has not returned. For mutex and shared_mutex: whoever holds the lock exclusively, when no request is outstanding. For queue: when as many items were received as put() was called. For wait_group and oneshot_event: when the count is zero and all waits have completed. For post_ack_mechanism: when all posts and polls have completed and every agent has at least begun detach(). For oneshot_primitive, sequenced_event and barrier: when all waits have completed that waited for the raise or for the phase.", "quantifier": "all numbers of operations and calls, all interleavings", "why_tests_cant": "The access after destruction happens only if the waking thread is preempted between making the effect visible and its last access to the object.", "anchors": ["include/async/mutex.hpp", "include/async/queue.hpp", "include/async/wait-group.hpp", "include/async/oneshot-event.hpp", "include/async/sequenced-event.hpp: raise, async_wait", "include/async/barrier.hpp: do_arrive, async_wait", "include/async/post-ack.hpp: ack, detach"]}
{"id": "C80", "title": "objects that share cancellation events behave as if each were alone", "statement": "When operations of several objects (queues, events, wait groups, barriers, promises, post-ack agents) are given tokens of the same cancellation_events, each object behaves as if it were the only one: its history, consisting of its own operations and calls and of all cancellations, is one that it can have alone, so that all guarantees of the single object hold. Every operation of every object completes at most once, with a value of its own object; cancel() completes the operations of all objects that use the event; no assertion fails, no list is corrupted, and all calls return.", "quantifier": "any number of objects of any kinds, any number of operations, events and threads, all interleavings", "why_tests_cant": "quantifies over all combinations of objects and over the interleavings of calls on different objects while one cancel() walks over resolvers of several of them", "anchors": ["include/async/cancellation.hpp: cancellation_resolver, cancellation_event::cancel", "include/async/queue.hpp", "include/async/recurring-event.hpp", "include/async/wait-group.hpp", "include/async/promise.hpp", "include/async/post-ack.hpp"]}
{"id": "C81", "title": "algorithms over the library's own operations: cancellation and completion pass through", "statement": "When the senders given to the algorithms (transform, ite, let, sequence, repeat_while, when_all, race_and_cancel, lambda) are operations of the library (queue.async_get, wait_group.async_wait, event waits, ...), the algorithms and the objects together behave as each does on its own, and there is no fault beyond those of when_all and race_and_cancel alone. An operation that completes hands its value to the algorithm exactly once. Once all calls have returned, an expression that has not completed waits for an operation that was started, has not completed and has not been cancelled (or for a sender of the user). Consequently: cancelling the events whose tokens the operations use completes the expression, exactly once; and race_and_cancel completes, exactly once, when one of its senders has completed, if the operations of the other senders use the tokens that it hands out.", "quantifier": "all expressions (any size and nesting), all objects and collections of objects that keep the contract of cancellation_resolver, all assignments of operations and tokens to senders, any number of threads, all interleavings, completions running inside any call", "why_tests_cant": "quantifies over all nestings of algorithms with all objects, over inline and concurrent completion of every operation, and over the interleavings of the calls of several threads", "anchors": ["include/async/algorithm.hpp: race_and_cancel_operation, when_all, sequence, transform", "include/async/cancellation.hpp: cancellation_event::cancel, cancellation_resolver", "include/async/execution.hpp", "include/async/queue.hpp", "include/async/wait-group.hpp"]}
{"id": "C82", "title": "what the algorithms hand to the user's functors outlives everything made from it", "statement": "let, repeat_while, lambda and race_and_cancel call functors of the user and give them references: to the variable of let, to the arguments of lambda, to the cancellation events of race_and_cancel (through tokens); a functor that is a coroutine also refers to its own closure. Whatever the functor, its sender, the operation or the destructor of the operation uses among these has been constructed and has not been destroyed. No object is constructed or destroyed twice, and all are destroyed with the operation object.", "quantifier": "all algorithms named, any number of functors and iterations, all patterns of use by functors, senders, operations and destructors, all orders of completion", "why_tests_cant": "Uses outside the lifetime of an object usually go unnoticed: the memory is still there, and often still has the expected contents.", "anchors": ["include/async/algorithm.hpp: let_operation, repeat_while_operation, lambda_operation, lambda_callable, race_and_cancel_operation", "docs/src/headers/algorithm/lambda.md"]}
{"id": "C83", "title": "loops do not grow the stack", "statement": "The number of nested calls of start(), set_value() and resume() on the stack of a thread is bounded by a number that depends on the sender expression only, not on how often its loops iterate. In particular repeat_while and loops in coroutines run in a bounded stack, whether or not their iterations complete inside of start().", "quantifier": "all expressions (any size and nesting), all coroutine bodies, all numbers of iterations, all schedules", "why_tests_cant": "A test with few iterations passes, and so does any test in which the compiler happens to turn the nested calls into jumps; the claim is about all numbers of iterations.", "anchors": ["include/async/execution.hpp: start_inline_cpo", "include/async/algorithm.hpp: repeat_while_operation::loop_", "include/async/basic.hpp: sender_awaiter::await_suspend"]}
{"id": "C84", "title": "the internal locks never deadlock", "statement": "The library calls functors, receivers and other code of the user with none of its internal locks (platform::mutex) held by the thread, so that this code may call any function of the library. A thread that requests an internal lock holds no other one, every lock is released by the thread that took it, and whoever holds one can release it without waiting. Hence no thread waits forever for an internal lock.", "quantifier": "all numbers of threads and objects, all calls made by user code at all places where the library calls it, all schedules", "why_tests_cant": "Deadlocks need a particular interleaving or a functor that calls back at a particular place; tests use a handful of functors and schedules.", "anchors": ["include/async/cancellation.hpp", "include/async/queue.hpp", "include/async/recurring-event.hpp", "include/async/wait-group.hpp", "include/async/barrier.hpp", "include/async/promise.hpp", "include/async/post-ack.hpp", "include/async/mutex.hpp"]}
{"id": "C85", "title": "no data races on the fields protected by the internal locks", "statement": "Whatever member functions of events, queues, wait groups, barriers, promises, post_ack mechanisms and mutexes are called concurrently, no two threads access the same ordinary (non-atomic) field of such an object at the same time if one of the accesses is a write.", "quantifier": "all numbers of threads and objects, all calls including re-entrant ones, all schedules", "why_tests_cant": "A data race only shows as a failure under particular schedules, compilers and hardware; the claim is about all interleavings of all pairs of functions.", "anchors": ["include/async/queue.hpp: empty", "include/async/cancellation.hpp", "include/async/recurring-event.hpp", "include/async/wait-group.hpp", "include/async/barrier.hpp", "include/async/promise.hpp", "include/async/post-ack.hpp", "include/async/mutex.hpp"]}
{"id": "C86", "title": "the environment of the receiver reaches every nested sender", "statement": "A sender at any depth inside an expression built from transform, ite, let, lambda, sequence, repeat_while, when_all, race_and_cancel, with_cancel_cb and wait_in_group that calls execution::get_env on its receiver gets the environment of the receiver of the whole expression. This also holds for expressions given to spawn_with_allocator with a receiver, and behind any_receiver.", "quantifier": "all expressions of any depth and width, all environments, all numbers of iterations, all orders of starts, completions and destructions, all leaves and all times at which they ask", "why_tests_cant": "No test calls get_env at all; a missing or dangling forward shows only for the particular nesting and moment.", "anchors": ["include/async/execution.hpp: get_env_cpo", "include/async/algorithm.hpp: get_env members", "include/async/cancellation.hpp: with_cancel_cb_operation", "include/async/wait-group.hpp: wait_in_group", "include/async/basic.hpp: any_receiver, spawn_with_allocator"]}
{"id": "C87", "title": "get_env may be called from connect until completion", "statement": "A sender at any depth inside an expression may call execution::get_env on its receiver at any time from the call of its connect until it completes: this never reads an operation that does not exist, a member that is not initialised or a receiver that was moved away.", "quantifier": "all expressions of any depth and width, all schedules of starts, completions and destructions, all times at which a leaf asks", "why_tests_cant": "Reading a member before its initialisation often goes unnoticed, and depends on the order in which the members of the operation around the sender are declared.", "anchors": ["include/async/cancellation.hpp: with_cancel_cb_operation", "include/async/algorithm.hpp", "include/async/wait-group.hpp: wait_in_group"]}
{"id": "C88", "title": "calls on compositions of senders come to an end", "statement": "However the calls of start() and set_value() on any number of sender expressions, nested arbitrarily out of the algorithms of algorithm.hpp, are scheduled on any number of threads, they execute a bounded number of steps altogether and never wait for each other, provided that every repeat_while in these expressions either waits (its sender does not complete inside of start()) or ends (its condition is false after a bounded number of iterations). Without the proviso this is not so.", "quantifier": "all numbers of expressions, all expressions of any depth and width, all functors and conditions, all reachable states, all schedules and all completions of leaves", "why_tests_cant": "Tests run single schedules of fixed expressions. Whether some interleaving of completions keeps the calls going for ever cannot be seen by running some of them.", "anchors": ["include/async/algorithm.hpp", "include/async/execution.hpp: start_inline"]}
{"id": "C89", "title": "the state of a promise is freed by the allocator that allocated it", "statement": "The shared state of a promise and its futures is deallocated by (a copy of) the allocator that was given to the constructor of the promise, whatever handle is the last one, and however promises and futures are copied, moved, assigned and swapped before.", "quantifier": "all programs over any number of promises and futures that respect the requirements of C36, all allocators", "why_tests_cant": "All tests use the stateless default allocator, for which every copy is interchangeable; the wrong allocator is used only after particular sequences of moves and assignments.", "anchors": ["include/async/promise.hpp: promise_base", "include/async/promise.hpp: future"]}
{"id": "C90", "title": "critical sections take place at once", "statement": "Everything that a library function does while it has locked the internal mutex of an object has the same effect, for all threads and all data, as if it were done in one step at a moment between locking and unlocking. Operations that do not overlap in time keep their order.", "quantifier": "all finite executions of any number of threads that call the functions of cancellation, queue, events, wait groups, barriers, promises, post_ack and mutexes, all interleavings of single accesses, all interpretations of the accesses", "why_tests_cant": "A violation needs another thread at one particular instruction inside a section that is a few instructions long, and each pair of functions has its own windows.", "anchors": ["include/async/cancellation.hpp: cancellation_event", "include/async/queue.hpp: queue", "include/async/recurring-event.hpp: recurring_event", "include/async/wait-group.hpp: wait_group", "include/async/barrier.hpp: barrier", "include/async/promise.hpp: promise_state_base", "include/async/post-ack.hpp: post_ack_mechanism", "include/async/mutex.hpp: mutex, shared_mutex"]}
{"id": "C91", "title": "suspended operations are completed in the order in which they suspended", "statement": "If an operation was suspended on an object before another one was started on it, both are still suspended at some time, and from then on nobody cancels either of them, then the first one is completed before the second one. This holds of waits on oneshot_event, oneshot_primitive, recurring_event, wait_group and promise, of polls on post_ack_mechanism, and of gets on queue.", "quantifier": "all finite executions with any number of threads and operations, all interleavings, all pairs of operations, arbitrary cancellation of other operations", "why_tests_cant": "Order among waiters is not part of any result, and the reordering needs a second call between two instructions of another one.", "anchors": ["include/async/recurring-event.hpp: recurring_event", "include/async/wait-group.hpp: wait_group", "include/async/oneshot-event.hpp: oneshot_primitive, oneshot_event", "include/async/promise.hpp: promise_state_base", "include/async/post-ack.hpp: post_ack_mechanism", "include/async/queue.hpp: queue"]}
{"id": "C92", "title": "no data races on the fields of operations", "statement": "At no time are two threads about to access the same field of a wait, get or poll operation (its links in the list of the object and in the list of the cancellation event, the part that tells how it ended, and the pointer to the event), one of them writing, unless both do so with a mutex that they share.", "quantifier": "all reachable configurations of recurring_event, wait_group, oneshot_event, promise, post_ack_mechanism and queue with any number of operations, events and threads; all pairs of running calls", "why_tests_cant": "A race needs two particular instructions of two threads at the same time and has no effect on most machines; a race detector sees only the schedules that were run.", "anchors": ["include/async/cancellation.hpp: cancellation_resolver, cancellation_event::cancel", "include/async/recurring-event.hpp: raise, try_cancel, wait_if_operation", "include/async/wait-group.hpp: done, try_cancel, wait_operation", "include/async/promise.hpp: wake, try_cancel, get_operation", "include/async/post-ack.hpp: post_operation, poll_operation", "include/async/queue.hpp: emplace, try_cancel, get_operation"]}
{"id": "C93", "title": "outdated values in programs with several objects, and result", "statement": "In every execution that the C++20 memory model allows for a program with any number of objects of the library, the accesses to each of the objects can be arranged in one sequence that respects happens-before of the whole program and in which each read yields the value that was written last. There need not be such a sequence for the whole program. For a coroutine that returns result, start() and the end of the coroutine always agree on which of them completes the receiver: exactly one of them does, after both, and the end of the coroutine happens before.", "quantifier": "all executions in the sense of C++20 (accesses, happens-before, modification orders), of any size, with any number of objects, coroutines and threads", "why_tests_cant": "outdated values of relaxed accesses do not occur on common processors, and depend on the compiler", "anchors": ["include/async/result.hpp: cfp_, result_operation::start, final_suspend", "include/async/mutex.hpp", "include/async/oneshot-event.hpp: oneshot_primitive", "include/async/wait-group.hpp: ctr_", "include/async/barrier.hpp: seq_", "include/async/sequenced-event.hpp: seq_", "include/async/post-ack.hpp: acks_left", "include/async/promise.hpp: ctr_", "include/async/algorithm.hpp: counters"]}
{"id": "C94", "title": "programs of coroutines, algorithms and operations of the library", "statement": "In programs whose coroutines (async::result) await expressions built from the algorithms, whose leaves are operations of the library or further coroutines, to any depth, coroutines, algorithms and objects behave together as each does on its own, and there is no fault beyond those of when_all and race_and_cancel alone. co_await of an expression yields the value with which the expression completes; a leaf that is a coroutine completes with the value that the coroutine returns, exactly once. Once all calls have returned, every coroutine and every part of an expression that was started and has not completed waits, through a chain of coroutines and algorithms, for an operation that was started, has not completed and has not been cancelled (or for a sender of the user). Consequently: cancelling the events whose tokens the operations below a coroutine use ends the coroutine; and race_and_cancel of coroutines completes, exactly once, when one of them has completed, if the operations below the others use the tokens that it hands out.", "quantifier": "all programs: all bodies of coroutines, all expressions (any size and nesting), any depth of coroutines that await coroutines, all objects and collections of objects that keep the contract of cancellation_resolver, all assignments of operations and tokens to leaves, any number of threads, all interleavings, completions running inside any call", "why_tests_cant": "quantifies over all programs and over the interleavings of the calls of several threads; a single call may end an unbounded chain of coroutines", "anchors": ["include/async/result.hpp: result_operation::start, final_suspend", "include/async/basic.hpp: sender_awaiter", "include/async/algorithm.hpp: race_and_cancel_operation, when_all, sequence, transform", "include/async/cancellation.hpp: cancellation_event::cancel, cancellation_resolver", "include/async/queue.hpp", "include/async/wait-group.hpp"]}
{"id": "C95", "title": "every call takes effect exactly once", "statement": "Every call of cancel(), is_cancellation_requested(), put, raise, arrive, arrive_and_join, arrive_and_drop, add, done, post, attach, detach, ack, set_value, unlock, unlock_shared, and every request for a mutex or shared_mutex takes effect exactly once, with the argument of the call and on the object on which it was called. At every moment there are at most as many effects as calls, and when no call is running there are as many. Every unbind(), destructor of a callback and try_reset() returns once. A started wait_in_group operation starts its sender exactly once and, when the sender completes, completes exactly once with the same value; detach() and raise() of oneshot_primitive also return.", "quantifier": "all programs that keep the contracts, any number of threads, calls and operations, all interleavings, all arguments, including executions in which completions and cancellations run inside of the calls", "why_tests_cant": "a call that is lost or doubled only in a rare interleaving (the mutex is taken by a functor, the compare-exchange fails, the count reaches zero concurrently) needs the right schedule; counting over all schedules is beyond testing", "anchors": ["include/async/cancellation.hpp: cancellation_event::cancel, is_cancellation_requested", "include/async/queue.hpp: emplace", "include/async/recurring-event.hpp: raise", "include/async/sequenced-event.hpp: raise", "include/async/barrier.hpp: do_arrive", "include/async/wait-group.hpp: add, done, wait_in_group", "include/async/post-ack.hpp: post, attach, detach, ack", "include/async/promise.hpp: set_value", "include/async/mutex.hpp: try_lock, unlock, shared_mutex", "include/async/oneshot-event.hpp: oneshot_primitive::raise"]}
{"id": "C96", "title": "generators and detached coroutines: everything one of them does is ordered", "statement": "Everything that happens with one generator is ordered by happens-before: its creation, the calls of next(), whatever its body does on whatever threads, the completions of the senders it awaits, the results, and its destruction. Everything that a detached coroutine does is ordered as well: its call, its body, the completions of the senders it awaits, its return and the destruction of its frame; and its call happens before its return to the caller. Hence the accesses to members of the promise and to the frame do not race, though no atomics are used.", "quantifier": "all bodies, any number of generators, coroutines and next() calls, all threads and interleavings under the C++ memory model; contract: starting an awaited sender happens before its completion, and next() and the destructor of a generator are called after its creation and the previous results (in the sense of happens-before)", "why_tests_cant": "missing happens-before edges show up only on weakly ordered hardware or under compiler reordering, and only for some schedules", "anchors": ["include/async/generator.hpp: generator, next, complete", "include/async/basic.hpp: detached, sender_awaiter"]}
{"id": "C97", "title": "coroutines: any two steps of one coroutine are ordered, so promises and frames are free of data races", "statement": "Any two steps that start, run, resume, complete or destroy one coroutine - a result<T>, a generator<T> or a detached coroutine - are ordered by happens-before, whatever threads execute them: not only the steps that can be observed, but every access to the promise, the frame, the awaiters in the frame and the state of the operation. Hence there are no data races on those members that are not atomic. The only exception is the exchange of the atomic state of a result<T> at the end of start(), which is atomic.", "quantifier": "all bodies, any number of coroutines and calls, all threads and interleavings under the C++ memory model; contract: starting an awaited sender happens before its completion, and next() and the destructor of a generator are called after its creation and the previous results (in the sense of happens-before)", "why_tests_cant": "data races are undefined behaviour that shows up only on weakly ordered hardware or under compiler optimisation, and only for some schedules", "anchors": ["include/async/result.hpp: promise_type::final_suspend, result_operation::start", "include/async/generator.hpp: generator, next, complete", "include/async/basic.hpp: detached, sender_awaiter"]}
{"id": "C98", "title": "queue, promise, wait_group, oneshot_event, mutex, shared_mutex and oneshot_primitive are linearizable", "statement": "The calls on one object - put, async_get and maybe_get of a queue; set_value and the gets of the futures of a promise; add, done and wait of a wait_group (and raise and wait of a oneshot_event); async_lock, try_lock and unlock of a mutex, and these with their shared counterparts of a shared_mutex; raise and wait of a oneshot_primitive - appear to take effect one after the other in some order that agrees with the sequential object: every call takes effect at one moment between its invocation and its return, a call that has returned before another one is invoked comes first, and the results are those of the sequential object. A cancelled operation takes effect as an operation that changes nothing, and only at a moment at which it could not have succeeded. The order can be fixed while the execution goes on and is never revised later (strong linearizability). For a shared_mutex the sequential object allows try_lock_shared to fail while there are readers only (the code does this when others are waiting).", "quantifier": "any number of threads, calls, operations and cancellations in all interleavings, all values; for wait_group within its contract (done not called more often than the count, add not called concurrently with a count of zero); for mutex and shared_mutex only holders unlock, once; oneshot_primitive is raised once", "why_tests_cant": "linearizability is a statement about all histories; checking one history is expensive and says nothing about other interleavings, and strong linearizability is not a property of one history at all", "anchors": ["include/async/queue.hpp: put, maybe_get, get_operation", "include/async/promise.hpp: set_value, future get", "include/async/wait-group.hpp: add, done, wait", "include/async/oneshot-event.hpp: raise, wait", "include/async/mutex.hpp: mutex async_lock, try_lock, unlock", "include/async/mutex.hpp: shared_mutex async_lock, async_lock_shared, try_lock, try_lock_shared, unlock, unlock_shared", "include/async/oneshot-event.hpp: oneshot_primitive raise, wait"]}
{"id": "C99", "title": "promise: how long the promise and its value have to live", "statement": "As documented, the stored value is destroyed only when the promise and all its futures have gone out of scope, and get_future() can be called again to obtain more futures of the same value. A promise may be destroyed once its value has been received through a future, and a future once its get operations have completed, also by code that set_value() runs; nothing that was destroyed is accessed, and the value is destroyed exactly once, when the last of them is gone.", "quantifier": "all sequences of operations on any number of promises and futures; any number of threads, futures and get operations on one promise in all interleavings, including destruction while set_value() is running", "why_tests_cant": "the destruction has to fall between the wakeup and the end of set_value(); a double decrement or an access to a destroyed promise shows only under a sanitizer and with that schedule", "anchors": ["include/async/promise.hpp: set_value, disown_state, ~promise_base, get_future", "docs/src/headers/promise/promise.md", "docs/src/headers/promise/future.md"]}
{"id": "C100", "title": "flags and counters in words of fixed width", "statement": "A cancellation_resolver keeps three flags in one word. suspend_indefinitely() keeps two flags and the number of outstanding transitions in one word; a shared_mutex counts the shared owners and a post_ack_mechanism the agents and outstanding acknowledgements in an unsigned int; a wait_group counts its work and a promise its handles in a size_t; sequenced_event and barrier number their phases and a post_ack_mechanism its posts with 64 bits. Nothing is carried from a counter into a flag and no counter wraps around: all operations behave as with separate flags and unbounded counters, however many tokens, shared owners, agents, units of work, handles, phases and posts there are.", "quantifier": "all numbers of operations, tokens, shared owners, agents, units of work, handles, phases and posts, all widths of size_t (from 32 bits on for suspend_indefinitely; wait_group: 64 bits), and all interleavings", "why_tests_cant": "the failing cases need 2^30 tokens, 2^32 owners or agents, or 2^64 units, handles, phases or posts; a test has a few", "anchors": ["include/async/cancellation.hpp: cancellation_resolver (transition_, state_)", "include/async/cancellation.hpp: suspend_indefinitely_operation (transition_, st_)", "include/async/mutex.hpp: shared_mutex (state, try_lock_shared, lock_shared_operation::start, unlock, unlock_shared)", "include/async/post-ack.hpp: active_agents_, acks_left, post_seq_, poll_seq_", "include/async/wait-group.hpp: ctr_", "include/async/promise.hpp: ctr_", "include/async/sequenced-event.hpp: seq_", "include/async/barrier.hpp: seq_"]}
