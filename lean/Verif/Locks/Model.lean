import Verif.Base

/-!
# The internal locks of the library

Each of `cancellation_event`, `queue`, `recurring_event`, `wait_group`, `barrier`, the shared state of promises,
`post_ack_mechanism`, `mutex` and `shared_mutex` has one member of type `platform::mutex`. This file models every function
of the library that locks one of them, by what it does to locks, to ordinary (non-atomic) fields of these objects and to atomic variables, and
by the places at which it calls code of the user: functors, receivers, constructors of items. Functions that do not lock anything
are included if they access something that other functions access with a lock.

The data is left out: wherever the code branches on data, or repeats something, the model allows every outcome. The set of
executions of the model therefore contains those of the code. Senders of `algorithm.hpp`, coroutines and `run` do not lock anything
themselves; they are part of the code of the user here, which may call any function at any time. (`oneshot_event` and
`sequenced_event` forward to `wait_group` and `recurring_event`.)
-/

namespace Verif.Locks

/-- Objects that have a mutex. -/
abbrev Obj := Nat
/-- Threads. -/
abbrev Thr := Nat

/-- Ordinary (non-atomic) fields of such objects. Fields of list nodes are not included. -/
inductive Fld where
  /-- `_cbs`, cancellation.hpp 59-66. -/
  | cbs
  /-- `_was_requested`, cancellation.hpp 57. -/
  | requested
  /-- `buffer_`, queue.hpp 161. -/
  | buffer
  /-- `sinks_` (queue.hpp 163-170), `queue_` (recurring-event.hpp 193-200, wait-group.hpp 178-185, promise.hpp 62-69,
  post-ack.hpp 156-163), `waiters_` (mutex.hpp 172-179, 601-608): the list of nodes. -/
  | list
  /-- `expected_` and `counter_` of a barrier, barrier.hpp 64-67. -/
  | counters
  /-- `post_seq_`, post-ack.hpp 152. -/
  | postSeq
  /-- `active_agents_`, post-ack.hpp 154. -/
  | agents
  /-- `poll_queue_`, post-ack.hpp 165-172. -/
  | polls
  /-- `has_value_`, promise.hpp 107. (The value itself is covered by C54 and C55.) -/
  | hasValue
deriving DecidableEq, Repr

/-- Atomic variables. -/
inductive Atm where
  /-- `seq_` of a barrier, barrier.hpp 61. -/
  | phase (b : Obj)
  /-- `seq_` of a `sequenced_event` with this `recurring_event`, sequenced-event.hpp 33. -/
  | count (v : Obj)
  /-- `ctr_` of a wait group, wait-group.hpp 176. -/
  | ctr (w : Obj)
  /-- `st_` of `mutex` and `shared_mutex`, mutex.hpp 170, 599. -/
  | word (m : Obj)
  /-- `acks_left` of the posts of a mechanism, post-ack.hpp 36, in one. -/
  | acks (m : Obj)
  /-- The variables of all operations in one: `state_` of `cancellation_resolver` (cancellation.hpp 321), `st_` of
  `suspend_indefinitely` (448), `cancel_state_` of `with_cancel_cb` (552). -/
  | ops
deriving DecidableEq, Repr

/-- What a thread still has to do. -/
inductive Instr where
  /-- Lock the mutex of an object. -/
  | lock (o : Obj)
  /-- Unlock it. -/
  | unlock (o : Obj)
  /-- Access an ordinary field. -/
  | acc (o : Obj) (f : Fld) (write : Bool)
  /-- Access an atomic variable (a read, or anything else). -/
  | atom (a : Atm) (write : Bool)
  /-- Code of the user: functors, receivers and what they resume, and the code of the thread itself. -/
  | user
  /-- Code of the user that is called while the mutex of the object is locked. -/
  | under (o : Obj)
  /-- One of two continuations, depending on data. -/
  | alt (xs ys : List Instr)
  /-- Repeat any number of times. -/
  | loop (xs : List Instr)
  /-- `cb->call()`, cancellation.hpp 345, of a callback that was registered with an event. -/
  | callback
  /-- `complete()` of an operation that uses `cancellation_resolver` with some token. -/
  | complete

/-- What may be registered with a cancellation event. -/
inductive Cb where
  /-- `cancellation_callback` or `cancellation_observer` with a functor of the user. -/
  | functor
  /-- The resolver of an operation that waits on `o`, with the token of event `e`. Whether it is a `poll` operation of
  `post_ack`, whose nodes are in another list. -/
  | resolver (o : Obj) (poll : Bool) (e : Obj)
  /-- An observer of `suspend_indefinitely` for some events. -/
  | suspend (es : List Obj)
  /-- The observer of `with_cancel_cb`. -/
  | withCancel

/-- `transition_`, cancellation.hpp 284-311, with `event_ == e`. The alternatives after the access to `state_`: return in line 294; line 296 (the mutex is unlocked at the end of the block, before line 310, or by the return
in line 304); else `resume_`, which calls `set_value`. -/
def transition : Option Obj → List Instr
  | none => [.atom .ops true, .alt [] [.user]]
  | some e =>
    [.atom .ops true, .alt [] [.alt
      [.lock e, .acc e .requested false, .alt [.unlock e] [.acc e .cbs true, .unlock e, .user]]
      [.user]]]

/-- The cancellation functions of the data structures: queue.hpp 33-42, recurring-event.hpp 74-84, wait-group.hpp 76-87,
post-ack.hpp 57-67 (`f` is the list that the node is in). The condition is a field of the node,
for promises (promise.hpp 71-81) `has_value_`, for wait groups `ctr_`. -/
def tryCancel (o : Obj) (f : Fld) : List Instr :=
  [.lock o, .alt [.acc o .hasValue false] [.alt [.atom (.ctr o) false] []], .alt [.acc o f true] [], .unlock o]

/-- `listen`, cancellation.hpp 241-269. -/
def listen (o : Obj) (f : Fld) : Option Obj → List Instr
  | none => transition none
  | some e =>
    [.lock e, .acc e .requested false, .alt
      ([.acc e .cbs true, .unlock e] ++ transition (some e))
      ([.unlock e] ++ tryCancel o f ++ transition (some e))]

/-- `try_set`, cancellation.hpp 160-172, and `force_set`, 178-181, with the functor as given. -/
def forceSet (e : Obj) (functor : List Instr) : List Instr :=
  [.lock e, .acc e .requested false, .alt [.acc e .cbs true, .unlock e] ([.unlock e] ++ functor)]

/-- `try_reset`, cancellation.hpp 183-194, `unbind`, 126-134, and the destructor, 113-121: the continuations for success and
failure. -/
def tryReset (e : Obj) (success failure : List Instr) : List Instr :=
  [.lock e, .acc e .requested false, .alt ([.acc e .cbs true, .unlock e] ++ success) ([.unlock e] ++ failure)]

/-- The loop in cancellation.hpp 420-423. -/
def resetAll : List Obj → List Instr
  | [] => []
  | e :: es => tryReset e [] [] ++ resetAll es

/-- `transition_` of `suspend_indefinitely`, cancellation.hpp 403-435. -/
def suspendTransition (es : List Obj) : List Instr :=
  [.atom .ops true, .alt [] (resetAll es), .atom .ops true, .alt [.user] []]

/-- The loop in cancellation.hpp 396-397. -/
def setAll (all : List Obj) : List Obj → List Instr
  | [] => []
  | e :: es => forceSet e (suspendTransition all) ++ setAll all es

/-- `cancel_handler`, cancellation.hpp 523-528. -/
def cancelHandler : List Instr := [.user, .atom .ops true, .alt [.user] []]

/-- `call()`: cancellation.hpp 137-139, 201-203 (functors), 276-282 (resolvers). -/
def Cb.body : Cb → List Instr
  | .functor => [.user]
  | .resolver o poll e => tryCancel o (if poll then .polls else .list) ++ transition (some e)
  | .suspend es => suspendTransition es
  | .withCancel => cancelHandler

/-- `raise` of `recurring_event`, recurring-event.hpp 46-72; the loop in the section writes fields of nodes. -/
def recurringRaise (v : Obj) : List Instr :=
  [.lock v, .acc v .list true, .unlock v, .loop [.complete]]

/-- One iteration of the loop in `detach`, post-ack.hpp 280-298. -/
def detachStep (m : Obj) : List Instr :=
  [.acc m .list false, .atom (.acks m) true, .alt [.acc m .list true, .unlock m, .user] [.unlock m]]

/-- `start` of `wait_if_operation`, recurring-event.hpp 95-116, with what the condition does in line 102, in the section. -/
def waitIf (v : Obj) (cond : List Instr) (ct : Option Obj) : List Instr :=
  .lock v :: (cond ++ [.alt [.unlock v, .user] ([.acc v .list true, .unlock v] ++ listen v .list ct)])

/-- The functions of the library that use a mutex, or an atomic variable that is also used with a mutex. -/
inductive Fn where
  | isRequested (e : Obj)
  | callbackCtor (e : Obj)
  | callbackDtor (e : Obj)
  | callbackUnbind (e : Obj)
  | observerTrySet (e : Obj)
  | observerForceSet (e : Obj)
  | observerTryReset (e : Obj)
  | cancel (e : Obj)
  | reset (e : Obj)
  | suspendStart (es : List Obj)
  | withCancelStart (e : Obj)
  | withCancelValue (e : Obj)
  | emplace (q : Obj)
  | getStart (q : Obj) (ct : Option Obj)
  | maybeGet (q : Obj)
  | empty (q : Obj)
  | raise (v : Obj)
  | waitIfStart (v : Obj) (ct : Option Obj)
  | waitStart (v : Obj) (ct : Option Obj)
  | sequencedRaise (v : Obj)
  | nextSequence (v : Obj)
  | sequencedWaitStart (v : Obj) (ct : Option Obj)
  | barrierWaitStart (b v : Obj) (ct : Option Obj)
  | done (w : Obj)
  | add (w : Obj)
  | groupWaitStart (w : Obj) (ct : Option Obj)
  | arrive (b v : Obj)
  | setValue (p : Obj)
  | futureGetStart (p : Obj) (ct : Option Obj)
  | postStart (m : Obj)
  | ack (m : Obj)
  | attach (m : Obj)
  | detach (m : Obj)
  | pollStart (m : Obj) (ct : Option Obj)
  | tryLock (m : Obj)
  | tryLockShared (m : Obj)
  | lockStart (m : Obj)
  | unlock (m : Obj)
  | lockSharedStart (m : Obj)
  | unlockShared (m : Obj)

/-- What they do. -/
def body : Fn → List Instr
  /- cancellation.hpp 85-90. -/
  | .isRequested e => [.lock e, .acc e .requested false, .unlock e]
  /- cancellation.hpp 98-108: the functor is called in line 104, before `guard` is destroyed. -/
  | .callbackCtor e =>
    [.lock e, .acc e .requested false, .alt [.under e] [.acc e .cbs true], .unlock e]
  /- cancellation.hpp 113-121. -/
  | .callbackDtor e => tryReset e [] []
  /- cancellation.hpp 126-134. -/
  | .callbackUnbind e => tryReset e [] []
  /- cancellation.hpp 160-172. -/
  | .observerTrySet e => forceSet e []
  /- cancellation.hpp 178-181. -/
  | .observerForceSet e => forceSet e [.user]
  /- cancellation.hpp 183-194. -/
  | .observerTryReset e => tryReset e [] []
  /- cancellation.hpp 326-347. -/
  | .cancel e => [.lock e, .acc e .requested true, .acc e .cbs true, .unlock e, .loop [.callback]]
  /- cancellation.hpp 349-352. -/
  | .reset e => [.lock e, .acc e .requested true, .unlock e]
  /- cancellation.hpp 395-400. -/
  | .suspendStart es => setAll es es ++ suspendTransition es
  /- cancellation.hpp 497-500; starting the sender is code of the user. -/
  | .withCancelStart e => forceSet e cancelHandler ++ [.user]
  /- cancellation.hpp 505-512. -/
  | .withCancelValue e => tryReset e [.user] [.atom .ops true, .alt [.user] []]
  /- queue.hpp 50-68. The item is constructed in line 58 or 61, in the section. -/
  | .emplace q =>
    [.lock q, .acc q .list false,
      .alt [.acc q .buffer false, .acc q .list true, .under q, .unlock q, .complete]
        [.acc q .buffer true, .under q, .acc q .buffer true, .unlock q]]
  /- queue.hpp 78-96. The item is moved and destroyed in lines 85 and 86, in the section. -/
  | .getStart q ct =>
    [.lock q, .acc q .buffer false,
      .alt [.acc q .list false, .acc q .buffer true, .under q, .acc q .buffer true, .unlock q, .user]
        ([.acc q .list true, .unlock q] ++ listen q .list ct)]
  /- queue.hpp 148-156. -/
  | .maybeGet q =>
    [.lock q, .acc q .buffer false,
      .alt [.unlock q] [.acc q .buffer true, .under q, .acc q .buffer true, .unlock q]]
  /- queue.hpp 144-146. -/
  | .empty q => [.acc q .buffer false]
  | .raise v => recurringRaise v
  /- recurring-event.hpp 164-175, with a condition of the user. -/
  | .waitIfStart v ct => waitIf v [.under v] ct
  /- recurring-event.hpp 180-188: the condition is constant. -/
  | .waitStart v ct => waitIf v [] ct
  /- sequenced-event.hpp 12-15. -/
  | .sequencedRaise v => .atom (.count v) true :: recurringRaise v
  /- sequenced-event.hpp 17-19. -/
  | .nextSequence v => [.atom (.count v) false]
  /- sequenced-event.hpp 21-29; the result is read before the receiver is called, in the functor given to `transform`: this is code of the
  user here. -/
  | .sequencedWaitStart v ct => waitIf v [.atom (.count v) false] ct
  /- barrier.hpp 25-29. -/
  | .barrierWaitStart b v ct => waitIf v [.atom (.phase b) false] ct
  /- wait-group.hpp 41-74. -/
  | .done w =>
    [.atom (.ctr w) false, .loop [.atom (.ctr w) true],
      .alt [] [.lock w, .atom (.ctr w) true, .alt [.unlock w] [.acc w .list true, .unlock w, .loop [.complete]]]]
  /- wait-group.hpp 89-91. -/
  | .add w => [.atom (.ctr w) true]
  /- wait-group.hpp 102-118. -/
  | .groupWaitStart w ct =>
    [.lock w, .atom (.ctr w) false, .alt [.unlock w, .user] ([.acc w .list true, .unlock w] ++ listen w .list ct)]
  /- barrier.hpp 32-56, with the `recurring_event` of the barrier. -/
  | .arrive b v =>
    [.lock b, .atom (.phase b) false, .acc b .counters false, .acc b .counters true,
      .alt [.atom (.phase b) true, .acc b .counters true] [], .unlock b, .alt (recurringRaise v) []]
  /- promise.hpp 368-376, 388-396, and `wake`, 83-109. The value is constructed in line 371, in the section; the assertion
  in line 84 reads `has_value_` outside of a section. -/
  | .setValue p =>
    [.lock p, .under p, .acc p .hasValue true, .unlock p,
      .acc p .hasValue false, .lock p, .acc p .list true, .unlock p, .loop [.complete]]
  /- promise.hpp 253-272. -/
  | .futureGetStart p ct =>
    [.lock p, .acc p .hasValue false,
      .alt ([.acc p .list true, .unlock p] ++ listen p .list ct) [.unlock p, .user]]
  /- post-ack.hpp 77-118. -/
  | .postStart m =>
    [.lock m, .acc m .postSeq true, .acc m .agents false,
      .alt [.acc m .polls false, .unlock m, .user]
        [.atom (.acks m) true, .acc m .list true, .loop [.acc m .polls true], .unlock m, .loop [.complete]]]
  /- post-ack.hpp 209-224. -/
  | .ack m => [.atom (.acks m) true, .alt [.lock m, .acc m .list true, .unlock m, .user] []]
  /- post-ack.hpp 259-269. -/
  | .attach m => [.lock m, .acc m .postSeq false, .acc m .agents true, .unlock m]
  /- post-ack.hpp 271-309: nothing to retire; or iterations with the lock taken again (line 303) in between. -/
  | .detach m =>
    [.lock m, .acc m .agents true, .acc m .postSeq false,
      .alt [.unlock m] (detachStep m ++ [.loop (.lock m :: detachStep m)])]
  /- post-ack.hpp 320-351. -/
  | .pollStart m ct =>
    [.lock m, .acc m .postSeq false,
      .alt [.acc m .list false, .unlock m, .user] ([.acc m .polls true, .unlock m] ++ listen m .polls ct)]
  /- mutex.hpp 112-120 and 405-413. -/
  | .tryLock m => [.atom (.word m) true]
  /- mutex.hpp 415-440. -/
  | .tryLockShared m => [.atom (.word m) false, .loop [.atom (.word m) true]]
  /- mutex.hpp 38-79 and 233-270. -/
  | .lockStart m =>
    [.atom (.word m) true, .alt [.user]
      [.lock m, .atom (.word m) false, .loop [.atom (.word m) true],
        .alt [.unlock m, .user] [.acc m .list true, .unlock m]]]
  /- mutex.hpp 122-155 and 442-509. -/
  | .unlock m =>
    [.atom (.word m) false, .alt [.atom (.word m) true] [],
      .alt [] [.lock m, .acc m .list false, .loop [.acc m .list true], .alt [.atom (.word m) true] [], .unlock m,
        .user, .loop [.user]]]
  /- mutex.hpp 319-372. -/
  | .lockSharedStart m =>
    [.atom (.word m) false, .loop [.atom (.word m) true], .alt [.user]
      [.lock m, .atom (.word m) false, .loop [.atom (.word m) true],
        .alt [.unlock m, .user] [.acc m .list true, .unlock m]]]
  /- mutex.hpp 511-589. -/
  | .unlockShared m =>
    [.atom (.word m) false, .loop [.atom (.word m) true],
      .alt [] [.lock m, .acc m .list false, .acc m .list true, .atom (.word m) true, .unlock m, .user]]

/-- State. -/
structure St where
  /-- The thread that has locked the mutex of an object. -/
  holder : Obj → Option Thr
  /-- The mutexes that a thread has locked, the latest first. -/
  held : Thr → List Obj
  /-- What the threads have to do, next first. -/
  stack : Thr → List Instr
  /-- The promises on which `set_value` was called, and by which thread. -/
  setter : Obj → Option Thr

/-- Every thread runs code of the user. -/
def St.init : St :=
  { holder := fun _ => none, held := fun _ => [], stack := fun _ => [.user], setter := fun _ => none }

/-- What a thread decides at a point where the model leaves it open. -/
inductive Choice where
  /-- Nothing to decide. -/
  | go
  /-- A branch, or whether a loop goes on. -/
  | pick (b : Bool)
  /-- Code of the user calls a function. -/
  | call (f : Fn)
  /-- Code of the user returns. -/
  | ret
  /-- Which kind of callback is called. -/
  | cb (c : Cb)
  /-- The token of the operation that is completed. -/
  | token (ct : Option Obj)

/-- Result of a step. -/
inductive Res where
  | ok (s : St)
  /-- The thread waits for a mutex. -/
  | waits
  /-- The choice does not apply. -/
  | no
  /-- A mutex is unlocked by a thread that has not locked it. -/
  | fault

/-- Replace what a thread has to do. -/
def St.goto (s : St) (t : Thr) (xs : List Instr) : St := { s with stack := upd s.stack t xs }

/-- Contract for calling a function: `set_value` of a promise at most once. -/
def St.admits (s : St) : Fn → Bool
  | .setValue p => (s.setter p).isNone
  | _ => true

/-- Record a call of `set_value`. -/
def St.mark (s : St) (t : Thr) : Fn → St
  | .setValue p => { s with setter := upd s.setter p (some t) }
  | _ => s

/-- Code of the user, in front of `r`; `x` is the instruction itself. -/
def St.runUser (s : St) (t : Thr) (x : Instr) (r : List Instr) : Choice → Res
  | .ret => .ok (s.goto t r)
  | .call f => if s.admits f then .ok ((s.mark t f).goto t (body f ++ x :: r)) else .no
  | _ => .no

/-- Thread `t` takes a step. -/
def step (s : St) (t : Thr) (c : Choice) : Res :=
  match s.stack t with
  | [] => .no
  | .lock o :: r =>
    match s.holder o with
    | none => .ok ({ s with holder := upd s.holder o (some t), held := upd s.held t (o :: s.held t) }.goto t r)
    | some _ => .waits
  | .unlock o :: r =>
    if s.holder o = some t then
      .ok ({ s with holder := upd s.holder o none, held := upd s.held t ((s.held t).erase o) }.goto t r)
    else .fault
  | .acc _ _ _ :: r => .ok (s.goto t r)
  | .atom _ _ :: r => .ok (s.goto t r)
  | .user :: r => s.runUser t .user r c
  | .under o :: r => s.runUser t (.under o) r c
  | .alt xs ys :: r =>
    match c with
    | .pick b => .ok (s.goto t ((if b then xs else ys) ++ r))
    | _ => .no
  | .loop xs :: r =>
    match c with
    | .pick b => .ok (s.goto t (if b then xs ++ .loop xs :: r else r))
    | _ => .no
  | .callback :: r =>
    match c with
    | .cb k => .ok (s.goto t (k.body ++ r))
    | _ => .no
  | .complete :: r =>
    match c with
    | .token ct => .ok (s.goto t (transition ct ++ r))
    | _ => .no

/-- Whether `A` allows a step. `A x f` says whether code of the user that runs as instruction `x` may call `f`. -/
def permits (A : Instr → Fn → Bool) (s : St) (t : Thr) (c : Choice) : Bool :=
  match s.stack t, c with
  | x :: _, .call f => A x f
  | _, _ => true

/-- States that can be reached if the code of the user makes only calls that are allowed by `A`. -/
inductive Reach (A : Instr → Fn → Bool) : St → Prop where
  | init : Reach A .init
  | step {s s' : St} {t : Thr} {c : Choice} : Reach A s → permits A s t c = true → step s t c = .ok s' → Reach A s'

/-- A finite execution. -/
def runs (s : St) : List (Thr × Choice) → Option St
  | [] => some s
  | (t, c) :: l => match step s t c with
    | .ok s' => runs s' l
    | _ => none

/-- All steps of an execution are allowed. -/
def obeys (A : Instr → Fn → Bool) (s : St) : List (Thr × Choice) → Bool
  | [] => true
  | (t, c) :: l => permits A s t c && match step s t c with
    | .ok s' => obeys A s' l
    | _ => true

/-- Anything is allowed. -/
def Any (_ : Instr) (_ : Fn) : Bool := true

/-- Code of the user that the library calls while it holds a lock makes no calls of the library: the functor of a
`cancellation_callback` whose event is already cancelled (in its constructor), the condition given to `async_wait_if`, and
constructors, assignments and destructors of the items of a queue and of the value of a promise. -/
def Quiet : Instr → Fn → Bool
  | .under _, _ => false
  | _, _ => true

/-- `queue::empty` is not called. -/
def NoEmpty : Instr → Fn → Bool
  | _, .empty _ => false
  | _, _ => true

end Verif.Locks
