import Verif.Resolver.Facts

/-!
# `post_ack_mechanism`, `post_ack_agent`, `post_ack_handle` (post-ack.hpp)

One mechanism, any number of agents, posts and polls. A post is identified by its `node_seq`; the
memory of its node is not modelled separately. `poll` operations use `cancellation_resolver`.
-/

namespace Verif.PostAck

open Resolver

abbrev Agent := Nat

/-- What an agent is doing. Used for the contract of the user only. -/
inductive AgSt where
  | off
  | attaching
  | on
  /-- A poll is running. -/
  | polling (i : OpId)
  | detaching
deriving DecidableEq

/-- State. -/
structure D where
  /-- `post_seq_`, line 152. -/
  posts : Nat
  /-- `active_agents_`, line 154. -/
  active : Nat
  /-- `queue_`, lines 156-163. -/
  queue : List Nat
  /-- `poll_queue_`, lines 165-172. -/
  polls : List OpId
  /-- `acks_left` of each post, line 36. (Initially zero here, indeterminate in the code.) -/
  acks : Nat → Nat
  /-- `nd` of each poll node, line 50. -/
  nd : OpId → Option Nat
  /-- `pending` of each poll node, line 49. -/
  pend : OpId → Bool
  /-- `mech_` of each agent is set, line 401. -/
  mech : Agent → Bool
  /-- `poll_seq_` of each agent, line 402. -/
  pollSeq : Agent → Nat
  /-- `agnt_` of each poll operation, line 373. -/
  agOf : OpId → Agent
  /-- For the contract: state of the agents. -/
  st : Agent → AgSt
  /-- For the contract: handles that were given out and not acknowledged. -/
  handles : List (Agent × Nat)

variable (T : Type)

/-- Events. -/
inductive E where
  /-- A post takes effect and gets this number. -/
  | posted (n : Nat) (x : T)
  /-- The receiver of a post is completed. -/
  | pdone (n : Nat)
  /-- `attach` takes effect. -/
  | attached (a : Agent)
  /-- `detach` takes effect: later posts do not count this agent. -/
  | detaching (a : Agent)
  /-- `detach` is finished. -/
  | detached (a : Agent)
  /-- The agent acknowledges a post. -/
  | acked (a : Agent) (n : Nat)
  /-- `detach` acknowledges a post that the agent has not polled. -/
  | released (a : Agent) (n : Nat)
  /-- A poll suspends. -/
  | enq (i : OpId)
  /-- A poll finds a post. -/
  | skip (i : OpId)
  /-- A poll is withdrawn by cancellation. -/
  | unq (i : OpId)

/-- Instructions. -/
inductive I where
  /-- `post_operation::start`, lines 78-107. -/
  | post (x : T)
  /-- `set_value` on the receiver of a post, lines 117 and 122. -/
  | pdone (n : Nat)
  /-- `attach`, lines 260-268. -/
  | attach (a : Agent)
  /-- `detach`, lines 272-298, up to the first unlock. -/
  | detach (a : Agent)
  /-- `detach`, lines 300-303 and the next iteration of the loop; `r` is `retire_seq`. -/
  | det (a : Agent) (r : Nat)
  /-- `post_ack_handle::ack`, lines 209-214. -/
  | ack (a : Agent) (n : Nat)
  /-- `ack`, lines 215-222. -/
  | erase (n : Nat)

variable {T}

/-- `poll_operation::start`, lines 320-351. The increment of `poll_seq_` in line 347 is part of
`fin`; nobody else reads it before. -/
def start (d : D) (i : OpId) : Option (D × Option (Agent × Option Nat) × List (E T)) :=
  let a := d.agOf i
  if !d.mech a then none  -- assert, line 321
  else if (d.nd i).isSome then none  -- assert, line 328
  else if d.pollSeq a < d.posts then
    if d.pollSeq a ∈ d.queue then
      some ({ d with pend := upd d.pend i true, nd := upd d.nd i (some (d.pollSeq a)) },
        some (a, some (d.pollSeq a)), [.skip i])
    else none  -- assert, line 336
  else some ({ d with polls := d.polls ++ [i] }, none, [.enq i])

/-- `try_cancel`, lines 57-67. -/
def tryCancel (d : D) (i : OpId) : Option (D × Bool × List (E T)) :=
  if d.pend i then some (d, false, [])
  else if (d.nd i).isSome then none  -- assert, line 61
  else if i ∈ d.polls then
    some ({ d with pend := upd d.pend i true, polls := d.polls.erase i }, true, [.unq i])
  else none  -- erase of an element that is not in the list

/-- One iteration of the loop in `detach`, lines 280-298: acknowledge post `pollSeq a`. -/
def release (d : D) (a : Agent) (r : Nat) : Option (D × List (OpId ⊕ I T) × List (E T)) :=
  let n := d.pollSeq a
  if n ∈ d.queue then
    if d.acks n = 0 then none  -- assert, line 289
    else if d.acks n = 1 then
      some ({ d with acks := upd d.acks n 0, queue := d.queue.erase n },
        [.inr (.pdone n), .inr (.det a r)], [.released a n])
    else some ({ d with acks := upd d.acks n (d.acks n - 1) }, [.inr (.det a r)], [.released a n])
  else none  -- assert, line 285

/-- The agent is free again, `mech_ = nullptr`, line 307. -/
def off (d : D) (a : Agent) : D :=
  { d with mech := upd d.mech a false, st := upd d.st a .off }

/-- Fields of the poll nodes taken by a post, lines 99-106. `none` if an assertion fails. -/
def take (d : D) (n : Nat) : List OpId → Option D
  | [] => some d
  | i :: l =>
    if d.pend i || (d.nd i).isSome then none  -- asserts, lines 101-102
    else take { d with pend := upd d.pend i true, nd := upd d.nd i (some n) } n l

/-- Member functions. -/
def exec (d : D) : I T → Option (D × List (OpId ⊕ I T) × List (E T))
  | .post x =>
    let n := d.posts
    if d.active = 0 then
      if d.polls = [] then
        some ({ d with posts := n + 1 }, [.inr (.pdone n)], [.posted n x])
      else none  -- assert, line 93
    else match take { d with posts := n + 1, acks := upd d.acks n d.active, queue := d.queue ++ [n],
                             polls := [] } n d.polls with
      | some d' => some (d', d.polls.map .inl, [.posted n x])
      | none => none
  | .pdone n => some (d, [], [.pdone n])
  | .attach a =>
    if d.mech a then none  -- assert, line 260
    else some ({ d with mech := upd d.mech a true, pollSeq := upd d.pollSeq a d.posts,
                        active := d.active + 1, st := upd d.st a .on }, [], [.attached a])
  | .detach a =>
    if !d.mech a then none  -- assert, line 272
    else
      let d := { d with active := d.active - 1 }
      if d.pollSeq a < d.posts then
        match release d a d.posts with
        | some (d', ps, es) => some (d', ps, .detaching a :: es)
        | none => none
      else some (off d a, [], [.detaching a, .detached a])
  | .det a r =>
    let d := { d with pollSeq := upd d.pollSeq a (d.pollSeq a + 1) }
    if r = d.pollSeq a then some (off d a, [], [.detached a])
    else release d a r
  | .ack a n =>
    if d.acks n = 0 then none  -- assert, line 214
    else some ({ d with acks := upd d.acks n (d.acks n - 1) },
      if d.acks n = 1 then [.inr (.erase n)] else [], [.acked a n])
  | .erase n =>
    if n ∈ d.queue then some ({ d with queue := d.queue.erase n }, [.inr (.pdone n)], [])
    else none

/-- Contract of the poll: the agent is attached and has no running poll. -/
def admit (d : D) (i : OpId) (a : Agent) : Option D :=
  if d.st a = .on then some { d with agOf := upd d.agOf i a, st := upd d.st a (.polling i) }
  else none

/-- Contract of the member functions: an agent is attached when it is not attached, detached when
it is attached and no poll is running, and a handle is acknowledged once. -/
def call (d : D) : I T → Option D
  | .post _ => some d
  | .attach a => if d.st a = .off then some { d with st := upd d.st a .attaching } else none
  | .detach a => if d.st a = .on then some { d with st := upd d.st a .detaching } else none
  | .ack a n =>
    if (a, n) ∈ d.handles then some { d with handles := d.handles.erase (a, n) } else none
  | _ => none

/-- Completion of a poll: lines 347 and 363-364. The user gets a handle. -/
def fin (d : D) (i : OpId) : D :=
  let a := d.agOf i
  match d.nd i with
  | some n => { d with pollSeq := upd d.pollSeq a (d.pollSeq a + 1), st := upd d.st a .on,
                       handles := (a, n) :: d.handles }
  | none => { d with st := upd d.st a .on }

/-- The mechanism as data structure of the resolver machine. A poll delivers the number of a post
(in the code a handle for it), or `none` (an empty handle) if it is cancelled. The agent is part of
the value so that the history shows it. -/
abbrev ds (T : Type) : DS where
  D := D
  I := I T
  V := Agent × Option Nat
  E := E T
  P := Agent
  admit := admit
  start d i _ := start d i
  tryCancel := tryCancel
  val d i := (d.agOf i, d.nd i)
  fin := fin
  call := call
  exec d x _ := exec d x

/-- Initial state. -/
def init : D :=
  ⟨0, 0, [], [], fun _ => 0, fun _ => none, fun _ => false, fun _ => false, fun _ => 0, fun _ => 0,
    fun _ => .off, []⟩

abbrev Event (T : Type) := Ev (ds T)

/-! ## Specification -/

/-- What the user expects: number of posts, attached agents, the next post of each agent, and for
each post the agents that have not acknowledged it. -/
structure Spec where
  posts : Nat := 0
  att : List Agent := []
  cur : Agent → Nat := fun _ => 0
  owe : Nat → List Agent := fun _ => []

/-- Effect of an event. -/
def Spec.step (s : Spec) : Event T → Spec
  | .ds (.posted n _) => { s with posts := s.posts + 1, owe := upd s.owe n s.att }
  | .ds (.attached a) => { s with att := s.att ++ [a], cur := upd s.cur a s.posts }
  | .ds (.detaching a) => { s with att := s.att.erase a }
  | .ds (.acked a n) => { s with owe := upd s.owe n ((s.owe n).erase a) }
  | .ds (.released a n) => { s with owe := upd s.owe n ((s.owe n).erase a) }
  | .done _ (a, some _) => { s with cur := upd s.cur a (s.cur a + 1) }
  | _ => s

/-- The specification state after a history. -/
def spec (log : List (Event T)) : Spec := log.foldl Spec.step {}

@[simp] theorem spec_append (log : List (Event T)) (v : Event T) :
    spec (log ++ [v]) = (spec log).step v := by
  simp [spec, List.foldl_append]

end Verif.PostAck
