import Verif.Effect.Counts

/-!
# C95: every call takes effect exactly once

`ls` is a schedule: the calls that the program makes on whatever threads, and the steps of the running calls, in any order.
`calls f ls` is the number of calls of the kind `f` in it. The effects are counted in the history. `Matches c n k`: the number
`n` of effects never exceeds the number `k` of calls, and they agree when no call is running.
-/

namespace Verif

open Resolver

variable {T : Type}

/-- C95. Every `cancel()` takes effect once on the event it was called on, whatever waits with tokens of the event. -/
theorem C95_cancel {S : DS} {d0 : S.D} {ls : List (Lbl (mach S))} {c : Conf (mach S)}
    (h : (mach S).runs ((mach S).init (RSt.init d0)) ls = some c) (e : EvId) :
    Matches c (c.sh.log.countP (Ev.cancels e)) (calls (Act.cancels e) ls) := runs_cancels e h

theorem matches_of {S : DS} {f : S.I → Bool} {g : S.E → Bool} {w : S.I → Nat} (H : Counts S f g (fun _ => false) w)
    {d0 : S.D} {ls : List (Lbl (mach S))} {c : Conf (mach S)}
    (h : (mach S).runs ((mach S).init (RSt.init d0)) ls = some c) :
    Matches c (c.sh.log.countP (Ev.effect g)) (calls (Act.member f) ls) := by
  have := runs_counts H h
  have e : c.sh.log.countP (Ev.effect (S := S) fun _ => false) = 0 := by
    rw [List.countP_eq_zero]
    intro v _; cases v <;> simp [Ev.effect]
  rw [e, Nat.zero_add] at this
  exact this

/-- C95. Every `put` takes effect once, with its item. -/
theorem C95_put {ls : List (Lbl (mach (Queue.ds T)))} {c : Conf (mach (Queue.ds T))}
    (h : (mach (Queue.ds T)).runs ((mach (Queue.ds T)).init (RSt.init Queue.init)) ls = some c) (q : T → Bool) :
    Matches c (c.sh.log.countP (Ev.effect (Queue.hasPut q))) (calls (Act.member (Queue.callsPut q)) ls) :=
  matches_of (Queue.put_counts q) h

/-- C95. Every action of the program around a `recurring_event` takes effect once; in particular every `raise()` of
`sequenced_event` and every `arrive`, `arrive_and_join` and `arrive_and_drop` of `barrier`. -/
theorem C95_act {X : Recurring.User} {u : X.U} {ls : List (Lbl (mach (Recurring.ds X)))} {c : Conf (mach (Recurring.ds X))}
    (h : (mach (Recurring.ds X)).runs ((mach (Recurring.ds X)).init (RSt.init (Recurring.init u))) ls = some c)
    (q : X.A → Bool) :
    Matches c (c.sh.log.countP (Ev.effect (Recurring.hasAct q))) (calls (Act.member (Recurring.callsAct q)) ls) :=
  matches_of (Recurring.act_counts q) h

/-- C95. Every `raise()` of a `recurring_event` takes effect once, whether it is called by the program or by a function of
`sequenced_event` or `barrier`. -/
theorem C95_raise {X : Recurring.User} {u : X.U} {ls : List (Lbl (mach (Recurring.ds X)))}
    {c : Conf (mach (Recurring.ds X))}
    (h : (mach (Recurring.ds X)).runs ((mach (Recurring.ds X)).init (RSt.init (Recurring.init u))) ls = some c) :
    Matches c (c.sh.log.countP (Ev.effect Recurring.hasRaise))
      (c.sh.log.countP (Ev.effect Recurring.thenRaise) + calls (Act.member Recurring.callsRaise) ls) :=
  runs_counts Recurring.raise_counts h

/-- C95. Every `add(n)` takes effect once, with its number. -/
theorem C95_add {cf : WaitGroup.Cfg} {n : Nat} {ls : List (Lbl (mach (WaitGroup.ds T cf)))}
    {c : Conf (mach (WaitGroup.ds T cf))}
    (h : (mach (WaitGroup.ds T cf)).runs ((mach (WaitGroup.ds T cf)).init (RSt.init (WaitGroup.init n))) ls = some c)
    (q : Nat → Bool) :
    Matches c (c.sh.log.countP (Ev.effect (WaitGroup.hasAdd q))) (calls (Act.member (WaitGroup.callsAdd q)) ls) :=
  matches_of (WaitGroup.add_counts q) h

/-- C95. Every `done()` takes effect once. -/
theorem C95_done {cf : WaitGroup.Cfg} {n : Nat} {ls : List (Lbl (mach (WaitGroup.ds T cf)))}
    {c : Conf (mach (WaitGroup.ds T cf))}
    (h : (mach (WaitGroup.ds T cf)).runs ((mach (WaitGroup.ds T cf)).init (RSt.init (WaitGroup.init n))) ls = some c) :
    Matches c (c.sh.log.countP (Ev.effect WaitGroup.hasDone)) (calls (Act.member WaitGroup.callsDone) ls) :=
  matches_of WaitGroup.done_counts h

/-- C95. Every started `wait_in_group` operation starts its sender, once. -/
theorem C95_group_start {cf : WaitGroup.Cfg} {n : Nat} {ls : List (Lbl (mach (WaitGroup.ds T cf)))}
    {c : Conf (mach (WaitGroup.ds T cf))}
    (h : (mach (WaitGroup.ds T cf)).runs ((mach (WaitGroup.ds T cf)).init (RSt.init (WaitGroup.init n))) ls = some c)
    (j : Nat) :
    Matches c (c.sh.log.countP (Ev.effect (WaitGroup.hasStart j))) (calls (Act.member (WaitGroup.callsGroup j)) ls) :=
  matches_of (WaitGroup.group_counts j) h

/-- C95. When the sender of a `wait_in_group` operation completes, the operation completes, once and with the same value. -/
theorem C95_group_done {cf : WaitGroup.Cfg} {n : Nat} {ls : List (Lbl (mach (WaitGroup.ds T cf)))}
    {c : Conf (mach (WaitGroup.ds T cf))}
    (h : (mach (WaitGroup.ds T cf)).runs ((mach (WaitGroup.ds T cf)).init (RSt.init (WaitGroup.init n))) ls = some c)
    (j : Nat) (q : T → Bool) :
    Matches c (c.sh.log.countP (Ev.effect (WaitGroup.hasOuter j q))) (calls (Act.member (WaitGroup.callsInner j q)) ls) :=
  matches_of (WaitGroup.inner_counts j q) h

/-- C95. Every post takes effect once, with its value. -/
theorem C95_post {ls : List (Lbl (mach (PostAck.ds T)))} {c : Conf (mach (PostAck.ds T))}
    (h : (mach (PostAck.ds T)).runs ((mach (PostAck.ds T)).init (RSt.init PostAck.init)) ls = some c) (q : T → Bool) :
    Matches c (c.sh.log.countP (Ev.effect (PostAck.hasPost q))) (calls (Act.member (PostAck.callsPost q)) ls) :=
  matches_of (PostAck.post_counts q) h

/-- C95. Every `attach` takes effect once. -/
theorem C95_attach {ls : List (Lbl (mach (PostAck.ds T)))} {c : Conf (mach (PostAck.ds T))}
    (h : (mach (PostAck.ds T)).runs ((mach (PostAck.ds T)).init (RSt.init PostAck.init)) ls = some c) (a : PostAck.Agent) :
    Matches c (c.sh.log.countP (Ev.effect (PostAck.hasAttach a))) (calls (Act.member (PostAck.callsAttach a)) ls) :=
  matches_of (PostAck.attach_counts a) h

/-- C95. Every `detach` takes effect once, and returns. -/
theorem C95_detach {ls : List (Lbl (mach (PostAck.ds T)))} {c : Conf (mach (PostAck.ds T))}
    (h : (mach (PostAck.ds T)).runs ((mach (PostAck.ds T)).init (RSt.init PostAck.init)) ls = some c) (a : PostAck.Agent) :
    Matches c (c.sh.log.countP (Ev.effect (PostAck.hasDetaching a))) (calls (Act.member (PostAck.callsDetach a)) ls) ∧
    Matches c (c.sh.log.countP (Ev.effect (PostAck.hasDetached a))) (calls (Act.member (PostAck.callsDetach a)) ls) :=
  ⟨matches_of (PostAck.detaching_counts a) h, matches_of (PostAck.detached_counts a) h⟩

/-- C95. Every `ack()` takes effect once. -/
theorem C95_ack {ls : List (Lbl (mach (PostAck.ds T)))} {c : Conf (mach (PostAck.ds T))}
    (h : (mach (PostAck.ds T)).runs ((mach (PostAck.ds T)).init (RSt.init PostAck.init)) ls = some c) (a : PostAck.Agent)
    (n : Nat) :
    Matches c (c.sh.log.countP (Ev.effect (PostAck.hasAck a n))) (calls (Act.member (PostAck.callsAck a n)) ls) :=
  matches_of (PostAck.ack_counts a n) h

/-- C95. Every `set_value` of a promise takes effect once, with its value. -/
theorem C95_set {ls : List (Lbl (mach (Promise.ds T)))} {c : Conf (mach (Promise.ds T))}
    (h : (mach (Promise.ds T)).runs ((mach (Promise.ds T)).init (RSt.init Promise.init)) ls = some c) (q : T → Bool) :
    Matches c (c.sh.log.countP (Ev.effect (Promise.hasSet q))) (calls (Act.member (Promise.callsSet q)) ls) :=
  matches_of (Promise.set_counts q) h

/-! ## Examples -/

/-- One item goes to a waiting operation, one to `maybe_get()`, one to a later operation; two operations are cancelled. -/
def putDemo : List (Lbl (mach (Queue.ds Nat))) := sched 0 [(.newOp 1 (some 0) (), 4), (.call (.put 5), 5), (.newOp 2 (some 0) (), 4), (.call (.put 6), 5), (.call .maybeGet, 1), (.cancel 0, 1), (.call (.put 7), 1), (.newOp 3 (some 0) (), 2), (.newOp 4 (some 0) (), 6)]

example : ∃ c, (mach (Queue.ds Nat)).runs ((mach (Queue.ds Nat)).init (RSt.init (Queue.init))) putDemo = some c ∧ Quiescent c ∧
    c.sh.log.countP (Ev.effect (Queue.hasPut (· == 6))) = 1 ∧
    calls (Act.member (S := Queue.ds Nat) (Queue.callsPut (· == 6))) putDemo = 1 ∧
    c.sh.log.countP (Ev.effect (Queue.hasPut fun _ => true)) = 3 ∧
    c.sh.log.countP (Ev.cancels 0) = 1 :=
  ⟨(mach (Queue.ds Nat)).after (RSt.init (Queue.init)) putDemo, rfl, by intro a ha; revert a ha; decide, rfl, rfl, rfl, rfl⟩

/-- Two arrivals, the second one drops. -/
def barrierDemo : List (Lbl (mach (Recurring.ds Barrier.prog))) := sched 0 [(.call (.act (.arrive 1)), 1), (.newOp 1 none (0 : Nat), 3), (.call (.act (.drop 1)), 5)]

example : ∃ c, (mach (Recurring.ds Barrier.prog)).runs ((mach (Recurring.ds Barrier.prog)).init (RSt.init (Recurring.init (Barrier.start 2)))) barrierDemo = some c ∧ Quiescent c ∧
    c.sh.log.countP (Ev.effect (Recurring.hasAct (X := Barrier.prog) (· == Barrier.Call.drop 1))) = 1 ∧
    calls (Act.member (S := Recurring.ds Barrier.prog) (Recurring.callsAct (X := Barrier.prog) (· == Barrier.Call.drop 1))) barrierDemo = 1 ∧
    c.sh.log.countP (Ev.effect Recurring.hasRaise) = 1 ∧
    c.sh.log.countP (Ev.effect Recurring.thenRaise) = 1 :=
  ⟨(mach (Recurring.ds Barrier.prog)).after (RSt.init (Recurring.init (Barrier.start 2))) barrierDemo, rfl, by intro a ha; revert a ha; decide, rfl, rfl, rfl, rfl⟩

/-- A group with one unit of work, one more and a `wait_in_group` operation. -/
def groupDemo : List (Lbl (mach (WaitGroup.ds Nat ⟨true, true, true⟩))) := sched 0 [(.newOp 1 none (), 3), (.call (.add 1 none), 1), (.call (.add 1 (some 7)), 2), (.call (.cdone 7 42), 4), (.call (.ld none), 2), (.call (.ld none), 5)]

example : ∃ c, (mach (WaitGroup.ds Nat ⟨true, true, true⟩)).runs ((mach (WaitGroup.ds Nat ⟨true, true, true⟩)).init (RSt.init (WaitGroup.init 1))) groupDemo = some c ∧ Quiescent c ∧
    c.sh.log.countP (Ev.effect (WaitGroup.hasAdd (· == 1))) = 1 ∧
    c.sh.log.countP (Ev.effect WaitGroup.hasDone) = 2 ∧
    c.sh.log.countP (Ev.effect (WaitGroup.hasStart 7)) = 1 ∧
    c.sh.log.countP (Ev.effect (WaitGroup.hasOuter 7 (· == 42))) = 1 ∧
    calls (Act.member (S := WaitGroup.ds Nat ⟨true, true, true⟩) (WaitGroup.callsInner 7 (· == 42))) groupDemo = 1 :=
  ⟨(mach (WaitGroup.ds Nat ⟨true, true, true⟩)).after (RSt.init (WaitGroup.init 1)) groupDemo, rfl, by intro a ha; revert a ha; decide, rfl, rfl, rfl, rfl, rfl⟩

/-- Two agents; the first acknowledges the post, the second detaches. -/
def postDemo : List (Lbl (mach (PostAck.ds Nat))) := sched 0 [(.call (.attach 1), 1), (.call (.attach 2), 1), (.call (.post 5), 1), (.newOp 1 none (1 : Nat), 2), (.call (.ack 1 0), 1), (.call (.detach 2), 3), (.call (.post 6), 1)]

example : ∃ c, (mach (PostAck.ds Nat)).runs ((mach (PostAck.ds Nat)).init (RSt.init (PostAck.init))) postDemo = some c ∧ Quiescent c ∧
    c.sh.log.countP (Ev.effect (PostAck.hasPost (· == 5))) = 1 ∧
    c.sh.log.countP (Ev.effect (PostAck.hasAttach 2)) = 1 ∧
    c.sh.log.countP (Ev.effect (PostAck.hasDetaching 2)) = 1 ∧
    c.sh.log.countP (Ev.effect (PostAck.hasDetached 2)) = 1 ∧
    c.sh.log.countP (Ev.effect (PostAck.hasAck 1 0)) = 1 ∧
    calls (Act.member (S := PostAck.ds Nat) (PostAck.callsAck 1 0)) postDemo = 1 :=
  ⟨(mach (PostAck.ds Nat)).after (RSt.init (PostAck.init)) postDemo, rfl, by intro a ha; revert a ha; decide, rfl, rfl, rfl, rfl, rfl, rfl⟩

/-- One `get()` before and one after `set_value`. -/
def setDemo : List (Lbl (mach (Promise.ds Nat))) := sched 0 [(.newOp 1 none (), 3), (.call (.set 5), 5), (.newOp 2 none (), 2)]

example : ∃ c, (mach (Promise.ds Nat)).runs ((mach (Promise.ds Nat)).init (RSt.init (Promise.init))) setDemo = some c ∧ Quiescent c ∧
    c.sh.log.countP (Ev.effect (Promise.hasSet (· == 5))) = 1 ∧
    calls (Act.member (S := Promise.ds Nat) (Promise.callsSet (· == 5))) setDemo = 1 :=
  ⟨(mach (Promise.ds Nat)).after (RSt.init (Promise.init)) setDemo, rfl, by intro a ha; revert a ha; decide, rfl, rfl⟩

end Verif
