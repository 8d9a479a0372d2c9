import Verif.Liveness.Costs
import Verif.Resolver.Props
import Verif.Queue.Props
import Verif.Sequenced.Props
import Verif.Barrier.Props
import Verif.Promise.Props
import Verif.WaitGroup.Props
import Verif.PostAck.Props

/-!
# Calls come to an end

For every reachable configuration: `Steps c n`, however the running calls are scheduled, they
execute at most `n` instructions altogether; and `CanFinish c`, they can be run until all of them
have returned. `starts` is the number of operations started so far, `running` the number of pending
instructions (at the time of the call, one per call).
-/

namespace Verif

open Resolver

variable {T : Type}

/-- The bound is monotone in the pending instructions. -/
theorem mul_bound {S : DS} (acts : List (List (Instr S))) {m : Nat} (k : Nat)
    (h : m ≤ k * (dsPend acts).length) (hk : 1 ≤ k) : ws kE acts + m ≤ k * running acts := by
  have h1 := kinds acts
  have h2 := Nat.mul_le_mul_left k h1
  have h3 := Nat.le_mul_of_pos_left (ws kE acts) hk
  rw [Nat.mul_add] at h2
  omega

/-- C67 for `queue`. -/
theorem C67_queue {c : Conf (mach (Queue.ds T))} (h : Queue.QReach c) :
    Steps c (54 * starts c.sh.log + running c.acts) ∧ CanFinish c :=
  terminates_bound (Queue.costs T) h (kinds c.acts)

/-- C67 for `recurring_event`, with any user. -/
theorem C67_recurring_event {X : Recurring.User} {u0 : X.U} (O : Recurring.UserOk X u0)
    {c : Conf (mach (Recurring.ds X))} (h : Recurring.RReach u0 c) :
    Steps c (54 * starts c.sh.log + 2 * running c.acts) ∧ CanFinish c :=
  terminates_bound (Recurring.costs O) h (mul_bound _ 2 (wl_bound fun x _ => by
    cases x <;> simp [Recurring.cost]) (by omega))

/-- C67 for `sequenced_event`. -/
theorem C67_sequenced_event {c : Conf (mach (Recurring.ds Sequenced.prog))} (h : Sequenced.SReach c) :
    Steps c (54 * starts c.sh.log + 2 * running c.acts) ∧ CanFinish c :=
  C67_recurring_event Sequenced.progOk h

/-- C67 for `barrier`. -/
theorem C67_barrier {e : Nat} {c : Conf (mach (Recurring.ds Barrier.prog))}
    (h : Barrier.BReach e c) :
    Steps c (54 * starts c.sh.log + 2 * running c.acts) ∧ CanFinish c :=
  C67_recurring_event (Barrier.progOk e) h

/-- C67 for `promise`. -/
theorem C67_promise {c : Conf (mach (Promise.ds T))}
    (h : Reach (mach (Promise.ds T)) (RSt.init Promise.init) c) :
    Steps c (54 * starts c.sh.log + 2 * running c.acts) ∧ CanFinish c :=
  terminates_bound (Promise.costs T) h (mul_bound _ 2 (wl_bound fun x _ => by
    cases x <;> simp [Promise.cost]) (by omega))

/-- C67 for `wait_group`. A compare-exchange in `done()` is repeated only if the count was changed
by another call, so the bound is quadratic in the number of running calls. -/
theorem C67_wait_group {cf : WaitGroup.Cfg} {n : Nat} (h1 : cf.safeAdd = true)
    (h2 : cf.safeDone = true) {c : Conf (mach (WaitGroup.ds T cf))} (h : WaitGroup.WReach n c) :
    Steps c (54 * starts c.sh.log + (4 * running c.acts + 5) * running c.acts) ∧ CanFinish c := by
  refine terminates_bound (WaitGroup.costs n h1 h2) h ?_
  have hm := WaitGroup.μ_le c.sh.d (dsPend c.acts)
  have hr : (dsPend c.acts).length ≤ running c.acts := by have := kinds c.acts; omega
  refine mul_bound c.acts (4 * running c.acts + 5) (Nat.le_trans hm ?_) (by omega)
  exact Nat.mul_le_mul_right _ (by omega)

/-- C67 for `post_ack`. The loop in `detach()` visits every post at most once. -/
theorem C67_post_ack {c : Conf (mach (PostAck.ds T))} (h : PostAck.KReach c) :
    Steps c (54 * starts c.sh.log +
      (3 * ((PostAck.spec c.sh.log).posts + running c.acts) + 3) * running c.acts) ∧
    CanFinish c := by
  refine terminates_bound (PostAck.costs T) h ?_
  obtain ⟨ph, hI, _⟩ := reach_inv (PostAck.lawful T) h
  have hm := PostAck.μ_le hI
  have hr : (dsPend c.acts).length ≤ running c.acts := by have := kinds c.acts; omega
  refine mul_bound c.acts _ (Nat.le_trans hm ?_) (by omega)
  exact Nat.mul_le_mul_right _ (by omega)

/-- C67, consequence for cancellation. However the running calls are scheduled, they come to a
configuration without running calls, and there every operation whose event was cancelled has
completed exactly once. -/
theorem C67_cancelled_completes {S : DS} {d0 : S.D} {L : Lawful S d0} (C : Costs L)
    {c : Conf (mach S)} (h : Reach (mach S) (RSt.init d0) c) :
    ∃ n, ∀ ls c1, (mach S).runActs c ls = some c1 → ls.length ≤ n ∧
      ∃ ls' c2, (mach S).runActs c1 ls' = some c2 ∧ c2.bad = false ∧ Quiescent c2 ∧
        ∀ i e p, Ev.begin i (some e) p ∈ c.sh.log → cancelled e c.sh.log = true →
          completions i c2.sh.log = 1 := by
  obtain ⟨h1, _⟩ := terminates C h
  refine ⟨_, fun ls c1 hr => ⟨h1 ls c1 hr, ?_⟩⟩
  have r1 := runActs_reach h hr
  obtain ⟨ls', c2, h3, h4, h5⟩ := (terminates C r1).2
  have r2 := runActs_reach r1 h3
  refine ⟨ls', c2, h3, h4, h5, fun i e p hb hc => ?_⟩
  have l1 := runActs_keeps hr
  have l2 := runActs_keeps h3
  refine C06_cancellation_prompt L r2 h5 (l2.1 _ (l1.1 _ hb)) ?_
  rw [← req_eq h] at hc
  rw [← req_eq r2]
  exact l2.2 e (l1.2 e hc)

/-! ## Concrete executions -/

/-- Three calls of `done()` have loaded the count 3; the first has decremented it, so the two others
are going to fail their compare-exchange once; a wait is suspended. -/
def contended : List (Lbl WaitGroup.M) :=
  [.env (.newOp 0 none ()), .run 0 true, .run 0 true, .run 0 true,
   .env (.call (.ld none)), .env (.call (.ld none)), .env (.call (.ld none)),
   .run 1 true, .run 2 true, .run 3 true, .run 1 true]

theorem contended_acts : (WaitGroup.M.after (RSt.init (WaitGroup.init 3)) contended).acts =
    [[], [], [.ds (.cas 3 none)], [.ds (.cas 3 none)]] := rfl

/-- The hypotheses hold in a contended configuration. In one run from there both compare-exchanges
fail once, one of the calls succeeds at its second attempt, the other one fails again, takes the
lock, reaches zero and completes the wait. -/
example : ∃ c : Conf WaitGroup.M, WaitGroup.WReach 3 c ∧
    Pending c.acts (.ds (.cas 3 none)) ∧ c.sh.d.ctr = 2 ∧
    (∃ c', WaitGroup.M.runActs c [(2, true), (3, true), (2, true), (3, true), (3, true), (3, true),
      (3, true), (3, true)] = some c' ∧ c'.acts = [[], [], [], []]) :=
  ⟨WaitGroup.M.after (RSt.init (WaitGroup.init 3)) contended, Reach.after _ _ _,
    ⟨[.ds (.cas 3 none)], List.mem_of_getElem? (i := 2) rfl, by simp⟩, rfl, ⟨_, rfl, rfl⟩⟩

/-- Two posts that agent 1 has not polled; it detaches. -/
def detaching : List (Lbl PostAck.M) :=
  [.env (.call (.attach 1)), .run 0 true, .env (.call (.post 100)), .run 1 true,
   .env (.call (.post 101)), .run 2 true, .env (.call (.detach 1)), .run 3 true]

example : ∃ c : Conf PostAck.M, PostAck.KReach c ∧ Pending c.acts (.ds (.det 1 2)) ∧
    (PostAck.spec c.sh.log).posts = 2 ∧
    (∃ c', PostAck.M.runActs c [(3, true), (3, true), (3, true), (3, true)] = some c' ∧
      c'.acts = [[], [], [], []]) :=
  ⟨PostAck.M.after (RSt.init PostAck.init) detaching, Reach.after _ _ _,
    ⟨[.ds (.pdone 0), .ds (.det 1 2)], List.mem_of_getElem? (i := 3) rfl, by simp⟩, rfl, ⟨_, rfl, rfl⟩⟩

/-- A put and a cancellation race for a consumer of the queue; both calls are running. -/
example : ∃ c : Conf Queue.M, Queue.QReach c ∧ Pending c.acts (.unregister 0) ∧
    Ev.begin 0 (some 7) () ∈ c.sh.log ∧ cancelled 7 c.sh.log = true :=
  ⟨Queue.M.after (RSt.init Queue.init) Queue.race, Reach.after _ _ _,
    ⟨[.unregister 0], List.mem_of_getElem? (i := 1) rfl, by simp⟩, by rw [Queue.race_log]; simp,
    by rw [Queue.race_log]; rfl⟩

/-! The theorems applied to these configurations and to the demonstrations of the primitives. -/

example : CanFinish (WaitGroup.M.after (RSt.init (WaitGroup.init 3)) contended) :=
  (C67_wait_group rfl rfl (Reach.after _ _ _)).2
example : CanFinish (PostAck.M.after (RSt.init PostAck.init) detaching) := (C67_post_ack (Reach.after _ _ _)).2
example : Steps (Queue.M.after (RSt.init Queue.init) Queue.race) (54 * 1 + 1) :=
  (C67_queue (Reach.after _ _ Queue.race)).1
/-- `run1` of `recurring_event` is stopped in the middle of a `raise()`. -/
example : Steps (Recurring.M.after (RSt.init (Recurring.init true)) (Recurring.run1.take 17)) (54 * 2 + 2 * 1) :=
  (C67_recurring_event (Recurring.flagOk true) (Reach.after _ _ (Recurring.run1.take 17))).1
example : CanFinish (Sequenced.M.after (RSt.init (Recurring.init (X := Sequenced.prog) (0 : Nat))) (Sequenced.race.take 6)) :=
  (C67_sequenced_event (Reach.after _ _ _)).2
example : CanFinish (Barrier.M.after (RSt.init (Recurring.init (X := Barrier.prog) (Barrier.start 2))) (Barrier.race.take 12)) :=
  (C67_barrier (e := 2) (Reach.after _ _ _)).2
example : CanFinish (Promise.M.after (RSt.init Promise.init) (Promise.run1.take 13)) := (C67_promise (Reach.after _ _ _)).2
example : ∃ n, ∀ ls c1, Queue.M.runActs (Queue.M.after (RSt.init Queue.init) Queue.race) ls = some c1 → ls.length ≤ n ∧
      ∃ ls' c2, Queue.M.runActs c1 ls' = some c2 ∧ c2.bad = false ∧ Quiescent c2 ∧ completions 0 c2.sh.log = 1 := by
  obtain ⟨n, h⟩ := C67_cancelled_completes (Queue.costs Nat) (Reach.after _ _ Queue.race)
  refine ⟨n, fun ls c1 h1 => ?_⟩
  obtain ⟨h2, ls', c2, h3, h4, h5, h6⟩ := h ls c1 h1
  exact ⟨h2, ls', c2, h3, h4, h5, h6 0 7 () (by rw [Queue.race_log]; simp) (by rw [Queue.race_log]; rfl)⟩

end Verif
