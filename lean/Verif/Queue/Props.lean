import Verif.Queue.Proof
import Verif.Resolver.Props

/-!
# Properties of `queue`

All theorems are about every reachable configuration of the machine: any number of consumers with
any tokens, any number of producers, `maybe_get()` calls and cancellations, in any interleaving.
The functions `puts`, `claims`, `claimsOf`, `waiters` and `served` that read a history are in
`Verif/Queue/Model.lean`.
-/

namespace Verif.Queue

open Resolver

variable {T : Type}

/-- Reachable configurations of a queue. -/
abbrev QReach (c : Conf (mach (ds T))) : Prop := Reach (mach (ds T)) (RSt.init init) c

/-- C10. The items handed out are, in order, a prefix of the items put; every consumer is handed
at most one item, and what it delivers to its receiver is exactly the item it was handed. -/
theorem C10_queue_fifo {c : Conf (mach (ds T))} (h : QReach c) :
    claims c.sh.log <+: puts c.sh.log ∧
    (∀ i, (claimsOf i c.sh.log).length ≤ 1) ∧
    (∀ i v, Ev.done i v ∈ c.sh.log → claimsOf i c.sh.log = v.toList) := by
  obtain ⟨ph, hI, hC⟩ := reach_inv (lawful T) h
  refine ⟨⟨_, hI.items.symm⟩, fun i => ?_, fun i v hd => (hI.done i v hd).2.1⟩
  cases hp : ph i with
  | new => simp [hI.none i (.inl hp)]
  | waiting => simp [hI.none i (.inr (.inl hp))]
  | gone => simp [hI.none i (.inr (.inr hp))]
  | fast v => obtain ⟨x, _, h2⟩ := hI.fast i v hp; simp [h2]
  | taken => obtain ⟨x, _, h2⟩ := hI.valT i hp; simp [h2]
  | finFast =>
    have : 0 < completions i c.sh.log := by
      have := (hC.done_iff i).2 (.inl (by rw [hp]; rfl)); omega
    rw [doneCnt_pos, List.any_eq_true] at this
    obtain ⟨v, hv, hd⟩ := this
    cases v <;> simp [isDone] at hd
    subst hd
    rw [(hI.done _ _ hv).2.1]
    cases ‹Option T› <;> simp
  | fin =>
    have : 0 < completions i c.sh.log := by
      have := (hC.done_iff i).2 (.inr (by rw [hp]; rfl)); omega
    rw [doneCnt_pos, List.any_eq_true] at this
    obtain ⟨v, hv, hd⟩ := this
    cases v <;> simp [isDone] at hd
    subst hd
    rw [(hI.done _ _ hv).2.1]
    cases ‹Option T› <;> simp

/-- C11. If a consumer is suspended then no item is stored. -/
theorem C11_no_stranded_item {c : Conf (mach (ds T))} (h : QReach c) :
    waiters c.sh.log = [] ∨ claims c.sh.log = puts c.sh.log := by
  obtain ⟨ph, hI, _⟩ := reach_inv (lawful T) h
  rcases hI.excl with h1 | h1
  · left; rw [hI.wait, h1]
  · right; rw [hI.items, h1, List.append_nil]

/-- C11. Items are handed to suspended consumers in the order in which they suspended; callers
take items directly only if nobody is suspended. -/
theorem C11_served_in_order {c : Conf (mach (ds T))} (h : QReach c) : Hist served c.sh.log := by
  obtain ⟨ph, hI, _⟩ := reach_inv (lawful T) h
  exact hI.hist

/-- C11. When all calls have returned, a consumer that was handed an item has received it, and
every other consumer has completed or is among the suspended ones. -/
theorem C11_served_receives {c : Conf (mach (ds T))} (h : QReach c) (hq : Quiescent c) :
    (∀ i x, claimsOf i c.sh.log = [x] → Ev.done i (some x) ∈ c.sh.log) ∧
    (∀ i ct p, Ev.begin i ct p ∈ c.sh.log →
      completions i c.sh.log = 1 ∨ i ∈ waiters c.sh.log) := by
  obtain ⟨ph, hI, hC⟩ := reach_inv (lawful T) h
  constructor
  · intro i x hx
    have hs : c.sh.started i = true := by
      cases hs : c.sh.started i with
      | true => rfl
      | false =>
        have hp := ((hC.op i).a3 (by simp [view, hs])).1
        rw [view_ph] at hp
        have : ph i = .new := by cases h' : ph i <;> simp [h', Phase.code] at hp ⊢
        rw [hI.none i (.inl this)] at hx; simp at hx
    rcases hC.rest hq hs with h1 | ⟨h1, _⟩
    · have h2 : 0 < completions i c.sh.log := by omega
      rw [doneCnt_pos, List.any_eq_true] at h2
      obtain ⟨v, hv, hd⟩ := h2
      cases v <;> simp [isDone] at hd
      subst hd
      rename_i v
      have := (hI.done _ _ hv).2.1
      rw [hx] at this
      cases v with
      | none => simp at this
      | some y => simp at this; subst this; exact hv
    · rw [hI.none i (.inr (.inl h1))] at hx; simp at hx
  · intro i ct p hb
    rcases hC.rest hq (hC.begin_started hb) with h1 | ⟨h1, _⟩
    · exact .inl h1
    · right; rw [hI.wait, hI.mem]; exact h1

/-- C12. A consumer that completes with a null optional was handed no item; a consumer that was
handed an item completes with that item, even if its token is cancelled. -/
theorem C12_cancel_consumes_nothing {c : Conf (mach (ds T))} (h : QReach c) {i : OpId} :
    (Ev.done i none ∈ c.sh.log → claimsOf i c.sh.log = []) ∧
    (∀ x v, claimsOf i c.sh.log = [x] → Ev.done i v ∈ c.sh.log → v = some x) := by
  obtain ⟨ph, hI, _⟩ := reach_inv (lawful T) h
  constructor
  · intro hd; simpa using (hI.done i _ hd).2.1
  · intro x v hx hd
    have := (hI.done i _ hd).2.1
    rw [hx] at this
    cases v <;> simp at this
    rw [this]

/-- C04 for `queue`. -/
theorem C04_queue {c : Conf (mach (ds T))} (h : QReach c) :
    c.bad = false ∧ (∀ i, completions i c.sh.log ≤ 1) ∧
    (∀ i, 0 < completions i c.sh.log → ∃ ct p, Ev.begin i ct p ∈ c.sh.log) ∧
    (∀ i, completions i c.sh.log = 1 → ∀ x, Pending c.acts x → x.op = some i →
      x = .unregister i) := C04_exactly_once (lawful T) h

/-- C05 for `queue`, partial: schedules without preemption between the `fetch_or` in `transition_`
and the access that follows it. -/
theorem C05_queue_partial {c : Conf (mach (ds T))} (h : CoopReach (ds T) init c) {i : OpId}
    (hd : completions i c.sh.log = 1) {x : Instr (ds T)} (hx : Pending c.acts x) :
    x.op ≠ some i := C05_not_touched_after_completion_partial (lawful T) h hd hx

/-- C06 for `queue`. -/
theorem C06_queue {c : Conf (mach (ds T))} (h : QReach c) (hq : Quiescent c) {i : OpId} {e : EvId}
    {p : Unit} (hb : Ev.begin i (some e) p ∈ c.sh.log) (hc : cancelled e c.sh.log = true) :
    completions i c.sh.log = 1 := C06_cancellation_prompt (lawful T) h hq hb hc

/-- C07 for `queue`. A null optional is delivered only if `cancel()` was called on the event of
the consumer's own token. -/
theorem C07_queue {c : Conf (mach (ds T))} (h : QReach c) {i : OpId}
    (hd : Ev.done i none ∈ c.sh.log) :
    ∃ e p, Ev.begin i (some e) p ∈ c.sh.log ∧ Ev.cancel e ∈ c.sh.log := by
  obtain ⟨ph, hI, _⟩ := reach_inv (lawful T) h
  exact ((hI.done i _ hd).2.2 rfl).2

/-! ## Concrete executions -/

abbrev M := mach (ds Nat)
abbrev Label := Lbl M

/-- Two consumers suspend, the second is cancelled, two items are put. -/
def run1 : List Label :=
  [.env (.newOp 0 none ()), .run 0 true, .run 0 true, .run 0 true,
   .env (.newOp 1 (some 7) ()), .run 1 true, .run 1 true, .run 1 true, .run 1 true,
   .env (.cancel 7), .run 2 true, .run 2 true, .run 2 true, .run 2 true,
   .env (.call (.put 5)), .run 3 true, .run 3 true, .run 3 true, .run 3 true,
   .env (.call (.put 6)), .run 4 true]

/-- The history of `run1`: consumer 1 is cancelled, consumer 0 receives the first item, the second
item stays in the queue. -/
theorem run1_log : (M.after (RSt.init init) run1).sh.log =
    [.begin 0 none (), .ds (.enq 0), .begin 1 (some 7) (), .ds (.enq 1), .cancel 7,
     .ds (.unq 1), .done 1 none, .ds (.put 5), .ds (.claim (some 0) 5), .done 0 (some 5),
     .ds (.put 6)] := rfl

theorem run1_acts : (M.after (RSt.init init) run1).acts = [[], [], [], [], []] := rfl

/-- The hypotheses of the theorems above hold in a non-trivial case. -/
example : ∃ c : Conf M, QReach c ∧ Quiescent c ∧ Ev.done 0 (some 5) ∈ c.sh.log ∧
    Ev.done 1 none ∈ c.sh.log ∧ claimsOf 0 c.sh.log = [5] ∧ cancelled 7 c.sh.log = true ∧
    Ev.begin 1 (some 7) () ∈ c.sh.log ∧ completions 1 c.sh.log = 1 ∧
    claims c.sh.log = [5] ∧ puts c.sh.log = [5, 6] := by
  refine ⟨M.after (RSt.init init) run1, Reach.after _ _ _, ?_, ?_, ?_, ?_, ?_, ?_, ?_, ?_, ?_⟩
  · intro a ha; rw [run1_acts] at ha; simpa using ha
  all_goals rw [run1_log]
  · simp
  · simp
  · rfl
  · rfl
  · simp
  · rfl
  · rfl
  · rfl

/-- `run1` is a schedule without preemption. -/
example : ∃ c : Conf M, CoopReach (ds Nat) init c ∧ completions 0 c.sh.log = 1 ∧
    completions 1 c.sh.log = 1 ∧ Pending c.acts (.start 2) :=
  ⟨coopAfter init (run1 ++ [.env (.newOp 2 (some 7) ())]), coopAfter_reach _ _, rfl, rfl,
    [.start 2], List.mem_of_getElem? (i := 5) rfl, by simp⟩

/-- A put resolves consumer 0 on one thread while another thread cancels it. -/
def race : List Label :=
  [.env (.newOp 0 (some 7) ()), .run 0 true, .run 0 true, .run 0 true, .run 0 true,
   -- put: assign the item, `complete()`, `fetch_or`
   .env (.call (.put 5)), .run 1 true, .run 1 true, .run 1 true,
   -- another thread: `cancel()` runs to its end and completes the receiver
   .env (.cancel 7), .run 2 true, .run 2 true, .run 2 true, .run 2 true]

theorem race_acts : (M.after (RSt.init init) race).acts =
    [[], [.unregister 0], []] := rfl

theorem race_log : (M.after (RSt.init init) race).sh.log =
    [.begin 0 (some 7) (), .ds (.enq 0), .ds (.put 5), .ds (.claim (some 0) 5), .cancel 7,
     .done 0 (some 5)] := rfl

/-- C05 is false: consumer 0 has completed (its receiver may have destroyed it) and `put()` is
about to read the `event_` field of its resolver. -/
theorem C05_queue_false : ∃ c : Conf M, QReach c ∧ completions 0 c.sh.log = 1 ∧
    ∃ (k : Nat) (r : List (Instr (ds Nat))), c.acts[k]? = some (Instr.unregister 0 :: r) ∧
      (Instr.unregister (S := ds Nat) 0).op = some 0 := by
  refine ⟨M.after (RSt.init init) race, Reach.after _ _ _, ?_, 1, [], ?_, rfl⟩
  · rw [race_log]; rfl
  · rw [race_acts]; rfl

/-! Applications of the theorems to `run1`, `race` and to a state with a suspended consumer. -/

abbrev demo : Conf M := M.after (RSt.init init) run1

theorem demo_reach : QReach demo := Reach.after _ _ _
theorem demo_rest : Quiescent demo := by
  intro a ha; rw [show demo.acts = _ from run1_acts] at ha; simpa using ha

/-- Nobody has put an item yet. -/
abbrev demo2 : Conf M := M.after (RSt.init init) (run1.take 9)

example : claims demo.sh.log <+: puts demo.sh.log := (C10_queue_fifo demo_reach).1
example : claimsOf 0 demo.sh.log = [5] :=
  (C10_queue_fifo demo_reach).2.2 0 (some 5) (by rw [show demo.sh.log = _ from run1_log]; simp)
example : waiters demo2.sh.log = [0, 1] := by rfl
example : claims demo2.sh.log = puts demo2.sh.log :=
  (C11_no_stranded_item (Reach.after _ _ _)).resolve_left (by rw [show waiters demo2.sh.log = [0, 1] from rfl]; simp)
example : (waiters (demo.sh.log.take 8)).head? = some 0 ∨
    (waiters (demo.sh.log.take 8) = [] ∧ (.ds (.enq 0) : Event Nat) ∉ demo.sh.log.take 8) :=
  C11_served_in_order demo_reach _ (.ds (.claim (some 0) 5)) (demo.sh.log.drop 9) rfl
example : Ev.done 0 (some 5) ∈ demo.sh.log := (C11_served_receives demo_reach demo_rest).1 0 5 rfl
example : completions 0 demo2.sh.log = 1 ∨ 0 ∈ waiters demo2.sh.log :=
  (C11_served_receives (Reach.after _ _ _) (by
    intro a ha
    rw [show demo2.acts = [[], []] from rfl] at ha
    simpa using ha)).2 0 none () (by rw [show demo2.sh.log = [.begin 0 none (), .ds (.enq 0), .begin 1 (some 7) (), .ds (.enq 1)] from rfl]; simp)
example : claimsOf 1 demo.sh.log = [] :=
  (C12_cancel_consumes_nothing demo_reach).1 (by rw [show demo.sh.log = _ from run1_log]; simp)
/-- In `race` consumer 0 is cancelled but gets the item. -/
example : ∀ v, Ev.done 0 v ∈ (M.after (RSt.init init) race).sh.log → v = some 5 :=
  fun v => (C12_cancel_consumes_nothing (Reach.after _ _ _)).2 5 v (by rw [race_log]; rfl)
example : completions 0 demo.sh.log ≤ 1 := (C04_queue demo_reach).2.1 0
example : completions 1 demo.sh.log = 1 :=
  C06_queue demo_reach demo_rest (e := 7) (p := ()) (by rw [show demo.sh.log = _ from run1_log]; simp) rfl
example : ∃ e p, Ev.begin 1 (some e) p ∈ demo.sh.log ∧ Ev.cancel e ∈ demo.sh.log :=
  C07_queue demo_reach (by rw [show demo.sh.log = _ from run1_log]; simp)
example : (Instr.start (S := ds Nat) 2).op ≠ some 0 :=
  C05_queue_partial (c := coopAfter init (run1 ++ [.env (.newOp 2 (some 7) ())])) (coopAfter_reach _ _) rfl
    ⟨[.start 2], List.mem_of_getElem? (i := 5) rfl, by simp⟩
example : ∃ e, (M.after (RSt.init init) race).sh.ct 0 = some e ∧ cancelled e (M.after (RSt.init init) race).sh.log = true :=
  (C05_only_unregister_partial (lawful Nat) (x := .unregister 0) (Reach.after _ _ _) (by rw [race_log]; rfl)
    ⟨[.unregister 0], List.mem_of_getElem? (i := 1) rfl, by simp⟩ rfl).2
example : ∃ c', M.step (M.after (RSt.init init) race) (.run 1 true) = some c' ∧ c'.bad = false :=
  C06_calls_make_progress (lawful Nat) (Reach.after _ _ _) (by rw [race_acts]; rfl) true

end Verif.Queue
