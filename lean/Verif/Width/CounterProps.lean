import Verif.Width.TruncFalse
import Verif.Width.PostAck
import Verif.Induct

/-!
# Counters of fixed width

`wait_group` counts in a `size_t` (64 bits here), `sequenced_event` and `barrier` number their phases with 64 bits, `post_ack_mechanism` counts
agents and acknowledgements in an `unsigned int` (32 bits). Property: this makes no difference to unbounded counters.
-/

namespace Verif.Width

open Resolver

variable {T : Type} {cfg : WaitGroup.Cfg} {n e : Nat}

/-- Reachable configurations of a `wait_group` constructed with count `n`. -/
abbrev WgReach (n : Nat) (k : Conf (wgMach T cfg (2 ^ 64))) : Prop := Reach (wgMach T cfg (2 ^ 64)) (RSt.init (WaitGroup.init n)) k

/-- Reachable configurations of a `sequenced_event`. -/
abbrev SeqReach (c : Conf (seqMach (2 ^ 64))) : Prop :=
  Reach (seqMach (2 ^ 64)) (RSt.init (Recurring.init (X := Sequenced.prog) (0 : Nat))) c

/-- Reachable configurations of a `barrier` for `e` participants. -/
abbrev BarReach (e : Nat) (c : Conf (barMach (2 ^ 64))) : Prop :=
  Reach (barMach (2 ^ 64)) (RSt.init (Recurring.init (X := Barrier.prog) (Barrier.start e))) c

/-- C100. `wait_group` with a counter of 64 bits, with fewer than `2 ^ 64` units of work at any time: every configuration is one of the
machine with an unbounded counter. (Without the restriction: `C100_wait_group_false`.) -/
theorem C100_wait_group_count_partial (h1 : cfg.safeAdd = true) (h2 : cfg.safeDone = true) {k : Conf (wgMach T cfg (2 ^ 64))}
    (h : WgReach n k) (hf : ∀ l, l <+: k.sh.log → WaitGroup.count n l < 2 ^ 64) :
    WaitGroup.WReach n (⟨k.sh, k.acts, k.bad⟩ : Conf (mach (WaitGroup.ds T cfg))) :=
  wg_reach h1 h2 h hf

/-- C100. With fewer than `2 ^ 64` units of work at any time: no assertion fails, a wait completes at most once, it completes with true
only if the work count was zero after it was started, and when no call is running and the count is zero it has completed. -/
theorem C100_wait_group_partial (h1 : cfg.safeAdd = true) (h2 : cfg.safeDone = true) {k : Conf (wgMach T cfg (2 ^ 64))}
    (h : WgReach n k) (hf : ∀ l, l <+: k.sh.log → WaitGroup.count n l < 2 ^ 64) :
    k.bad = false ∧ (∀ i, completions i k.sh.log ≤ 1) ∧
    Hist (fun before v => ∀ i, v = .done i true → WaitGroup.ZeroSince n i before) k.sh.log ∧
    (Quiescent k → WaitGroup.count n k.sh.log = 0 → ∀ i ct p, Ev.begin i ct p ∈ k.sh.log → completions i k.sh.log = 1) := by
  have hr := wg_reach h1 h2 h hf
  have h4 := WaitGroup.C04_wait_group h1 h2 hr
  exact ⟨h4.1, h4.2.1, WaitGroup.C19_true_only_if_zero h1 h2 hr,
    fun hq hz i ct p hb => WaitGroup.C20_nobody_waits_at_zero h1 h2 hr hq hz hb⟩

/-- C100 is false of the code without the restriction. `add(1)` to a group with count `2 ^ 64 - 1` makes the counter zero: a wait
completes with true, although the work count was never zero. -/
theorem C100_wait_group_false : ∃ k : Conf (wgMach Nat WaitGroup.full (2 ^ 64)), WgReach (2 ^ 64 - 1) k ∧
    (.done 0 true : WaitGroup.Event Nat WaitGroup.full) ∈ k.sh.log ∧
    ∀ l, l <+: k.sh.log → 0 < WaitGroup.count (2 ^ 64 - 1) l :=
  wg_false (2 ^ 64) (by decide)

/-- C100. `sequenced_event` with a number of 64 bits, with fewer than `2 ^ 64` calls of `raise()`: every configuration is one of the machine
with an unbounded number. (Without the restriction: `C100_sequenced_assert_false`, `C100_sequenced_missed_false`.) -/
theorem C100_sequenced_seq_partial {c : Conf (seqMach (2 ^ 64))} (h : SeqReach c) (hf : Sequenced.seqOf c.sh.log < 2 ^ 64) :
    Sequenced.SReach ⟨c.sh, c.acts, c.bad⟩ :=
  seq_reach h hf

/-- C100. With fewer than `2 ^ 64` calls of `raise()`: no assertion fails, a wait completes at most once, and when no call is running it has
completed if `raise()` was called since the number it was given. -/
theorem C100_sequenced_partial {c : Conf (seqMach (2 ^ 64))} (h : SeqReach c) (hf : Sequenced.seqOf c.sh.log < 2 ^ 64) :
    c.bad = false ∧ (∀ i, completions i c.sh.log ≤ 1) ∧
    (Quiescent c → ∀ i ct (p : Nat), Ev.begin i ct p ∈ c.sh.log → p < Sequenced.seqOf c.sh.log → completions i c.sh.log = 1) := by
  have hr := seq_reach h hf
  have h4 := Recurring.C04_recurring_event Sequenced.progOk hr
  exact ⟨h4.1, h4.2.1, fun hq i ct p hb hp => Sequenced.C27_no_missed_raise hr hq hb hp⟩

/-- C100 is false of the code without the restriction. `raise()` was called `2 ^ 64 - 1` times, and a wait for the current number is started;
another `raise()` makes the number zero, and the assertion in the condition (sequenced-event.hpp line 24) fails. -/
theorem C100_sequenced_assert_false : ∃ c : Conf (seqMach (2 ^ 64)), SeqReach c ∧ c.bad = true ∧
    Sequenced.seqOf c.sh.log = 2 ^ 64 ∧ (.begin 0 none (2 ^ 64 - 1 : Nat) : Recurring.Event Sequenced.prog) ∈ c.sh.log :=
  seq_assert_false (2 ^ 64) (by decide)

/-- C100 is false of the code without the restriction. After `2 ^ 64` calls of `raise()`, a wait for the number zero suspends: it has missed
all of them. -/
theorem C100_sequenced_missed_false : ∃ c : Conf (seqMach (2 ^ 64)), SeqReach c ∧ Quiescent c ∧ Sequenced.seqOf c.sh.log = 2 ^ 64 ∧
    (.begin 0 none (0 : Nat) : Recurring.Event Sequenced.prog) ∈ c.sh.log ∧ (.ds (.enq 0 false) : Recurring.Event Sequenced.prog) ∈ c.sh.log ∧
    ∀ r, (.done 0 r : Recurring.Event Sequenced.prog) ∉ c.sh.log :=
  seq_missed_false (2 ^ 64)

/-- C100. `barrier` with a number of 64 bits, with fewer than `2 ^ 64` phases: every configuration is one of the machine with an unbounded number.
(Without the restriction: `C100_barrier_false`.) -/
theorem C100_barrier_seq_partial {c : Conf (barMach (2 ^ 64))} (h : BarReach e c) (hf : Barrier.phases c.sh.log < 2 ^ 64) :
    Barrier.BReach e ⟨c.sh, c.acts, c.bad⟩ :=
  bar_reach h hf

/-- C100. With fewer than `2 ^ 64` phases: no assertion fails, a wait completes at most once, an arrival returns the number of completed
phases, and when no call is running a wait with the token of a completed phase has completed. -/
theorem C100_barrier_partial {c : Conf (barMach (2 ^ 64))} (h : BarReach e c) (hf : Barrier.phases c.sh.log < 2 ^ 64) :
    c.bad = false ∧ (∀ i, completions i c.sh.log ≤ 1) ∧
    Hist (fun before v => ∀ a f r, v = .ds (.act a f r) → r = Barrier.phases before) c.sh.log ∧
    (Quiescent c → ∀ i ct (p : Nat), Ev.begin i ct p ∈ c.sh.log → p < Barrier.phases c.sh.log → completions i c.sh.log = 1) := by
  have hr := bar_reach h hf
  have h4 := Recurring.C04_recurring_event (Barrier.progOk e) hr
  exact ⟨h4.1, h4.2.1, fun l1 v l2 hl a f r hv => (Barrier.C30_accounting hr l1 v l2 hl a f r hv).1,
    fun hq i ct p hb hp => Barrier.C29_nobody_stays_behind hr hq hb hp⟩

/-- C100 is false of the code without the restriction. A barrier for one participant has completed `2 ^ 64` phases; a wait with the token
of the first phase suspends. -/
theorem C100_barrier_false : ∃ c : Conf (barMach (2 ^ 64)), BarReach 1 c ∧ Quiescent c ∧ Barrier.phases c.sh.log = 2 ^ 64 ∧
    (.begin 0 none (0 : Nat) : Recurring.Event Barrier.prog) ∈ c.sh.log ∧ (.ds (.enq 0 false) : Recurring.Event Barrier.prog) ∈ c.sh.log ∧
    ∀ r, (.done 0 r : Recurring.Event Barrier.prog) ∉ c.sh.log :=
  bar_false (2 ^ 64)

/-- Reachable configurations of a `post_ack_mechanism`. -/
abbrev PaReach (k : Conf (paMach T (2 ^ 32))) : Prop := Reach (paMach T (2 ^ 32)) (RSt.init PostAck.init) k

/-- C100. `post_ack_mechanism` with counters of 32 bits, with fewer than `2 ^ 32` attached agents at any time: every configuration is one of the
machine with unbounded counters. (Without the restriction: `C100_post_ack_false`.) -/
theorem C100_post_ack_count_partial {k : Conf (paMach T (2 ^ 32))} (h : PaReach k)
    (hf : ∀ l, l <+: k.sh.log → (PostAck.spec l).att.length < 2 ^ 32) :
    PostAck.KReach (⟨k.sh, k.acts, k.bad⟩ : Conf (mach (PostAck.ds T))) :=
  pa_reach (by decide) h hf

/-- C100. With fewer than `2 ^ 32` attached agents at any time: no assertion fails, a post completes at most once and only when no agent has to
acknowledge it any more, and when no call is running it has completed if no agent has to acknowledge it. -/
theorem C100_post_ack_partial {k : Conf (paMach T (2 ^ 32))} (h : PaReach k)
    (hf : ∀ l, l <+: k.sh.log → (PostAck.spec l).att.length < 2 ^ 32) :
    k.bad = false ∧
    Hist (fun before v => ∀ n, v = .ds (.pdone n) → (PostAck.spec before).owe n = [] ∧ (.ds (.pdone n) : PostAck.Event T) ∉ before) k.sh.log ∧
    (Quiescent k → ∀ n, n < (PostAck.spec k.sh.log).posts → (PostAck.spec k.sh.log).owe n = [] →
      (.ds (.pdone n) : PostAck.Event T) ∈ k.sh.log) := by
  have hr := pa_reach (by decide) h hf
  exact ⟨PostAck.C34_no_assertion hr, fun l1 v l2 hl n hv => ((PostAck.C32_post_completes hr l1 v l2 hl).1 n hv).2,
    fun hq n hn ho => (PostAck.C32_completed_iff hr hq hn).2 ho⟩

/-- C100 is false of the code without the restriction. `2 ^ 32` agents are attached, and the counter is zero: a post completes right away,
although all of them have to acknowledge it and none of them has seen it. -/
theorem C100_post_ack_false : ∃ k : Conf (paMach Nat (2 ^ 32)), PaReach k ∧ Quiescent k ∧
    ∃ before, k.sh.log = before ++ [.ds (.posted 0 7), .ds (.pdone 0)] ∧ (PostAck.spec before).att.length = 2 ^ 32 ∧
      (PostAck.spec k.sh.log).owe 0 = (PostAck.spec before).att ∧ ∀ a n, (.ds (.acked a n) : PostAck.Event Nat) ∉ k.sh.log :=
  pa_false (2 ^ 32)

/-! ## The hypotheses are met -/

/-- A group with count one: a wait suspends, one more unit is added, both are done. -/
def demoWg : Conf (wgMach Nat WaitGroup.full (2 ^ 64)) :=
  (wgMach Nat WaitGroup.full (2 ^ 64)).go (RSt.init (WaitGroup.init 1))
    ([.env (.newOp 0 none ()), .run 0 true, .run 0 true, .run 0 true, .env (.call (.add 1 none)), .run 1 true,
      .env (.call (.ld none)), .run 2 true, .run 2 true, .env (.call (.ld none))] ++ List.replicate 6 (.run 3 true))

theorem demoWg_reach : WgReach 1 demoWg := Reach.go ..

set_option maxRecDepth 10000 in
theorem demoWg_log : demoWg.sh.log = [.begin 0 none (), .ds (.enq 0), .ds (.add 1 none), .ds (.dec none), .ds (.zero none [0]),
    .done 0 true] := rfl

theorem demoWg_few : ∀ l, l <+: demoWg.sh.log → WaitGroup.count 1 l < 2 ^ 64 := by
  rw [demoWg_log]
  intro l hl
  rw [List.prefix_iff_eq_take.1 hl]
  by_cases h : l.length < 6
  · have h0 : l.length = 0 ∨ l.length = 1 ∨ l.length = 2 ∨ l.length = 3 ∨ l.length = 4 ∨ l.length = 5 := by omega
    rcases h0 with h0 | h0 | h0 | h0 | h0 | h0 <;> rw [h0] <;> decide
  · rw [List.take_of_length_le (by simp; omega)]; decide

example : demoWg.bad = false := (C100_wait_group_partial rfl rfl demoWg_reach demoWg_few).1
example : WaitGroup.ZeroSince 1 0 (demoWg.sh.log.take 5) :=
  (C100_wait_group_partial rfl rfl demoWg_reach demoWg_few).2.2.1 _ _ [] (by rw [demoWg_log]; rfl) 0 rfl

/-- A wait for the number zero, then `raise()`. -/
def demoSeq : Conf (seqMach (2 ^ 64)) :=
  (seqMach (2 ^ 64)).go (RSt.init (Recurring.init (X := Sequenced.prog) (0 : Nat)))
    ([.env (.newOp 0 none (0 : Nat)), .run 0 true, .run 0 true, .run 0 true, .env (.call (.act ()))] ++ List.replicate 5 (.run 1 true))

theorem demoSeq_reach : SeqReach demoSeq := Reach.go ..

set_option maxRecDepth 10000 in
theorem demoSeq_log : demoSeq.sh.log = [.begin 0 none (0 : Nat), .ds (.enq 0 false), .ds (.act () true ()), .ds (.raise [0]),
    .done 0 .awaited] := rfl

set_option maxRecDepth 10000 in
theorem demoSeq_rest : Quiescent demoSeq := by
  have : demoSeq.acts = [[], []] := rfl
  simp [Quiescent, this]

example : completions 0 demoSeq.sh.log = 1 :=
  (C100_sequenced_partial demoSeq_reach (by rw [demoSeq_log]; decide)).2.2 demoSeq_rest 0 none 0 (by rw [demoSeq_log]; simp)
    (by rw [demoSeq_log]; decide)

/-- A barrier for two: one arrives and waits, the other arrives. -/
def demoBar : Conf (barMach (2 ^ 64)) :=
  (barMach (2 ^ 64)).go (RSt.init (Recurring.init (X := Barrier.prog) (Barrier.start 2)))
    ([.env (.call (.act (.arrive 1))), .run 0 true, .env (.newOp 0 none (0 : Nat)), .run 1 true, .run 1 true, .run 1 true,
      .env (.call (.act (.arrive 1)))] ++ List.replicate 5 (.run 2 true))

theorem demoBar_reach : BarReach 2 demoBar := Reach.go ..

set_option maxRecDepth 10000 in
theorem demoBar_log : demoBar.sh.log = [.ds (.act (.arrive 1) false (0 : Nat)), .begin 0 none (0 : Nat), .ds (.enq 0 false),
    .ds (.act (.arrive 1) true (0 : Nat)), .ds (.raise [0]), .done 0 .awaited] := rfl

set_option maxRecDepth 10000 in
theorem demoBar_rest : Quiescent demoBar := by
  have : demoBar.acts = [[], [], []] := rfl
  simp [Quiescent, this]

example : completions 0 demoBar.sh.log = 1 :=
  (C100_barrier_partial demoBar_reach (by rw [demoBar_log]; decide)).2.2.2 demoBar_rest 0 none 0 (by rw [demoBar_log]; simp)
    (by rw [demoBar_log]; decide)

/-- An agent attaches, polls and gets the post, and acknowledges it. -/
def demoPa : Conf (paMach Nat (2 ^ 32)) :=
  (paMach Nat (2 ^ 32)).go (RSt.init PostAck.init)
    ([.env (.call (.attach 0)), .run 0 true, .env (.call (.post 7)), .run 1 true, .env (.newOp 0 none (0 : Nat)), .run 2 true, .run 2 true,
      .env (.call (.ack 0 0))] ++ List.replicate 3 (.run 3 true))

theorem demoPa_reach : PaReach demoPa := Reach.go ..

set_option maxRecDepth 10000 in
theorem demoPa_log : demoPa.sh.log = [.ds (.attached 0), .ds (.posted 0 7), .begin 0 none (0 : Nat), .ds (.skip 0),
    .done 0 ((0 : Nat), some (0 : Nat)), .ds (.acked 0 0), .ds (.pdone 0)] := rfl

set_option maxRecDepth 10000 in
theorem demoPa_rest : Quiescent demoPa := by
  have : demoPa.acts = [[], [], [], []] := rfl
  simp [Quiescent, this]

theorem demoPa_few : ∀ l, l <+: demoPa.sh.log → (PostAck.spec l).att.length < 2 ^ 32 := by
  rw [demoPa_log]
  intro l hl
  rw [List.prefix_iff_eq_take.1 hl]
  by_cases h : l.length < 7
  · have h0 : l.length = 0 ∨ l.length = 1 ∨ l.length = 2 ∨ l.length = 3 ∨ l.length = 4 ∨ l.length = 5 ∨ l.length = 6 := by omega
    rcases h0 with h0 | h0 | h0 | h0 | h0 | h0 | h0 <;> rw [h0] <;> decide
  · rw [List.take_of_length_le (by simp; omega)]; decide

example : (.ds (.pdone 0) : PostAck.Event Nat) ∈ demoPa.sh.log :=
  (C100_post_ack_partial demoPa_reach demoPa_few).2.2 demoPa_rest 0 (by rw [demoPa_log]; decide) (by rw [demoPa_log]; decide)

end Verif.Width
