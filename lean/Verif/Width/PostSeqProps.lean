import Verif.Width.PostSeq

/-!
# `post_ack_mechanism` with all counters and sequence numbers of fixed width

`active_agents_` and `acks_left` have 32 bits; `post_seq_`, `node_seq` and `poll_seq_` have 64 bits. Property: this makes no difference to unbounded
numbers.
-/

namespace Verif.Width

open Resolver

variable {T : Type}

/-- Reachable configurations of a `post_ack_mechanism`. -/
abbrev PsReach (k : Conf (psMach T (2 ^ 32) (2 ^ 64))) : Prop := Reach (psMach T (2 ^ 32) (2 ^ 64)) (RSt.init PostAck.init) k

/-- C100. `post_ack_mechanism` with fewer than `2 ^ 32` attached agents at any time and fewer than `2 ^ 64` posts: every configuration is one of the
machine with unbounded numbers. (Without the restriction on posts: `C100_post_seq_false`.) -/
theorem C100_post_seq_partial {k : Conf (psMach T (2 ^ 32) (2 ^ 64))} (h : PsReach k)
    (hf : ∀ l, l <+: k.sh.log → (PostAck.spec l).att.length < 2 ^ 32 ∧ (PostAck.spec l).posts < 2 ^ 64) :
    PostAck.KReach (⟨k.sh, k.acts, k.bad⟩ : Conf (mach (PostAck.ds T))) :=
  ps_reach (by decide) h hf

/-- C100. With fewer than `2 ^ 32` attached agents at any time and fewer than `2 ^ 64` posts: no assertion fails, an attached agent gets the objects
posted since it attached in order and without gaps, and when no call is running and its poll is still suspended it has got all of them. -/
theorem C100_post_seq_order_partial {k : Conf (psMach T (2 ^ 32) (2 ^ 64))} (h : PsReach k)
    (hf : ∀ l, l <+: k.sh.log → (PostAck.spec l).att.length < 2 ^ 32 ∧ (PostAck.spec l).posts < 2 ^ 64) :
    k.bad = false ∧
    (∀ a ∈ (PostAck.spec k.sh.log).att, (PostAck.seen a k.sh.log).got <+: (PostAck.seen a k.sh.log).since) ∧
    (Quiescent k → ∀ i ct a, (.begin i ct a : PostAck.Event T) ∈ k.sh.log → completions i k.sh.log = 0 →
      a ∈ (PostAck.spec k.sh.log).att ∧ (PostAck.seen a k.sh.log).got = (PostAck.seen a k.sh.log).since) := by
  have hr := ps_reach (by decide) h hf
  exact ⟨PostAck.C34_no_assertion hr, fun a ha => PostAck.C31_in_order hr ha,
    fun hq i ct a hb hs => PostAck.C31_suspended_has_seen_all hr hq hb hs⟩

/-- C100 is false of the code without the restriction. An agent attaches after `2 ^ 64 - 1` posts, and one more object is posted; the number of
posts is zero now. The agent polls and suspends, although it has not got the object. -/
theorem C100_post_seq_false : ∃ k : Conf (psMach Nat (2 ^ 32) (2 ^ 64)), PsReach k ∧ Quiescent k ∧
    (.begin 0 none (0 : Nat) : PostAck.Event Nat) ∈ k.sh.log ∧ (∀ v, (.done 0 v : PostAck.Event Nat) ∉ k.sh.log) ∧
    (PostAck.seen 0 k.sh.log).since = [7] ∧ (PostAck.seen 0 k.sh.log).got = [] := by
  obtain ⟨k, h1, h2, _, before, h4, _, h6⟩ := ps_false (2 ^ 32) (2 ^ 64) (by decide) (by decide)
  refine ⟨k, h1, h2, by rw [h4]; simp, h6, ?_, ?_⟩
  all_goals
    rw [h4]
    simp [PostAck.seen, List.foldl_append, PostAck.Seen.step]

/-! ## The hypotheses are met -/

/-- An agent attaches, an object is posted, the agent gets it and polls again. -/
def demoPs : Conf (psMach Nat (2 ^ 32) (2 ^ 64)) :=
  (psMach Nat (2 ^ 32) (2 ^ 64)).go (RSt.init PostAck.init)
    [.env (.call (.attach 0)), .run 0 true, .env (.call (.post 7)), .run 1 true, .env (.newOp 0 none (0 : Nat)), .run 2 true, .run 2 true,
      .env (.newOp 1 none (0 : Nat)), .run 3 true, .run 3 true, .run 3 true]

theorem demoPs_reach : PsReach demoPs := Reach.go ..

set_option maxRecDepth 10000 in
theorem demoPs_log : demoPs.sh.log = [.ds (.attached 0), .ds (.posted 0 7), .begin 0 none (0 : Nat), .ds (.skip 0),
    .done 0 ((0 : Nat), some (0 : Nat)), .begin 1 none (0 : Nat), .ds (.enq 1)] := rfl

set_option maxRecDepth 10000 in
theorem demoPs_rest : Quiescent demoPs := by
  have : demoPs.acts = [[], [], [], []] := rfl
  simp [Quiescent, this]

theorem demoPs_few : ∀ l, l <+: demoPs.sh.log → (PostAck.spec l).att.length < 2 ^ 32 ∧ (PostAck.spec l).posts < 2 ^ 64 := by
  rw [demoPs_log]
  intro l hl
  rw [List.prefix_iff_eq_take.1 hl]
  by_cases h : l.length < 7
  · have h0 : l.length = 0 ∨ l.length = 1 ∨ l.length = 2 ∨ l.length = 3 ∨ l.length = 4 ∨ l.length = 5 ∨ l.length = 6 := by omega
    rcases h0 with h0 | h0 | h0 | h0 | h0 | h0 | h0 <;> rw [h0] <;> decide
  · rw [List.take_of_length_le (by simp; omega)]; decide

example : PostAck.KReach (⟨demoPs.sh, demoPs.acts, demoPs.bad⟩ : Conf (mach (PostAck.ds Nat))) :=
  C100_post_seq_partial demoPs_reach demoPs_few

example : (PostAck.seen 0 demoPs.sh.log).got = (PostAck.seen 0 demoPs.sh.log).since :=
  ((C100_post_seq_order_partial demoPs_reach demoPs_few).2.2 demoPs_rest 1 none 0 (by rw [demoPs_log]; simp)
    (by rw [demoPs_log]; decide)).2

example : (PostAck.seen 0 demoPs.sh.log).since = [7] := by rw [demoPs_log]; rfl

end Verif.Width
