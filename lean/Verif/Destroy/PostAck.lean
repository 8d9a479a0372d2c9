import Verif.Destroy.Object
import Verif.PostAck.Props

/-!
# Destroying a `post_ack_mechanism`

The mechanism is accessed by `post_operation::start` (post-ack.hpp lines 87-107), `ack` (lines 216-220), `attach` (lines
263-268), `detach` (lines 274-305), `poll_operation::start` (lines 326-344) and `try_cancel` (lines 57-67). The counter
that `ack` decrements in line 213 is part of the post operation.
-/

namespace Verif.PostAck

open Resolver

variable {T : Type}

/-- The instruction accesses the mechanism. `detach` that has dealt with the last post (line 301) only writes to the agent.
The resumption of a poll copies the pointer to the mechanism (line 365). -/
def accessesMech (d : D) : Instr (ds T) → Prop
  | .start _ | .tryCancel _ _ => True
  | .ds (.post _) | .ds (.attach _) | .ds (.detach _) | .ds (.erase _) => True
  | .ds (.det a r) => r ≠ d.pollSeq a + 1
  | _ => False

/-- C79. All agents have been detached or are inside `detach()`, all posts and all polls have completed, and no call of
`post` or `attach` is about to begin. Then nothing accesses the mechanism any more, although calls of `detach()` and `ack()`
may still be running. -/
theorem C79_post_ack {k : Conf (mach (ds T))} (h : KReach k) (hd : AllDone k.sh.log)
    (ha : (spec k.sh.log).att = []) (hp : ∀ n, n < (spec k.sh.log).posts → (.ds (.pdone n) : Event T) ∈ k.sh.log)
    (hpost : ∀ y, ¬ Pending k.acts (.ds (.post y))) (hatt : ∀ a, ¬ Pending k.acts (.ds (.attach a))) :
    ∀ x, Pending k.acts x → ¬ accessesMech k.sh.d x := by
  intro x hx hacc
  obtain ⟨ph, hI, hC⟩ := reach_inv (lawful T) h
  have ht : touches x := by
    cases x <;> simp_all [accessesMech, touches]
  obtain ⟨y, rfl⟩ := touches_ds (lawful T) h hd hx ht
  have hy := mem_dsPend hx
  have done : ∀ n, n < (spec k.sh.log).posts →
      (dsPend k.acts).countP (isErase n) = 0 ∧ (spec k.sh.log).owe n = [] := by
    intro n hn
    have h1 := hI.B.post n
    have h2 : 0 < k.sh.log.countP (evPdone n) := List.countP_pos_iff.2 ⟨_, hp n hn, by simp [evPdone]⟩
    split at h1
    · rename_i h3; exact ⟨by omega, h3.2⟩
    · omega
  cases y with
  | post y => exact hpost y hx
  | attach a => exact hatt a hx
  | pdone n => exact hacc
  | ack a n => exact hacc
  | detach a =>
    have : 0 < (dsPend k.acts).countP (isDetach a) := List.countP_pos_iff.2 ⟨_, hy, by simp [isDetach]⟩
    have := (hI.A.att a).2 (.inr (.inr this))
    rw [ha] at this; simp at this
  | erase n =>
    have h1 : 0 < (dsPend k.acts).countP (isErase n) := List.countP_pos_iff.2 ⟨_, hy, by simp [isErase]⟩
    have h2 := hI.B.post n
    have h3 : n < (spec k.sh.log).posts := by
      split at h2
      · rename_i h3; exact h3.1
      · omega
    have := (done n h3).1
    omega
  | det a r =>
    have h1 := hI.B.det a r hy
    have hne : r ≠ k.sh.d.pollSeq a + 1 := hacc
    have h2 := hI.B.owe a (k.sh.d.pollSeq a + 1)
    have h3 : 0 < (dsPend k.acts).countP (isDetO (k.sh.d.pollSeq a) a (k.sh.d.pollSeq a + 1)) :=
      List.countP_pos_iff.2 ⟨_, hy, by simp [isDetO]; omega⟩
    have h4 := (done (k.sh.d.pollSeq a + 1) (by omega)).2
    rw [h4] at h2
    simp only [List.count_nil] at h2
    omega

/-- Agent 0 attaches; posts 0 and 1; agent 0 polls post 0 and acknowledges it; agent 0 detaches, which completes post 1; `detach()`
has still to write to the agent. -/
def lateDetach : List (Lbl (mach (ds Nat))) :=
  [.env (.call (.attach 0)), .run 0 true, .env (.call (.post 10)), .run 1 true, .env (.call (.post 11)), .run 2 true,
   .env (.newOp 0 none 0), .run 3 true, .run 3 true, .env (.call (.ack 0 0)), .run 4 true, .run 4 true, .run 4 true,
   .env (.call (.detach 0)), .run 5 true, .run 5 true]

def lateDetachConf : Conf (mach (ds Nat)) := (mach (ds Nat)).after (RSt.init init) lateDetach

theorem lateDetach_log : lateDetachConf.sh.log =
    [.ds (.attached 0), .ds (.posted 0 10), .ds (.posted 1 11), .begin 0 none 0, .ds (.skip 0), .done 0 (0, some 0),
     .ds (.acked 0 0), .ds (.pdone 0), .ds (.detaching 0), .ds (.released 0 1), .ds (.pdone 1)] := rfl

theorem lateDetach_acts : lateDetachConf.acts = [[], [], [], [], [], [.ds (.det 0 2)]] := rfl

/-- `C79_post_ack` applies while `detach()` is still running. -/
example : Pending lateDetachConf.acts (.ds (.det 0 2)) ∧
    ∀ x, Pending lateDetachConf.acts x → ¬ accessesMech lateDetachConf.sh.d x := by
  refine ⟨⟨[.ds (.det 0 2)], by rw [lateDetach_acts]; simp, by simp⟩,
    C79_post_ack (Reach.after _ _ _) ?_ rfl ?_ ?_ ?_⟩
  · intro i ct p hm
    rw [lateDetach_log] at hm ⊢
    simp at hm
    rw [hm.1]; rfl
  · intro n hn
    have h2 : (spec lateDetachConf.sh.log).posts = 2 := rfl
    rw [lateDetach_log]
    have : n = 0 ∨ n = 1 := by omega
    rcases this with rfl | rfl <;> simp
  · rintro a ⟨l, hl, hx⟩
    rw [lateDetach_acts] at hl
    simp at hl
    rcases hl with rfl | rfl <;> simp at hx
  · rintro a ⟨l, hl, hx⟩
    rw [lateDetach_acts] at hl
    simp at hl
    rcases hl with rfl | rfl <;> simp at hx

end Verif.PostAck
