import Verif.Destroy.Event

/-! # The hypotheses of the theorems about the destruction of events are met -/

namespace Verif.Callback

/-- One callback is invoked and destroyed, one is destroyed before `cancel()`, one observer is invoked, one reset and
one refused; `cancel()` has not returned. -/
def destroyDemo : Conf mach := mach.after (init true)
  [.env (.ctor 0 (some 5)), .run 0 true, .env (.ctor 1 (some 5)), .run 1 true, .env (.dtor 1), .run 2 true, .run 2 true,
   .env (.set 2 (some 5) true), .run 3 true, .env (.set 3 (some 5) true), .run 4 true, .env (.treset 3), .run 5 true,
   .run 5 true, .env (.cancel 5), .run 6 true, .run 6 true, .run 6 true, .run 6 true, .env (.dtor 0), .run 7 true,
   .run 7 true, .env (.set 4 (some 5) false), .run 8 true]

set_option maxRecDepth 10000 in
theorem destroyDemo_log : destroyDemo.sh.log =
    [.ctor 0 (some 5), .bound 0 5, .ctor 1 (some 5), .bound 1 5, .dtor 1, .erase 1 5, .dead 1, .set 2 (some 5) true,
     .bound 2 5, .set 3 (some 5) true, .bound 3 5, .treset 3, .erase 3 5, .tret 3 true, .cancel 5, .call 0 5, .ret 0,
     .call 2 5, .dtor 0, .dead 0, .set 4 (some 5) false, .refuse 4 5] := by rfl

theorem destroyDemo_acts : destroyDemo.acts = [[], [], [], [], [], [], [.ret 2 5 []], [], []] := by rfl

theorem destroyDemo_released : Released 5 destroyDemo.sh.log := by
  rw [destroyDemo_log]
  constructor
  · intro i h
    simp at h
    rcases h with rfl | rfl <;> simp
  · intro i f h
    simp at h
    rcases h with ⟨rfl, _⟩ | ⟨rfl, _⟩ | ⟨rfl, _⟩ <;> simp

example : destroyDemo.sh.cbs 5 = [] :=
  (C78_callbacks (c := destroyDemo) (b := true) (Reach.after _ _ _) destroyDemo_released
    (by rintro ⟨a, ha, hx⟩; rw [destroyDemo_acts] at ha; simp at ha; rcases ha with rfl | rfl | rfl <;> simp at hx)
    (by rintro ⟨a, ha, hx⟩; rw [destroyDemo_acts] at ha; simp at ha; rcases ha with rfl | rfl | rfl <;> simp at hx)).1

end Verif.Callback

namespace Verif.Suspend

/-- The operation has completed inside `cancel()`, which has not returned; another operation is waiting. -/
def destroyDemo : Conf mach := mach.after init
  ([.env (.start 1 [some 6])] ++ List.replicate 4 (.run 0 true) ++
   [.env (.start 0 [some 5, none])] ++ List.replicate 5 (.run 1 true) ++ [.env (.cancel 5)] ++ List.replicate 8 (.run 2 true))

set_option maxRecDepth 10000 in
theorem destroyDemo_log : destroyDemo.sh.log =
    [.start 1 [some 6], .attached 1, .start 0 [some 5, none], .attached 0, .cancel 5, .fire ⟨0, 0, some 5⟩,
     .reset ⟨0, 1, none⟩, .done 0] := by rfl

set_option maxRecDepth 10000 in
theorem destroyDemo_acts : destroyDemo.acts = [[], [], [.drain []]] := by rfl

example : listOf 5 destroyDemo.sh.pool = [] :=
  (C78_suspend (c := destroyDemo) (Reach.after _ _ _)
    (by
      intro i t h he
      rw [destroyDemo_log] at h ⊢
      simp at h
      rcases h with ⟨rfl, rfl⟩ | ⟨rfl, rfl⟩ <;> simp at he ⊢)
    (by rintro ⟨a, ha, hx⟩; rw [destroyDemo_acts] at ha; simp at ha; rcases ha with rfl | rfl <;> simp at hx)).1

end Verif.Suspend

namespace Verif.WithCancel

/-- The inner operation completes while `cancel()` runs; the operation has completed inside `cancel()`, which has not
returned; another operation is waiting. -/
def destroyDemo : Conf mach := mach.after init
  ([.env (.start 1 (some 6))] ++ List.replicate 2 (.run 0 true) ++
   [.env (.start 0 (some 5))] ++ List.replicate 2 (.run 1 true) ++ [.env (.finish 0 7), .run 2 true, .env (.cancel 5)] ++
   [.run 3 true, .run 2 true, .run 2 true] ++ List.replicate 5 (.run 3 true))

set_option maxRecDepth 10000 in
theorem destroyDemo_log : destroyDemo.sh.log =
    [.start 1 (some 6), .istart 1, .start 0 (some 5), .istart 0, .inner 0 7, .cancel 5, .cb 0, .cbRet 0, .done 0 7] := by
  rfl

set_option maxRecDepth 10000 in
theorem destroyDemo_acts : destroyDemo.acts = [[], [], [], [.drain []]] := by rfl

example : listOf destroyDemo.sh 5 = [] :=
  (C78_with_cancel (c := destroyDemo) (Reach.after _ _ _)
    (by
      intro i h
      rw [destroyDemo_log] at h ⊢
      simp at h
      subst h; simp)
    (by rintro ⟨a, ha, hx⟩; rw [destroyDemo_acts] at ha; simp at ha; rcases ha with rfl | rfl <;> simp at hx)).1

end Verif.WithCancel

namespace Verif.Queue

open Resolver

/-- In `race` the access that remains is the one in `transition_`. -/
example : ∃ i, (Instr.unregister 0 : Instr (ds Nat)) = .unregister i :=
  ((C78_queue_partial (c := M.after (RSt.init init) race) (e := 7) (Reach.after _ _ _)
    (by
      intro i p hm
      rw [race_log] at hm ⊢
      simp at hm
      rw [hm]; rfl)
    (by
      rintro ⟨a, ha, hx⟩
      rw [race_acts] at ha
      simp at ha
      rcases ha with rfl | rfl | rfl <;> simp at hx)).2 _
    ⟨[.unregister 0], by rw [race_acts]; simp, by simp⟩ (.inr ⟨0, rfl, rfl⟩)).2

/-- Without preemption; another consumer is about to start. -/
abbrev destroyDemo : Conf M := coopAfter init (run1 ++ [.env (.newOp 2 none ())])

theorem destroyDemo_acts : destroyDemo.acts = [[], [], [], [], [], [.start 2]] := by rfl
theorem destroyDemo_log : destroyDemo.sh.log =
    [.begin 0 none (), .ds (.enq 0), .begin 1 (some 7) (), .ds (.enq 1), .cancel 7,
     .ds (.unq 1), .done 1 none, .ds (.put 5), .ds (.claim (some 0) 5), .done 0 (some 5),
     .ds (.put 6), .begin 2 none ()] := by rfl

example : ¬ accesses destroyDemo.sh 7 (.start 2) :=
  (C78_queue_coop_partial (c := destroyDemo) (e := 7) (coopAfter_reach _ _)
    (by
      intro i p hm
      rw [destroyDemo_log] at hm ⊢
      simp at hm
      rw [hm]; rfl)
    (by rintro ⟨a, ha, hx⟩; rw [destroyDemo_acts] at ha; simp at ha; rcases ha with rfl | rfl <;> simp at hx)).2 _
    ⟨[.start 2], by rw [destroyDemo_acts]; simp, by simp⟩

end Verif.Queue


namespace Verif.Recurring

open Resolver

theorem demo_released : Released 7 demo.sh.log := by
  intro i p hm
  rw [show demo.sh.log = _ from run1_log] at hm ⊢
  simp at hm
  obtain ⟨rfl, _⟩ := hm
  rfl

example : demo.sh.cbs 7 = [] :=
  (C78_recurring_event_partial (flagOk true) demo_reach demo_released (by rintro ⟨a, ha, hx⟩; rw [demo_rest a ha] at hx; simp at hx)).1

example : demo.sh.cbs 7 = [] :=
  (C78_recurring_event_coop_partial (flagOk true) (c := demo) (coopAfter_reach (init true) run1) demo_released
    (by rintro ⟨a, ha, hx⟩; rw [demo_rest a ha] at hx; simp at hx)).1

end Verif.Recurring

namespace Verif.WaitGroup

open Resolver

theorem demo_released : Released 7 demo.sh.log := by
  intro i p hm
  rw [show demo.sh.log = _ from run1_log] at hm ⊢
  simp at hm
  obtain ⟨rfl, _⟩ := hm
  rfl

example : demo.sh.cbs 7 = [] :=
  (C78_wait_group_partial rfl rfl demo_reach demo_released (by rintro ⟨a, ha, hx⟩; rw [demo_rest a ha] at hx; simp at hx)).1

example : demo.sh.cbs 7 = [] :=
  (C78_wait_group_coop_partial rfl rfl (k := demo) (coopAfter_reach (init 0) run1) demo_released
    (by rintro ⟨a, ha, hx⟩; rw [demo_rest a ha] at hx; simp at hx)).1

end Verif.WaitGroup

namespace Verif.Promise

open Resolver

theorem demo_released : Released 7 demo.sh.log := by
  intro i p hm
  rw [show demo.sh.log = _ from run1_log] at hm ⊢
  simp at hm
  obtain ⟨rfl, _⟩ := hm
  rfl

example : demo.sh.cbs 7 = [] :=
  (C78_promise_partial demo_reach demo_released (by rintro ⟨a, ha, hx⟩; rw [demo_rest a ha] at hx; simp at hx)).1

example : demo.sh.cbs 7 = [] :=
  (C78_promise_coop_partial (c := demo) (coopAfter_reach init run1) demo_released
    (by rintro ⟨a, ha, hx⟩; rw [demo_rest a ha] at hx; simp at hx)).1

end Verif.Promise

namespace Verif.PostAck

open Resolver

theorem demo_released : Released 7 demo.sh.log := by
  intro i p hm
  rw [show demo.sh.log = _ from run1_log] at hm ⊢
  simp at hm
  obtain ⟨rfl, _⟩ := hm
  rfl

example : demo.sh.cbs 7 = [] :=
  (C78_post_ack_partial demo_reach demo_released (by rintro ⟨a, ha, hx⟩; rw [demo_rest a ha] at hx; simp at hx)).1

example : demo.sh.cbs 7 = [] :=
  (C78_post_ack_coop_partial (c := demo) (coopAfter_reach init run1) demo_released
    (by rintro ⟨a, ha, hx⟩; rw [demo_rest a ha] at hx; simp at hx)).1

end Verif.PostAck
