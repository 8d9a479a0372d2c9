import Verif.Destroy.Event
import Verif.Destroy.Object
import Verif.Destroy.PostAck
import Verif.Callback.Destroy

/-!
# What the hypotheses "no such call is about to take effect" of C78 and C79 mean

Some of these theorems assume that certain instructions are not pending: the first instruction of `cancel()`,
`is_cancellation_requested()`, `maybe_get()`, `add()`, …. The user knows whether they have made such a call. The functions of the
library never make one on their own account, so that nothing else can violate these hypotheses.
-/

namespace Verif

/-- Instruction `y` is pending only if a caller has called the function that begins with it: running calls never get to `y`. -/
def OnlyByCaller (M : Mach) (y : M.ι) : Prop :=
  ∀ (c c' : Conf M) (k : Nat) (b : Bool), M.step c (.run k b) = some c' → Pending c'.acts y → Pending c.acts y

theorem onlyByCaller_of {M : Mach} {y : M.ι} (h : ∀ s x b s' p, M.exec s x b = .ok s' p → y ∉ p) : OnlyByCaller M y := by
  intro c c' k b hs hp
  simp only [Mach.step] at hs
  split at hs
  · cases hs
  · split at hs
    · rename_i x r hk
      split at hs
      · rename_i s' p he
        cases hs
        obtain ⟨a, ha, hy⟩ := hp
        rcases List.mem_or_eq_of_mem_set ha with h1 | rfl
        · exact ⟨a, h1, hy⟩
        · rcases List.mem_append.1 hy with h1 | h1
          · exact absurd h1 (h _ _ _ _ _ he)
          · exact ⟨_, List.mem_of_getElem? hk, by simp [h1]⟩
      · cases hs
      · cases hs; exact hp
    · cases hs

end Verif

/-- C78. `cancel()` and `is_cancellation_requested()` take effect only when called. -/
theorem Verif.Callback.C78_callbacks_calls (e : EvId) :
    OnlyByCaller mach (.cancelCS e) ∧ OnlyByCaller mach (.query (some e)) := by
  constructor <;> apply onlyByCaller_of <;> intro s x b s' p he hm <;>
    (simp only [exec, St.remove] at he; split at he <;> (repeat' split at he) <;> cases he <;> simp at hm)

/-- C78, the same. -/
theorem Verif.Suspend.C78_suspend_calls (e : EvId) : OnlyByCaller mach (.cancelCS e) := by
  apply onlyByCaller_of
  intro s x b s' p he hm
  simp only [exec] at he
  split at he <;> (repeat' split at he) <;> cases he <;> simp at hm

/-- C78, the same. -/
theorem Verif.WithCancel.C78_with_cancel_calls (e : EvId) : OnlyByCaller mach (.cancelCS e) := by
  apply onlyByCaller_of
  intro s x b s' p he hm
  simp only [exec] at he
  split at he <;> (repeat' split at he) <;> cases he <;> simp at hm

namespace Verif.Resolver

/-- C78, the same, for the operations that use `cancellation_resolver`. -/
theorem C78_resolver_calls (S : DS) (e : EvId) : OnlyByCaller (mach S) (.cancel e) := by
  apply onlyByCaller_of
  intro s x b s' p he hm
  cases x <;> simp only [exec] at he
  case ds y =>
    split at he <;> cases he
    obtain ⟨q, _, hq⟩ := List.mem_map.1 hm
    cases q <;> cases hq
  case cancel e' =>
    cases he
    obtain ⟨q, _, hq⟩ := List.mem_map.1 hm
    cases hq
  all_goals (repeat' split at he) <;> cases he <;> simp at hm

theorem ds_calls {S : DS} {y : S.I} (h : ∀ d x b d' ps es, S.exec d x b = some (d', ps, es) → .inr y ∉ ps) :
    OnlyByCaller (mach S) (.ds y) := by
  apply onlyByCaller_of
  intro s x b s' p he hm
  cases x <;> simp only [exec] at he
  case ds z =>
    split at he
    · cases he
    · rename_i d' ps es hx
      cases he
      obtain ⟨q, hq, hq2⟩ := List.mem_map.1 hm
      cases q with
      | inl => cases hq2
      | inr w => cases hq2; exact h _ _ _ _ _ _ hx hq
  case cancel e' =>
    cases he
    obtain ⟨q, _, hq⟩ := List.mem_map.1 hm
    cases hq
  all_goals (repeat' split at he) <;> cases he <;> simp at hm

end Verif.Resolver

open Verif.Resolver

/-- C79. `put()` and `maybe_get()` take effect only when called. -/
theorem Verif.Queue.C79_queue_calls (T : Type) (y : I T) : OnlyByCaller (mach (ds T)) (.ds y) := by
  refine ds_calls fun d x b d' ps es he hm => ?_
  simp only [exec] at he
  split at he <;> (repeat' split at he) <;> cases he <;> simp at hm

/-- C79. `add()` takes effect only when called. -/
theorem Verif.WaitGroup.C79_wait_group_calls (T : Type) (cf : Cfg) (n : Nat) (w : Option Nat) :
    OnlyByCaller (mach (ds T cf)) (.ds (.add n w)) := by
  have hd : ∀ v u l, decide_ (T := T) v u = some l → .inr (.add n w) ∉ l := by
    intro v u l he hm
    simp only [decide_] at he
    (repeat' split at he) <;> cases he <;> simp at hm
  have hc : ∀ u, .inr (.add n w) ∉ cont (T := T) u := by
    intro u hm
    cases u <;> simp [cont] at hm
  refine ds_calls fun d x b d' ps es he hm => ?_
  cases x <;> simp only [exec] at he
  case add m u => split at he <;> cases he <;> simp at hm
  case ld u =>
    obtain ⟨l, h1, h2⟩ := Option.map_eq_some_iff.1 he
    cases h2; exact hd _ _ _ h1 hm
  case cas v u =>
    split at he
    · cases he; exact hc _ hm
    · obtain ⟨l, h1, h2⟩ := Option.map_eq_some_iff.1 he
      cases h2; exact hd _ _ _ h1 hm
  case lock u =>
    split at he
    · cases he
    · split at he <;> cases he
      · exact hc _ hm
      · rcases List.mem_append.1 hm with h | h
        · obtain ⟨q, _, hq⟩ := List.mem_map.1 h
          cases hq
        · exact hc _ h
  all_goals cases he; simp at hm

/-- C79. `raise()` of sequenced_event and `arrive()` take effect only when called. -/
theorem Verif.Recurring.C79_recurring_event_calls (X : User) (a : X.A) : OnlyByCaller (mach (ds X)) (.ds (.act a)) := by
  refine ds_calls fun d x b d' ps es he hm => ?_
  simp only [exec] at he
  split at he <;> (repeat' split at he) <;> cases he <;> simp at hm

/-- C79. `post()` and `attach()` take effect only when called. -/
theorem Verif.PostAck.C79_post_ack_calls (T : Type) : (∀ y, OnlyByCaller (mach (ds T)) (.ds (.post y))) ∧
    (∀ a, OnlyByCaller (mach (ds T)) (.ds (.attach a))) := by
  have hr : ∀ (d : D) a r d' ps es, release (T := T) d a r = some (d', ps, es) →
      (∀ y, .inr (.post y) ∉ ps) ∧ ∀ a', .inr (.attach a') ∉ ps := by
    intro d a r d' ps es he
    simp only [release] at he
    (repeat' split at he) <;> cases he <;> simp
  have h : ∀ (d : D) x d' ps es, exec (T := T) d x = some (d', ps, es) →
      (∀ y, .inr (.post y) ∉ ps) ∧ ∀ a', .inr (.attach a') ∉ ps := by
    intro d x d' ps es he
    cases x <;> simp only [exec] at he
    case detach a =>
      split at he
      · cases he
      · split at he
        · split at he
          · rename_i h1; cases he; exact hr _ _ _ _ _ _ h1
          · cases he
        · cases he; simp
    case det a r =>
      split at he
      · cases he; simp
      · exact hr _ _ _ _ _ _ he
    case ack a n =>
      split at he <;> cases he
      split <;> simp
    all_goals (repeat' split at he) <;> cases he <;> simp
  exact ⟨fun y => ds_calls fun d x b d' ps es he => (h _ _ _ _ _ he).1 y,
    fun a => ds_calls fun d x b d' ps es he => (h _ _ _ _ _ he).2 a⟩

/-! ## Concrete cases: another call makes a step while the instruction is pending -/

example : Verif.Pending ((mach (Verif.Queue.ds Nat)).after (RSt.init Verif.Queue.init)
    [.env (.newOp 0 none ()), .env (.call .maybeGet)]).acts (.ds .maybeGet) :=
  Verif.Queue.C79_queue_calls Nat .maybeGet _ ((mach (Verif.Queue.ds Nat)).after (RSt.init Verif.Queue.init)
    [.env (.newOp 0 none ()), .env (.call .maybeGet), .run 0 true]) 0 true rfl
    ⟨[.ds .maybeGet], List.mem_of_getElem? (i := 1) rfl, by simp⟩

example : Verif.Pending ((mach (Verif.Queue.ds Nat)).after (RSt.init Verif.Queue.init)
    [.env (.newOp 0 (some 7) ()), .env (.cancel 7)]).acts (.cancel 7) :=
  C78_resolver_calls (Verif.Queue.ds Nat) 7 _ ((mach (Verif.Queue.ds Nat)).after (RSt.init Verif.Queue.init)
    [.env (.newOp 0 (some 7) ()), .env (.cancel 7), .run 0 true]) 0 true rfl
    ⟨[.cancel 7], List.mem_of_getElem? (i := 1) rfl, by simp⟩

example : Verif.Pending (Verif.Callback.mach.after (Verif.Callback.init true)
    [.env (.ctor 0 (some 7)), .env (.query (some 7))]).acts (.query (some 7)) :=
  (Verif.Callback.C78_callbacks_calls 7).2 _ (Verif.Callback.mach.after (Verif.Callback.init true)
    [.env (.ctor 0 (some 7)), .env (.query (some 7)), .run 0 true]) 0 true rfl
    ⟨[.query (some 7)], List.mem_of_getElem? (i := 1) rfl, by simp⟩
