import Verif.Callback.Destroy
import Verif.Suspend.Props
import Verif.WithCancel.Props
import Verif.Queue.Props
import Verif.Recurring.Props
import Verif.WaitGroup.Props
import Verif.Promise.Props
import Verif.PostAck.Props

/-!
# Destruction of a `cancellation_event` (cancellation.hpp lines 42-45)

The destructor asserts that the list `_cbs` is empty. For each user of the list: once everything that was
given a token of the event has completed, the list is empty and nothing accesses the event any more. A call
of `cancel()` that is past its critical section does not count as an access (lines 342-346 use the local list
only), so the event may be destroyed by code that `cancel()` itself runs.
-/

/-! ## `suspend_indefinitely` -/

namespace Verif.Suspend

/-- The operation that an instruction belongs to. -/
def opOf : Instr → Option Id
  | .attach i _ | .tOr i _ | .rst i _ _ | .sub i _ | .setv i => some i
  | _ => none

/-- The instruction belongs to an operation with a token of event `e`, or is `cancel()` of `e` before its
critical section. -/
def accesses (s : St) (e : EvId) (x : Instr) : Prop :=
  x = .cancelCS e ∨ ∃ i, opOf x = some i ∧ some e ∈ s.toks i

theorem opOf_running {s : St} {acts : List (List Instr)} (h : Inv1 s acts) {x : Instr} (hx : Pending acts x)
    {i : Id} (ho : opOf x = some i) : s.phase i = .running := by
  have hw := h.wt x hx
  cases x <;> simp only [opOf, Option.some.injEq, reduceCtorEq] at ho <;> subst ho
  · exact h.running hx (by simp [unit])
  · exact h.running hx (by simp [unit])
  · exact h.running hx (by simp only [WT] at hw; simp [unit]; omega)
  · exact h.running hx (by simp only [WT] at hw; simp [unit]; omega)
  · exact (h.setv_running hx).1

theorem mem_mkObs {i : Id} {toks : List (Option EvId)} {o : Obs}
    (h : o ∈ mkObs i toks) : o.op = i ∧ o.tok ∈ toks := by
  simp only [mkObs, List.mem_map] at h
  obtain ⟨⟨t, k⟩, hk, rfl⟩ := h
  refine ⟨rfl, ?_⟩
  have := List.mem_zipIdx hk
  simp at this
  rw [this.2]; exact List.getElem_mem _

theorem started {c : Conf mach} (h : SReach c) {i : Id} (hr : c.sh.phase i ≠ .fresh) :
    .start i (c.sh.toks i) ∈ c.sh.log := by
  have h2 := reach_inv2 h
  have ht := (reach_inv1 h).toks i hr
  obtain ⟨a, l, hl⟩ := List.exists_cons_of_ne_nil ht.1
  have hm : ⟨i, 0, a⟩ ∈ mkObs i (c.sh.toks i) := by simp [mkObs, hl]
  obtain ⟨t, h3, _⟩ := mem_made ((h2.mop ⟨i, 0, a⟩).2 ⟨hr, hm⟩)
  have h4 := ((reach_inv3 h).st i t h3).2
  rw [h4]; exact h3

/-- C78, `suspend_indefinitely`. -/
theorem C78_suspend {c : Conf mach} (h : SReach c) {e : EvId}
    (hd : ∀ i t, .start i t ∈ c.sh.log → some e ∈ t → .done i ∈ c.sh.log)
    (hc : ¬ Pending c.acts (.cancelCS e)) :
    listOf e c.sh.pool = [] ∧ ∀ x, Pending c.acts x → ¬ accesses c.sh e x := by
  have h1 := reach_inv1 h
  have h2 := reach_inv2 h
  have h3 := reach_inv3 h
  have fin : ∀ i, c.sh.phase i = .running → some e ∉ c.sh.toks i := by
    intro i hr hm
    have := (h3.dn i).1 (hd i _ (started h (by simp [hr])) hm)
    simp [hr] at this
  constructor
  · rw [listOf, List.filter_eq_nil_iff]
    intro o ho he
    simp at he
    have hr : c.sh.phase o.op = .running := by
      apply Classical.byContradiction
      intro hn
      have := h1.ctr o.op
      have h5 := List.countP_pos_iff (p := ofOp o.op) |>.2 ⟨o, ho, by simp [ofOp]⟩
      rw [if_neg hn] at this
      omega
    refine fin _ hr ?_
    have h6 : o ∈ made c.sh.log := by
      have h7 := h2.place (fun p => p == o)
      have h8 := List.countP_pos_iff (p := fun p => p == o) |>.2 ⟨o, ho, by simp⟩
      obtain ⟨y, hy, hz⟩ := List.countP_pos_iff.1 (by omega : 0 < (made c.sh.log).countP (fun p => p == o))
      simp at hz; exact hz ▸ hy
    have h7 := ((h2.mop o).1 h6).2
    exact he ▸ (mem_mkObs h7).2
  · intro x hx ha
    rcases ha with rfl | ⟨i, hi, hm⟩
    · exact hc hx
    · exact fin i (opOf_running h1 hx hi) hm

end Verif.Suspend

/-! ## `with_cancel_cb` -/

namespace Verif.WithCancel

/-- The operation that an instruction belongs to. -/
def opOf : Instr → Option Id
  | .set i | .istart i | .store i _ | .tryReset i | .sub i _ | .cb i | .cbRet i | .complete i => some i
  | _ => none

/-- The instruction belongs to an operation with a token of event `e`, or is `cancel()` of `e` before its
critical section. -/
def accesses (s : St) (e : EvId) (x : Instr) : Prop :=
  x = .cancelCS e ∨ ∃ i, opOf x = some i ∧ s.tok i = some e

theorem opOf_running {s : St} {acts : List (List Instr)} (h : Inv1 s acts) {x : Instr} (hx : Pending acts x)
    {i : Id} (ho : opOf x = some i) : s.phase i = .running := by
  cases x <;> simp only [opOf, Option.some.injEq, reduceCtorEq] at ho <;> subst ho
  case sub b =>
    cases b
    · exact h.running_b hx (by simp [bw])
    · exact (h.running_a hx (by simp [aw])).1
  case complete => exact (h.running_c hx).1
  case istart => exact (h.running_s hx (by simp [sw])).1
  case store => exact (h.running_a hx (by simp [aw])).1
  case tryReset => exact (h.running_a hx (by simp [aw])).1
  all_goals exact h.running_b hx (by simp [bw])

/-- C78, `with_cancel_cb`. -/
theorem C78_with_cancel {c : Conf mach} (h : WReach c) {e : EvId}
    (hd : ∀ i, .start i (some e) ∈ c.sh.log → ∃ v, .done i v ∈ c.sh.log)
    (hc : ¬ Pending c.acts (.cancelCS e)) :
    listOf c.sh e = [] ∧ ∀ x, Pending c.acts x → ¬ accesses c.sh e x := by
  have h1 := reach_inv1 h
  have h2 := reach_inv2 h
  have fin : ∀ i, c.sh.phase i = .running → c.sh.tok i ≠ some e := by
    intro i hr hm
    obtain ⟨v, hv⟩ := hd i ((h2.st i _).2 ⟨by simp [hr], hm⟩)
    have := (h2.dn i).1 ⟨v, hv⟩
    simp [hr] at this
  constructor
  · rw [listOf, List.filter_eq_nil_iff]
    intro i hi he
    simp at he
    refine fin i ?_ he
    apply Classical.byContradiction
    intro hn
    have h3 := (h1.off i hn).2.1
    have h4 := mem_num.1 hi
    unfold tb at h3
    omega
  · intro x hx ha
    rcases ha with rfl | ⟨i, hi, hm⟩
    · exact hc hx
    · exact fin i (opOf_running h1 hx hi) hm

end Verif.WithCancel

/-! ## Operations that use `cancellation_resolver` -/

namespace Verif.Resolver

variable {S : DS} {d0 : S.D}

/-- The instruction belongs to an operation with a token of event `e`, or is `cancel()` of `e` before its
critical section. -/
def accesses (s : RSt S) (e : EvId) (x : Instr S) : Prop :=
  x = .cancel e ∨ ∃ i, x.op = some i ∧ s.ct i = some e

/-- Every operation with a token of event `e` is completed. -/
def Released (e : EvId) (log : List (Ev S)) : Prop :=
  ∀ i p, Ev.begin i (some e) p ∈ log → completions i log = 1

/-- C78, partial, for every data structure that keeps its contract. The list is empty, so the assertion in the
destructor holds. An access to the event is possible if the event is cancelled, by a call that was preempted
between the `fetch_or` in `transition_` and the access that follows it (see `C78_queue_false`). Missing: that
there is no such access. -/
theorem C78_resolver_partial (L : Lawful S d0) {c : Conf (mach S)} (h : Reach (mach S) (RSt.init d0) c)
    {e : EvId} (hd : Released e c.sh.log) (hc : ¬ Pending c.acts (.cancel e)) :
    c.sh.cbs e = [] ∧ ∀ x, Pending c.acts x → accesses c.sh e x →
      cancelled e c.sh.log = true ∧ ∃ i, x = .unregister i := by
  obtain ⟨ph, _, hC⟩ := reach_inv L h
  have fin : ∀ i, c.sh.started i = true → c.sh.ct i = some e → completions i c.sh.log = 1 := by
    intro i hs he
    obtain ⟨p, hp⟩ := hC.gl.g4 i hs
    exact hd i p (he ▸ hp)
  constructor
  · rw [List.eq_nil_iff_forall_not_mem]
    intro i hi
    have hct := hC.gl.g3 e i hi
    have h1 := fin i (hC.cbs_started hi) hct
    have h2 := ((hC.op i).after ((hC.done_iff i).1 h1)).2.2.2.2.2.2.2.2.2.2.2.1
    simp only [view, inC, hct] at h2
    exact absurd (List.count_pos_iff.2 hi) (by omega)
  · intro x hx ha
    rcases ha with rfl | ⟨i, hi, hm⟩
    · exact absurd hx hc
    · have h1 := fin i (hC.op_started hx hi) hm
      obtain ⟨h2, e', h3, h4⟩ := hC.after h1 hx hi
      rw [hm] at h3; cases h3
      exact ⟨by rw [← req_eq h]; exact h4, i, h2⟩

/-- C78, partial. On schedules without preemption at this point nothing accesses the event any more. -/
theorem C78_resolver_coop_partial (L : Lawful S d0) {c : Conf (mach S)} (h : CoopReach S d0 c)
    {e : EvId} (hd : Released e c.sh.log) (hc : ¬ Pending c.acts (.cancel e)) :
    c.sh.cbs e = [] ∧ ∀ x, Pending c.acts x → ¬ accesses c.sh e x := by
  have h0 := C78_resolver_partial L h.reach hd hc
  refine ⟨h0.1, fun x hx ha => ?_⟩
  rcases ha with rfl | ⟨i, hi, hm⟩
  · exact hc hx
  · obtain ⟨ph, _, hC⟩ := reach_inv L h.reach
    obtain ⟨p, hp⟩ := hC.gl.g4 i (hC.op_started hx hi)
    exact C05_not_touched_after_completion_partial L h (hd i p (hm ▸ hp)) hx hi

end Verif.Resolver

namespace Verif.Queue

open Resolver

variable {T : Type}

/-- C78 for `queue`, partial, see `C78_resolver_partial`. -/
theorem C78_queue_partial {c : Conf (mach (ds T))} (h : QReach c) {e : EvId} (hd : Released e c.sh.log)
    (hc : ¬ Pending c.acts (.cancel e)) :
    c.sh.cbs e = [] ∧ ∀ x, Pending c.acts x → accesses c.sh e x →
      cancelled e c.sh.log = true ∧ ∃ i, x = .unregister i := C78_resolver_partial (lawful T) h hd hc

/-- C78 for `queue`, partial, see `C78_resolver_coop_partial`. -/
theorem C78_queue_coop_partial {c : Conf (mach (ds T))} (h : CoopReach (ds T) init c) {e : EvId}
    (hd : Released e c.sh.log) (hc : ¬ Pending c.acts (.cancel e)) :
    c.sh.cbs e = [] ∧ ∀ x, Pending c.acts x → ¬ accesses c.sh e x := C78_resolver_coop_partial (lawful T) h hd hc

/-- C78 is false for operations that use `cancellation_resolver`: the only consumer with a token of event 7 has
completed, `cancel()` has returned, and `put()` is about to lock the mutex of the event. -/
theorem C78_queue_false : ∃ c : Conf M, QReach c ∧ Released 7 c.sh.log ∧ ¬ Pending c.acts (.cancel 7) ∧
    ∃ x, Pending c.acts x ∧ accesses c.sh 7 x := by
  refine ⟨M.after (RSt.init init) race, Reach.after _ _ _, ?_, ?_, .unregister 0, ?_, .inr ⟨0, rfl, rfl⟩⟩
  · intro i p hm
    rw [race_log] at hm ⊢
    simp at hm
    rw [hm]; rfl
  · rintro ⟨a, ha, hx⟩
    rw [race_acts] at ha
    simp at ha
    rcases ha with rfl | rfl | rfl <;> simp at hx
  · exact ⟨[.unregister 0], by rw [race_acts]; simp, by simp⟩

end Verif.Queue

namespace Verif.Recurring

open Resolver

variable {X : User} {u0 : X.U}

/-- C78 for `recurring_event` (also `sequenced_event`, `barrier`), partial, see `C78_resolver_partial`. -/
theorem C78_recurring_event_partial (O : UserOk X u0) {c : Conf (mach (ds X))} (h : RReach u0 c) {e : EvId}
    (hd : Released e c.sh.log) (hc : ¬ Pending c.acts (.cancel e)) :
    c.sh.cbs e = [] ∧ ∀ x, Pending c.acts x → accesses c.sh e x →
      cancelled e c.sh.log = true ∧ ∃ i, x = .unregister i := C78_resolver_partial (lawful O) h hd hc

/-- C78 for `recurring_event`, partial, see `C78_resolver_coop_partial`. -/
theorem C78_recurring_event_coop_partial (O : UserOk X u0) {c : Conf (mach (ds X))}
    (h : CoopReach (ds X) (init u0) c) {e : EvId} (hd : Released e c.sh.log) (hc : ¬ Pending c.acts (.cancel e)) :
    c.sh.cbs e = [] ∧ ∀ x, Pending c.acts x → ¬ accesses c.sh e x := C78_resolver_coop_partial (lawful O) h hd hc

end Verif.Recurring

namespace Verif.WaitGroup

open Resolver

variable {T : Type} {c : Cfg} {n : Nat}

/-- C78 for `wait_group` and `oneshot_event`, partial, see `C78_resolver_partial`. -/
theorem C78_wait_group_partial (h1 : c.safeAdd = true) (h2 : c.safeDone = true) {k : Conf (mach (ds T c))}
    (h : WReach n k) {e : EvId} (hd : Released e k.sh.log) (hc : ¬ Pending k.acts (.cancel e)) :
    k.sh.cbs e = [] ∧ ∀ x, Pending k.acts x → accesses k.sh e x →
      cancelled e k.sh.log = true ∧ ∃ i, x = .unregister i := C78_resolver_partial (lawful n h1 h2) h hd hc

/-- C78 for `wait_group` and `oneshot_event`, partial, see `C78_resolver_coop_partial`. -/
theorem C78_wait_group_coop_partial (h1 : c.safeAdd = true) (h2 : c.safeDone = true) {k : Conf (mach (ds T c))}
    (h : CoopReach (ds T c) (init n) k) {e : EvId} (hd : Released e k.sh.log)
    (hc : ¬ Pending k.acts (.cancel e)) : k.sh.cbs e = [] ∧ ∀ x, Pending k.acts x → ¬ accesses k.sh e x :=
  C78_resolver_coop_partial (lawful n h1 h2) h hd hc

end Verif.WaitGroup

namespace Verif.Promise

open Resolver

variable {T : Type}

/-- C78 for `future::get`, partial, see `C78_resolver_partial`. -/
theorem C78_promise_partial {c : Conf (mach (ds T))} (h : PReach c) {e : EvId} (hd : Released e c.sh.log)
    (hc : ¬ Pending c.acts (.cancel e)) :
    c.sh.cbs e = [] ∧ ∀ x, Pending c.acts x → accesses c.sh e x →
      cancelled e c.sh.log = true ∧ ∃ i, x = .unregister i := C78_resolver_partial (lawful T) h hd hc

/-- C78 for `future::get`, partial, see `C78_resolver_coop_partial`. -/
theorem C78_promise_coop_partial {c : Conf (mach (ds T))} (h : CoopReach (ds T) init c) {e : EvId}
    (hd : Released e c.sh.log) (hc : ¬ Pending c.acts (.cancel e)) :
    c.sh.cbs e = [] ∧ ∀ x, Pending c.acts x → ¬ accesses c.sh e x := C78_resolver_coop_partial (lawful T) h hd hc

end Verif.Promise

namespace Verif.PostAck

open Resolver

variable {T : Type}

/-- C78 for `poll`, partial, see `C78_resolver_partial`. -/
theorem C78_post_ack_partial {c : Conf (mach (ds T))} (h : KReach c) {e : EvId} (hd : Released e c.sh.log)
    (hc : ¬ Pending c.acts (.cancel e)) :
    c.sh.cbs e = [] ∧ ∀ x, Pending c.acts x → accesses c.sh e x →
      cancelled e c.sh.log = true ∧ ∃ i, x = .unregister i := C78_resolver_partial (lawful T) h hd hc

/-- C78 for `poll`, partial, see `C78_resolver_coop_partial`. -/
theorem C78_post_ack_coop_partial {c : Conf (mach (ds T))} (h : CoopReach (ds T) init c) {e : EvId}
    (hd : Released e c.sh.log) (hc : ¬ Pending c.acts (.cancel e)) :
    c.sh.cbs e = [] ∧ ∀ x, Pending c.acts x → ¬ accesses c.sh e x := C78_resolver_coop_partial (lawful T) h hd hc

end Verif.PostAck
