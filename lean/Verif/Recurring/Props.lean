import Verif.Recurring.Proof
import Verif.Resolver.Props

/-!
# Properties of `recurring_event`

The theorems hold for every user program `X` around the event (see `Verif/Recurring/Model.lean`)
that does not fail assertions of its own (`UserOk`). `waiters`, `uOf` and `wakes` read a history.
-/

namespace Verif.Recurring

open Resolver

variable {X : User} {u0 : X.U}

/-- Reachable configurations of an event in a user program. -/
abbrev RReach (u0 : X.U) (c : Conf (mach (ds X))) : Prop :=
  Reach (mach (ds X)) (RSt.init (init u0)) c

/-- C25. `raise()` wakes exactly the operations that are suspended at that moment, in the order in
which they suspended; every operation is woken at most once. -/
theorem C25_raise_wakes_waiters (O : UserOk X u0) {c : Conf (mach (ds X))} (h : RReach u0 c) :
    Hist (fun before v => ∀ l, v = .ds (.raise l) → l = waiters before) c.sh.log ∧
    (∀ i, wakes i c.sh.log ≤ 1) := by
  obtain ⟨ph, hI, _⟩ := reach_inv (lawful O) h
  refine ⟨fun l1 v l2 e l hv => ?_, fun i => (hI.wake1 i).1⟩
  have := hI.hist l1 v l2 e
  subst hv
  exact this.1

/-- C25. An operation completes with `awaited` only if a `raise()` woke it before. -/
theorem C25_awaited_was_raised (O : UserOk X u0) {c : Conf (mach (ds X))} (h : RReach u0 c) :
    Hist (fun before v => ∀ i, v = .done i .awaited →
      ∃ l, (.ds (.raise l) : Event X) ∈ before ∧ i ∈ l) c.sh.log := by
  obtain ⟨ph, hI, _⟩ := reach_inv (lawful O) h
  intro l1 v l2 e i hv
  have := hI.hist l1 v l2 e
  subst hv
  exact this

/-- C25. When all calls have returned, every operation that was woken has completed, with
`awaited`. -/
theorem C25_woken_completes (O : UserOk X u0) {c : Conf (mach (ds X))} (h : RReach u0 c)
    (hq : Quiescent c) {i : OpId} {l : List OpId} (hl : (.ds (.raise l) : Event X) ∈ c.sh.log)
    (hi : i ∈ l) : Ev.done i Res.awaited ∈ c.sh.log ∧ completions i c.sh.log = 1 := by
  obtain ⟨ph, hI, hC⟩ := reach_inv (lawful O) h
  rcases hI.mark i l hl hi with h1 | ⟨h1, h2⟩
  · exfalso
    have hs : c.sh.started i = true := by
      cases hs : c.sh.started i with
      | true => rfl
      | false =>
        have hp := ((hC.op i).a3 (by simp [view, hs])).1
        rw [view_ph, h1] at hp; simp [Phase.code] at hp
    rcases hC.rest hq hs with h2 | ⟨h2, _⟩
    · rw [hC.done_iff, h1] at h2; simp [Phase.code] at h2
    · rw [h1] at h2; simp at h2
  · exact ⟨h2, (hC.done_iff i).2 (.inr (by rw [h1]; rfl))⟩

/-- C26. If every change that makes a condition false is followed by `raise()`, then, once all
calls have returned, an operation that has not completed waits for a condition that is still
true. -/
theorem C26_no_missed_wakeup (O : UserOk X u0) (hd : Disciplined X) {c : Conf (mach (ds X))}
    (h : RReach u0 c) (hq : Quiescent c) {i : OpId} {ct : Option EvId} {p : X.P}
    (hb : Ev.begin i ct p ∈ c.sh.log) :
    completions i c.sh.log = 1 ∨ X.cond (uOf u0 c.sh.log) p = some true := by
  obtain ⟨ph, hI, hC⟩ := reach_inv (lawful O) h
  rcases hC.rest hq (hC.begin_started hb) with h1 | ⟨h1, _⟩
  · exact .inl h1
  · right
    have hk := hI.key i ct p hb
    have hdef := hI.def_ i p hk
    rw [hI.user]
    cases hc : X.cond c.sh.d.u p with
    | none => simp [hc] at hdef
    | some v =>
      cases v with
      | true => rfl
      | false =>
        have := hI.disc hd i ((hI.mem i).2 h1) p hk hc
        rw [← hI.rs] at this
        have hz : dsPend c.acts = [] := by
          simp only [dsPend, List.flatten_eq_nil_iff, List.mem_map]
          rintro l ⟨a, ha, rfl⟩
          rw [hq a ha]; rfl
        rw [hz] at this
        simp [raises] at this

/-- C26. An operation suspends only if its condition is true at that moment; if it is false the
operation completes with `condition_failed` instead. -/
theorem C26_condition_checked (O : UserOk X u0) {c : Conf (mach (ds X))} (h : RReach u0 c) :
    Hist (fun before v =>
      (∀ i b, v = .ds (.enq i b) →
        ∃ ct p, Ev.begin i ct p ∈ before ∧ X.cond (uOf u0 before) p = some true) ∧
      (∀ i, v = .ds (.skip i) →
        ∃ ct p, Ev.begin i ct p ∈ before ∧ X.cond (uOf u0 before) p = some false) ∧
      (∀ i, v = .done i .conditionFailed → (.ds (.skip i) : Event X) ∈ before)) c.sh.log := by
  obtain ⟨ph, hI, _⟩ := reach_inv (lawful O) h
  intro l1 v l2 e
  have := hI.hist l1 v l2 e
  refine ⟨?_, ?_, ?_⟩
  · rintro i b rfl; exact this
  · rintro i rfl; exact this
  · rintro i rfl; exact this

/-- Waits begin only when their contract allows it. -/
theorem begin_admitted (O : UserOk X u0) {c : Conf (mach (ds X))} (h : RReach u0 c) :
    Hist (fun before v => ∀ i ct p, v = .begin i ct p → X.admit (uOf u0 before) p = true)
      c.sh.log := by
  obtain ⟨ph, hI, _⟩ := reach_inv (lawful O) h
  rintro l1 v l2 e i ct p rfl
  exact hI.hist l1 _ l2 e

/-- C26 (flushing programs). If an operation suspended at a moment when no `raise()` was underway,
then the `raise()` that wakes it finds its condition false. -/
theorem C26_no_early_wakeup (O : UserOk X u0) (hf : Flushing X) {c : Conf (mach (ds X))}
    (h : RReach u0 c) :
    Hist (fun before v => ∀ l, v = .ds (.raise l) → ∀ i ∈ l,
      (.ds (.enq i false) : Event X) ∈ before → ∀ ct p, Ev.begin i ct p ∈ before →
        X.cond (uOf u0 before) p = some false) c.sh.log := by
  obtain ⟨ph, hI, _⟩ := reach_inv (lawful O) h
  rintro l1 v l2 e l rfl
  exact (hI.hist l1 _ l2 e).2 hf

/-- C04 for `recurring_event`. -/
theorem C04_recurring_event (O : UserOk X u0) {c : Conf (mach (ds X))} (h : RReach u0 c) :
    c.bad = false ∧ (∀ i, completions i c.sh.log ≤ 1) ∧
    (∀ i, 0 < completions i c.sh.log → ∃ ct p, Ev.begin i ct p ∈ c.sh.log) ∧
    (∀ i, completions i c.sh.log = 1 → ∀ x, Pending c.acts x → x.op = some i →
      x = .unregister i) := C04_exactly_once (lawful O) h

/-- C05 for `recurring_event`, partial: schedules without preemption between the `fetch_or` in
`transition_` and the access that follows it. -/
theorem C05_recurring_event_partial (O : UserOk X u0) {c : Conf (mach (ds X))}
    (h : CoopReach (ds X) (init u0) c) {i : OpId} (hd : completions i c.sh.log = 1)
    {x : Instr (ds X)} (hx : Pending c.acts x) : x.op ≠ some i :=
  C05_not_touched_after_completion_partial (lawful O) h hd hx

/-- C06 for `recurring_event`. -/
theorem C06_recurring_event (O : UserOk X u0) {c : Conf (mach (ds X))} (h : RReach u0 c)
    (hq : Quiescent c) {i : OpId} {e : EvId} {p : X.P}
    (hb : Ev.begin i (some e) p ∈ c.sh.log) (hc : cancelled e c.sh.log = true) :
    completions i c.sh.log = 1 := C06_cancellation_prompt (lawful O) h hq hb hc

/-- C07 for `recurring_event`. An operation reports `cancelled` only after `cancel()` on the event
of its own token. In particular an operation without token never does. -/
theorem C07_recurring_event (O : UserOk X u0) {c : Conf (mach (ds X))} (h : RReach u0 c) :
    Hist (fun before v => ∀ i, v = .done i .cancelled →
      ∃ e p, Ev.begin i (some e) p ∈ before ∧ Ev.cancel e ∈ before) c.sh.log := by
  obtain ⟨ph, hI, _⟩ := reach_inv (lawful O) h
  rintro l1 v l2 e i rfl
  exact (hI.hist l1 _ l2 e).2

/-! ## A concrete program -/

/-- A flag; waiters wait while it is set; clearing it is followed by `raise()`. -/
abbrev flag : User where
  U := Bool
  A := Bool
  R := Unit
  P := Unit
  dec := inferInstance
  cond u _ := some u
  act _ a := some (a, !a, ())
  admit _ _ := true
  ok _ _ _ := true
  direct := true

def flagOk (u0 : Bool) : UserOk flag u0 where
  Inv _ _ := True
  init := trivial
  perm := by intros; trivial
  call := by intros; trivial
  act := by intro u l a _; exact ⟨a, !a, (), rfl, trivial⟩
  admit := by intros; rfl
  stable := by intros; rfl

theorem flag_disciplined : Disciplined flag := by
  intro u a u' r p h hc
  simp at h
  obtain ⟨rfl, h⟩ := h
  simp [h]

abbrev M := mach (ds flag)

/-- Two operations suspend, one is cancelled, the flag is cleared, a third operation finds it
cleared. -/
def run1 : List (Lbl M) :=
  [.env (.newOp 0 none ()), .run 0 true, .run 0 true, .run 0 true,
   .env (.newOp 1 (some 7) ()), .run 1 true, .run 1 true, .run 1 true, .run 1 true,
   .env (.cancel 7), .run 2 true, .run 2 true, .run 2 true, .run 2 true,
   .env (.call (.act false)), .run 3 true, .run 3 true, .run 3 true, .run 3 true, .run 3 true,
   .env (.newOp 2 none ()), .run 4 true, .run 4 true]

theorem run1_log : (M.after (RSt.init (init true)) run1).sh.log =
    [.begin 0 none (), .ds (.enq 0 false), .begin 1 (some 7) (), .ds (.enq 1 false), .cancel 7,
     .ds (.unq 1), .done 1 .cancelled, .ds (.act false true ()), .ds (.raise [0]),
     .done 0 .awaited, .begin 2 none (), .ds (.skip 2), .done 2 .conditionFailed] := rfl

theorem run1_acts : (M.after (RSt.init (init true)) run1).acts = [[], [], [], [], []] := rfl

/-- The hypotheses of the theorems above hold in a non-trivial case. -/
example : ∃ (_ : UserOk flag true) (c : Conf M), Disciplined flag ∧ RReach (X := flag) true c ∧
    Quiescent c ∧
    Ev.begin 0 none () ∈ c.sh.log ∧ (.ds (.raise [0]) : Event flag) ∈ c.sh.log ∧
    cancelled 7 c.sh.log = true ∧ Ev.begin 1 (some 7) () ∈ c.sh.log ∧
    completions 1 c.sh.log = 1 := by
  refine ⟨flagOk true, M.after (RSt.init (init true)) run1, flag_disciplined, Reach.after _ _ _,
    ?_, ?_, ?_, ?_, ?_, ?_⟩
  · intro a ha; rw [run1_acts] at ha; simpa using ha
  all_goals rw [run1_log]
  · simp
  · simp
  · rfl
  · simp
  · rfl

example : ∃ c : Conf M, CoopReach (ds flag) (init true) c ∧ completions 0 c.sh.log = 1 ∧
    Pending c.acts (.start 3) :=
  ⟨coopAfter (init true) (run1 ++ [.env (.newOp 3 none ())]), coopAfter_reach _ _, rfl,
    [.start 3], List.mem_of_getElem? (i := 5) rfl, by simp⟩

/-! Applications of the theorems to `run1`. -/

abbrev demo : Conf M := M.after (RSt.init (init true)) run1

theorem demo_reach : RReach (X := flag) true demo := Reach.after _ _ _
theorem demo_rest : Quiescent demo := by
  intro a ha; rw [show demo.acts = _ from run1_acts] at ha; simpa using ha

example : [0] = waiters (demo.sh.log.take 8) :=
  (C25_raise_wakes_waiters (flagOk true) demo_reach).1 _ _ (demo.sh.log.drop 9) rfl [0] rfl
example : wakes 0 demo.sh.log ≤ 1 := (C25_raise_wakes_waiters (flagOk true) demo_reach).2 0
example : ∃ l, (.ds (.raise l) : Event flag) ∈ demo.sh.log.take 9 ∧ 0 ∈ l :=
  C25_awaited_was_raised (flagOk true) demo_reach _ _ (demo.sh.log.drop 10) rfl 0 rfl
example : completions 0 demo.sh.log = 1 :=
  (C25_woken_completes (flagOk true) demo_reach demo_rest (l := [0])
    (by rw [show demo.sh.log = _ from run1_log]; simp) (by simp)).2
example : completions 2 demo.sh.log = 1 ∨ flag.cond (uOf true demo.sh.log) () = some true :=
  C26_no_missed_wakeup (flagOk true) flag_disciplined demo_reach demo_rest (ct := none)
    (by rw [show demo.sh.log = _ from run1_log]; simp)
example : ∃ ct p, Ev.begin 0 ct p ∈ demo.sh.log.take 1 ∧ flag.cond (uOf true (demo.sh.log.take 1)) p = some true :=
  (C26_condition_checked (flagOk true) demo_reach _ _ (demo.sh.log.drop 2) rfl).1 0 false rfl
example : ∃ ct p, Ev.begin 2 ct p ∈ demo.sh.log.take 11 ∧ flag.cond (uOf true (demo.sh.log.take 11)) p = some false :=
  (C26_condition_checked (flagOk true) demo_reach _ _ (demo.sh.log.drop 12) rfl).2.1 2 rfl
example : demo.bad = false := (C04_recurring_event (flagOk true) demo_reach).1
example : (Instr.start (S := ds flag) 3).op ≠ some 0 :=
  C05_recurring_event_partial (flagOk true) (c := coopAfter (init true) (run1 ++ [.env (.newOp 3 none ())]))
    (coopAfter_reach _ _) rfl ⟨[.start 3], List.mem_of_getElem? (i := 5) rfl, by simp⟩
example : completions 1 demo.sh.log = 1 :=
  C06_recurring_event (flagOk true) demo_reach demo_rest (e := 7) (p := ())
    (by rw [show demo.sh.log = _ from run1_log]; simp) rfl
example : ∃ e p, Ev.begin 1 (some e) p ∈ demo.sh.log.take 6 ∧ Ev.cancel e ∈ demo.sh.log.take 6 :=
  C07_recurring_event (flagOk true) demo_reach _ _ (demo.sh.log.drop 7) rfl 1 rfl

/-- A flag that can only be cleared; clearing it is followed by `raise()`. -/
abbrev latch : User where
  U := Bool
  A := Unit
  R := Unit
  P := Unit
  dec := inferInstance
  cond u _ := some u
  act _ _ := some (false, true, ())
  admit _ _ := true
  ok _ _ _ := true
  direct := false

def latchOk (u0 : Bool) : UserOk latch u0 where
  Inv _ _ := True
  init := trivial
  perm := by intros; trivial
  call := by intros; trivial
  act := by intro u l a _; exact ⟨false, true, (), rfl, trivial⟩
  admit := by intros; rfl
  stable := by intros; rfl

theorem latch_flushing : Flushing latch := by
  refine ⟨rfl, ?_, ?_⟩ <;> · intro u a u' <;> intros <;> simp_all

/-- An operation suspends; the flag is cleared. -/
def run2 : List (Lbl (mach (ds latch))) :=
  [.env (.newOp 0 none ()), .run 0 true, .run 0 true, .run 0 true,
   .env (.call (.act ())), .run 1 true, .run 1 true, .run 1 true, .run 1 true, .run 1 true]

abbrev demo2 : Conf (mach (ds latch)) := (mach (ds latch)).after (RSt.init (init true)) run2

theorem run2_log : demo2.sh.log =
    [.begin 0 none (), .ds (.enq 0 false), .ds (.act () true ()), .ds (.raise [0]), .done 0 .awaited] := rfl

example : latch.cond (uOf true (demo2.sh.log.take 3)) () = some false :=
  C26_no_early_wakeup (latchOk true) latch_flushing (Reach.after _ _ run2) _ _ (demo2.sh.log.drop 4) rfl [0] rfl 0 (by simp)
    (by rw [run2_log]; simp) none () (by rw [run2_log]; simp)

end Verif.Recurring
