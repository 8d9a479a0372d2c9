import Verif.Promise.Proof
import Verif.Resolver.Props

/-!
# Properties of `promise` and `future`: delivery of the value
-/

namespace Verif.Promise

open Resolver

variable {T : Type}

/-- Reachable configurations of a promise with its futures. -/
abbrev PReach (k : Conf (mach (ds T))) : Prop := Reach (mach (ds T)) (RSt.init init) k

/-- C35. A `get()` that completes with a value completes with the value given to `set_value`, which
was called before; the value is published at most once; a `get()` without value was cancelled. -/
theorem C35_value {k : Conf (mach (ds T))} (h : PReach k) :
    Hist (fun before v =>
      (∀ i x, v = .done i (some x) → (.ds (.set x) : Event T) ∈ before) ∧
      (∀ x, v = .ds (.set x) → ∀ y, (.ds (.set y) : Event T) ∉ before) ∧
      (∀ i, v = .done i none →
        ∃ e p, Ev.begin i (some e) p ∈ before ∧ Ev.cancel e ∈ before)) k.sh.log := by
  obtain ⟨ph, hI, _⟩ := reach_inv (lawful T) h
  intro l1 v l2 e
  have := hI.hist l1 v l2 e
  refine ⟨?_, ?_, ?_⟩
  · rintro i x rfl; exact this
  · rintro x rfl; exact this
  · rintro i rfl; exact this.2

/-- C35. When all calls have returned and the value was set, every `get()` has completed. -/
theorem C35_nobody_suspended {k : Conf (mach (ds T))} (h : PReach k) (hq : Quiescent k) {x : T}
    (hs : (.ds (.set x) : Event T) ∈ k.sh.log) {i : OpId} {ct : Option EvId} {p : Unit}
    (hb : Ev.begin i ct p ∈ k.sh.log) : completions i k.sh.log = 1 := by
  obtain ⟨ph, hI, hC⟩ := reach_inv (lawful T) h
  rcases hC.rest hq (hC.begin_started hb) with h1 | ⟨h1, _⟩
  · exact h1
  · have := ((hI.mem i).1 h1).1
    rw [(hI.val x).2 hs] at this
    simp at this

/-- C35. A `get()` that was not cancelled before the value was published receives the value: once
the value is published, no `get()` suspends or is withdrawn. -/
theorem C35_no_late_cancel {k : Conf (mach (ds T))} (h : PReach k) :
    Hist (fun before v => ∀ i, (v = .ds (.enq i) ∨ v = .ds (.unq i)) →
      ∀ y, (.ds (.set y) : Event T) ∉ before) k.sh.log := by
  obtain ⟨ph, hI, _⟩ := reach_inv (lawful T) h
  intro l1 v l2 e i hv
  have := hI.hist l1 v l2 e
  rcases hv with rfl | rfl <;> exact this

/-- C04 for `future::get`. -/
theorem C04_promise {k : Conf (mach (ds T))} (h : PReach k) :
    k.bad = false ∧ (∀ i, completions i k.sh.log ≤ 1) ∧
    (∀ i, 0 < completions i k.sh.log → ∃ ct p, Ev.begin i ct p ∈ k.sh.log) ∧
    (∀ i, completions i k.sh.log = 1 → ∀ x, Pending k.acts x → x.op = some i →
      x = .unregister i) := C04_exactly_once (lawful T) h

/-- C05 for `future::get`, partial: schedules without preemption between the `fetch_or` in
`transition_` and the access that follows it. -/
theorem C05_promise_partial {k : Conf (mach (ds T))} (h : CoopReach (ds T) init k) {i : OpId}
    (hd : completions i k.sh.log = 1) {x : Instr (ds T)} (hx : Pending k.acts x) :
    x.op ≠ some i := C05_not_touched_after_completion_partial (lawful T) h hd hx

/-- C06 for `future::get`. -/
theorem C06_promise {k : Conf (mach (ds T))} (h : PReach k) (hq : Quiescent k) {i : OpId}
    {e : EvId} {p : Unit} (hb : Ev.begin i (some e) p ∈ k.sh.log)
    (hc : cancelled e k.sh.log = true) : completions i k.sh.log = 1 :=
  C06_cancellation_prompt (lawful T) h hq hb hc

/-- C07 for `future::get`. In particular a `get()` without token delivers a value (the assertions in
promise.hpp lines 318-326). -/
theorem C07_promise {k : Conf (mach (ds T))} (h : PReach k) :
    Hist (fun before v => ∀ i, v = .done i none →
      ∃ e p, Ev.begin i (some e) p ∈ before ∧ Ev.cancel e ∈ before) k.sh.log :=
  fun l1 v l2 e => (C35_value h l1 v l2 e).2.2

/-! ## Concrete executions -/

abbrev M := mach (ds Nat)

/-- Two `get()`s suspend. The value is published; before the queue is grabbed, the token of the
second one is cancelled (too late). A third `get()` finds the value. -/
def run1 : List (Lbl M) :=
  [.env (.newOp 0 none ()), .run 0 true, .run 0 true, .run 0 true,
   .env (.newOp 1 (some 7) ()), .run 1 true, .run 1 true, .run 1 true, .run 1 true,
   .env (.call (.set 42)), .run 2 true,
   .env (.cancel 7), .run 3 true, .run 3 true, .run 3 true,
   .run 2 true, .run 2 true, .run 2 true, .run 2 true, .run 2 true, .run 2 true, .run 2 true,
   .env (.newOp 2 none ()), .run 4 true, .run 4 true]

theorem run1_log : (M.after (RSt.init init) run1).sh.log =
    [.begin 0 none (), .ds (.enq 0), .begin 1 (some 7) (), .ds (.enq 1), .ds (.set 42),
     .cancel 7, .ds (.wake [0, 1]), .done 0 (some 42), .done 1 (some 42), .begin 2 none (),
     .ds (.skip 2), .done 2 (some 42)] := rfl

theorem run1_acts : (M.after (RSt.init init) run1).acts = [[], [], [], [], []] := rfl

example : ∃ k : Conf M, PReach k ∧ Quiescent k ∧ (.ds (.set 42) : Event Nat) ∈ k.sh.log ∧
    (.begin 1 (some 7) () : Event Nat) ∈ k.sh.log ∧ cancelled 7 k.sh.log = true ∧
    (.done 1 (some 42) : Event Nat) ∈ k.sh.log := by
  refine ⟨M.after (RSt.init init) run1, Reach.after _ _ _, ?_, ?_, ?_, ?_, ?_⟩
  · intro a ha; rw [run1_acts] at ha; simpa using ha
  all_goals rw [run1_log]
  · simp
  · simp
  · rfl
  · simp

example : ∃ k : Conf M, CoopReach (ds Nat) init k ∧ completions 2 k.sh.log = 1 ∧
    Pending k.acts (.start 3) :=
  ⟨coopAfter init ([.env (.call (.set 42)), .run 0 true, .run 0 true,
      .env (.newOp 2 none ()), .run 1 true, .run 1 true, .env (.newOp 3 none ())]),
    coopAfter_reach _ _, rfl, [.start 3], List.mem_of_getElem? (i := 2) rfl, by simp⟩

/-! Applications of the theorems to `run1`. -/

abbrev demo : Conf M := M.after (RSt.init init) run1

theorem demo_reach : PReach demo := Reach.after _ _ _
theorem demo_rest : Quiescent demo := by
  intro a ha; rw [show demo.acts = _ from run1_acts] at ha; simpa using ha

/-- A `get()` is cancelled. -/
def run2 : List (Lbl M) :=
  [.env (.newOp 0 (some 7) ()), .run 0 true, .run 0 true, .run 0 true, .run 0 true,
   .env (.cancel 7), .run 1 true, .run 1 true, .run 1 true, .run 1 true]

abbrev demo2 : Conf M := M.after (RSt.init init) run2

theorem run2_log : demo2.sh.log = [.begin 0 (some 7) (), .ds (.enq 0), .cancel 7, .ds (.unq 0), .done 0 none] := rfl

example : (.ds (.set 42) : Event Nat) ∈ demo.sh.log.take 8 :=
  (C35_value demo_reach _ _ (demo.sh.log.drop 9) rfl).1 1 42 rfl
example : ∀ y, (.ds (.set y) : Event Nat) ∉ demo.sh.log.take 4 :=
  (C35_value demo_reach _ _ (demo.sh.log.drop 5) rfl).2.1 42 rfl
example : completions 1 demo.sh.log = 1 :=
  C35_nobody_suspended demo_reach demo_rest (x := 42) (ct := some 7) (p := ())
    (by rw [show demo.sh.log = _ from run1_log]; simp) (by rw [show demo.sh.log = _ from run1_log]; simp)
example : ∀ y, (.ds (.set y) : Event Nat) ∉ demo.sh.log.take 3 :=
  C35_no_late_cancel demo_reach _ _ (demo.sh.log.drop 4) rfl 1 (.inl rfl)
example : demo.bad = false := (C04_promise demo_reach).1
example : (Instr.start (S := ds Nat) 3).op ≠ some 2 :=
  C05_promise_partial (k := coopAfter init ([.env (.call (.set 42)), .run 0 true, .run 0 true,
      .env (.newOp 2 none ()), .run 1 true, .run 1 true, .env (.newOp 3 none ())])) (coopAfter_reach _ _) rfl
    ⟨[.start 3], List.mem_of_getElem? (i := 2) rfl, by simp⟩
example : completions 1 demo.sh.log = 1 :=
  C06_promise demo_reach demo_rest (e := 7) (p := ()) (by rw [show demo.sh.log = _ from run1_log]; simp) rfl
example : ∃ e p, Ev.begin 0 (some e) p ∈ demo2.sh.log.take 4 ∧ Ev.cancel e ∈ demo2.sh.log.take 4 :=
  C07_promise (Reach.after _ _ run2) _ _ [] rfl 0 rfl

end Verif.Promise
