import Verif.Resolver.Facts

/-!
# Properties of `cancellation_resolver`, for every data structure that keeps its contract

`Lawful S d0` is the contract of a data structure (`Verif/Resolver/Laws.lean`); it is proved for
`queue`, `recurring_event`, `wait_group`, `promise` and `post_ack` in their own files, where the
theorems below are instantiated. `Reach (mach S) (RSt.init d0) c`: configuration `c` can be
reached by any interleaving of any number of operations, cancellations and calls.
-/

namespace Verif.Resolver

variable {S : DS} {d0 : S.D}

/-- C04. Every operation is completed at most once, only after it was started; after its
completion neither its `listen()`, nor the completion path, nor the cancellation path has anything
left to do with it except for the check in `transition_` that notices the cancellation; no
assertion fails and no list is corrupted. -/
theorem C04_exactly_once (L : Lawful S d0) {c : Conf (mach S)}
    (h : Reach (mach S) (RSt.init d0) c) :
    c.bad = false ∧
    (∀ i, completions i c.sh.log ≤ 1) ∧
    (∀ i, 0 < completions i c.sh.log → ∃ ct p, Ev.begin i ct p ∈ c.sh.log) ∧
    (∀ i, completions i c.sh.log = 1 → ∀ x, Pending c.acts x → x.op = some i →
      x = .unregister i) := by
  refine ⟨bad_false L h, fun i => completions_le_one L h i, fun i hd => begin_of_done L h hd, ?_⟩
  intro i hd x hx ho
  obtain ⟨ph, _, hC⟩ := reach_inv L h
  exact (hC.after hd hx ho).1

/-- C05, partial. The property is false in general (see `Verif/Queue/Props.lean`). It holds on all
schedules that do not interrupt a call between the `fetch_or` in `transition_` and the access to
the event that follows it; all single-threaded programs are of this kind. Missing: schedules with
preemption at this point. -/
theorem C05_not_touched_after_completion_partial (L : Lawful S d0) {c : Conf (mach S)}
    (h : CoopReach S d0 c) {i : OpId} (hd : completions i c.sh.log = 1) {x : Instr S}
    (hx : Pending c.acts x) : x.op ≠ some i := by
  intro ho
  obtain ⟨ph, _, hC⟩ := reach_inv L h.reach
  obtain ⟨rfl, _⟩ := hC.after hd hx ho
  have := not_touched_aux L h hx
  omega

/-- C05, partial. On all schedules, the only access to a completed operation is the one in
`transition_` after the `fetch_or` (cancellation.hpp lines 302-303), and only if the event of the
operation is cancelled. -/
theorem C05_only_unregister_partial (L : Lawful S d0) {c : Conf (mach S)}
    (h : Reach (mach S) (RSt.init d0) c) {i : OpId} (hd : completions i c.sh.log = 1)
    {x : Instr S} (hx : Pending c.acts x) (ho : x.op = some i) :
    x = .unregister i ∧ ∃ e, c.sh.ct i = some e ∧ cancelled e c.sh.log = true := by
  obtain ⟨ph, _, hC⟩ := reach_inv L h
  obtain ⟨h1, e, h2, h3⟩ := hC.after hd hx ho
  exact ⟨h1, e, h2, by rw [← req_eq h]; exact h3⟩

/-- C06. Once all calls have returned, every operation whose event is cancelled has completed. -/
theorem C06_cancellation_prompt (L : Lawful S d0) {c : Conf (mach S)}
    (h : Reach (mach S) (RSt.init d0) c) (hq : Quiescent c) {i : OpId} {e : EvId} {p : S.P}
    (hb : Ev.begin i (some e) p ∈ c.sh.log) (hc : cancelled e c.sh.log = true) :
    completions i c.sh.log = 1 := by
  obtain ⟨ph, _, hC⟩ := reach_inv L h
  have hct := begin_ct h hb
  rcases hC.rest hq (hC.begin_started hb) with h1 | ⟨_, h2⟩
  · exact h1
  · have := (h2 e hct).1
    rw [req_eq h, hc] at this
    simp at this

/-- C06, progress. A running call is never stuck: whatever the schedule decides, its next
instruction can be executed and does not fail. -/
theorem C06_calls_make_progress (L : Lawful S d0) {c : Conf (mach S)}
    (h : Reach (mach S) (RSt.init d0) c) {k : Nat} {x : Instr S} {r : List (Instr S)}
    (hk : c.acts[k]? = some (x :: r)) (b : Bool) :
    ∃ c', (mach S).step c (.run k b) = some c' ∧ c'.bad = false := can_run L h hk b

end Verif.Resolver
