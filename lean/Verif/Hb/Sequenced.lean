import Verif.Hb.Recurring
import Verif.Sequenced.Props

/-!
# Happens-before for `sequenced_event`

Accesses of sequenced-event.hpp to `seq_`: `fetch_add` with `acq_rel` (line 13), `load` with `acquire` in the condition
(line 23) and in the functor that computes the result of the wait (line 27).
-/

namespace Verif.Sequenced

open Resolver Recurring

/-- Memory accesses of `sequenced_event`; the location is `seq_`. -/
abbrev W : UOrds prog where
  A := Unit
  dec := inferInstance
  cond _ _ := [.load .acq ()]
  act _ _ := [.rmw .acqRel ()]
  res _ := [.load .acq ()]

theorem sync : Sync (Recurring.ords W) (fun v => ∃ a f r, v = .act a f r) (fun v => ∃ i x, v = .done i x) () where
  srcStart h hv hS := by
    obtain ⟨a, f, r, rfl⟩ := hS
    rcases start_cases h with ⟨rfl, b, rfl, _⟩ | ⟨rfl, rfl⟩ <;> simp at hv
  srcCancel h hv hS := by
    obtain ⟨a, f, r, rfl⟩ := hS
    rcases tryCancel_cases h with ⟨rfl, rfl⟩ | ⟨rfl, rfl⟩ <;> simp at hv
  srcExec h hv hS := by
    obtain ⟨a, f, r, rfl⟩ := hS
    rcases exec_cases h with ⟨rfl, rfl, _⟩ | ⟨a, f, r, rfl, rfl, _⟩ <;> simp at hv
    exact ⟨_, List.mem_singleton.2 rfl, rfl⟩
  tgtStart _ _ h := by obtain ⟨_, _, h⟩ := h; simp at h
  tgtCancel _ _ h := by obtain ⟨_, _, h⟩ := h; simp at h
  tgtExec _ _ h := by obtain ⟨_, _, h⟩ := h; simp at h
  tgtDone _ _ _ _ := ⟨_, List.mem_singleton.2 rfl, rfl⟩
  other v h := .inr h
  noStart d i b a h := by
    simp only at h
    split at h
    · rw [List.mem_singleton.1 h]; rfl
    · simp at h
  noCancel _ _ _ h := by simp at h
  noExec d x b a h := by
    cases x with
    | raise => simp at h
    | act y => rw [List.mem_singleton.1 h]; rfl
  noVal d i a h := by rw [List.mem_singleton.1 h]; rfl

variable {entry : RSt (ds prog) → Resolver.Act (ds prog) → Nat → Bool} {c : Conf (mach (ds prog))}
  {m : Mem (Loc (Recurring.ords W).A)}

/-- C57. At every moment, and so when the functor of line 27 reads it, the sequence number (`d.u`) is the number of
increments by `raise()` so far. -/
theorem C57_result_counts {c : Conf (mach (ds prog))} (h : SReach c) : c.sh.d.u = seqOf c.sh.log := by
  obtain ⟨ph, hI, _⟩ := reach_inv (lawful progOk) h
  rw [← hI.user, uOf_eq]

/-- C57. All increments by `raise()` before the completion of a wait, that is, those that its result counts, happen before
the completion. This holds however the wait ends (`x`): with `awaited`, because the number was outdated, or cancelled. -/
theorem C57_raises_before_result (h : HReach (ann (Recurring.ords W) entry) (RSt.init (init (X := prog) (0 : Nat))) c m)
    {n : Nat} {i : OpId} {x : Res} (hn : c.sh.log[n]? = some (.done i x)) :
    ∀ a < n, ∀ f r, c.sh.log[a]? = some (.ds (.act () f r)) → m.hb a n :=
  fun _ ha _ _ hl => sync.ordered h hl ⟨_, _, _, rfl⟩ hn ⟨_, _, rfl⟩ ha

/-- C57. If a wait for a number after `p` is woken by `raise()`, then a call of `raise()` that woke it happens before, and
so does an increment of the sequence number by a call of `raise()`. -/
theorem C57_wakeup_before_result
    (h : HReach (ann (Recurring.ords W) entry) (RSt.init (init (X := prog) (0 : Nat))) c m) {n : Nat} {i : OpId}
    (hn : c.sh.log[n]? = some (.done i .awaited)) :
    ∃ z b l, z < b ∧ c.sh.log[z]? = some (.ds (.act () true ())) ∧ c.sh.log[b]? = some (.ds (.raise l)) ∧ i ∈ l ∧
      m.hb z b ∧ m.hb b n := by
  obtain ⟨b, l, hb, hi, h1⟩ := C56_raise_before_wait progOk h hn
  obtain ⟨z, a, r, hz, h2, h3, _⟩ := C56_action_before_raise progOk rfl h hb
  exact ⟨z, b, l, hz, h2, hb, hi, h3, h1⟩

/-- C57. Creating and starting a wait happens before its completion. -/
theorem C57_created_before_completion
    (h : HReach (ann (Recurring.ords W) entry) (RSt.init (init (X := prog) (0 : Nat))) c m) {a n : Nat} {i : OpId}
    {ct : Option EvId} {p : Nat} {x : Res} (ha : c.sh.log[a]? = some (.begin i ct p))
    (hn : c.sh.log[n]? = some (.done i x)) (han : a < n) : m.hb a n :=
  C56_created_before_completion progOk h ha hn han

/-! ## Examples -/

/-- A raise, a wait with the old number, a wait with the current number, a raise. -/
def hdemo : Conf (mach (ds prog)) × Mem (Loc (Recurring.ords W).A) :=
  (ann (Recurring.ords W) (fun _ _ _ => false)).go (RSt.init (init (X := prog) (0 : Nat))) run1

example : hdemo.1.sh.log[0]? = some (.ds (.act () true ())) := rfl
example : hdemo.1.sh.log[4]? = some (.done 0 .conditionFailed) := rfl
example : hdemo.1.sh.log[7]? = some (.ds (.act () true ())) := rfl
example : hdemo.1.sh.log[9]? = some (.done 1 .awaited) := rfl
example : hdemo.2.hb 0 4 ∧ hdemo.2.hb 0 9 ∧ hdemo.2.hb 7 9 ∧ hdemo.2.hb 5 9 ∧ ¬ hdemo.2.hb 4 7 := by decide

example : ∀ a < 9, ∀ f r, hdemo.1.sh.log[a]? = some (.ds (.act () f r)) → hdemo.2.hb a 9 :=
  C57_raises_before_result (HReach.go _ _ _) (n := 9) (i := 1) rfl
example : ∃ z b l, z < b ∧ hdemo.1.sh.log[z]? = some (.ds (.act () true ())) ∧ hdemo.1.sh.log[b]? = some (.ds (.raise l)) ∧
    1 ∈ l ∧ hdemo.2.hb z b ∧ hdemo.2.hb b 9 :=
  C57_wakeup_before_result (HReach.go _ _ _) (n := 9) rfl
example : hdemo.2.hb 5 9 :=
  C57_created_before_completion (HReach.go _ _ _) (a := 5) (n := 9) (i := 1) rfl rfl (by omega)
example : hdemo.1.sh.d.u = seqOf hdemo.1.sh.log := C57_result_counts (HReach.go _ _ _).reach

end Verif.Sequenced
