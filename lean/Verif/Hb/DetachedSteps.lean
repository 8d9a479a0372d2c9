import Verif.Hb.Steps
import Verif.Hb.Detached

/-!
# No data races on the frames of `detached` coroutines

The frame and the awaiters in it are not atomic (basic.hpp lines 106-163, 467-489). Every instruction of the model that
accesses them belongs to one coroutine.
-/

namespace Verif.Detached

open Verif.Result (Body)

variable {B : Body}

/-- The step runs, resumes or destroys coroutine `i`: everything but the return to the caller. -/
def runsStep (i : Id) : Step (mach B) → Bool
  | .inl x => decide (0 < runsCo i x)
  | .inr (.call j _) | .inr (.complete j _) => j == i

/-- Whoever completes an awaited sender knows that it was started. -/
def StepOrdered (entry : St B → List (Step (mach B)) → Act B → Nat → Bool) : Prop :=
  ∀ s tr i v (e : Nat), tr[e]? = some (.inl (.awStart i)) → entry s tr (.complete i v) e = true

/-- There are no atomic accesses. -/
abbrev plain : Ann (mach B) where
  L := Unit
  dec := inferInstance
  len _ := 0
  entry _ _ _ := false
  eff _ _ _ := []

theorem no_run {s : St B} {acts : List (List Instr)} (h1 : Inv1 s acts) {i : Id}
    (hi : tag (s.frame i) = 0 ∨ tag (s.frame i) = 4) : ws (runsCo i) acts = 0 := by
  rw [ws_runs]
  have a1 := h1.sg i; have a2 := h1.as i; have a3 := h1.eh i; have a4 := h1.fi i
  grind

theorem relay {entry : St B → List (Step (mach B)) → Act B → Nat → Bool} (hE : StepOrdered entry) :
    Relay plain init entry runsCo (fun i a => runsStep i (.inr a)) (fun s i => s.phase i = .fresh)
      (fun s i _ => tag (s.frame i) = 4) (fun i _ t => t = .inl (.awStart i)) (fun _ _ => False) (fun _ => ()) where
  start i _ := by simp [init, tag]
  rest _ := id
  one c i h := by
    have h1 := reach_inv1 h
    rw [ws_runs]
    have a1 := h1.sg i; have a2 := h1.as i; have a3 := h1.eh i; have a4 := h1.fi i
    grind
  stores := by simp
  env := by
    intro c a s' p h he i
    have h1 := reach_inv1 h
    have hz := no_run h1 (i := i)
    have ph := h1.ph i
    have hE := hE c.sh
    simp only at he
    clear h h1
    env_cases he
    all_goals simp only [runsStep, beq_iff_eq, upd_apply] at *
    all_goals refine ⟨?_, ?_, ?_, by simp, ?_⟩
    all_goals first
      | (intro y hy hw; simp at hy; rcases hy with rfl | rfl <;> simp [runsCo] at hw <;> grind)
      | (intro y hy hw; simp at hy; subst hy; simp [runsCo] at hw; grind)
      | (clear hE; grind [tag, num])
      | skip
    · intro hj; subst hj
      rename_i j _ _ _ _ hf
      have h4 : tag (c.sh.frame j) = 4 := by rw [hf]; rfl
      exact ⟨hz (.inr h4), .inr ⟨true, h4, fun tr n t h1 h2 => hE _ _ _ _ (by rw [h1, h2])⟩⟩
  run := by
    intro c k x r b s' p h hk he i
    have h1 := reach_inv1 h
    have ph := h1.ph i
    have S := ws_pos (w := sw i) hk
    have sg := h1.sg i
    have Z : tag (c.sh.frame i) = 0 ∨ tag (c.sh.frame i) = 4 → runsCo i x = 0 := fun hg => by
      have := no_run h1 hg
      have := ws_pos (w := runsCo i) hk
      omega
    simp only at he
    clear h h1 hk
    exec_cases he
    all_goals simp only [runsCo, sw] at *
    all_goals refine ⟨?_, ?_, ?_, by simp⟩
    all_goals first
      | (simp [runsCo]; done)
      | (intro y hy hw; simp at hy; subst hy; simpa [runsCo] using hw)
      | (simp only [upd_apply]; grind [tag, num])
      | grind [tag, num]

/-! ## Properties -/

/-- C97. Any two steps that run, resume or destroy one `detached` coroutine, whatever threads execute them, are ordered by
happens-before. So there are no data races on its frame and the awaiters in it. Contract: starting an awaited sender
happens before its completion. -/
theorem C97_detached_steps_ordered {entry : St B → List (Step (mach B)) → Act B → Nat → Bool} (hE : StepOrdered entry)
    {c : Conf (traced (mach B))} {m : Mem Unit} (h : HReach (plain.traced entry) (init, []) c m) {i : Id} {e f : Nat}
    {u v : Step (mach B)} (he : c.sh.2[e]? = some u) (hf : c.sh.2[f]? = some v) (hu : runsStep i u = true) (hv : runsStep i v = true)
    (hef : e < f) : m.hb e f := by
  have hc : ∀ t : Step (mach B), runsStep i t = true → concerns runsCo (fun i a => runsStep i (.inr a)) i t = true := by
    intro t ht
    cases t with
    | inl x => simpa [concerns, runsStep] using ht
    | inr a => exact ht
  exact (relay hE).ordered h he hf (hc u hu) (hc v hv) hef

/-! ## Examples -/

set_option maxRecDepth 40000

/-- The completion of a sender knows of its start, and nothing else is known. -/
def minimalSteps : St waitBody → List (Step M) → Act waitBody → Nat → Bool
  | _, tr, .complete i _, e => match tr[e]? with
    | some (.inl (.awStart j)) => j = i
    | _ => false
  | _, _, .call _ _, _ => false

theorem minimalSteps_ordered : StepOrdered minimalSteps := by
  intro s tr i v e h
  simp [minimalSteps, h]

/-- The coroutine continues on another thread before the call has returned. -/
def sdemo : Conf (traced M) × Mem Unit := (plain.traced minimalSteps).go (init, []) (
  [.env (.call 2 (1, []))] ++ List.replicate 2 (.run 0 true) ++ [.env (.complete 2 3)] ++ List.replicate 4 (.run 1 true) ++
  [.run 0 true])

theorem sdemo_reach : HReach (plain.traced minimalSteps) (init, []) sdemo.1 sdemo.2 := HReach.go _ _ _

theorem sdemo_steps : sdemo.1.sh.2 =
    [.inr (.call 2 (1, [])), .inl (.seg 2), .inl (.awStart 2), .inr (.complete 2 3), .inl (.emplace 2 3), .inl (.hres 2),
     .inl (.seg 2), .inl (.fin 2), .inl (.back 2)] := by rfl

example : sdemo.2.hb 1 7 := C97_detached_steps_ordered minimalSteps_ordered sdemo_reach (i := 2) (u := .inl (.seg 2))
  (v := .inl (.fin 2)) (by rw [sdemo_steps]; rfl) (by rw [sdemo_steps]; rfl) rfl rfl (by omega)
example : ¬ sdemo.2.hb 4 8 := by decide

end Verif.Detached
