import Verif.Hb.Steps
import Verif.Hb.Result

/-!
# No data races on the members of `result<T>`

Apart from `cfp_`, the members of the promise (`cont_`, `obj_`), the frame and the awaiters in it are not atomic
(result.hpp lines 59-158). Every instruction of the model that accesses them belongs to one coroutine.
-/

namespace Verif.Result

variable {B : Body}

/-- The step starts, runs, resumes or completes coroutine `i`: everything but the exchange at the end of `start()`, which accesses
the atomic `cfp_` (see C60). -/
def runsStep (i : Id) : Step (mach B) → Bool
  | .inl x => decide (tok i x)
  | .inr (.start j _) | .inr (.complete j _) => j == i

/-- Whoever completes an awaited sender knows that it was started. -/
def StepOrdered (entry : St B → List (Step (mach B)) → Act B → Nat → Bool) : Prop :=
  ∀ s tr i v (e : Nat), tr[e]? = some (.inl (.awStart i)) → entry s tr (.complete i v) e = true

/-- The atomic accesses. -/
abbrev cfps : Ann (mach B) := ann (fun _ _ _ => false)

theorem tw_pos {i : Id} {x : Instr} : 0 < tw i x ↔ tok i x := by
  unfold tw; split <;> simp [*]

theorem tag_le {S : Type} (f : Option (Frame S)) : tag f ≤ 7 := by
  unfold tag; split <;> first | omega | (rename_i l _; cases l <;> simp [Leaf.num])

theorem relay {entry : St B → List (Step (mach B)) → Act B → Nat → Bool} (hE : StepOrdered entry) :
    Relay cfps init entry tw (fun i a => runsStep i (.inr a)) (fun s i => s.phase i = .fresh)
      (fun s i _ => tag (s.frame i) = 4) (fun i _ t => t = .inl (.awStart i))
      (fun s i => s.phase i = .started ∧ s.cfp i = .pastSuspend) (fun i => i) where
  start i _ := by simp [init, tag]
  rest i := by simp [init]
  one c i h := (tok_one (reach_inv1 h) i).1
  stores s x b i a ha := eff_stores ha
  env := by
    intro c a s' p h he i
    have h1 := reach_inv1 h
    have hz := (tok_one h1 i).2
    have ph := h1.ph i; have fr := h1.fr i; have ps := h1.ps i; have cf := h1.cf i; have x1 := h1.x1 i
    have hE := hE c.sh
    simp only at he
    clear h h1
    env_cases he
    all_goals simp only [runsStep, beq_iff_eq, upd_apply] at *
    all_goals refine ⟨?_, ?_, ?_, ?_, ?_⟩
    all_goals first
      | (intro y hy hw; simp at hy; rcases hy with rfl | rfl <;> simp [tw, tok] at hw <;> grind)
      | (intro y hy hw; simp at hy; subst hy; simp [tw, tok] at hw; grind)
      | (clear hE; grind [tag, Leaf.num])
      | skip
    · intro hj; subst hj
      rename_i j _ _ _ _ hf
      have h4 : tag (c.sh.frame j) = 4 := by rw [hf]; rfl
      exact ⟨hz (.inr h4), .inr ⟨true, h4, fun tr n t h1 h2 => hE _ _ _ _ (by rw [h1, h2])⟩⟩
  run := by
    intro c k x r b s' p h hk he i
    have h1 := reach_inv1 h
    have Z : tag (c.sh.frame i) = 0 ∨ tag (c.sh.frame i) = 4 → tw i x = 0 := fun hg => by
      have := (tok_one h1 i).2 hg
      have := ws_pos (w := tw i) hk
      omega
    have W : 0 < tw i x → 0 < vw i x ∨ tag (c.sh.frame i) ≠ 7 := by
      have e := tw_eq i x
      have h2 := h1.lg i; have h3 := h1.sg i; have h4 := h1.as i; have h5 := h1.eh i; have h6 := h1.fi i
      have L := ws_pos (w := lw i) hk; have G := ws_pos (w := gw i) hk; have S := ws_pos (w := sw i) hk
      have A := ws_pos (w := aw i) hk; have E := ws_pos (w := ew i) hk; have H := ws_pos (w := hw i) hk
      have F := ws_pos (w := fw i) hk
      clear * - e h2 h3 h4 h5 h6 L G S A E H F
      grind
    have T : c.sh.phase i = .started → c.sh.cfp i = .pastSuspend → tag (c.sh.frame i) = 7 := by
      have h2 := h1.cf i; have h3 := h1.ps i; have h4 := h1.x1 i; have h5 := h1.ph i; have h6 := tag_le (c.sh.frame i)
      grind
    have ph := h1.ph i
    have S := ws_pos (w := sw i) hk
    have sg := h1.sg i
    simp only at he
    clear h h1 hk
    exec_cases he
    all_goals simp only [vw, sw] at *
    all_goals refine ⟨?_, ?_, ?_, ?_⟩
    all_goals first
      | (simp [tw, tok]; done)
      | (intro y hy hw; simp at hy; subst hy; simpa [tw, tok] using hw)
      | (simp only [upd_apply]; grind [tag, Leaf.num, tw, tok])
      | grind [tag, Leaf.num, tw, tok]
      | (intro hp; rename_i j _ _ _ _; by_cases hi : j = i
         · subst hi; exact .inr ⟨by simp [tw, tok], _, List.mem_singleton.2 rfl, by simp [Acc.releases]⟩
         · rw [upd_apply, if_neg (Ne.symm hi)] at hp; exact .inl ⟨hp, by simp [tw, tok, hi]⟩)
      | (intro y hy hw; simp at hy; subst hy; have hw := tw_pos.1 hw; simp only [tok] at hw; subst hw; simp_all [Acc.acquires])

/-! ## Properties -/

/-- C97. Any two steps that start, run, resume or complete one `result<T>` coroutine, whatever threads execute them, are ordered
by happens-before. So there are no data races on the members of its promise, its frame and the awaiters in it. Contract:
starting an awaited sender happens before its completion. -/
theorem C97_result_steps_ordered {entry : St B → List (Step (mach B)) → Act B → Nat → Bool} (hE : StepOrdered entry)
    {c : Conf (traced (mach B))} {m : Mem Id} (h : HReach (cfps.traced entry) (init, []) c m) {i : Id} {e f : Nat}
    {u v : Step (mach B)} (he : c.sh.2[e]? = some u) (hf : c.sh.2[f]? = some v) (hu : runsStep i u = true) (hv : runsStep i v = true)
    (hef : e < f) : m.hb e f := by
  have hc : ∀ t : Step (mach B), runsStep i t = true → concerns tw (fun i a => runsStep i (.inr a)) i t = true := by
    intro t ht
    cases t with
    | inl x => simpa [concerns, tw_pos, runsStep] using ht
    | inr a => exact ht
  exact (relay hE).ordered h he hf (hc u hu) (hc v hv) hef

/-! ## Examples -/

set_option maxRecDepth 40000

/-- The completion of a sender knows of its start, and nothing else is known. -/
def minimalSteps : St sumBody → List (Step M) → Act sumBody → Nat → Bool
  | _, tr, .complete i _, e => match tr[e]? with
    | some (.inl (.awStart j)) => j = i
    | _ => false
  | _, _, .start _ _, _ => false

theorem minimalSteps_ordered : StepOrdered minimalSteps := by
  intro s tr i v e h
  simp [minimalSteps, h]

/-- The coroutine finishes on another thread before `start()` executes its exchange, so that `start()` completes the receiver. -/
def sdemo : Conf (traced M) × Mem Id := (cfps.traced minimalSteps).go (init, []) (
  [.env (.start 1 (1, []))] ++ List.replicate 4 (.run 0 true) ++ [.env (.complete 1 5)] ++
    List.replicate 4 (.run 1 true) ++ List.replicate 2 (.run 0 true))

theorem sdemo_reach : HReach (cfps.traced minimalSteps) (init, []) sdemo.1 sdemo.2 := HReach.go _ _ _

theorem sdemo_steps : sdemo.1.sh.2 =
    [.inr (.start 1 (1, [])), .inl (.link 1), .inl (.go 1), .inl (.seg 1), .inl (.awStart 1), .inr (.complete 1 5),
     .inl (.emplace 1 5), .inl (.hres 1), .inl (.seg 1), .inl (.exFin 1), .inl (.exStart 1), .inl (.setv 1)] := by rfl

example : sdemo.2.hb 8 11 := C97_result_steps_ordered minimalSteps_ordered sdemo_reach (i := 1) (u := .inl (.seg 1))
  (v := .inl (.setv 1)) (by rw [sdemo_steps]; rfl) (by rw [sdemo_steps]; rfl) rfl rfl (by omega)

end Verif.Result
