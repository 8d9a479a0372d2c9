import Verif.Hb.Steps
import Verif.Hb.Generator

/-!
# No data races on the members of `generator<T>`

The promise (`cont`, `current_value`), the frame, the awaiters in the frame and the state of the `next()` operation are not
atomic (generator.hpp). Every instruction of the model that accesses them belongs to one generator.
-/

namespace Verif.Generator

variable {B : Body}

/-- The generator that a step concerns. -/
def genOf : Step (mach B) → Id
  | .inl x => x.gen
  | .inr (.create g _) | .inr (.next g _) | .inr (.complete g _) | .inr (.destroy g) => g

/-- After this step the generator can be used: its creation, or the delivery of a result (the last instruction of `next()`). -/
def usable (g : Id) : Step (mach B) → Prop
  | .inr (.create j _) => j = g
  | .inl (.setv j _ _) => j = g
  | _ => False

/-- Contract: whoever completes an awaited sender knows that it was started; whoever calls `next()` or destroys the
generator knows that it was created and knows the results that were delivered before. -/
structure StepOrdered (entry : St B → List (Step (mach B)) → Act B → Nat → Bool) : Prop where
  complete : ∀ s tr g v (e : Nat), tr[e]? = some (.inl (.awStart g)) → entry s tr (.complete g v) e = true
  next : ∀ s tr g n (e : Nat) t, tr[e]? = some t → usable g t → entry s tr (.next g n) e = true
  destroy : ∀ s tr g (e : Nat) t, tr[e]? = some t → usable g t → entry s tr (.destroy g) e = true

/-- There are no atomic accesses. -/
abbrev plain : Ann (mach B) where
  L := Unit
  dec := inferInstance
  len _ := 0
  entry _ _ _ := false
  eff _ _ _ := []

/-- The step after which the generator waits: for a sender (`true`), for its user (`false`). -/
def hands (g : Id) : Bool → Step (mach B) → Prop
  | true, t => t = .inl (.awStart g)
  | false, t => usable g t

/-- What the generator waits for. -/
def idles (s : St B) (g : Id) : Bool → Prop
  | true => tag (s.frame g) = 4
  | false => s.frame g ≠ none ∧ s.outst g = none

def callOf (g : Id) (a : Act B) : Bool := genOf (.inr a) == g

theorem no_touch {s : St B} {acts : List (List Instr)} (h1 : Inv1 s acts) {g : Id} (hg : tag (s.frame g) = 0 ∨
    tag (s.frame g) = 4 ∨ (s.frame g ≠ none ∧ s.outst g = none)) : ws (touches g) acts = 0 := by
  rw [ws_touches]
  have a1 := h1.sg g; have a2 := h1.as g; have a3 := h1.eh g; have a4 := h1.su g; have a5 := h1.ot g
  have a6 := tag_le (s.frame g)
  grind

theorem relay {entry : St B → List (Step (mach B)) → Act B → Nat → Bool} (hE : StepOrdered entry) :
    Relay plain init entry touches callOf (fun s g => s.made g = false) idles hands (fun _ _ => False) (fun _ => ()) where
  start g q := by cases q <;> simp [idles, init, tag]
  rest _ := id
  one c g h := C38_exclusive h g
  stores := by simp
  env := by
    intro c a s' p h he g
    have h1 := reach_inv1 h
    have hz := no_touch h1 (g := g)
    have ma := h1.ma g
    have ot := h1.ot g
    have tz := tag_zero (f := c.sh.frame g)
    have EC := hE.complete c.sh; have EN := hE.next c.sh; have ED := hE.destroy c.sh
    simp only at he
    clear h h1
    env_cases he
    all_goals simp only [callOf, genOf, beq_iff_eq, upd_apply] at *
    all_goals refine ⟨?_, ?_, ?_, by simp, ?_⟩
    all_goals first
      | (intro q; cases q <;> simp only [idles, hands, usable, upd_apply] <;> clear EC EN ED hE <;> grind [tag, Leaf.num])
      | (simp [touches, Instr.gen]; done)
      | (intro y hy hw; simp at hy; subst hy; exact touches_pos.1 hw)
      | (clear EC EN ED hE; grind [tag])
      | skip
    all_goals intro hg; subst hg
    · rename_i hm
      exact ⟨hz (.inr (.inr ⟨hm.1, hm.2.1⟩)), .inr ⟨false, ⟨hm.1, hm.2.1⟩, fun tr n t h1 h2 => EN _ _ _ _ _ h1 h2⟩⟩
    · rename_i j _ _ _ _ hf
      have h4 : tag (c.sh.frame j) = 4 := by rw [hf]; rfl
      exact ⟨hz (.inr (.inl h4)), .inr ⟨true, h4, fun tr n t h1 h2 => EC _ _ _ _ (by rw [h1, h2])⟩⟩
    · rename_i hm
      exact ⟨hz (.inr (.inr hm)), .inr ⟨false, hm, fun tr n t h1 h2 => ED _ _ _ _ h1 h2⟩⟩
  run := by
    intro c k x r b s' p h hk he g
    have h1 := reach_inv1 h
    have S := ws_pos (w := sw g) hk
    have H := ws_pos (w := hw g) hk
    have V := ws_pos (w := vw g) hk
    have sg := h1.sg g; have eh := h1.eh g; have ot := h1.ot g; have as := h1.as g; have su := h1.su g
    have ma := h1.ma g
    have Z : (tag (c.sh.frame g) = 0 ∨ tag (c.sh.frame g) = 4 ∨ (c.sh.frame g ≠ none ∧ c.sh.outst g = none)) →
        touches g x = 0 := fun hg => by
      have := no_touch h1 hg
      have := ws_pos (w := touches g) hk
      omega
    have T := tag_le (c.sh.frame g)
    have tz := tag_zero (f := c.sh.frame g)
    simp only at he
    clear h h1 hk
    exec_cases he
    all_goals simp only [sw, hw, vw, touches, Instr.gen] at *
    all_goals refine ⟨?_, ?_, ?_, by simp⟩
    all_goals first
      | (intro q; cases q <;> simp only [idles, hands, usable, upd_apply] <;> grind [tag, Leaf.num])
      | (simp [touches, Instr.gen]; done)
      | (intro y hy; simp at hy; subst hy; simp [touches, Instr.gen]; done)
      | grind [tag]

/-! ## Properties -/

/-- C97. Any two steps of one generator, whatever threads execute them, are ordered by happens-before. So there are no data
races on its promise, its frame, the awaiters in its frame and the state of its operations. Contract: `StepOrdered`. -/
theorem C97_generator_steps_ordered {entry : St B → List (Step (mach B)) → Act B → Nat → Bool} (hE : StepOrdered entry)
    {c : Conf (traced (mach B))} {m : Mem Unit} (h : HReach (plain.traced entry) (init, []) c m) {g : Id} {e f : Nat}
    {u v : Step (mach B)} (he : c.sh.2[e]? = some u) (hf : c.sh.2[f]? = some v) (hu : genOf u = g) (hv : genOf v = g)
    (hef : e < f) : m.hb e f := by
  have hc : ∀ t : Step (mach B), genOf t = g → concerns touches callOf g t = true := by
    intro t ht
    cases t with
    | inl x => simpa [concerns, touches_pos, genOf] using ht
    | inr a => simpa [concerns, callOf] using ht
  exact (relay hE).ordered h he hf (hc u hu) (hc v hv) hef

/-! ## Examples -/

set_option maxRecDepth 40000

/-- The environment knows what the contract demands, and nothing else. -/
def minimalSteps : St demoBody → List (Step M) → Act demoBody → Nat → Bool
  | _, tr, .complete g _, e => match tr[e]? with
    | some (.inl (.awStart j)) => j = g
    | _ => false
  | _, tr, .next g _, e | _, tr, .destroy g, e => match tr[e]? with
    | some (.inr (.create j _)) => j = g
    | some (.inl (.setv j _ _)) => j = g
    | _ => false
  | _, _, .create _ _, _ => false

theorem minimalSteps_ordered : StepOrdered minimalSteps := by
  constructor
  · intro s tr g v e h; simp [minimalSteps, h]
  · intro s tr g n e t h ht
    unfold usable at ht
    split at ht <;> first | exact absurd ht id | simp [minimalSteps, h, ht]
  · intro s tr g e t h ht
    unfold usable at ht
    split at ht <;> first | exact absurd ht id | simp [minimalSteps, h, ht]

/-- The second generator is resumed by the completion of a sender. -/
def sdemo : Conf (traced M) × Mem Unit := (plain.traced minimalSteps).go (init, []) (
  [.env (.create 0 0), .env (.create 1 0), .env (.next 1 1)] ++ List.replicate 6 (.run 2 true) ++
  [.env (.next 1 2)] ++ List.replicate 4 (.run 3 true) ++ [.env (.complete 1 5)] ++ List.replicate 6 (.run 4 true))

theorem sdemo_reach : HReach (plain.traced minimalSteps) (init, []) sdemo.1 sdemo.2 := HReach.go _ _ _

theorem sdemo_steps : sdemo.1.sh.2 =
    [.inr (.create 0 0), .inr (.create 1 0), .inr (.next 1 1), .inl (.nlink 1 1), .inl (.nres 1 1), .inl (.seg 1),
     .inl (.ysusp 1), .inl (.comp 1 1), .inl (.setv 1 1 (some 10)), .inr (.next 1 2), .inl (.nlink 1 2), .inl (.nres 1 2),
     .inl (.seg 1), .inl (.awStart 1), .inr (.complete 1 5), .inl (.emplace 1 5), .inl (.hres 1), .inl (.seg 1),
     .inl (.ysusp 1), .inl (.comp 1 2), .inl (.setv 1 2 (some 6))] := by rfl

example : sdemo.2.hb 3 18 := C97_generator_steps_ordered minimalSteps_ordered sdemo_reach (g := 1) (u := .inl (.nlink 1 1))
  (v := .inl (.ysusp 1)) (by rw [sdemo_steps]; rfl) (by rw [sdemo_steps]; rfl) rfl rfl (by omega)
example : ¬ sdemo.2.hb 0 1 := by decide

end Verif.Generator
