import Verif.Linear.Spec

/-!
# Orders of calls that are read off a history

For machines whose state contains a history that only grows. This file does not model code of `/repo`.
-/

namespace Verif

variable {M : Mach} {C O R Q V E : Type}

/-- The calls that take effect in a history; `g before v` are those that take effect at event `v`. -/
def effects (g : List V → V → List E) (log : List V) : List E :=
  (List.range log.length).flatMap fun n => match log[n]? with
    | some v => g (log.take n) v
    | none => []

theorem effects_snoc (g : List V → V → List E) (log : List V) (v : V) :
    effects g (log ++ [v]) = effects g log ++ g log v := by
  have h : ∀ n ∈ List.range log.length, (match (log ++ [v])[n]? with
      | some v' => g ((log ++ [v]).take n) v'
      | none => []) = (match log[n]? with
      | some v' => g (log.take n) v'
      | none => []) := by
    intro n hn
    rw [List.mem_range] at hn
    rw [List.getElem?_append_left hn, List.take_append_of_le_length (by omega)]
  simp only [effects, List.length_append, List.length_singleton, List.range_succ, List.flatMap_append]
  congr 1
  · rw [List.flatMap_def, List.map_congr_left h, ← List.flatMap_def]
  · simp

@[simp] theorem effects_nil (g : List V → V → List E) : effects g [] = [] := rfl

theorem effects_prefix (g : List V → V → List E) {l1 l2 : List V} (h : l1 <+: l2) : effects g l1 <+: effects g l2 := by
  obtain ⟨t, rfl⟩ := h
  induction t generalizing l1 with
  | nil => simp
  | cons v t ih =>
    have := ih (l1 := l1 ++ [v])
    rw [effects_snoc] at this
    rw [show l1 ++ v :: t = l1 ++ [v] ++ t by simp]
    exact (List.prefix_append _ _).trans this

theorem mem_effects {g : List V → V → List E} {l1 l2 : List V} {v : V} {e : E} (he : e ∈ g l1 v) :
    e ∈ effects g (l1 ++ v :: l2) := by
  have h : l1 ++ [v] <+: l1 ++ v :: l2 := ⟨l2, by simp⟩
  refine (effects_prefix g h).subset ?_
  rw [effects_snoc]; exact List.mem_append_right _ he

theorem of_mem_effects {g : List V → V → List E} {log : List V} {e : E} (he : e ∈ effects g log) :
    ∃ l1 v l2, log = l1 ++ v :: l2 ∧ e ∈ g l1 v := by
  simp only [effects, List.mem_flatMap, List.mem_range] at he
  obtain ⟨n, hn, h⟩ := he
  rw [List.getElem?_eq_getElem hn] at h
  refine ⟨log.take n, log[n], log.drop (n + 1), ?_, h⟩
  simp

/-- The configuration after as much of the schedule as is possible. -/
def farthest (c : Conf M) : List (Lbl M) → Conf M
  | [] => c
  | l :: ls => match M.step c l with
    | some c' => farthest c' ls
    | none => c

theorem farthest_runs {c c' : Conf M} {ls : List (Lbl M)} (h : M.runs c ls = some c') : farthest c ls = c' := by
  induction ls generalizing c with
  | nil => simpa [farthest, Mach.runs] using h
  | cons l ls ih =>
    simp only [Mach.runs] at h
    split at h
    · rename_i c1 hs; simp only [farthest, hs]; exact ih h
    · simp at h

/-- If the order of the calls can be read off a history that only grows, then the object is strongly linearizable. -/
theorem StronglyLinearizable.of_log {s0 : M.σ} {W : Watch M C O R} {spec : Q → O → R → Q → Prop} {q0 : Q}
    (logOf : M.σ → List V) (g : List V → V → List (C × O × R))
    (mono : ∀ (c : Conf M) l c', M.step c l = some c' → logOf c.sh <+: logOf c'.sh)
    (hx : ∀ ls c, M.runs (M.init s0) ls = some c → Explains W spec q0 ls (effects g (logOf c.sh))) :
    StronglyLinearizable s0 W spec q0 := by
  refine ⟨fun ls => effects g (logOf (farthest (M.init s0) ls).sh), ?_, ?_⟩
  · intro ls ls'
    refine effects_prefix g ?_
    have grow : ∀ (ls : List (Lbl M)) (c : Conf M), logOf c.sh <+: logOf (farthest c ls).sh := by
      intro ls
      induction ls with
      | nil => intro c; exact List.prefix_rfl
      | cons l ls ih =>
        intro c
        simp only [farthest]
        split
        · rename_i c' hs; exact (mono _ _ _ hs).trans (ih c')
        · exact List.prefix_rfl
    generalize M.init s0 = c
    induction ls generalizing c with
    | nil => exact grow ls' c
    | cons l ls ih =>
      simp only [List.cons_append, farthest]
      split
      · exact ih _
      · exact List.prefix_rfl
  · intro ls c h
    have := hx ls c h
    rwa [← farthest_runs h] at this

end Verif
