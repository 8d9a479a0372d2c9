import Verif.Result.Props

/-! # Steps of coroutines, as seen by the senders that they await -/

namespace Verif.Result

variable {B : Body}

/-- The sender `a` that is awaited for the time number `k` by coroutine `i` has been started. -/
def Sent (s : St B) (i : Id) (k a : Nat) : Prop :=
  (awaited i s.log)[k]? = some a ∧ ¬ (tag (s.frame i) = 3 ∧ k + 1 = (awaited i s.log).length)

theorem exec_phase {s s' : St B} {x : Instr} {b : Bool} {p : List Instr} (he : exec s x b = .ok s' p) (i : Id) :
    s'.phase i = if x = .setv i then .done else s.phase i := by
  exec_cases he <;> simp [upd_apply, eq_comm]

theorem exec_completed {s s' : St B} {x : Instr} {b : Bool} {p : List Instr} (he : exec s x b = .ok s' p) (i : Id) :
    completed i s'.log = completed i s.log := by
  exec_cases he <;> simp [completed_snoc]

theorem exec_events {s s' : St B} {x : Instr} {b : Bool} {p : List Instr} (he : exec s x b = .ok s' p) :
    ∃ l, s'.log = s.log ++ l ∧ (∀ i b, .start i b ∉ l) ∧ ∀ i v, .done i v ∈ l ↔ x = .setv i ∧ s.obj i = some v := by
  exec_cases he
  all_goals first
    | refine ⟨_, rfl, ?_, ?_⟩
    | refine ⟨[], (List.append_nil _).symm, ?_, ?_⟩
  all_goals simp
  all_goals grind

theorem exec_sent {s s' : St B} {acts : List (List Instr)} (h1 : Inv1 s acts) {n : Nat} {x : Instr} {r : List Instr}
    (hk : acts[n]? = some (x :: r)) {b : Bool} {p : List Instr} (he : exec s x b = .ok s' p) (i : Id) (k a : Nat) :
    Sent s' i k a ↔ Sent s i k a ∨ (x = .awStart i ∧ (awaited i s.log)[k]? = some a ∧ k + 1 = (awaited i s.log).length) := by
  have A := h1.as i
  have A0 := ws_pos (w := aw i) hk
  have V := h1.vx i
  have V0 := ws_pos (w := vw i) hk
  have H := h1.eh i
  have H0 := ws_pos (w := hw i) hk
  unfold Sent
  exec_cases he <;> simp only [awaited_snoc, upd_apply, List.append_nil] at *
  all_goals grind [tag, Leaf.num, aw, vw, hw]

theorem env_start {s s' : St B} {acts : List (List Instr)} (h1 : Inv1 s acts) (h2 : Inv2 s acts) {i : Id} {b : B.S} {p : List Instr}
    (he : env s [] (.start i b) = some (s', p)) :
    s.phase i = .fresh ∧ s'.log = s.log ++ [.start i b] ∧ s'.phase = upd s.phase i .started ∧
      (∀ j k a, Sent s' j k a ↔ Sent s j k a) ∧ p = [.link i, .exStart i] := by
  simp only [env] at he
  split at he
  · rename_i hf
    simp only [Option.some.injEq, Prod.mk.injEq] at he
    obtain ⟨rfl, rfl⟩ := he
    refine ⟨hf, rfl, rfl, fun j k a => ?_, rfl⟩
    have ht := (h1.ph j).2
    unfold Sent
    simp only [awaited_snoc, upd_apply, List.append_nil]
    by_cases e : j = i
    · subst e
      have := ht (by rw [hf]; simp)
      rw [if_pos rfl, this]
      simp [tag]
    · simp [e]
  · cases he

theorem env_complete {s s' : St B} {acts : List (List Instr)} (h2 : Inv2 s acts) {i : Id} {v : Nat} {p : List Instr}
    (he : env s [] (.complete i v) = some (s', p)) :
    tag (s.frame i) = 4 ∧ s'.log = s.log ++ [.complete i v] ∧ s'.phase = s.phase ∧
      (∀ j k a, Sent s' j k a ↔ Sent s j k a) ∧ p = [.emplace i v] := by
  simp only [env] at he
  split at he
  · rename_i hf
    simp only [Option.some.injEq, Prod.mk.injEq] at he
    obtain ⟨rfl, rfl⟩ := he
    refine ⟨by rw [hf]; rfl, rfl, rfl, fun j k a => ?_, rfl⟩
    unfold Sent
    simp only [awaited_snoc, upd_apply, List.append_nil]
    by_cases e : j = i
    · subst e
      simp [tag, hf, Leaf.num]
    · simp [e]
  · cases he

theorem env_complete_ok {s : St B} {i : Id} (h : tag (s.frame i) = 4) (v : Nat) :
    ∃ s' p, env s [] (.complete i v) = some (s', p) := by
  simp only [env]
  split
  · exact ⟨_, _, rfl⟩
  · rename_i hn
    exfalso
    rcases hf : s.frame i with _ | (_ | _ | ⟨k, l, r⟩ | _ | _) <;> rw [hf] at h <;> simp [tag] at h
    cases l <;> simp [Leaf.num] at h
    exact hn _ _ hf

/-- The last sender awaited, while `await_suspend` is about to start it. -/
theorem connected {s : St B} {acts : List (List Instr)} (h1 : Inv1 s acts) (h2 : Inv2 s acts) {n : Nat} {i : Id} {r : List Instr}
    (hk : acts[n]? = some (.awStart i :: r)) :
    tag (s.frame i) = 3 ∧ ∃ a, (awaited i s.log).getLast? = some a ∧ 0 < (awaited i s.log).length := by
  have A := h1.as i
  have A0 := ws_pos (w := aw i) hk
  simp only [aw, if_true] at A0
  have ht : tag (s.frame i) = 3 := by
    split at A
    · assumption
    · omega
  have := h2.aw i
  rw [ht] at this
  simp at this
  have hp : 0 < (awaited i s.log).length := by omega
  have hne : awaited i s.log ≠ [] := by rintro h; rw [h] at hp; simp at hp
  exact ⟨ht, _, List.getLast?_eq_some_getLast hne, hp⟩

theorem setv_obj {s : St B} {acts : List (List Instr)} (h1 : Inv1 s acts) {n : Nat} {i : Id} {r : List Instr}
    (hk : acts[n]? = some (.setv i :: r)) : s.phase i = .started ∧ ∃ v, s.obj i = some v := by
  have A := h1.vx i
  have A0 := ws_pos (w := vw i) hk
  simp only [vw, if_true] at A0
  have ht : tag (s.frame i) = 7 := by
    split at A
    · rename_i h; exact h.1
    · omega
  refine ⟨?_, Option.ne_none_iff_exists'.1 (h1.ob i (by omega))⟩
  have := h1.ph i
  rw [ht] at this
  simp at this
  exact this

end Verif.Result

