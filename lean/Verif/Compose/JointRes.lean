import Verif.Compose.JointModel
import Verif.Resolver.Terminates

/-! # Steps of the library, as seen by the code that starts its operations -/

namespace Verif.Joint

open Verif.Resolver (DS RSt OpId EvId completions cancelled doneCnt)

variable {S : DS}

theorem res_started {s s' : RSt S} {x : Resolver.Instr S} {b : Bool} {ps : List (Resolver.Instr S)}
    (he : Resolver.exec s x b = .ok s' ps) : s'.started = s.started := by
  cases x <;> simp only [Resolver.exec] at he <;> (repeat' split at he) <;> simp at he <;> obtain ⟨rfl, _⟩ := he <;> rfl

theorem countP_ds (i : OpId) (es : List S.E) : (es.map (Resolver.Ev.ds (S := S))).countP (Resolver.isDone i) = 0 := by
  rw [List.countP_eq_zero]
  intro a ha
  obtain ⟨e, _, rfl⟩ := List.mem_map.1 ha
  simp [Resolver.isDone]

theorem res_none {s s' : RSt S} {x : Resolver.Instr S} {b : Bool} {ps : List (Resolver.Instr S)}
    (he : Resolver.exec s x b = .ok s' ps) (hc : completes s x = none) (i : OpId) :
    completions i s'.log = completions i s.log := by
  cases x <;> simp only [completes, reduceCtorEq] at hc <;> simp only [Resolver.exec] at he <;> (repeat' split at he) <;>
    simp at he <;> obtain ⟨rfl, _⟩ := he <;>
    simp only [completions, doneCnt, List.countP_append, countP_ds, Nat.add_zero] <;> simp [Resolver.isDone]

theorem res_some {s s' : RSt S} {x : Resolver.Instr S} {b : Bool} {ps : List (Resolver.Instr S)}
    (he : Resolver.exec s x b = .ok s' ps) {i : OpId} {v : S.V} (hc : completes s x = some (i, v)) :
    s'.log = s.log ++ [.done i v] ∧ x.op = some i := by
  cases x <;> simp only [completes, reduceCtorEq, Option.some.injEq, Prod.mk.injEq] at hc <;> simp only [Resolver.exec] at he <;>
    simp at he <;> obtain ⟨rfl, _⟩ := he <;> obtain ⟨rfl, rfl⟩ := hc <;> simp [Resolver.Instr.op]

theorem res_cancel {s s' : RSt S} {e : EvId} {b : Bool} {ps : List (Resolver.Instr S)}
    (he : Resolver.exec s (.cancel e) b = .ok s' ps) : s'.req e = true := by
  simp only [Resolver.exec] at he
  simp at he; obtain ⟨rfl, _⟩ := he
  simp

theorem completions_append_done (i j : OpId) (v : S.V) (log : List (Resolver.Ev S)) :
    completions i (log ++ [.done j v]) = completions i log + if j = i then 1 else 0 := by
  simp only [completions, doneCnt, List.countP_append, List.countP_cons, List.countP_nil, Resolver.isDone]
  by_cases h : j = i <;> simp [h]

theorem no_done_of_zero {i : OpId} {log : List (Resolver.Ev S)} (h : completions i log = 0) (v : S.V) :
    Resolver.Ev.done i v ∉ log := by
  intro hv
  have : 0 < completions i log := List.countP_pos_iff.2 ⟨_, hv, by simp [Resolver.isDone]⟩
  omega

theorem res_begin {s s' : RSt S} {x : Resolver.Instr S} {b : Bool} {ps : List (Resolver.Instr S)}
    (he : Resolver.exec s x b = .ok s' ps) {i : OpId} {ct : Option EvId} {a : S.P} (h : .begin i ct a ∈ s'.log) :
    .begin i ct a ∈ s.log := by
  cases x <;> simp only [Resolver.exec] at he <;> (repeat' split at he) <;> simp at he <;> obtain ⟨rfl, _⟩ := he <;> simpa using h

/-- An operation has one token and one parameter. -/
theorem begin_unique {d0 : S.D} {c : Conf (Resolver.mach S)} (h : Reach (Resolver.mach S) (RSt.init d0) c) {i : OpId}
    {ct ct' : Option EvId} {a a' : S.P} (h1 : .begin i ct a ∈ c.sh.log) (h2 : .begin i ct' a' ∈ c.sh.log) : ct = ct' ∧ a = a' := by
  have := Reach.inv (M := Resolver.mach S)
    (P := fun s _ => (∀ i ct a, Resolver.Ev.begin i ct a ∈ s.log → s.started i = true) ∧
      ∀ i ct ct' a a', Resolver.Ev.begin i ct a ∈ s.log → Resolver.Ev.begin i ct' a' ∈ s.log → ct = ct' ∧ a = a')
    (by simp [RSt.init]) ?_ ?_ h
  · exact this.2 i ct ct' a a' h1 h2
  · intro s acts x s' q hP he
    have he' : Resolver.env s acts x = some (s', q) := he
    cases x <;> simp only [Resolver.env] at he'
    · rename_i j ct0 p0
      split at he'
      · simp at he'
      · rename_i hns
        split at he'
        · simp at he'; obtain ⟨rfl, _⟩ := he'
          refine ⟨fun i ct a hm => ?_, fun i ct ct' a a' hm hm' => ?_⟩
          · simp at hm
            rcases hm with hm | ⟨rfl, _⟩
            · have := hP.1 i ct a hm
              by_cases e : i = j
              · subst e; simp
              · simp [e, this]
            · simp
          · simp at hm hm'
            rcases hm with hm | ⟨rfl, rfl, rfl⟩
            · rcases hm' with hm' | ⟨rfl, rfl, rfl⟩
              · exact hP.2 i ct ct' a a' hm hm'
              · exact absurd (hP.1 _ _ _ hm) hns
            · rcases hm' with hm' | ⟨_, rfl, rfl⟩
              · exact absurd (hP.1 _ _ _ hm') hns
              · exact ⟨rfl, rfl⟩
        · simp at he'
    · simp at he'; obtain ⟨rfl, _⟩ := he'; exact hP
    · split at he'
      · simp at he'; obtain ⟨rfl, _⟩ := he'; exact hP
      · simp at he'
    · split at he'
      · simp at he'; obtain ⟨rfl, _⟩ := he'
        exact ⟨fun i ct a hm => hP.1 i ct a (by simpa using hm),
          fun i ct ct' a a' hm hm' => hP.2 i ct ct' a a' (by simpa using hm) (by simpa using hm')⟩
      · simp at he'
  · intro s acts k x r b s' q hP hk he
    have he' : Resolver.exec s x b = .ok s' q := he
    have hst := res_started he'
    exact ⟨fun i ct a hm => by rw [hst]; exact hP.1 i ct a (res_begin he' hm),
      fun i ct ct' a a' hm hm' => hP.2 i ct ct' a a' (res_begin he' hm) (res_begin he' hm')⟩

end Verif.Joint
