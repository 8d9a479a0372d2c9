import Verif.SharedMutex.Order

/-!
# Only `async_lock` and `async_lock_shared` wait: helper lemmas
-/

namespace Verif.SharedMutex

/-- Requests that may wait, as far as the instruction tells. -/
def lI : Instr → List Req
  | .lock i => [(i, true)]
  | .lockS i => [(i, false)]
  | .lsT i f _ => if f then [(i, false)] else []
  | .acqM t => [t]
  | .ld t => [t]
  | .chk t _ => [t]
  | .push t => [t]
  | _ => []

theorem exec_waits {K : Req → Prop} {s : St} {x : Instr} {b : Bool} {s' : St} {p : List Instr} (he : exec s x b = .ok s' p)
    (hx : ∀ t ∈ lI x, K t) (hw : ∀ t ∈ s.waiters, K t) :
    (∀ y ∈ p, ∀ t ∈ lI y, K t) ∧ (∀ t ∈ s'.waiters, K t) ∧
    (s'.log = s.log ∨ ∃ v, s'.log = s.log ++ [v] ∧ (∀ t, v = .enq t → K t) ∧ (∀ t, v ≠ .lock t ∧ v ≠ .tryLock t)) := by
  cases x with
  | chk t v =>
    obtain ⟨i, e⟩ := t
    cases e <;> simp only [exec] at he <;> (repeat' split at he) <;>
      simp only [Out.ok.injEq] at he <;> obtain ⟨rfl, rfl⟩ := he <;>
      simp_all [lI, St.admit]
  | lsT i f v =>
    cases f <;> simp only [exec] at he <;> (repeat' split at he) <;>
      simp only [Out.ok.injEq] at he <;> obtain ⟨rfl, rfl⟩ := he <;>
      simp_all [lI, St.admit]
  | stR js =>
    simp only [exec, Out.ok.injEq] at he; obtain ⟨rfl, rfl⟩ := he
    simp_all [lI]
  | popU i =>
    simp only [exec] at he
    split at he
    · simp at he
    · rename_i j w h
      simp only [Out.ok.injEq] at he; obtain ⟨rfl, rfl⟩ := he
      simp_all [lI]
    · rename_i j w h
      simp only [Out.ok.injEq] at he; obtain ⟨rfl, rfl⟩ := he
      rw [h] at hw
      refine ⟨by simp [lI], ?_, .inr ⟨_, rfl, by simp, by simp⟩⟩
      intro t ht; exact hw t ((List.dropWhile_sublist (fun t => !t.2)).subset ht)
  | popS i =>
    simp only [exec] at he
    split at he
    · simp at he
    · simp at he
    · rename_i j w h
      simp only [Out.ok.injEq] at he; obtain ⟨rfl, rfl⟩ := he
      simp_all [lI]
  | _ =>
    simp only [exec] at he <;> (repeat' split at he) <;>
      simp only [Out.ok.injEq, reduceCtorEq] at he <;> obtain ⟨rfl, rfl⟩ := he <;>
      simp_all [lI, St.admit] <;> grind

/-- Who waits. -/
structure Waits (s : St) (acts : List (List Instr)) : Prop where
  used : ∀ i e, .tryLock (i, e) ∈ s.log → s.used i = true
  uniq : ∀ i e e', .tryLock (i, e) ∈ s.log → .tryLock (i, e') ∈ s.log → e = e'
  pend : ∀ x, Pending acts x → ∀ t ∈ lI x, .lock t ∈ s.log
  wt : ∀ t ∈ s.waiters, .lock t ∈ s.log
  enq : ∀ t, .enq t ∈ s.log → .lock t ∈ s.log

theorem reach_waits {c : Conf mach} (h : Reach mach init c) : Waits c.sh c.acts := by
  refine Reach.inv (P := Waits) ?_ ?_ ?_ h
  · exact ⟨by simp [init], by simp [init], by simp [Pending], by simp [init], by simp [init]⟩
  · rintro s acts a s' p ⟨h1, h2, h3, h4, h5⟩ he
    have hp : ∀ y, Pending (acts ++ [p]) y → y ∈ p ∨ Pending acts y := fun y => pending_append
    cases a with
    | lock t =>
      obtain ⟨j, e⟩ := t
      simp only [env] at he; split at he <;>
        simp only [Option.some.injEq, Prod.mk.injEq, reduceCtorEq] at he; obtain ⟨rfl, rfl⟩ := he
      refine ⟨?_, ?_, ?_, ?_, ?_⟩
      · intro i e' hi
        have := h1 i e' (by simpa using hi)
        simp only [upd_apply]; split <;> simp_all
      · intro i e1 e2; simpa using h2 i e1 e2
      · intro y hy t ht
        rcases hp y hy with hy | hy
        · simp at hy; subst hy
          cases e <;> simp [Instr.ofLock, lI] at ht <;> subst ht <;> simp
        · exact List.mem_append_left _ (h3 y hy t ht)
      · intro t ht; exact List.mem_append_left _ (h4 t ht)
      · intro t ht; exact List.mem_append_left _ (h5 t (by simpa using ht))
    | tryLock t =>
      obtain ⟨j, e⟩ := t
      simp only [env] at he; split at he <;>
        simp only [Option.some.injEq, Prod.mk.injEq, reduceCtorEq] at he; obtain ⟨rfl, rfl⟩ := he
      rename_i hu
      refine ⟨?_, ?_, ?_, ?_, ?_⟩
      · intro i e' hi
        simp only [upd_apply]; split
        · rfl
        · rename_i hne
          refine h1 i e' ?_
          simpa [hne] using hi
      · intro i e1 e2 g1 g2
        by_cases hij : i = j
        · subst hij
          have n : ∀ e, .tryLock (i, e) ∉ s.log := fun e he => hu (h1 i e he)
          simp [n] at g1 g2
          rw [g1, g2]
        · exact h2 i e1 e2 (by simpa [hij] using g1) (by simpa [hij] using g2)
      · intro y hy t ht
        rcases hp y hy with hy | hy
        · simp at hy; subst hy
          cases e <;> simp [Instr.ofTry, lI] at ht
        · exact List.mem_append_left _ (h3 y hy t ht)
      · intro t ht; exact List.mem_append_left _ (h4 t ht)
      · intro t ht; exact List.mem_append_left _ (h5 t (by simpa using ht))
    | unlock t =>
      obtain ⟨j, e⟩ := t
      simp only [env] at he; split at he <;>
        simp only [Option.some.injEq, Prod.mk.injEq, reduceCtorEq] at he; obtain ⟨rfl, rfl⟩ := he
      refine ⟨?_, ?_, ?_, ?_, ?_⟩
      · intro i e'; simpa using h1 i e'
      · intro i e1 e2; simpa using h2 i e1 e2
      · intro y hy t ht
        rcases hp y hy with hy | hy
        · simp at hy; subst hy
          cases e <;> simp [Instr.ofUnlock, lI] at ht
        · exact List.mem_append_left _ (h3 y hy t ht)
      · intro t ht; exact List.mem_append_left _ (h4 t ht)
      · intro t ht; exact List.mem_append_left _ (h5 t (by simpa using ht))
  · rintro s acts k x r b s' p ⟨h1, h2, h3, h4, h5⟩ hk he
    have hp : ∀ y, Pending (acts.set k (p ++ r)) y → y ∈ p ∨ Pending acts y :=
      fun y => pending_set hk
    obtain ⟨k1, k2, k3⟩ := exec_waits (K := fun t => .lock t ∈ s.log) he (h3 x (pending_top hk)) h4
    have hu := (exec_setts he).1
    rcases k3 with k3 | ⟨v, k3, k4, k5⟩
    · refine ⟨by rw [hu, k3]; exact h1, by rw [k3]; exact h2, ?_, by rw [k3]; exact k2, by rw [k3]; exact h5⟩
      rw [k3]; intro y hy
      rcases hp y hy with hy | hy
      · exact k1 y hy
      · exact h3 y hy
    · have e2 : ∀ t, .tryLock t ∈ s.log ++ [v] ↔ .tryLock t ∈ s.log := by
        intro t; simp [(k5 t).2.symm]
      refine ⟨?_, ?_, ?_, ?_, ?_⟩
      · rw [hu, k3]; simpa only [e2] using h1
      · rw [k3]; simpa only [e2] using h2
      · rw [k3]; intro y hy t ht
        rcases hp y hy with hy | hy
        · exact List.mem_append_left _ (k1 y hy t ht)
        · exact List.mem_append_left _ (h3 y hy t ht)
      · rw [k3]; intro t ht; exact List.mem_append_left _ (k2 t ht)
      · rw [k3]; intro t ht
        rcases List.mem_append.1 ht with ht | ht
        · exact List.mem_append_left _ (h5 t ht)
        · simp at ht; exact List.mem_append_left _ (k4 t ht.symm)

end Verif.SharedMutex
