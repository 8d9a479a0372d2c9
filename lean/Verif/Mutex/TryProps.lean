import Verif.Mutex.AdmitProps

/-!
# `try_lock` does not wait (C72)
-/

namespace Verif.Mutex

/-- Requests that may wait, as far as the instruction tells. -/
def lI : Instr → List Id
  | .lock i => [i]
  | .acqM i => [i]
  | .ld i => [i]
  | .chk i _ => [i]
  | .push i => [i]
  | _ => []

/-- Who waits. -/
structure Waits (s : St) (acts : List (List Instr)) : Prop where
  pend : ∀ x, Pending acts x → ∀ i ∈ lI x, .lock i ∈ s.log
  wt : ∀ i ∈ s.waiters, .lock i ∈ s.log
  enq : ∀ i, .enq i ∈ s.log → .lock i ∈ s.log

theorem exec_waits {K : Id → Prop} {s : St} {x : Instr} {b : Bool} {s' : St} {p : List Instr} (he : exec s x b = .ok s' p)
    (hx : ∀ t ∈ lI x, K t) (hw : ∀ t ∈ s.waiters, K t) :
    (∀ y ∈ p, ∀ t ∈ lI y, K t) ∧ (∀ t ∈ s'.waiters, K t) ∧
    (s'.log = s.log ∨ ∃ v, s'.log = s.log ++ [v] ∧ (∀ t, v = .enq t → K t)) := by
  cases x with
  | chk t v =>
    cases v <;> simp only [exec] at he <;> (repeat' split at he) <;>
      simp only [Out.ok.injEq] at he <;> obtain ⟨rfl, rfl⟩ := he <;> simp_all [lI]
  | _ =>
    simp only [exec] at he <;> (repeat' split at he) <;>
      simp only [Out.ok.injEq, reduceCtorEq] at he <;> obtain ⟨rfl, rfl⟩ := he <;> simp_all [lI] <;> grind

theorem reach_waits {c : Conf mach} (h : Reach mach init c) : Waits c.sh c.acts := by
  refine Reach.inv (P := Waits) ?_ ?_ ?_ h
  · exact ⟨by simp [Pending], by simp [init], by simp [init]⟩
  · rintro s acts a s' p ⟨h3, h4, h5⟩ he
    have hp : ∀ y, Pending (acts ++ [p]) y → y ∈ p ∨ Pending acts y := fun y => pending_append
    cases a <;> simp only [env] at he <;> split at he <;>
      simp only [Option.some.injEq, Prod.mk.injEq, reduceCtorEq] at he <;> obtain ⟨rfl, rfl⟩ := he <;>
      refine ⟨?_, fun t ht => List.mem_append_left _ (h4 t ht), fun t ht => List.mem_append_left _ (h5 t (by simpa using ht))⟩ <;>
      intro y hy t ht <;> rcases hp y hy with hy | hy <;>
      first
      | exact List.mem_append_left _ (h3 y hy t ht)
      | (simp at hy; subst hy; simp [lI] at ht; try (subst ht; simp))
  · rintro s acts k x r b s' p ⟨h3, h4, h5⟩ hk he
    have hp : ∀ y, Pending (acts.set k (p ++ r)) y → y ∈ p ∨ Pending acts y := fun y => pending_set hk
    obtain ⟨k1, k2, k3⟩ := exec_waits (K := fun t => .lock t ∈ s.log) he (h3 x (pending_top hk)) h4
    rcases k3 with k3 | ⟨v, k3, k4⟩
    · refine ⟨?_, by rw [k3]; exact k2, by rw [k3]; exact h5⟩
      rw [k3]; intro y hy
      rcases hp y hy with hy | hy
      · exact k1 y hy
      · exact h3 y hy
    · refine ⟨?_, ?_, ?_⟩
      · rw [k3]; intro y hy t ht
        rcases hp y hy with hy | hy
        · exact List.mem_append_left _ (k1 y hy t ht)
        · exact List.mem_append_left _ (h3 y hy t ht)
      · rw [k3]; intro t ht; exact List.mem_append_left _ (k2 t ht)
      · rw [k3]; intro t ht
        rcases List.mem_append.1 ht with ht | ht
        · exact List.mem_append_left _ (h5 t ht)
        · simp at ht; exact List.mem_append_left _ (k4 t ht.symm)

/-- C72. `try_lock` never waits in the queue, and when no call is running it has returned true or false, whoever holds the mutex. -/
theorem C72_mutex_try_returns {c : Conf mach} (h : MReach c) {i : Id} (ht : .tryLock i ∈ c.sh.log) :
    .enq i ∉ c.sh.log ∧ (Quiescent c → .acq i ∈ c.sh.log ∨ .fail i ∈ c.sh.log) := by
  have hI := reach_inv h
  have hK := reach_kind h
  have hW := reach_waits h
  refine ⟨fun hn => hK.excl i (hW.enq _ hn) ht, fun hq => ?_⟩
  have hop := hI.op i
  rw [ws_quiescent _ hq, (hI.beg i).2 (.inr ht), if_pos rfl] at hop
  have hw : c.sh.waiters.count i = 0 := by
    rw [List.count_eq_zero]
    intro hm
    exact hK.excl i (hW.wt _ hm) ht
  have hov : 0 < over i c.sh.log := by omega
  rw [over, List.countP_pos_iff] at hov
  obtain ⟨v, hv, e⟩ := hov
  cases v <;> simp at e
  · subst e; exact .inl hv
  · subst e; exact .inr hv

/-! In `heldFail` a `try_lock` is called while the mutex is held. -/

theorem heldFail_reach : MReach heldFail := Reach.after _ _ _
theorem heldFail_log : heldFail.sh.log = [.lock 0, .fast 0, .acq 0, .tryLock 1, .fail 1] := rfl
theorem heldFail_rest : Quiescent heldFail := by intro a ha; revert a ha; decide

example : .enq 1 ∉ heldFail.sh.log := (C72_mutex_try_returns heldFail_reach (by rw [heldFail_log]; simp)).1
example : .acq 1 ∈ heldFail.sh.log ∨ .fail 1 ∈ heldFail.sh.log :=
  (C72_mutex_try_returns heldFail_reach (by rw [heldFail_log]; simp)).2 heldFail_rest

/-- C72. `try_lock` does not depend on other threads: from every moment at which it is called, at most two steps of its own, without any step of
others, suffice for it to return, wherever the other calls are (for example in the critical section of the internal mutex). -/
theorem C72_mutex_try_alone {c : Conf mach} (h : MReach c) {i : Id} (hn : .lock i ∉ c.sh.log ∧ .tryLock i ∉ c.sh.log) (b : Bool) :
    ∃ n c', n ≤ 2 ∧ mach.runs c (.env (.tryLock i) :: List.replicate n (.run c.acts.length b)) = some c' ∧ c'.acts = c.acts ++ [[]] ∧
      (c'.sh.log = c.sh.log ++ [.tryLock i, .fast i, .acq i] ∨ c'.sh.log = c.sh.log ++ [.tryLock i, .fail i]) := by
  have hb := C15_no_assertion h
  have hu : c.sh.used i = false := by
    cases hx : c.sh.used i with
    | false => rfl
    | true =>
      rcases ((reach_kind h).used i).1 hx with g | g
      · exact absurd g hn.1
      · exact absurd g hn.2
  obtain ⟨s, acts, bad⟩ := c
  simp only at hb hu
  subst hb
  by_cases h0 : s.st = .none
  · refine ⟨2, (⟨{ s with st := .locked, used := upd s.used i true, log := s.log ++ [.tryLock i, .fast i, .acq i] }, acts ++ [[]], false⟩ : Conf mach),
      by omega, ?_, rfl, .inl rfl⟩
    simp [Mach.runs, Mach.step, env, hu, List.replicate, exec, h0]
  · refine ⟨1, (⟨{ s with used := upd s.used i true, log := s.log ++ [.tryLock i, .fail i] }, acts ++ [[]], false⟩ : Conf mach),
      by omega, ?_, rfl, .inr rfl⟩
    simp [Mach.runs, Mach.step, env, hu, List.replicate, exec, h0]

/-! 0 holds the mutex, 1 has taken the internal mutex and stops there; then `try_lock` is called. -/

/-- 1 is in the critical section of the internal mutex. -/
def inside : Conf mach := mach.after init [.env (.lock 0), .run 0 true, .run 0 true, .env (.lock 1), .run 1 true, .run 1 true]

theorem inside_reach : MReach inside := Reach.after _ _ _
theorem inside_log : inside.sh.log = [.lock 0, .fast 0, .acq 0, .lock 1] := rfl

example : inside.sh.mtx = true := rfl
example : ∃ n c', n ≤ 2 ∧ mach.runs inside (.env (.tryLock 2) :: List.replicate n (.run inside.acts.length true)) = some c' ∧
    c'.acts = inside.acts ++ [[]] ∧
    (c'.sh.log = inside.sh.log ++ [.tryLock 2, .fast 2, .acq 2] ∨ c'.sh.log = inside.sh.log ++ [.tryLock 2, .fail 2]) :=
  C72_mutex_try_alone inside_reach (by rw [inside_log]; simp) true

end Verif.Mutex
