import Verif.SharedMutex.Try
import Verif.SharedMutex.AdmitProps

/-!
# `try_lock` and `try_lock_shared` do not wait (C72)
-/

namespace Verif.SharedMutex

/-- C72. `try_lock` and `try_lock_shared` never wait in the queue, and when no call is running they have returned true or false, whoever holds the
mutex. -/
theorem C72_try_returns {c : Conf mach} (h : MReach c) {t : Req} (ht : .tryLock t ∈ c.sh.log) :
    .enq t ∉ c.sh.log ∧ (Quiescent c → .acq t ∈ c.sh.log ∨ .fail t ∈ c.sh.log) := by
  obtain ⟨i, e⟩ := t
  have hI := reach_inv h
  have hK := reach_kind h
  have hW := reach_waits h
  refine ⟨fun hn => hK.excl i e e (hW.enq _ hn) ht, fun hq => ?_⟩
  have hop := hI.op i
  rw [ws_quiescent _ hq, (hI.beg i).2 ⟨e, .inr ht⟩, if_pos rfl] at hop
  have hw : (c.sh.waiters.map (·.1)).count i = 0 := by
    rw [List.count_eq_zero]
    intro hm
    obtain ⟨⟨j, x⟩, hj, rfl⟩ := List.mem_map.1 hm
    exact hK.excl j x e (hW.wt _ hj) ht
  have : i ∈ overs c.sh.log := List.count_pos_iff.1 (by omega)
  obtain ⟨v, hv, hx⟩ := List.mem_flatMap.1 this
  have mode : ∀ x b, Known c.sh.log ((i, x), b) → x = e := by
    rintro x b (g | ⟨_, g⟩)
    · exact hW.uniq i x e g ht
    · exact absurd ht (hK.excl i x e g)
  cases v <;> simp [Ev.overs] at hx
  · rename_i t; obtain ⟨i', e'⟩ := t; simp at hx; subst hx
    have := mode e' false (hK.log _ hv _ (by simp [mE])); subst this; exact .inl hv
  · rename_i t; obtain ⟨i', e'⟩ := t; simp at hx; subst hx
    have := mode e' true (hK.log _ hv _ (by simp [mE])); subst this; exact .inr hv

/-! In `refused` a reader holds the mutex, a writer waits, and a `try_lock_shared` has been called. -/

theorem refused_rest : Quiescent refused := by intro a ha; revert a ha; decide

example : .enq (2, false) ∉ refused.sh.log :=
  (C72_try_returns refused_reach (by rw [refused_log]; simp)).1

example : .acq (2, false) ∈ refused.sh.log ∨ .fail (2, false) ∈ refused.sh.log :=
  (C72_try_returns refused_reach (by rw [refused_log]; simp)).2 refused_rest

/-- C72. `try_lock` and `try_lock_shared` do not depend on other threads: from every moment at which one of them is called, at most three steps of
its own, without any step of others, suffice for it to return, wherever the other calls are (for example in the critical section of the internal
mutex). -/
theorem C72_try_alone {c : Conf mach} (h : MReach c) {t : Req} (hn : ∀ e, .lock (t.1, e) ∉ c.sh.log ∧ .tryLock (t.1, e) ∉ c.sh.log) (b : Bool) :
    ∃ n c', n ≤ 3 ∧ mach.runs c (.env (.tryLock t) :: List.replicate n (.run c.acts.length b)) = some c' ∧ c'.acts = c.acts ++ [[]] ∧
      (c'.sh.log = c.sh.log ++ [.tryLock t, .fast t, .acq t] ∨ c'.sh.log = c.sh.log ++ [.tryLock t, .fail t]) := by
  have hb := C18_no_assertion h
  have hu : c.sh.used t.1 = false := by
    cases hx : c.sh.used t.1 with
    | false => rfl
    | true =>
      obtain ⟨e, g | g⟩ := ((reach_kind h).used t.1).1 hx
      · exact absurd g (hn e).1
      · exact absurd g (hn e).2
  obtain ⟨s, acts, bad⟩ := c
  simp only at hb hu
  subst hb
  obtain ⟨i, e⟩ := t
  simp only at hu
  have ok : ∀ w e, (⟨{ s with st := w, used := upd s.used i true, log := s.log ++ [.tryLock (i, e), .fast (i, e), .acq (i, e)] },
      acts ++ [[]], false⟩ : Conf mach).sh.log = s.log ++ [.tryLock (i, e), .fast (i, e), .acq (i, e)] := fun _ _ => rfl
  cases e with
  | true =>
    by_cases h0 : s.st = ⟨.none, 0⟩
    · refine ⟨2, _, by omega, ?_, rfl, .inl (ok ⟨.locked, 0⟩ true)⟩
      simp [Mach.runs, Mach.step, env, hu, List.replicate, Instr.ofTry, exec, h0, St.admit]
    · refine ⟨1, (⟨{ s with used := upd s.used i true, log := s.log ++ [.tryLock (i, true), .fail (i, true)] }, acts ++ [[]], false⟩ : Conf mach),
        by omega, ?_, rfl, .inr rfl⟩
      simp [Mach.runs, Mach.step, env, hu, List.replicate, Instr.ofTry, exec, h0]
  | false =>
    by_cases h0 : s.st.c = .none
    · refine ⟨3, _, by omega, ?_, rfl, .inl (ok ⟨.locked, 1⟩ false)⟩
      simp [Mach.runs, Mach.step, env, hu, List.replicate, Instr.ofTry, exec, h0, St.admit]
    · by_cases h1 : s.st.c = .locked ∧ s.st.n ≠ 0
      · refine ⟨3, _, by omega, ?_, rfl, .inl (ok ⟨.locked, s.st.n + 1⟩ false)⟩
        simp [Mach.runs, Mach.step, env, hu, List.replicate, Instr.ofTry, exec, h1.1, h1.2, St.admit]
      · refine ⟨2, (⟨{ s with used := upd s.used i true, log := s.log ++ [.tryLock (i, false), .fail (i, false)] }, acts ++ [[]], false⟩ : Conf mach),
          by omega, ?_, rfl, .inr rfl⟩
        simp only [Mach.runs, Mach.step, env, hu, List.replicate, Instr.ofTry, exec, Bool.false_eq_true, if_false,
          List.getElem?_concat_length, List.append_nil, List.set_append_right _ _ (Nat.le_refl _), Nat.sub_self, List.set_cons_zero, h0, h1]
        simp

/-! Writer 0 holds the mutex, writer 1 has taken the internal mutex and stops there; then `try_lock_shared` is called. -/

/-- Writer 1 is in the critical section of the internal mutex. -/
def inside : Conf mach := mach.after init
  [.env (.lock (0, true)), .run 0 true, .run 0 true, .env (.lock (1, true)), .run 1 true, .run 1 true]

theorem inside_reach : MReach inside := Reach.after _ _ _
theorem inside_log : inside.sh.log = [.lock (0, true), .fast (0, true), .acq (0, true), .lock (1, true)] := rfl

example : inside.sh.mtx = true := rfl
example : ∃ n c', n ≤ 3 ∧ mach.runs inside (.env (.tryLock (2, false)) :: List.replicate n (.run inside.acts.length true)) = some c' ∧
    c'.acts = inside.acts ++ [[]] ∧ (c'.sh.log = inside.sh.log ++ [.tryLock (2, false), .fast (2, false), .acq (2, false)] ∨
      c'.sh.log = inside.sh.log ++ [.tryLock (2, false), .fail (2, false)]) :=
  C72_try_alone inside_reach (by rw [inside_log]; simp) true

end Verif.SharedMutex
