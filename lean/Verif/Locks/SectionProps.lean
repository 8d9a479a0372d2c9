import Verif.Locks.Once

/-!
# C90: critical sections take place at once

Everything that the library does between locking and unlocking one of its internal mutexes has the same effect as if it happened in one
step, at a moment between the two. This justifies the other machines of this project, which treat such sections as steps.
-/

namespace Verif.Locks

/-- **C90** (partial: code that is called with a lock held makes no calls, `queue::empty` is not used, and only sections with at most one
access to something that is not protected by the mutex). For every execution there is another one, with the same events and the same final
state, such that: nobody can tell the difference; whatever instructions do to data, the result is the same; things that were done one after
the other are still done in this order; and no thread does anything while another one is in such a section. -/
theorem C90_sections_partial {es : List Ev} {s' : St} (h : Trace Plain .init es s') :
    ∃ es', Trace Plain .init es' s' ∧ Equivalent es es' ∧
      (∀ (L V : Type) (M : Meaning L V) (m : Mem L V), M.run m es = M.run m es') ∧
      SameTime es es' ∧
      ∀ t o m, Section es' t o m → AtMostOne t o m → ∀ e ∈ m, e.thr = t := by
  obtain ⟨st, R⟩ := h.run
  have hs := R.swaps
  have ht := R.sameTime
  rw [map_getD] at hs ht
  exact ⟨_, hs.trace h, hs.equivalent, fun _ _ M m => hs.run M m, ht, fun _ _ _ h1 h2 => R.together h1 h2⟩

/-- **C90** (partial: moreover, `lock` and `lock_shared` of the asynchronous mutexes are not used, only `try_lock` and
`try_lock_shared`). All sections take place at once. -/
theorem C90_all_sections_partial {es : List Ev} {s' : St} (h : Trace NoLock .init es s') :
    ∃ es', Trace NoLock .init es' s' ∧ Equivalent es es' ∧
      (∀ (L V : Type) (M : Meaning L V) (m : Mem L V), M.run m es = M.run m es') ∧
      SameTime es es' ∧
      ∀ t o m, Section es' t o m → ∀ e ∈ m, e.thr = t := by
  have hp : Trace Plain .init es s' := h.mono (by intro x f; simp only [NoLock, Bool.and_eq_true]; exact fun h => h.1)
  obtain ⟨st, R⟩ := hp.run
  have hs := R.swaps
  have ht := R.sameTime
  rw [map_getD] at hs ht
  have h' := hs.trace h
  exact ⟨_, h', hs.equivalent, fun _ _ M m => hs.run M m, ht, fun _ _ _ h1 => R.together h1 (section_once h' h1)⟩

/-- The events of a sequence of steps. -/
def events (s : St) : List (Thr × Choice) → List Ev
  | [] => []
  | (t, c) :: l =>
    match s.stack t, step s t c with
    | x :: _, .ok s1 => ⟨t, x, c⟩ :: events s1 l
    | _, _ => []

theorem Trace.of_runs {A : Instr → Fn → Bool} {s s' : St} {l : List (Thr × Choice)} (h1 : obeys A s l = true) (h2 : runs s l = some s') :
    Trace A s (events s l) s' := by
  induction l generalizing s with
  | nil => simp [runs] at h2; subst h2; exact .nil
  | cons x l ih =>
    obtain ⟨t, c⟩ := x
    simp only [runs] at h2
    simp only [obeys, Bool.and_eq_true] at h1
    split at h2
    · rename_i s1 hs
      simp only [hs] at h1
      cases hst : s.stack t with
      | nil => simp [step, hst] at hs
      | cons y r =>
        simp only [events, hst, hs]
        exact .cons hst h1.1 hs (ih h1.2 h2)
    · simp at h2

/-- If the events of a thread contain a section, so does the execution. -/
theorem section_of_filter {es A M0 B : List Ev} {t : Thr} {o : Obj} {c d : Choice}
    (h : es.filter (fun e => e.thr = t) = A ++ ⟨t, .lock o, c⟩ :: (M0 ++ ⟨t, .unlock o, d⟩ :: B))
    (hM : ∀ e ∈ M0, e.ins ≠ .unlock o) :
    ∃ a m b, es = a ++ ⟨t, .lock o, c⟩ :: (m ++ ⟨t, .unlock o, d⟩ :: b) ∧ m.filter (fun e => e.thr = t) = M0 ∧ Section es t o m := by
  obtain ⟨a, x, rfl, _, h2⟩ := List.filter_eq_append_iff.1 h
  obtain ⟨a1, a2, rfl, h3, _, h4⟩ := List.filter_eq_cons_iff.1 h2
  obtain ⟨m, y, rfl, h5, h6⟩ := List.filter_eq_append_iff.1 h4
  obtain ⟨m1, m2, rfl, h7, _, h8⟩ := List.filter_eq_cons_iff.1 h6
  have hm1 : m1.filter (fun e => e.thr = t) = [] := List.filter_eq_nil_iff.2 h7
  refine ⟨a ++ a1, m ++ m1, m2, by simp, by simp [h5, hm1], a ++ a1, m2, c, d, by simp, fun e he ht => ?_⟩
  refine hM e ?_
  rw [← h5]
  have : e ∈ (m ++ m1).filter (fun e => e.thr = t) := by simp only [List.mem_filter]; exact ⟨he, by simpa using ht⟩
  rw [List.filter_append, hm1, List.append_nil] at this
  exact this

theorem not_apart {α : Type} {P Q W : List α} {x y z : α} (h : P ++ x :: z :: Q = W ++ [x, y, z]) (h1 : y ≠ x) (h2 : y ≠ z)
    (hW : x ∉ W) : False := by
  rcases List.append_eq_append_iff.1 h with ⟨a, rfl, h3⟩ | ⟨a, rfl, h3⟩
  · match a with
    | [] => simp at h3; exact h2 h3.1.symm
    | _ :: _ => simp at h3; obtain ⟨rfl, _⟩ := h3; simp at hW
  · match a with
    | [] => simp at h3; exact h2 h3.1
    | [_] => simp at h3; exact h1 h3.2.1
    | _ :: _ :: _ => have := congrArg List.length h3; simp at this; omega

/-- If somebody accesses a variable between two accesses of a section, no equivalent execution has the section in one piece. -/
theorem not_together {es A M0 B W : List Ev} {t u : Thr} {o : Obj} {c d : Choice} {v : Var} {x y z : Ev}
    (h1 : es.filter (fun e => e.thr = t) = A ++ ⟨t, .lock o, c⟩ :: (M0 ++ ⟨t, .unlock o, d⟩ :: B))
    (hM : ∀ e ∈ M0, e.ins ≠ .unlock o) (h2 : es.filter (Ev.concerns u v) = W ++ [x, y, z])
    (h3 : M0.filter (Ev.concerns u v) = [x, z]) (hW : x ∉ W)
    (hx : x.thr = t) (hy : y.thr ≠ t) (hz : z.thr = t) :
    ¬ ∃ es', Equivalent es es' ∧ ∀ t o m, Section es' t o m → ∀ e ∈ m, e.thr = t := by
  rintro ⟨es', ⟨e1, e2⟩, hs⟩
  rw [e1] at h1
  rw [e2] at h2
  obtain ⟨a, m, b, rfl, hm, hsec⟩ := section_of_filter h1 hM
  have hm' : m.filter (fun e => e.thr = t) = m := List.filter_eq_self.2 (fun e he => by simpa using hs _ _ _ hsec e he)
  rw [hm'] at hm; subst hm
  have hne1 : y ≠ x := by rintro rfl; exact hy hx
  have hne2 : y ≠ z := by rintro rfl; exact hy hz
  have e : ∀ l r : List Ev, l ++ ⟨t, .lock o, c⟩ :: r = (l ++ [⟨t, .lock o, c⟩]) ++ r := by simp
  rw [e, List.filter_append, List.filter_append m, h3] at h2
  exact not_apart h2 hne1 hne2 hW

/-- `emplace`, during which somebody else calls `empty`. -/
def duringEmplace : List (Thr × Choice) :=
  [(0, .call (.emplace 0)), (0, .go), (0, .go), (0, .pick false), (0, .go), (0, .ret),
    (1, .call (.empty 0)), (1, .go), (0, .go), (0, .go)]

/-- **C90** is false with `queue::empty`. -/
theorem C90_empty_false : ∃ es s', Trace Quiet .init es s' ∧
    ¬ ∃ es', Equivalent es es' ∧ ∀ t o m, Section es' t o m → ∀ e ∈ m, e.thr = t := by
  refine ⟨events .init duringEmplace, _, .of_runs rfl rfl, ?_⟩
  exact not_together (t := 0) (u := 1) (o := 0) (v := .field 0 .buffer) (A := [_]) (M0 := [_, _, _, _, _]) (B := []) (W := []) rfl (by simp)
    rfl rfl (by simp) rfl (by simp) rfl

/-- The slow path of `lock`, during which somebody else calls `try_lock`. -/
def duringLock : List (Thr × Choice) :=
  [(0, .call (.lockStart 0)), (0, .go), (0, .pick false), (0, .go), (0, .go),
    (1, .call (.tryLock 0)), (1, .go), (0, .pick true), (0, .go), (0, .pick false), (0, .pick true), (0, .go)]

/-- **C90** is false with `lock`: other threads may see and change the state of the mutex between the steps of its section. -/
theorem C90_lock_false : ∃ es s', Trace Plain .init es s' ∧
    ¬ ∃ es', Equivalent es es' ∧ ∀ t o m, Section es' t o m → ∀ e ∈ m, e.thr = t := by
  refine ⟨events .init duringLock, _, .of_runs rfl rfl, ?_⟩
  exact not_together (t := 0) (u := 0) (o := 0) (v := .atomic (.word 0)) (A := [_, _, _]) (M0 := [_, _, _, _, _]) (B := []) (W := [_]) rfl
    (by simp) rfl rfl (by simp) rfl (by simp) rfl

/-- Two threads use two queues. Their sections overlap, and code of the user runs in both. -/
def overlapping : List (Thr × Choice) :=
  [(0, .call (.emplace 0)), (1, .call (.maybeGet 1)), (0, .go), (1, .go), (0, .go), (1, .go), (1, .pick false), (0, .pick false),
    (0, .go), (1, .go), (1, .ret), (0, .ret), (1, .go), (0, .go), (0, .go), (1, .go)]

/-- `C90_all_sections_partial` applies to it. -/
example : ∃ s', Trace NoLock .init (events .init overlapping) s' ∧
    ∃ m, Section (events .init overlapping) 0 0 m ∧ ¬ ∀ e ∈ m, e.thr = 0 := by
  refine ⟨_, .of_runs rfl rfl, [_, _, _, _, _, _, _, _, _, _, _], ⟨[_, _], [_], .go, .go, rfl, ?_⟩, ?_⟩
  · simp
  · simp

/-- `lock` on one mutex and `post` overlap: `C90_sections_partial` applies, and one of the sections qualifies. -/
def lockAndPost : List (Thr × Choice) :=
  [(0, .call (.lockStart 0)), (1, .call (.postStart 1)), (1, .go), (0, .go), (0, .pick false), (0, .go), (1, .go), (1, .go), (0, .go),
    (1, .pick false), (1, .go), (0, .pick true), (0, .go), (1, .go), (1, .pick false), (1, .go)]

example : ∃ s', Trace Plain .init (events .init lockAndPost) s' ∧
    ∃ m, Section (events .init lockAndPost) 1 1 m ∧ AtMostOne 1 1 m ∧ ¬ ∀ e ∈ m, e.thr = 1 := by
  refine ⟨_, .of_runs rfl rfl, [_, _, _, _, _, _, _, _, _, _, _, _], ⟨[_, _], [], .go, .go, rfl, ?_⟩, ?_, ?_⟩
  · simp
  · show List.length _ ≤ 1; simp [exposed]
  · simp

end Verif.Locks
