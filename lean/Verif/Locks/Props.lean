import Verif.Locks.Proof

/-!
# C84 and C85: internal locks

C84: the library never deadlocks on its internal locks. C85: the ordinary fields that they protect are accessed without data races.
-/

namespace Verif.Locks

/-- Thread `t` waits for the mutex of `o`. -/
def Waits (s : St) (t : Thr) (o : Obj) : Prop := (∃ r, s.stack t = .lock o :: r) ∧ s.holder o ≠ none

/-- Thread `t` can take a step. -/
def CanMove (s : St) (t : Thr) : Prop := ∃ c s', step s t c = .ok s'

/-- Whatever happens from now on, thread `t` never takes a step. -/
def Stuck (s : St) (t : Thr) : Prop := ∀ l s', runs s l = some s' → ∀ c, step s' t c = .waits

/-- **C84** (first part): in every execution, a mutex is unlocked only by the thread that has locked it, and a thread that does not wait for
a mutex and is not at its end can take a step. -/
theorem C84_no_misuse {s : St} (h : Reach Any s) (t : Thr) :
    (∀ c, step s t c ≠ .fault) ∧ ((∀ o, ¬ Waits s t o) → s.stack t ≠ [] → CanMove s t) := by
  have hi := inv_all h
  constructor
  · intro c hc
    cases hst : s.stack t with
    | nil => simp [step, hst] at hc
    | cons x r =>
      cases x with
      | unlock o =>
        have hs := hi.seg t
        rw [hst] at hs
        generalize hH : s.held t = H at hs
        cases hs
        simp [step, hst, (hi.hold o t).2 (by rw [hH]; simp)] at hc
      | lock o => simp only [step, hst] at hc; split at hc <;> simp at hc
      | acc => simp [step, hst] at hc
      | atom => simp [step, hst] at hc
      | user =>
        simp only [step, hst] at hc
        cases c <;> simp only [St.runUser] at hc <;> first | (simp at hc; done) | (split at hc <;> simp at hc)
      | under =>
        simp only [step, hst] at hc
        cases c <;> simp only [St.runUser] at hc <;> first | (simp at hc; done) | (split at hc <;> simp at hc)
      | alt => simp only [step, hst] at hc; cases c <;> simp at hc
      | loop => simp only [step, hst] at hc; cases c <;> simp at hc
      | callback => simp only [step, hst] at hc; cases c <;> simp at hc
      | complete => simp only [step, hst] at hc; cases c <;> simp at hc
  · intro hw hne
    cases hst : s.stack t with
    | nil => exact absurd hst hne
    | cons x r =>
      refine can_move hi hst ?_
      rintro o rfl
      exact Classical.byContradiction fun hn => hw o ⟨⟨r, hst⟩, hn⟩

/-- **C84** (partial: only if code that the library calls with a lock held makes no calls of the library). Code of the user
runs with no mutex locked by its thread, unless it is one of the pieces of code above; a thread that requests a mutex holds none; and
whoever holds a mutex can release it without waiting for anybody, so that nobody waits forever for it. -/
theorem C84_no_deadlock_partial {s : St} (h : Reach Quiet s) :
    (∀ t r, s.stack t = .user :: r → ∀ o, s.holder o ≠ some t) ∧
    (∀ t o r, s.stack t = .lock o :: r → ∀ p, s.holder p ≠ some t) ∧
    (∀ t o, s.holder o = some t → CanMove s t ∧
      ∃ (cs : List Choice) (s' : St), runs s (cs.map fun c => (t, c)) = some s' ∧ s'.holder o = none) := by
  have hi := inv_quiet h
  have free : ∀ t, s.held t = [] → ∀ o, s.holder o ≠ some t := by
    intro t ht o ho
    have := (hi.hold o t).1 ho
    simp [ht] at this
  refine ⟨fun t r hst => free t ?_, fun t o r hst => free t ?_, fun t o ho => ?_⟩
  · have hs := hi.seg t; rw [hst] at hs; generalize s.held t = H at hs ⊢; cases hs; assumption
  · have hs := hi.seg t; rw [hst] at hs; generalize s.held t = H at hs ⊢; cases hs; assumption
  · have hm := (hi.hold o t).1 ho
    obtain ⟨cs, s', h1, h2⟩ := seg_finish (o := o) (t := t) (hi.seg t) s [] (by simp) rfl hm
      (fun p => hi.hold p t) (hi.nodup t)
    refine ⟨?_, cs, s', h1, ?_⟩
    · cases hst : s.stack t with
      | nil =>
        have hs := hi.seg t; rw [hst] at hs; generalize hH : s.held t = H at hs
        cases hs; simp [hH] at hm
      | cons x r =>
        refine can_move hi hst ?_
        rintro p rfl
        have hs := hi.seg t; rw [hst] at hs; generalize hH : s.held t = H at hs
        cases hs
        rename_i e _
        simp [hH, e] at hm
    · rcases h2 with h2 | ⟨_, _, h2, _⟩
      · exact h2
      · simp at h2

/-- **C84** (partial: only if locks are requested in an order). Calls from code that runs with a lock held are harmless if the objects can be
ranked such that nobody requests a mutex while holding one of the same or a higher rank: then some thread that holds a mutex can move. -/
theorem C84_ordered_partial {s : St} (h : Reach Any s) (rank : Obj → Nat)
    (hr : ∀ t o r p, s.stack t = .lock o :: r → s.holder p = some t → rank p < rank o)
    {t : Thr} {o : Obj} (hw : Waits s t o) :
    ∃ t' p, s.holder p = some t' ∧ CanMove s t' := by
  have hi := inv_all h
  obtain ⟨os, hos⟩ := held_finite h
  obtain ⟨m, hm, hmax⟩ := exists_max rank (fun p => s.holder p ≠ none) os hos ⟨o, hw.2⟩
  obtain ⟨u, hu⟩ := Option.ne_none_iff_exists'.1 hm
  refine ⟨u, m, hu, ?_⟩
  cases hst : s.stack u with
  | nil =>
    have hs := hi.seg u; rw [hst] at hs; generalize hH : s.held u = H at hs
    have := (hi.hold m u).1 hu
    cases hs; simp [hH] at this
  | cons x r =>
    refine can_move hi hst ?_
    rintro p rfl
    refine Classical.byContradiction fun hn => ?_
    have h1 := hr u p r m hst hu
    have h2 := hmax p hn
    omega

/-- Where the code of the user runs with a lock held: a function, the branches it takes, and a call made there. In this order: the
constructor of a callback whose functor asks whether cancellation was requested; `async_wait_if` with a condition that raises the event;
`emplace`, `async_get` and `maybe_get` with constructors of the item that use the queue; `set_value` with a constructor of the value that
uses the future. -/
def reentrant : List (Fn × List Choice × Fn) :=
  [(.callbackCtor 0, [.go, .go, .pick true], .isRequested 0),
   (.waitIfStart 0 none, [.go], .raise 0),
   (.emplace 0, [.go, .go, .pick false, .go], .maybeGet 0),
   (.emplace 0, [.go, .go, .pick true, .go, .go], .maybeGet 0),
   (.getStart 0 none, [.go, .go, .pick true, .go, .go], .emplace 0),
   (.maybeGet 0, [.go, .go, .pick false, .go], .emplace 0),
   (.setValue 0, [.go], .futureGetStart 0 none)]

/-- **C84** is false without the restriction: each of these calls blocks its thread forever. -/
theorem C84_reentrant_false : ∀ x ∈ reentrant, ∃ s,
    runs .init ([(0, .call x.1)] ++ x.2.1.map (fun c => (0, c)) ++ [(0, .call x.2.2)]) = some s ∧
    Reach Any s ∧ Stuck s 0 := by
  have key : ∀ (l : List (Thr × Choice)) (s : St) (o : Obj) (r : List Instr), obeys Any .init l = true →
      runs .init l = some s → s.stack 0 = .lock o :: r → s.holder o = some 0 → ∃ s, runs .init l = some s ∧ Reach Any s ∧ Stuck s 0 := by
    intro l s o r h0 h1 h2 h3
    refine ⟨s, h1, Reach.of_runs .init h0 h1, fun l' s' h4 c => ?_⟩
    obtain ⟨a, b⟩ := stuck_of h2 h3 h4
    simp [step, a, b]
  intro x hx
  simp only [reentrant, List.mem_cons, List.not_mem_nil, or_false] at hx
  rcases hx with rfl | rfl | rfl | rfl | rfl | rfl | rfl <;>
    exact key _ _ 0 _ rfl rfl rfl rfl

/-- Two threads are about to access the same ordinary field, and one of them is going to write: a data race. -/
def Race (s : St) (t u : Thr) (o : Obj) (f : Fld) : Prop :=
  t ≠ u ∧ ∃ w w' r r', s.stack t = .acc o f w :: r ∧ s.stack u = .acc o f w' :: r' ∧ (w || w') = true

/-- **C85** (partial: without `queue::empty`). There are no data races on the ordinary fields of events, queues, wait groups, barriers,
promises, post_ack mechanisms and mutexes. -/
theorem C85_no_race_partial {s : St} (h : Reach NoEmpty s) (t u : Thr) (o : Obj) (f : Fld) :
    ¬ Race s t u o f := by
  have hi := inv_noempty h
  rintro ⟨hne, w, w', r, r', h1, h2, hw⟩
  have a := hi.seg t
  have b := hi.seg u
  rw [h1] at a; rw [h2] at b
  have ka := hi.hold o t
  have kb := hi.hold o u
  have ks : s.setter o = some t → s.setter o = some u → False := by
    intro x y; rw [x] at y; exact hne (by simpa using y)
  generalize s.held t = H at a ka
  generalize s.held u = H' at b kb
  cases a with
  | acc ho1 hv1 _ =>
    cases b with
    | acc ho2 hv2 _ =>
      have := ka.2 (by simpa using ho1)
      rw [kb.2 (by simpa using ho2)] at this
      exact hne (by simpa using this.symm)
    | peek hv2 _ => exact ks (hv1 rfl (by simpa using hw)) hv2
  | peek hv1 _ =>
    cases b with
    | acc _ hv2 _ => exact ks hv1 (hv2 rfl (by simpa using hw))
    | peek => simp at hw

/-- **C85**: all data races are due to `queue::empty`: they are between a read of the buffer of a queue without the lock and a
write with the lock. -/
theorem C85_only_empty {s : St} (h : Reach Any s) {t u : Thr} {o : Obj} {f : Fld} (hr : Race s t u o f) :
    f = .buffer ∧ ((s.holder o ≠ some t ∧ s.holder o = some u) ∨ (s.holder o ≠ some u ∧ s.holder o = some t)) := by
  have hi := inv_all h
  obtain ⟨hne, w, w', r, r', h1, h2, hw⟩ := hr
  have a := hi.seg t
  have b := hi.seg u
  rw [h1] at a; rw [h2] at b
  have ka := hi.hold o t
  have kb := hi.hold o u
  have ks : s.setter o = some t → s.setter o = some u → False := by
    intro x y; rw [x] at y; exact hne (by simpa using y)
  generalize s.held t = H at a ka
  generalize s.held u = H' at b kb
  cases a with
  | acc ho1 hv1 _ =>
    cases b with
    | acc ho2 hv2 _ =>
      rcases ho1 with ho1 | ⟨_, rfl, rfl⟩
      · have k1 := ka.2 ho1
        rcases ho2 with ho2 | ⟨_, rfl, rfl⟩
        · rw [kb.2 ho2] at k1
          exact absurd (by simpa using k1.symm) hne
        · refine ⟨rfl, .inr ⟨?_, k1⟩⟩
          rw [k1]; intro e; exact hne (by simpa using e)
      · rcases ho2 with ho2 | ⟨_, _, rfl⟩
        · have k2 := kb.2 ho2
          refine ⟨rfl, .inl ⟨?_, k2⟩⟩
          rw [k2]; intro e; exact hne (by simpa using e.symm)
        · simp at hw
    | peek hv2 _ => exact (ks (hv1 rfl (by simpa using hw)) hv2).elim
  | peek hv1 _ =>
    cases b with
    | acc _ hv2 _ => exact (ks hv1 (hv2 rfl (by simpa using hw))).elim
    | peek => simp at hw

/-- Thread 0 is in `emplace`, thread 1 in `empty`. -/
def raceRun : List (Thr × Choice) :=
  [(0, .call (.emplace 0)), (0, .go), (0, .go), (0, .pick false), (1, .call (.empty 0))]

/-- **C85** is false in general: `queue::empty` reads the buffer while another thread appends to it. -/
theorem C85_empty_false : ∃ s, runs .init raceRun = some s ∧ Reach Any s ∧ Race s 0 1 0 .buffer := by
  have h : ∃ s, runs .init raceRun = some s ∧ ∃ w w' r r', s.stack 0 = .acc 0 .buffer w :: r ∧
      s.stack 1 = .acc 0 .buffer w' :: r' ∧ (w || w') = true :=
    ⟨_, rfl, true, false, _, _, rfl, rfl, rfl⟩
  obtain ⟨s, h1, h2⟩ := h
  exact ⟨s, h1, Reach.of_runs .init rfl h1, by simp, h2⟩

/-! Concrete cases. -/

/-- Thread 0 cancels event 5 and is in the section; thread 1 waits to register an operation on queue 3 with event 5. -/
def sampleRun : List (Thr × Choice) :=
  [(0, .call (.cancel 5)), (0, .go), (1, .call (.getStart 3 (some 5))), (1, .go), (1, .go), (1, .pick false), (1, .go), (1, .go)]

/-- The hypotheses of `C84_no_misuse`, `C84_no_deadlock_partial` and `C85_no_race_partial`, with somebody who waits for a lock. -/
example : ∃ s, runs .init sampleRun = some s ∧ Reach Any s ∧ Reach Quiet s ∧ Reach NoEmpty s ∧
    (Waits s 1 5 ∧ s.holder 5 = some 0 ∧ s.holder 3 = none) := by
  have h : ∃ s, runs .init sampleRun = some s ∧ (∃ r, s.stack 1 = .lock 5 :: r) ∧ s.holder 5 = some 0 ∧ s.holder 3 = none :=
    ⟨_, rfl, ⟨_, rfl⟩, rfl, rfl⟩
  obtain ⟨s, h1, h2, h3, h4⟩ := h
  exact ⟨s, h1, .of_runs .init rfl h1, .of_runs .init rfl h1, .of_runs .init rfl h1, ⟨h2, by simp [h3]⟩, h3, h4⟩

/-- Thread 0 constructs a callback for the cancelled event 1; the functor asks event 2, whose mutex is locked by thread 1. -/
def nestedRun : List (Thr × Choice) :=
  [(1, .call (.reset 2)), (1, .go), (0, .call (.callbackCtor 1)), (0, .go), (0, .go), (0, .pick true), (0, .call (.isRequested 2))]

/-- The hypotheses of `C84_ordered_partial`: a thread waits while it holds another mutex, and requests are in order. -/
example : ∃ s, runs .init nestedRun = some s ∧ Reach Any s ∧ Waits s 0 2 ∧ s.holder 1 = some 0 ∧
    (∀ t o r p, s.stack t = .lock o :: r → s.holder p = some t → id p < id o) := by
  have h : ∃ s, runs .init nestedRun = some s ∧ (∃ r, s.stack 0 = .lock 2 :: r) ∧ s.holder 1 = some 0 ∧ s.holder 2 = some 1 ∧
      (∀ p, p ≠ 1 → p ≠ 2 → s.holder p = none) ∧ (∃ r, s.stack 1 = .acc 2 .requested true :: r) := by
    refine ⟨_, rfl, ⟨_, rfl⟩, rfl, rfl, ?_, ⟨_, rfl⟩⟩
    intro p h1 h2
    simp [St.goto, St.init, St.mark, upd, h1, h2]
  obtain ⟨s, h1, ⟨r0, h2⟩, h3, h4, h5, ⟨r1, h6⟩⟩ := h
  refine ⟨s, h1, .of_runs .init rfl h1, ⟨⟨r0, h2⟩, by simp [h4]⟩, h3, ?_⟩
  intro t o r p hs hp
  have hp2 : p = 1 ∨ p = 2 := by
    refine Classical.byContradiction fun hn => ?_
    rw [h5 p (fun e => hn (.inl e)) (fun e => hn (.inr e))] at hp; simp at hp
  rcases hp2 with rfl | rfl
  · rw [h3] at hp
    have : t = 0 := by simpa using hp.symm
    subst this
    rw [h2] at hs
    have : o = 2 := by simp at hs; exact hs.1.symm
    subst this; simp
  · rw [h4] at hp
    have : t = 1 := by simpa using hp.symm
    subst this
    rw [h6] at hs
    simp at hs

/-- The hypotheses of `C85_only_empty`. -/
example : ∃ s, Reach Any s ∧ Race s 0 1 0 .buffer := by
  obtain ⟨s, _, h⟩ := C85_empty_false; exact ⟨s, h⟩

end Verif.Locks
