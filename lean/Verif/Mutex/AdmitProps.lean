import Verif.Mutex.Props

/-!
# When requests for the mutex wait or are refused (C72)

`spec` (Verif/Mutex/Model.lean) gives the owner: the acquisition that was admitted and has not given up the mutex.
-/

namespace Verif.Mutex

theorem owner_wins (l : List Ev) {k : Id} (h : (spec l).owner = some k) : k ∈ wins l := by
  induction l using List.reverseRecOn with
  | nil => simp [spec] at h
  | append_singleton l v ih =>
    rw [spec_append] at h
    cases v <;> simp only [Spec.step, reduceCtorEq, Option.some.injEq] at h <;>
      first
      | (subst h; simp [wins])
      | (have := ih h; simp only [wins, List.filterMap_append, List.mem_append] at this ⊢; exact .inl this)

theorem wins_settled {l : List Ev} (h : Hist legal l) {k : Id} (hk : k ∈ wins l) : 0 < settled k l := by
  simp only [wins, List.mem_filterMap] at hk
  obtain ⟨v, hv, e⟩ := hk
  cases v <;> simp at e
  · subst e
    exact List.countP_pos_iff.2 ⟨_, hv, by simp [decides]⟩
  · rename_i u j
    subst e
    have hg : j ∈ grants l := by
      simp only [grants, List.mem_filterMap]
      exact ⟨_, hv, rfl⟩
    have := queue_eq h
    exact List.countP_pos_iff.2 ⟨.enq j, mem_enqs.1 (by rw [← this]; exact List.mem_append_left _ hg), by simp [decides]⟩

theorem owner_other {c : Conf mach} (h : MReach c) {l1 l2 : List Ev} {i : Id} {v : Ev} (hd : decides i v = true)
    (e : c.sh.log = l1 ++ v :: l2) (hn : (spec l1).owner ≠ none) : ∃ k, k ≠ i ∧ (spec l1).owner = some k := by
  obtain ⟨k, hk⟩ := Option.ne_none_iff_exists'.1 hn
  refine ⟨k, ?_, hk⟩
  rintro rfl
  have hp := reach_prefixes (Q := Facts) (fun c hc => reach_facts hc) h
  have f1 := hp l1 v l2 e
  have f2 : Facts (l1 ++ [v]) := by
    cases l2 with
    | nil => rw [← e]; exact reach_facts h
    | cons w l2 => exact hp _ w l2 (by rw [e]; simp)
  have h1 := wins_settled f1.legal (owner_wins _ hk)
  have h2 := f2.one k
  rw [settled_append, if_pos hd] at h2
  omega

/-- C72. `try_lock` fails only if somebody else owns the mutex. -/
theorem C72_mutex_try_lock {c : Conf mach} (h : MReach c) {l1 l2 : List Ev} {i : Id}
    (e : c.sh.log = l1 ++ .fail i :: l2) : ∃ k, k ≠ i ∧ (spec l1).owner = some k :=
  owner_other h (by simp [decides]) e ((reach_inv h).legal _ _ _ e)

/-- C72. `async_lock` waits only if somebody else owns the mutex. -/
theorem C72_mutex_waits {c : Conf mach} (h : MReach c) {l1 l2 : List Ev} {i : Id}
    (e : c.sh.log = l1 ++ .enq i :: l2) : ∃ k, k ≠ i ∧ (spec l1).owner = some k :=
  owner_other h (by simp [decides]) e ((reach_inv h).legal _ _ _ e).1

/-- C72. A request is admitted at once only if nobody owns the mutex and nobody waits. -/
theorem C72_mutex_admitted {c : Conf mach} (h : MReach c) {l1 l2 : List Ev} {i : Id}
    (e : c.sh.log = l1 ++ .fast i :: l2) :
    (spec l1).owner = none ∧ ∀ k, .enq k ∈ l1 → .acq k ∈ l1 := by
  obtain ⟨h1, h2⟩ := (reach_inv h).legal _ _ _ e
  refine ⟨h1, fun k hk => ?_⟩
  have f := reach_prefixes (Q := Facts) (fun c hc => reach_facts hc) h l1 _ l2 e
  have hq := queue_eq f.legal
  rw [h2, List.append_nil] at hq
  have hg : k ∈ grants l1 := by rw [hq]; exact mem_enqs.2 hk
  have hw : k ∈ wins l1 := by
    simp only [grants, wins, List.mem_filterMap] at hg ⊢
    obtain ⟨v, hv, e⟩ := hg
    cases v <;> simp at e
    exact ⟨_, hv, by simp [e]⟩
  have hin : k ∈ acqs l1 := by
    have := reach_prefixes (Q := fun l => (spec l).owner = none → wins l = acqs l) (fun c hc ho => by
      have := (reach_inv hc).win
      rw [ho] at this
      simpa using this) h l1 _ l2 e h1
    rw [← this]; exact hw
  simp only [acqs, List.mem_filterMap] at hin
  obtain ⟨v, hv, e⟩ := hin
  cases v <;> simp at e
  subst e; exact hv

/-- C72. At rest, the owner is who holds the mutex. -/
theorem C72_mutex_owner {c : Conf mach} (h : MReach c) (hq : Quiescent c) (i : Id) :
    (spec c.sh.log).owner = some i ↔ holding c.sh.log = [i] := by
  have hI := reach_inv h
  have h1 := hI.own
  have hl := C13_at_most_one_holder h
  constructor
  · intro ho
    have h2 := h1 i
    rw [ws_quiescent _ hq, if_pos ho] at h2
    have hm : i ∈ holding c.sh.log := List.count_pos_iff.1 (by omega)
    cases hh : holding c.sh.log with
    | nil => rw [hh] at hm; simp at hm
    | cons a l =>
      rw [hh] at hm hl
      cases l with
      | nil => simp at hm; rw [hm]
      | cons b l => simp at hl
  · intro ho
    have h2 := h1 i
    rw [ws_quiescent _ hq, ho] at h2
    apply Classical.byContradiction
    intro hn
    rw [if_neg hn] at h2
    simp at h2

/-- C72. If no other call is running, then `try_lock` fails only if somebody holds the mutex, and `async_lock` or
`try_lock` take it at once only if nobody does. -/
theorem C72_mutex_alone {c c' : Conf mach} (h : MReach c) (hq : Quiescent c) (h' : MReach c') {i : Id} {v w : Ev}
    {l : List Ev} (hv : v = .lock i ∨ v = .tryLock i) (e : c'.sh.log = c.sh.log ++ v :: w :: l) :
    (w = .fail i ∨ w = .enq i → ∃ k, k ≠ i ∧ holding c.sh.log = [k]) ∧
    (w = .fast i → holding c.sh.log = [] ∧ ∀ k, .lock k ∈ c.sh.log → .acq k ∈ c.sh.log) := by
  have e' : c'.sh.log = (c.sh.log ++ [v]) ++ w :: l := by rw [e]; simp
  have hs : spec (c.sh.log ++ [v]) = spec c.sh.log := by
    rw [spec_append]; rcases hv with rfl | rfl <;> rfl
  refine ⟨?_, ?_⟩
  · intro hw
    have : ∃ k, k ≠ i ∧ (spec (c.sh.log ++ [v])).owner = some k := by
      rcases hw with rfl | rfl
      · exact C72_mutex_try_lock h' e'
      · exact C72_mutex_waits h' e'
    obtain ⟨k, hk, ho⟩ := this
    rw [hs] at ho
    exact ⟨k, hk, (C72_mutex_owner h hq k).1 ho⟩
  · rintro rfl
    have ho := (C72_mutex_admitted h' e').1
    rw [hs] at ho
    have hh : holding c.sh.log = [] := by
      have hl := C13_at_most_one_holder h
      cases hh : holding c.sh.log with
      | nil => rfl
      | cons a l =>
        rw [hh] at hl
        cases l with
        | nil => have := (C72_mutex_owner h hq a).2 hh; rw [ho] at this; simp at this
        | cons b l => simp at hl
    exact ⟨hh, fun k hk => (C15_free_means_served h hq hh).1 hk⟩

/-! ## Examples -/

example : ∃ k, k ≠ 3 ∧ (spec (demo.sh.log.take 8)).owner = some k :=
  C72_mutex_try_lock demo_reach (l1 := demo.sh.log.take 8) (l2 := demo.sh.log.drop 9) rfl
example : ∃ k, k ≠ 2 ∧ (spec (demo.sh.log.take 6)).owner = some k :=
  C72_mutex_waits demo_reach (l1 := demo.sh.log.take 6) (l2 := demo.sh.log.drop 7) rfl
example : (spec (demo.sh.log.take 1)).owner = none :=
  (C72_mutex_admitted demo_reach (l1 := demo.sh.log.take 1) (i := 0) (l2 := demo.sh.log.drop 2) rfl).1
example : (spec demo.sh.log).owner = some 2 ↔ holding demo.sh.log = [2] := C72_mutex_owner demo_reach demo_rest 2

/-- 0 holds the mutex. -/
def held : Conf mach := mach.after init [.env (.lock 0), .run 0 true, .run 0 true]

theorem held_reach : MReach held := Reach.after _ _ _
theorem held_rest : Quiescent held := by intro a ha; revert a ha; decide

/-- Then `try_lock` fails. -/
def heldFail : Conf mach := mach.after init [.env (.lock 0), .run 0 true, .run 0 true, .env (.tryLock 1), .run 1 true]

example : ∃ k, k ≠ 1 ∧ holding held.sh.log = [k] :=
  (C72_mutex_alone held_reach held_rest (c' := heldFail) (Reach.after _ _ _) (v := .tryLock 1) (w := .fail 1) (l := [])
    (.inr rfl) rfl).1 (.inl rfl)
example : holding (mach.init init).sh.log = [] ∧ ∀ k, Ev.lock k ∈ (mach.init init).sh.log → Ev.acq k ∈ (mach.init init).sh.log :=
  (C72_mutex_alone (c := mach.init init) .init (by intro a ha; revert a ha; decide) held_reach (v := .lock 0) (w := .fast 0)
    (l := [.acq 0]) (.inl rfl) rfl).2 rfl

end Verif.Mutex
