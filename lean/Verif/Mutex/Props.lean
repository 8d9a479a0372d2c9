import Verif.Mutex.Order

/-!
# Properties of `mutex`

Histories consist of the events `Ev` of Verif/Mutex/Model.lean. `acq i` is the moment at which user
code learns that acquisition `i` succeeded (receiver completed, or `try_lock` returned true),
`unlock i` the call of `unlock`, `lock i`/`tryLock i` the start of an attempt, `enq i` the moment
at which it is appended to the list of waiters.
-/

namespace Verif.Mutex

/-- Reachable configurations. -/
abbrev MReach (c : Conf mach) : Prop := Reach mach init c

/-- C13. Between two successful acquisitions the first one is released. -/
theorem C13_mutual_exclusion {c : Conf mach} (h : MReach c) {l1 l2 l3 : List Ev} {i j : Id}
    (e : c.sh.log = l1 ++ .acq i :: l2 ++ .acq j :: l3) : .unlock i ∈ l2 := by
  have hl := ((reach_inv h).legal (l1 ++ .acq i :: l2) (.acq j) l3 e).2
  apply Classical.byContradiction
  intro hn
  have h1 : i ∈ holding (l1 ++ [.acq i]) := by simp [holding.step]
  have h2 := holding_keep h1 hn
  rw [show l1 ++ [.acq i] ++ l2 = l1 ++ .acq i :: l2 by simp, hl] at h2
  simp at h2

/-- C13. At most one acquisition is held at any time. -/
theorem C13_at_most_one_holder {c : Conf mach} (h : MReach c) : (holding c.sh.log).length ≤ 1 := by
  have := (reach_inv h).ok.tok
  have h2 : (if (view c.sh c.acts).st = .none then 0 else 1) ≤ 1 := by split <;> omega
  simp only [view] at this h2
  omega

/-- C14. A queued attempt gets the mutex before any attempt that starts after it was queued. -/
theorem C14_no_barging {c : Conf mach} (h : MReach c) {l1 l2 l3 : List Ev} {i k : Id}
    (e : c.sh.log = l1 ++ .enq i :: l2 ++ .acq k :: l3)
    (h1 : .lock k ∉ l1) (h2 : .tryLock k ∉ l1) (hne : i ≠ k) : .acq i ∈ l1 ++ .enq i :: l2 :=
  order h e hne h1 h2

/-- C14. Queued attempts get the mutex in the order in which they were queued. -/
theorem C14_fifo {c : Conf mach} (h : MReach c) {l1 l2 l3 l4 : List Ev} {i k : Id}
    (e : c.sh.log = l1 ++ .enq i :: l2 ++ .enq k :: l3 ++ .acq k :: l4) :
    .acq i ∈ l1 ++ .enq i :: l2 ++ .enq k :: l3 := by
  have hp := reach_prefixes (Q := Facts) (fun c hc => reach_facts hc) h
  have f := hp (l1 ++ .enq i :: l2 ++ .enq k :: l3) (.acq k) l4 e
  have hleg := (reach_inv h).legal (l1 ++ .enq i :: l2 ++ .enq k :: l3) (.acq k) l4 e
  have hc := count_enqs_le k (l1 ++ .enq i :: l2 ++ .enq k :: l3)
  have h1 := f.one k
  have he : enqs (l1 ++ .enq i :: l2 ++ .enq k :: l3) =
      enqs l1 ++ i :: enqs l2 ++ k :: enqs l3 := by simp [enqs]
  have hne : i ≠ k := by
    rintro rfl
    rw [he] at hc; simp only [List.count_append, List.count_cons_self] at hc; omega
  have hw := wins_of_acq h e
  have hk : k ∈ grants (l1 ++ .enq i :: l2 ++ .enq k :: l3) := by
    have : k ∈ wins (l1 ++ .enq i :: l2 ++ .enq k :: l3) := by rw [← hw]; simp
    rcases mem_wins this with h3 | h3
    · have h4 := List.count_pos_iff.2 h3
      have h5 : k ∈ enqs (l1 ++ .enq i :: l2 ++ .enq k :: l3) := by rw [he]; simp
      have h6 := List.count_pos_iff.2 h5
      omega
    · exact h3
  have hi := count_split he (by omega) (queue_eq f.legal) hk
  have := grants_sub_wins hi
  rw [← hw] at this
  rcases List.mem_append.1 this with h3 | h3
  · exact mem_acqs.1 h3
  · simp at h3; exact absurd h3 hne

/-- C15. When no call is running, an `async_lock` that has not completed is queued and somebody
holds the mutex. -/
theorem C15_waiting_is_held {c : Conf mach} (h : MReach c) (hq : Quiescent c) {i : Id}
    (hb : .lock i ∈ c.sh.log) (hn : .acq i ∉ c.sh.log) :
    .enq i ∈ c.sh.log ∧ ∃ k, k ≠ i ∧ holding c.sh.log = [k] := by
  have hI := reach_inv h
  have h0 := fun w => ws_quiescent w hq
  have hop := hI.op i
  rw [h0, (hI.beg i).2 (.inl hb)] at hop
  have hf : .fail i ∉ c.sh.log := fail_not_lock h hb
  have hov : over i c.sh.log = 0 := by
    rw [over, List.countP_eq_zero]
    intro v hv
    cases v <;> simp
    · rintro rfl; exact hn hv
    · rintro rfl; exact hf hv
  rw [hov] at hop
  have hi : i ∈ c.sh.waiters := by
    apply List.count_pos_iff.1; simp at hop; omega
  have hst : c.sh.st = .contended := by
    by_cases hst : c.sh.st = .contended
    · exact hst
    · have := (hI.ok.ncont hst).1
      simp only [view, List.length_eq_zero_iff] at this
      rw [this] at hi; simp at hi
  have ht := hI.ok.tok
  simp only [view, h0, hst, reduceCtorEq, if_false, Nat.add_zero] at ht
  obtain ⟨k, hk⟩ := List.length_eq_one_iff.1 ht
  refine ⟨?_, k, ?_, hk⟩
  · rw [hI.q] at hi
    have := queue_eq hI.legal
    exact mem_enqs.1 (by rw [← this]; exact List.mem_append_right _ hi)
  · rintro rfl
    exact hn (holding_acq (by rw [hk]; simp))

/-- C15. When no call is running and nobody holds the mutex, every attempt is over: `async_lock`s
have acquired the mutex, `try_lock`s have returned. -/
theorem C15_free_means_served {c : Conf mach} (h : MReach c) (hq : Quiescent c)
    (hf : holding c.sh.log = []) {i : Id} :
    (.lock i ∈ c.sh.log → .acq i ∈ c.sh.log) ∧
    (.tryLock i ∈ c.sh.log → .acq i ∈ c.sh.log ∨ .fail i ∈ c.sh.log) := by
  have hI := reach_inv h
  have h0 := fun w => ws_quiescent w hq
  refine ⟨?_, ?_⟩
  · intro hb
    apply Classical.byContradiction
    intro hn
    obtain ⟨_, k, _, hk⟩ := C15_waiting_is_held h hq hb hn
    rw [hk] at hf; simp at hf
  · intro hb
    have hop := hI.op i
    rw [h0, (hI.beg i).2 (.inr hb)] at hop
    have ht := hI.ok.tok
    simp only [view, h0, hf, List.length_nil, Nat.add_zero] at ht
    have hst : c.sh.st = .none := by
      by_cases hst : c.sh.st = .none
      · exact hst
      · rw [if_neg hst] at ht; omega
    have hw : c.sh.waiters = [] := by
      have := (hI.ok.ncont (by simp [view, hst])).1
      simpa [view] using this
    rw [hw] at hop
    have hov : 0 < over i c.sh.log := by simp at hop; omega
    rw [over, List.countP_pos_iff] at hov
    obtain ⟨v, hv, e⟩ := hov
    cases v <;> simp at e
    · subst e; exact .inl hv
    · subst e; exact .inr hv

/-- C15. An attempt ends at most once: an `async_lock` completes at most once, a `try_lock` returns
at most once. -/
theorem C15_at_most_once {c : Conf mach} (h : MReach c) (i : Id) :
    c.sh.log.count (.acq i) + c.sh.log.count (.fail i) ≤ 1 := by
  have := (reach_facts h).over i
  have e : ∀ l : List Ev, over i l = l.count (.acq i) + l.count (.fail i) := by
    intro l
    induction l using List.reverseRecOn with
    | nil => rfl
    | append_singleton l v ih =>
      rw [over_append, ih, List.count_append, List.count_append]
      cases v <;> simp [List.count_singleton] <;> omega
  rw [← e]; exact this

/-- C15. No assertion fails. -/
theorem C15_no_assertion {c : Conf mach} (h : MReach c) : c.bad = false :=
  Reach.no_fault (P := Inv) (fun _ hc => reach_inv hc) (fun _ _ _ _ _ b h hk => no_fault h hk b) h

/-- C15. As long as some call is running, some call can execute its next instruction, whatever
the weak compare-exchanges do. -/
theorem C15_progress {c : Conf mach} (h : MReach c) (hq : ¬ Quiescent c) : CanStep c := by
  obtain ⟨k, x, r, hk, hx⟩ := progress (reach_inv h) hq
  refine ⟨k, fun b => ?_⟩
  obtain ⟨s', p, he⟩ := hx b
  refine ⟨⟨s', c.acts.set k (p ++ r), false⟩, ?_⟩
  simp only [Mach.step, C15_no_assertion h, hk, he]
  rfl

/-- C15. Running calls come to an end under every schedule: apart from spurious failures of weak
compare-exchanges they execute a bounded number of instructions. -/
theorem C15_terminates {c : Conf mach} (h : MReach c) : ∃ n, Bounded c n :=
  ⟨_, bounded_of (P := Inv) (fun (s : St) acts => ws (pw s.st) acts) (fun _ hc => reach_inv hc)
    (fun _ hc => C15_no_assertion hc)
    (fun _ _ _ _ _ _ _ _ h hk he => decreases h hk he) h⟩

/-- C15. The running calls can always be run to completion. -/
theorem C15_can_finish {c : Conf mach} (h : MReach c) : CanFinish c :=
  canFinish_of (fun _ hc => C15_no_assertion hc) (fun _ hc hq => C15_progress hc hq)
    (fun _ hc => C15_terminates hc) h

/-! ## Examples -/

/-- Three lockers: 0 takes the free mutex, 1 and 2 queue up (with one spurious failure), `try_lock`
3 fails, 0 and 1 unlock. -/
def demo : Conf mach := mach.after init
  [.env (.lock 0), .run 0 true, .run 0 true,
   .env (.lock 1), .env (.lock 2), .run 1 true, .run 2 true, .run 1 true, .run 1 true,
   .run 1 false, .run 1 true, .run 1 true, .run 1 true,
   .run 2 true, .run 2 true, .run 2 true, .run 2 true, .run 2 true,
   .env (.tryLock 3), .run 3 true,
   .env (.unlock 0), .run 4 true, .run 4 true, .run 4 true, .run 4 true, .run 4 true, .run 4 true,
   .env (.unlock 1), .run 5 true, .run 5 true, .run 5 true, .run 5 true, .run 5 true, .run 5 true]

theorem demo_reach : MReach demo := Reach.after _ _ _

example : demo.sh.log = [.lock 0, .fast 0, .acq 0, .lock 1, .lock 2, .enq 1, .enq 2, .tryLock 3,
    .fail 3, .unlock 0, .grant 0 1, .acq 1, .unlock 1, .grant 1 2, .acq 2] := by rfl
example : Quiescent demo := by intro a ha; revert a ha; decide
example : holding demo.sh.log = [2] := by rfl
/-- Hypotheses of C13 and C14 are met: 1 and 2 are queued, 1 acquires and releases before 2. -/
example : demo.sh.log =
    [.lock 0, .fast 0, .acq 0, .lock 1, .lock 2] ++ .enq 1 :: [] ++ .enq 2 ::
      [.tryLock 3, .fail 3, .unlock 0, .grant 0 1, .acq 1, .unlock 1, .grant 1 2] ++ .acq 2 :: [] := by
  rfl
example : Ev.unlock 1 ∈ [Ev.unlock 1, .grant 1 2] :=
  C13_mutual_exclusion demo_reach (l1 := [.lock 0, .fast 0, .acq 0, .lock 1, .lock 2, .enq 1, .enq 2,
    .tryLock 3, .fail 3, .unlock 0, .grant 0 1]) (i := 1) (j := 2) (l3 := []) rfl

/-- Before the first unlock, two lockers wait and 0 holds the mutex (hypotheses of
`C15_waiting_is_held`). -/
def demo2 : Conf mach := mach.after init
  [.env (.lock 0), .run 0 true, .run 0 true,
   .env (.lock 1), .run 1 true, .run 1 true, .run 1 true, .run 1 true, .run 1 true, .run 1 true]

example : Ev.lock 1 ∈ demo2.sh.log ∧ Ev.acq 1 ∉ demo2.sh.log ∧ holding demo2.sh.log = [0] ∧
    (∀ a ∈ demo2.acts, a = []) := by decide

theorem demo2_reach : MReach demo2 := Reach.after _ _ _

theorem demo_log : demo.sh.log = [.lock 0, .fast 0, .acq 0, .lock 1, .lock 2, .enq 1, .enq 2, .tryLock 3,
    .fail 3, .unlock 0, .grant 0 1, .acq 1, .unlock 1, .grant 1 2, .acq 2] := rfl

theorem demo_rest : Quiescent demo := by intro a ha; revert a ha; decide
theorem demo2_rest : Quiescent demo2 := by intro a ha; revert a ha; decide

example : (holding demo.sh.log).length ≤ 1 := C13_at_most_one_holder demo_reach

example : Ev.acq 1 ∈ demo.sh.log.take 14 :=
  C14_fifo demo_reach (l1 := demo.sh.log.take 5) (i := 1) (l2 := []) (k := 2) (l3 := (demo.sh.log.drop 7).take 7) (l4 := []) rfl

/-- 2 starts when 1 is already in the queue. -/
def demo3 : Conf mach := mach.after init
  [.env (.lock 0), .run 0 true, .run 0 true,
   .env (.lock 1), .run 1 true, .run 1 true, .run 1 true, .run 1 true, .run 1 true, .run 1 true,
   .env (.lock 2), .run 2 true, .run 2 true, .run 2 true, .run 2 true, .run 2 true, .run 2 true,
   .env (.unlock 0), .run 3 true, .run 3 true, .run 3 true, .run 3 true, .run 3 true, .run 3 true,
   .env (.unlock 1), .run 4 true, .run 4 true, .run 4 true, .run 4 true, .run 4 true, .run 4 true]

theorem demo3_log : demo3.sh.log = [.lock 0, .fast 0, .acq 0, .lock 1, .enq 1, .lock 2, .enq 2,
    .unlock 0, .grant 0 1, .acq 1, .unlock 1, .grant 1 2, .acq 2] := rfl

theorem demo3_reach : MReach demo3 := Reach.after _ _ _

example : Ev.acq 1 ∈ demo3.sh.log.take 12 :=
  C14_no_barging demo3_reach (l1 := demo3.sh.log.take 4) (i := 1) (l2 := (demo3.sh.log.drop 5).take 7) (k := 2) (l3 := []) rfl
    (by decide) (by decide) (by decide)

example : Ev.enq 1 ∈ demo2.sh.log ∧ ∃ k, k ≠ 1 ∧ holding demo2.sh.log = [k] :=
  C15_waiting_is_held demo2_reach demo2_rest (by decide) (by decide)

/-- 0 takes and releases the mutex, `try_lock` 1 fails in between. -/
def demo4 : Conf mach := mach.after init
  [.env (.lock 0), .run 0 true, .run 0 true, .env (.tryLock 1), .run 1 true,
   .env (.unlock 0), .run 2 true, .run 2 true]

example : (Ev.lock 0 ∈ demo4.sh.log → Ev.acq 0 ∈ demo4.sh.log) :=
  (C15_free_means_served (Reach.after _ _ _) (by intro a ha; revert a ha; decide) (by rfl)).1
example : Ev.acq 1 ∈ demo4.sh.log ∨ Ev.fail 1 ∈ demo4.sh.log :=
  (C15_free_means_served (c := demo4) (Reach.after _ _ _) (by intro a ha; revert a ha; decide) (by rfl)).2 (by decide)
example : demo.sh.log.count (.acq 1) + demo.sh.log.count (.fail 1) ≤ 1 := C15_at_most_once demo_reach 1
example : demo.bad = false := C15_no_assertion demo_reach

/-- Two calls are running. -/
def demo5 : Conf mach := mach.after init
  [.env (.lock 0), .run 0 true, .run 0 true, .env (.lock 1), .env (.lock 2), .run 1 true, .run 2 true, .run 1 true]

theorem demo5_runs : ¬ Quiescent demo5 := by
  intro h
  exact absurd (h _ (List.mem_of_getElem? (i := 2) rfl)) (by decide)

example : CanStep demo5 := C15_progress (Reach.after _ _ _) demo5_runs
example : ∃ n, Bounded demo5 n := C15_terminates (Reach.after _ _ _)
example : CanFinish demo5 := C15_can_finish (Reach.after _ _ _)

end Verif.Mutex
