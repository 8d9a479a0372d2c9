import Verif.SharedMutex.Admit
import Verif.SharedMutex.Props

/-!
# When requests for the shared mutex wait or are refused (C72)

The documentation (docs/src/headers/mutex/shared_mutex.md) says that acquiring the mutex in shared mode
only blocks if it is currently owned exclusively. `spec` (Verif/SharedMutex/Model.lean) lists the owners:
the requests that were admitted and have not given up the mutex. `OwnedExclusively` and `Outstanding` are defined in
Verif/SharedMutex/Admit.lean.
-/

namespace Verif.SharedMutex

/-- Reader 0 holds the mutex, writer 1 waits. -/
def behind1 : Conf mach := mach.after init
  [.env (.lock (0, false)), .run 0 true, .run 0 true, .run 0 true,
   .env (.lock (1, true)), .run 1 true, .run 1 true, .run 1 true, .run 1 true, .run 1 true, .run 1 true]

/-- Then reader 2 waits, too. -/
def behind : Conf mach := mach.after init
  [.env (.lock (0, false)), .run 0 true, .run 0 true, .run 0 true,
   .env (.lock (1, true)), .run 1 true, .run 1 true, .run 1 true, .run 1 true, .run 1 true, .run 1 true,
   .env (.lock (2, false)), .run 2 true, .run 2 true, .run 2 true, .run 2 true, .run 2 true, .run 2 true, .run 2 true]

def behindLog : List Ev :=
  [.lock (0, false), .fast (0, false), .acq (0, false), .lock (1, true), .enq (1, true), .lock (2, false), .enq (2, false)]

theorem behind_log : behind.sh.log = behindLog := rfl

theorem behind_reach : MReach behind := Reach.after _ _ _

theorem behind_rest : Quiescent behind := by intro a ha; revert a ha; decide

/-- C72. The claim of the documentation is false: a reader also waits if the mutex was never owned
exclusively, namely behind a waiting writer. No call is running. -/
theorem C72_shared_blocks_false :
    ∃ (c : Conf mach) (l1 l2 : List Ev) (i : Id), MReach c ∧ Quiescent c ∧ c.sh.log = l1 ++ .enq (i, false) :: l2 ∧
      .acq (i, false) ∉ c.sh.log ∧ (∀ m m', c.sh.log = m ++ m' → ¬ OwnedExclusively m) := by
  refine ⟨behind, behindLog.take 6, [], 2, behind_reach, behind_rest, by rw [behind_log]; rfl, ?_, ?_⟩
  · rw [behind_log]; decide
  · intro m m' hm
    rw [behind_log] at hm
    have key : ∀ k, k ≤ 7 → ∀ t ∈ (spec (behindLog.take k)).own, t.2 = false := by
      intro k hk
      have : k = 0 ∨ k = 1 ∨ k = 2 ∨ k = 3 ∨ k = 4 ∨ k = 5 ∨ k = 6 ∨ k = 7 := by omega
      rcases this with rfl | rfl | rfl | rfl | rfl | rfl | rfl | rfl <;> decide
    have hlen : m.length ≤ 7 := by
      have := congrArg List.length hm
      simp [behindLog] at this; omega
    have := key m.length hlen
    rw [hm, List.take_left] at this
    rintro ⟨j, hj⟩
    exact absurd (this _ hj) (by simp)

/-- C72. A shared request is queued only if the mutex is owned exclusively, or an exclusive request has been queued and
has not been completed. -/
theorem C72_shared_waits_partial {c : Conf mach} (h : MReach c) {l1 l2 : List Ev} {i : Id}
    (e : c.sh.log = l1 ++ .enq (i, false) :: l2) :
    OwnedExclusively l1 ∨ ∃ j, .enq (j, true) ∈ l1 ∧ .acq (j, true) ∉ l1 := by
  have f := prefix_facts h e
  have hl := (reach_inv h).legal _ _ _ e
  by_cases hq : (spec l1).q = []
  · left
    have hc := hl.resolve_left (by simp [hq])
    simp [compat] at hc
    exact hc
  · rcases (queue_reason f.legal hq).2 with hx | ⟨j, r, hx⟩
    · exact .inl hx
    · right
      have hqe := queue_eq f.legal
      have hm : (j, true) ∈ enqs l1 := by rw [← hqe, hx]; simp
      refine ⟨j, mem_enqs.1 hm, ?_⟩
      intro ha
      have hw : (j, true) ∈ wins l1 := by
        have hw := f.acqs (· == (j, true))
        have h1 : 0 < (acqs l1).countP (· == (j, true)) :=
          List.countP_pos_iff.2 ⟨_, mem_acqs.2 ha, by simp⟩
        obtain ⟨w, h2, h3⟩ := List.countP_pos_iff.1 (Nat.lt_of_lt_of_le h1 hw)
        simp at h3; subst h3; exact h2
      have h1 := count_setts (j, true) l1
      have h2 := f.one j
      have h3 := congrArg (List.count (j, true)) hqe
      rw [hx, List.count_append, List.count_cons_self] at h3
      simp only at h1
      rcases mem_wins.1 hw with hw | hw
      · have := List.count_pos_iff.2 hw; omega
      · have := List.count_pos_iff.2 hw; omega

/-- C72. An exclusive request is queued only if somebody owns the mutex. -/
theorem C72_exclusive_waits {c : Conf mach} (h : MReach c) {l1 l2 : List Ev} {i : Id}
    (e : c.sh.log = l1 ++ .enq (i, true) :: l2) : (spec l1).own ≠ [] := by
  have f := prefix_facts h e
  have hl := (reach_inv h).legal _ _ _ e
  by_cases hq : (spec l1).q = []
  · have hc := hl.resolve_left (by simp [hq])
    intro hn; rw [hn] at hc; simp [compat] at hc
  · exact (queue_reason f.legal hq).1

/-- C72. `try_lock` fails only if somebody owns the mutex. -/
theorem C72_try_lock {c : Conf mach} (h : MReach c) {l1 l2 : List Ev} {i : Id}
    (e : c.sh.log = l1 ++ .fail (i, true) :: l2) : (spec l1).own ≠ [] := by
  have := (reach_inv h).legal _ _ _ e
  exact this rfl

/-- C72. `try_lock_shared` fails only if, at some moment since it was called, the mutex was owned exclusively or
some other request was waiting for it. -/
theorem C72_try_lock_shared {c : Conf mach} (h : MReach c) {l1 l2 : List Ev} {i : Id}
    (e : c.sh.log = l1 ++ .fail (i, false) :: l2) :
    ∃ m m', l1 = m ++ m' ∧ .tryLock (i, false) ∈ m ∧
      (OwnedExclusively m ∨ ∃ t, t.1 ≠ i ∧ Outstanding m t) := by
  obtain ⟨ht, m, m', rfl, hs, hb⟩ := (reach_adm h).hist _ _ _ e i rfl
  have hK := reach_kind h
  have hin : ∀ v ∈ m ++ m', v ∈ c.sh.log := fun v hv => by rw [e]; simp at hv ⊢; grind
  refine ⟨m, m', rfl, hs.resolve_right ?_, hb.imp id ?_⟩
  · intro hl
    exact hK.excl i false false (hin _ (by simp [hl])) (hin _ ht)
  · rintro ⟨⟨j, x⟩, hj⟩
    refine ⟨(j, x), ?_, hj⟩
    rintro rfl
    exact hK.excl j x false (hin _ (by simp [hj.1])) (hin _ ht)

/-- C72. At rest, the owners are those who hold the mutex. -/
theorem C72_owners {c : Conf mach} (h : MReach c) (hq : Quiescent c) (t : Req) :
    (spec c.sh.log).own.count t = (holding c.sh.log).count t := by
  have := rest_own h hq (· == t)
  simpa [List.count] using this.symm

theorem rest_mem {c : Conf mach} (h : MReach c) (hq : Quiescent c) (t : Req) :
    t ∈ (spec c.sh.log).own ↔ t ∈ holding c.sh.log := by
  rw [← List.count_pos_iff, ← List.count_pos_iff, C72_owners h hq t]

/-- C72. If no other call is running, then `try_lock_shared` fails only if a writer holds the mutex or somebody waits. -/
theorem C72_try_lock_shared_alone {c c' : Conf mach} (h : MReach c) (hq : Quiescent c) (h' : MReach c') {i : Id}
    (e : c'.sh.log = c.sh.log ++ [.tryLock (i, false), .fail (i, false)]) :
    (∃ j, (j, true) ∈ holding c.sh.log) ∨ ∃ t, Outstanding c.sh.log t := by
  obtain ⟨m, m', hm, hs, hb⟩ := C72_try_lock_shared h' (i := i) (l1 := c.sh.log ++ [.tryLock (i, false)]) (l2 := []) (by rw [e]; simp)
  have hnot : .tryLock (i, false) ∉ c.sh.log := by
    intro hin
    have h1 := reach_one h i
    rw [ws_quiescent _ hq, if_pos (((reach_kind h).used i).2 ⟨false, .inr hin⟩)] at h1
    have h2 := (reach_facts h').one i
    rw [e, show c.sh.log ++ [.tryLock (i, false), Ev.fail (i, false)] =
      (c.sh.log ++ [.tryLock (i, false)]) ++ [Ev.fail (i, false)] by simp, setts_append, setts_append] at h2
    simp only [Ev.setts, List.append_nil, List.count_append, List.count_singleton, beq_self_eq_true, if_true] at h2
    simp only [List.count] at h2
    omega
  have hmm : m = c.sh.log ++ [.tryLock (i, false)] := by
    rcases List.eq_nil_or_concat m' with rfl | ⟨m'', v, rfl⟩
    · simpa using hm.symm
    · exfalso
      rw [List.concat_eq_append, ← List.append_assoc] at hm
      have := (List.append_inj' hm rfl).1
      exact hnot (by rw [this]; simp [hs])
  subst hmm
  rcases hb with ⟨j, hj⟩ | ⟨t, -, ht⟩
  · left; exact ⟨j, (rest_mem h hq _).1 (by simpa [spec_append, Spec.step] using hj)⟩
  · right; exact ⟨t, by simpa [Outstanding] using ht⟩

/-- C72. If no other call is running, then `async_lock` waits only if somebody holds the mutex. -/
theorem C72_exclusive_waits_alone {c c' : Conf mach} (h : MReach c) (hq : Quiescent c) (h' : MReach c') {i : Id}
    (e : c'.sh.log = c.sh.log ++ [.lock (i, true), .enq (i, true)]) : holding c.sh.log ≠ [] := by
  have h1 := C72_exclusive_waits h' (l1 := c.sh.log ++ [.lock (i, true)]) (i := i) (l2 := []) (by rw [e]; simp)
  rw [spec_append] at h1
  obtain ⟨t, ht⟩ := List.exists_mem_of_ne_nil _ h1
  intro hn
  have := (rest_mem h hq t).1 ht
  rw [hn] at this; simp at this

/-- C72. If no other call is running, then `async_lock_shared` waits only if a writer holds the mutex or waits. -/
theorem C72_shared_waits_alone_partial {c c' : Conf mach} (h : MReach c) (hq : Quiescent c) (h' : MReach c') {i : Id}
    (e : c'.sh.log = c.sh.log ++ [.lock (i, false), .enq (i, false)]) :
    (∃ j, (j, true) ∈ holding c.sh.log) ∨ ∃ j, .enq (j, true) ∈ c.sh.log ∧ .acq (j, true) ∉ c.sh.log := by
  rcases C72_shared_waits_partial h' (l1 := c.sh.log ++ [.lock (i, false)]) (i := i) (l2 := []) (by rw [e]; simp) with
    ⟨j, hj⟩ | ⟨j, h1, h2⟩
  · left; exact ⟨j, (rest_mem h hq _).1 (by simpa [spec_append, Spec.step] using hj)⟩
  · right; exact ⟨j, by simpa using h1, by simpa using h2⟩

/-- C72. If no other call is running, then a request is admitted at once only if nobody waits, and nobody
holds the mutex or the request is shared and so are those of all holders. -/
theorem C72_admitted_alone {c c' : Conf mach} (h : MReach c) (hq : Quiescent c) (h' : MReach c') {t : Req} {v : Ev}
    {l : List Ev} (hv : v = .lock t ∨ v = .tryLock t) (e : c'.sh.log = c.sh.log ++ v :: .fast t :: l) :
    (∀ u, ¬ Outstanding c.sh.log u) ∧
    (holding c.sh.log = [] ∨ (t.2 = false ∧ ∀ u ∈ holding c.sh.log, u.2 = false)) := by
  have h1 := C17_fast h' (l1 := c.sh.log ++ [v]) (t := t) (l2 := l) (by rw [e]; simp)
  have hs : spec (c.sh.log ++ [v]) = spec c.sh.log := by
    rw [spec_append]; rcases hv with rfl | rfl <;> rfl
  rw [hs] at h1
  refine ⟨?_, ?_⟩
  · rintro u ⟨h2, h3⟩
    have := (C18_waiting_is_held h hq h2 h3).1
    rw [h1.1] at this; simp at this
  · rcases h1.2 with h2 | ⟨h2, h3⟩
    · left
      apply List.eq_nil_iff_forall_not_mem.2
      intro u hu
      have := (rest_mem h hq u).2 hu
      rw [h2] at this; simp at this
    · exact .inr ⟨h2, fun u hu => h3 u ((rest_mem h hq u).2 hu)⟩

/-! ## Examples -/

theorem behind1_log : behind1.sh.log = behindLog.take 5 := rfl
theorem behind1_reach : MReach behind1 := Reach.after _ _ _
theorem behind1_rest : Quiescent behind1 := by intro a ha; revert a ha; decide

example : OwnedExclusively (behindLog.take 6) ∨ ∃ j, Ev.enq (j, true) ∈ behindLog.take 6 ∧ Ev.acq (j, true) ∉ behindLog.take 6 :=
  C72_shared_waits_partial behind_reach (l2 := []) (by rw [behind_log]; rfl)
example : (spec (behindLog.take 4)).own ≠ [] :=
  C72_exclusive_waits behind1_reach (l1 := behindLog.take 4) (i := 1) (l2 := []) (by rw [behind1_log]; rfl)
example : (spec (demo2.sh.log.take 16)).own ≠ [] :=
  C72_try_lock demo2_reach (l1 := demo2.sh.log.take 16) (i := 5) (l2 := demo2.sh.log.drop 17) rfl
example : (spec behind.sh.log).own.count (0, false) = (holding behind.sh.log).count (0, false) :=
  C72_owners behind_reach behind_rest _
example : (∃ j, (j, true) ∈ holding behind1.sh.log) ∨
    ∃ j, Ev.enq (j, true) ∈ behind1.sh.log ∧ Ev.acq (j, true) ∉ behind1.sh.log :=
  C72_shared_waits_alone_partial behind1_reach behind1_rest behind_reach (i := 2) (by rw [behind1_log, behind_log]; rfl)

/-- Reader 0 holds the mutex. -/
def reader : Conf mach := mach.after init [.env (.lock (0, false)), .run 0 true, .run 0 true, .run 0 true]

theorem reader_reach : MReach reader := Reach.after _ _ _
theorem reader_rest : Quiescent reader := by intro a ha; revert a ha; decide
theorem reader_log : reader.sh.log = behindLog.take 3 := rfl

example : holding reader.sh.log ≠ [] :=
  C72_exclusive_waits_alone reader_reach reader_rest behind1_reach (i := 1) (by rw [reader_log, behind1_log]; rfl)

/-- Then reader 1 is admitted by `try_lock_shared`. -/
def readers : Conf mach := mach.after init
  [.env (.lock (0, false)), .run 0 true, .run 0 true, .run 0 true, .env (.tryLock (1, false)), .run 1 true, .run 1 true, .run 1 true]

theorem readers_log : readers.sh.log = behindLog.take 3 ++ [.tryLock (1, false), .fast (1, false), .acq (1, false)] := rfl

example : (∀ u, ¬ Outstanding reader.sh.log u) ∧
    (holding reader.sh.log = [] ∨ (((1, false) : Req).2 = false ∧ ∀ u ∈ holding reader.sh.log, u.2 = false)) :=
  C72_admitted_alone reader_reach reader_rest (c' := readers) (Reach.after _ _ _) (v := .tryLock (1, false)) (l := [.acq (1, false)])
    (.inr rfl) (by rw [reader_log, readers_log])

/-- Behind a waiting writer, `try_lock_shared` fails. -/
def refused : Conf mach := mach.after init
  [.env (.lock (0, false)), .run 0 true, .run 0 true, .run 0 true,
   .env (.lock (1, true)), .run 1 true, .run 1 true, .run 1 true, .run 1 true, .run 1 true, .run 1 true,
   .env (.tryLock (2, false)), .run 2 true, .run 2 true]

theorem refused_log : refused.sh.log = behindLog.take 5 ++ [.tryLock (2, false), .fail (2, false)] := rfl
theorem refused_reach : MReach refused := Reach.after _ _ _

example : ∃ m m', behindLog.take 5 ++ [.tryLock (2, false)] = m ++ m' ∧ .tryLock (2, false) ∈ m ∧
    (OwnedExclusively m ∨ ∃ t : Req, t.1 ≠ 2 ∧ Outstanding m t) :=
  C72_try_lock_shared refused_reach (l2 := []) (by rw [refused_log]; rfl)
example : (∃ j, (j, true) ∈ holding behind1.sh.log) ∨ ∃ t, Outstanding behind1.sh.log t :=
  C72_try_lock_shared_alone behind1_reach behind1_rest refused_reach (i := 2) (by rw [behind1_log, refused_log])

end Verif.SharedMutex
