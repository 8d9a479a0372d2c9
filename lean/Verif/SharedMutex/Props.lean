import Verif.SharedMutex.Order

/-!
# Properties of `shared_mutex`

Histories consist of the events `Ev` of Verif/SharedMutex/Model.lean. A request `t` is a number with
a mode (`t.2 = true`: exclusive). `acq t` is the moment at which user code learns that the request
succeeded (receiver completed, or `try_lock` or `try_lock_shared` returned true), `unlock t` the call of
`unlock` or `unlock_shared`, `lock t`/`tryLock t` the start of a request, `enq t` the moment at which it is
appended to the list of waiters, `grant u ts` the moment at which the release by `u` admits `ts`.
-/

namespace Verif.SharedMutex

/-- Reachable configurations. -/
abbrev MReach (c : Conf mach) : Prop := Reach mach init c

/-- C16. Two acquisitions that overlap are both shared. -/
theorem C16_exclusion {c : Conf mach} (h : MReach c) {l1 l2 l3 : List Ev} {t u : Req}
    (e : c.sh.log = l1 ++ .acq t :: l2 ++ .acq u :: l3) (hn : .unlock t ∉ l2) :
    t.2 = false ∧ u.2 = false := by
  have f := prefix_facts h (m := l1 ++ .acq t :: l2 ++ [.acq u]) (l := l3) (by rw [e]; simp)
  have h1 : t ∈ holding (l1 ++ [.acq t]) := by simp [holding.step]
  have h2 := holding_keep h1 hn
  rw [show l1 ++ [.acq t] ++ l2 = l1 ++ .acq t :: l2 by simp] at h2
  have h3 : holding (l1 ++ .acq t :: l2 ++ [.acq u]) = holding (l1 ++ .acq t :: l2) ++ [u] := by
    rw [holding_append]; rfl
  have h4 := f.own
  rw [h3] at h4
  generalize holding (l1 ++ .acq t :: l2) = H at *
  have hpos := List.length_pos_of_mem h2
  have hlen := h4 (fun _ => true)
  simp only [List.countP_true, List.length_append, List.length_singleton] at hlen
  have mem : ∀ v ∈ H ++ [u], v ∈ (spec (l1 ++ .acq t :: l2 ++ [.acq u])).own := by
    intro v hv
    have h5 := h4 (· == v)
    have h6 : 0 < (H ++ [u]).countP (· == v) := List.countP_pos_iff.2 ⟨v, hv, by simp⟩
    obtain ⟨w, hw, hx⟩ := List.countP_pos_iff.1 (Nat.lt_of_lt_of_le h6 h5)
    simp at hx; subst hx; exact hw
  rcases own_ok f.legal with h5 | h5
  · omega
  · exact ⟨h5 t (mem t (by simp [h2])), h5 u (mem u (by simp))⟩

/-- C16. At any time either at most one acquisition is held, or all that are held are shared. -/
theorem C16_holders {c : Conf mach} (h : MReach c) :
    (holding c.sh.log).length ≤ 1 ∨ ∀ t ∈ holding c.sh.log, t.2 = false := by
  have f := reach_facts h
  rcases own_ok f.legal with h5 | h5
  · left; have := f.own (fun _ => true); simp only [List.countP_true] at this; omega
  · right; intro t ht
    have h5' := f.own (· == t)
    have h6 : 0 < (holding c.sh.log).countP (· == t) := List.countP_pos_iff.2 ⟨t, ht, by simp⟩
    obtain ⟨w, hw, hx⟩ := List.countP_pos_iff.1 (Nat.lt_of_lt_of_le h6 h5')
    simp at hx; subst hx; exact h5 w hw

/-- C17. Once a request is queued, no request that starts later is admitted before it; if one of
the two is exclusive then the later one does not even complete before the earlier one. In particular
no reader overtakes a queued writer. -/
theorem C17_no_barging {c : Conf mach} (h : MReach c) {l1 l2 l3 : List Ev} {i k : Req}
    (e : c.sh.log = l1 ++ .enq i :: l2 ++ .acq k :: l3) (hne : i ≠ k)
    (h1 : ∀ x, .lock (k.1, x) ∉ l1) (h2 : ∀ x, .tryLock (k.1, x) ∉ l1) :
    (∃ u ts, .grant u ts ∈ l1 ++ .enq i :: l2 ∧ i ∈ ts) ∧
    (i.2 = true ∨ k.2 = true → .acq i ∈ l1 ++ .enq i :: l2) := by
  have ho := order h e hne h1 h2
  exact ⟨mem_grants.1 ho, told h e hne (mem_wins.2 (.inr ho))⟩

/-- C17. Queued requests are admitted in the order in which they were queued; if one of two is exclusive, they
also complete in that order. -/
theorem C17_fifo {c : Conf mach} (h : MReach c) {l1 l2 l3 l4 : List Ev} {i k : Req}
    (e : c.sh.log = l1 ++ .enq i :: l2 ++ .enq k :: l3 ++ .acq k :: l4) :
    (∃ u ts, .grant u ts ∈ l1 ++ .enq i :: l2 ++ .enq k :: l3 ∧ i ∈ ts) ∧
    (i.2 = true ∨ k.2 = true → .acq i ∈ l1 ++ .enq i :: l2 ++ .enq k :: l3) := by
  have f := prefix_facts h e
  have hc := count_setts k (l1 ++ .enq i :: l2 ++ .enq k :: l3)
  have h1 := f.one k.1
  have he : enqs (l1 ++ .enq i :: l2 ++ .enq k :: l3) = enqs l1 ++ i :: enqs l2 ++ k :: enqs l3 := by
    simp [enqs, Ev.enqs]
  have hne : i ≠ k := by
    rintro rfl
    rw [he] at hc; simp only [List.count_append, List.count_cons_self] at hc; omega
  have hk : k ∈ grants (l1 ++ .enq i :: l2 ++ .enq k :: l3) := by
    rcases mem_wins.1 (win_of_acq h e) with h3 | h3
    · have h4 := List.count_pos_iff.2 h3
      have h5 : k ∈ enqs (l1 ++ .enq i :: l2 ++ .enq k :: l3) := by rw [he]; simp
      have h6 := List.count_pos_iff.2 h5
      omega
    · exact h3
  have hi := count_split he (by omega) (queue_eq f.legal) hk
  exact ⟨mem_grants.1 hi, told h e hne (mem_wins.2 (.inr hi))⟩

/-- C17. The queue at any time: the requests that were queued, in order, without those that were
admitted since, which are the oldest ones. -/
theorem C17_queue {c : Conf mach} (h : MReach c) :
    (c.sh.log.flatMap fun v => match v with | .grant _ ts => ts | _ => []) ++ (spec c.sh.log).q =
    c.sh.log.flatMap fun v => match v with | .enq t => [t] | _ => [] := by
  have := queue_eq (reach_inv h).legal
  have e1 : (fun v : Ev => match v with | .grant _ ts => ts | _ => []) = Ev.grants := by
    funext v; cases v <;> rfl
  have e2 : (fun v : Ev => match v with | .enq t => [t] | _ => []) = Ev.enqs := by
    funext v; cases v <;> rfl
  rw [e1, e2]; exact this

/-- C17. Whenever a release admits queued requests, it is by the only holder, and it admits the writer at
the head of the queue, or all readers in front of the first writer. -/
theorem C17_batch {c : Conf mach} (h : MReach c) {l1 l2 : List Ev} {u : Req} {ts : List Req}
    (e : c.sh.log = l1 ++ .grant u ts :: l2) :
    (spec l1).own = [u] ∧
    ((∃ j, ts = [(j, true)] ∧ (spec l1).q.head? = some (j, true)) ∨
      (ts ≠ [] ∧ (∀ t ∈ ts, t.2 = false) ∧
        ∃ rest, (spec l1).q = ts ++ rest ∧ ∀ t ∈ rest.head?, t.2 = true)) := by
  obtain ⟨h1, h2, h3⟩ := (reach_inv h).legal _ _ _ e
  refine ⟨h1, ?_⟩
  generalize (spec l1).q = q at h2
  unfold batch at h2
  split at h2
  · rename_i j q; left; exact ⟨j, h2, rfl⟩
  · right; refine ⟨h3, ?_, ?_⟩
    · intro t ht; rw [h2] at ht
      have h4 := List.all_takeWhile (p := fun t : Req => !t.2) (l := q)
      rw [List.all_eq_true] at h4
      simpa using h4 t ht
    · refine ⟨q.dropWhile (fun t => !t.2), by rw [h2, List.takeWhile_append_dropWhile], ?_⟩
      intro t ht
      have h5 := List.head?_dropWhile_not (fun t : Req => !t.2) q
      simp only [Option.mem_def] at ht
      rw [ht] at h5; simpa using h5

/-- C17. A request is admitted without being queued only if the queue is empty, and a new reader
is admitted besides readers only. -/
theorem C17_fast {c : Conf mach} (h : MReach c) {l1 l2 : List Ev} {t : Req}
    (e : c.sh.log = l1 ++ .fast t :: l2) :
    (spec l1).q = [] ∧ ((spec l1).own = [] ∨ (t.2 = false ∧ ∀ u ∈ (spec l1).own, u.2 = false)) := by
  obtain ⟨h1, h2⟩ := (reach_inv h).legal _ _ _ e
  refine ⟨h1, ?_⟩
  unfold compat at h2
  cases ht : t.2 with
  | true => rw [ht] at h2; exact .inl h2
  | false => rw [ht] at h2; exact .inr ⟨rfl, h2⟩

/-! ## At rest -/

theorem rest_own {c : Conf mach} (h : MReach c) (hq : Quiescent c) (q : Req → Bool) :
    (holding c.sh.log).countP q = (spec c.sh.log).own.countP q := by
  have := (reach_inv h).own q
  rw [ws_quiescent _ hq] at this; omega

/-- C18. When no call is running, the request at the head of the queue cannot be admitted: it is exclusive and
somebody holds the mutex, or it is shared and a writer holds the mutex. -/
theorem C18_head_is_blocked {c : Conf mach} (h : MReach c) (hq : Quiescent c) {t : Req}
    (ht : (spec c.sh.log).q.head? = some t) :
    (t.2 = true ∧ holding c.sh.log ≠ []) ∨ (t.2 = false ∧ ∃ j, holding c.sh.log = [(j, true)]) := by
  have hI := reach_inv h
  have h0 := fun w => ws_quiescent w hq
  rw [← hI.q] at ht
  have hw : c.sh.waiters ≠ [] := by intro hw; rw [hw] at ht; simp at ht
  have hc : c.sh.st.c = .contended := by
    by_cases hc : c.sh.st.c = .contended
    · exact hc
    · have := (hI.ok.ncont hc).1
      simp only [view, List.length_eq_zero_iff] at this
      exact absurd this hw
  have hn : holding c.sh.log ≠ [] := by
    intro hn
    have h1 := rest_own h hq (fun _ => true)
    rw [hn] at h1; simp only [List.countP_nil, List.countP_true] at h1
    have := hI.own_nil.1 (List.length_eq_zero_iff.1 h1.symm)
    rw [hc] at this; simp at this
  cases hx : t.2 with
  | true => exact .inl ⟨rfl, hn⟩
  | false =>
    right; refine ⟨rfl, ?_⟩
    have hfr : frontR c.sh.waiters = 1 := by
      obtain ⟨i, e⟩ := t
      simp at hx; subst hx
      cases hw : c.sh.waiters with
      | nil => rw [hw] at ht; simp at ht
      | cons y w => rw [hw] at ht; simp at ht; rw [ht]; rfl
    have hz : c.sh.st.n = 0 := by
      by_cases hz : c.sh.st.n = 0
      · exact hz
      · have := (hI.ok.front hc (.inl ⟨Nat.pos_of_ne_zero hz, h0 isX⟩)).1
        simp only [view] at this; omega
    obtain ⟨a1, a2, a3⟩ := hI.own_count (by rw [hc]; simp) (h0 _) (h0 _)
    rw [if_pos hz] at a2 a3
    have b2 := rest_own h hq (·.2)
    have b3 := rest_own h hq (fun _ => true)
    simp only [List.countP_true] at b3
    obtain ⟨u, hu⟩ := List.length_eq_one_iff.1 (b3.trans a3)
    rw [a2, hu] at b2
    obtain ⟨j, e⟩ := u
    cases e with
    | true => exact ⟨j, hu⟩
    | false => simp at b2

/-- C18. When no call is running, an `async_lock` or `async_lock_shared` that has not completed is queued and
somebody else holds the mutex. -/
theorem C18_waiting_is_held {c : Conf mach} (h : MReach c) (hq : Quiescent c) {t : Req}
    (hb : .lock t ∈ c.sh.log) (hn : .acq t ∉ c.sh.log) :
    t ∈ (spec c.sh.log).q ∧ ∃ k ∈ holding c.sh.log, k ≠ t := by
  have hI := reach_inv h
  have hK := reach_kind h
  obtain ⟨i, e⟩ := t
  have hop := hI.op i
  have known : ∀ e', Known c.sh.log ((i, e'), false) → e' = e := by
    intro e' hk
    rcases hk with hk | ⟨-, hk⟩
    · exact absurd hk (hK.excl i e e' hb)
    · exact hK.uniq i e' e hk hb
  rw [ws_quiescent _ hq, (hI.beg i).2 ⟨e, .inl hb⟩, if_pos rfl] at hop
  have hov : (overs c.sh.log).count i = 0 := by
    rw [List.count_eq_zero]
    intro hm
    obtain ⟨v, hv, hx⟩ := List.mem_flatMap.1 hm
    cases v <;> simp [Ev.overs] at hx
    · rename_i t; obtain ⟨i', e'⟩ := t; simp at hx; subst hx
      have := known e' (hK.log _ hv _ (by simp [mE])); subst this
      exact hn hv
    · rename_i t; obtain ⟨i', e'⟩ := t; simp at hx; subst hx
      rcases hK.log _ hv ((i, e'), true) (by simp [mE]) with hk | ⟨hk, -⟩
      · exact hK.excl i e e' hb hk
      · simp at hk
  rw [hov] at hop
  have hi : i ∈ c.sh.waiters.map (·.1) := by
    apply List.count_pos_iff.1; omega
  obtain ⟨⟨i', e'⟩, hm, hx⟩ := List.mem_map.1 hi
  simp at hx; subst hx
  have := known e' (hK.wt _ hm); subst this
  refine ⟨by rw [← hI.q]; exact hm, ?_⟩
  have hne : (spec c.sh.log).q ≠ [] := by rw [← hI.q]; intro hw; rw [hw] at hm; simp at hm
  obtain ⟨u, q, hu⟩ := List.exists_cons_of_ne_nil hne
  have hh := C18_head_is_blocked h hq (t := u) (by rw [hu]; rfl)
  have hne2 : holding c.sh.log ≠ [] := by
    rcases hh with ⟨_, hh⟩ | ⟨_, j, hh⟩
    · exact hh
    · rw [hh]; simp
  obtain ⟨k, r, hk⟩ := List.exists_cons_of_ne_nil hne2
  refine ⟨k, by rw [hk]; simp, ?_⟩
  rintro rfl
  exact hn (holding_acq (by rw [hk]; simp))

/-- C18. When no call is running and nobody holds the mutex, every request is over: `async_lock`s
have acquired the mutex, `try_lock`s have returned. -/
theorem C18_free_means_served {c : Conf mach} (h : MReach c) (hq : Quiescent c)
    (hf : holding c.sh.log = []) {t : Req} :
    (.lock t ∈ c.sh.log → .acq t ∈ c.sh.log) ∧
    (.tryLock t ∈ c.sh.log → ∃ e, .acq (t.1, e) ∈ c.sh.log ∨ .fail (t.1, e) ∈ c.sh.log) := by
  have hI := reach_inv h
  refine ⟨?_, ?_⟩
  · intro hb
    apply Classical.byContradiction
    intro hn
    obtain ⟨_, k, hk, _⟩ := C18_waiting_is_held h hq hb hn
    rw [hf] at hk; simp at hk
  · intro hb
    obtain ⟨i, e⟩ := t
    have hop := hI.op i
    rw [ws_quiescent _ hq, (hI.beg i).2 ⟨e, .inr hb⟩, if_pos rfl] at hop
    have hw : c.sh.waiters = [] := by
      apply Classical.byContradiction
      intro hw
      rw [hI.q] at hw
      obtain ⟨u, q, hu⟩ := List.exists_cons_of_ne_nil hw
      rcases C18_head_is_blocked h hq (t := u) (by rw [hu]; rfl) with ⟨_, hh⟩ | ⟨_, j, hh⟩
      · exact hh hf
      · rw [hh] at hf; simp at hf
    rw [hw] at hop
    have : i ∈ overs c.sh.log := List.count_pos_iff.1 (by simp at hop; omega)
    obtain ⟨v, hv, hx⟩ := List.mem_flatMap.1 this
    cases v <;> simp [Ev.overs] at hx
    · rename_i t; obtain ⟨i', e'⟩ := t; simp at hx; subst hx; exact ⟨e', .inl hv⟩
    · rename_i t; obtain ⟨i', e'⟩ := t; simp at hx; subst hx; exact ⟨e', .inr hv⟩

/-- C18. A request ends at most once. -/
theorem C18_at_most_once {c : Conf mach} (h : MReach c) (t : Req) :
    c.sh.log.count (.acq t) + c.sh.log.count (.fail t) ≤ 1 := by
  have h1 := (reach_facts h).over t.1
  have e : ∀ l : List Ev, l.count (.acq t) + l.count (.fail t) ≤ (overs l).count t.1 := by
    intro l
    induction l using List.reverseRecOn with
    | nil => simp
    | append_singleton l v ih =>
      rw [overs_append, List.count_append, List.count_append, List.count_append]
      cases v <;> simp [Ev.overs, List.count_singleton] <;> grind
  have := e c.sh.log
  omega

/-- C18. No assertion fails. -/
theorem C18_no_assertion {c : Conf mach} (h : MReach c) : c.bad = false :=
  Reach.no_fault (P := Inv) (fun _ hc => reach_inv hc) (fun _ _ _ _ _ b h hk => no_fault h hk b) h

/-- C18. As long as some call is running, some call can execute its next instruction, whatever
the weak compare-exchanges do. -/
theorem C18_progress {c : Conf mach} (h : MReach c) (hq : ¬ Quiescent c) : CanStep c := by
  obtain ⟨k, x, r, hk, hx⟩ := progress (reach_inv h) hq
  refine ⟨k, fun b => ?_⟩
  obtain ⟨s', p, he⟩ := hx b
  refine ⟨⟨s', c.acts.set k (p ++ r), false⟩, ?_⟩
  simp only [Mach.step, C18_no_assertion h, hk, he]
  rfl

/-- C18. Running calls come to an end under every schedule: apart from spurious failures of weak
compare-exchanges they execute a bounded number of instructions. -/
theorem C18_terminates {c : Conf mach} (h : MReach c) : ∃ n, Bounded c n :=
  ⟨_, bounded_of (P := Inv) (fun (s : St) acts => pot s acts) (fun _ hc => reach_inv hc)
    (fun _ hc => C18_no_assertion hc)
    (fun _ _ _ _ _ _ _ _ _ hk he => decreases hk he) h⟩

/-- C18. The running calls can always be run to completion. -/
theorem C18_can_finish {c : Conf mach} (h : MReach c) : CanFinish c :=
  canFinish_of (fun _ hc => C18_no_assertion hc) (fun _ hc hq => C18_progress hc hq)
    (fun _ hc => C18_terminates hc) h

/-! ## Examples -/

/-- Writer 0 holds the mutex; readers 1 and 2, writer 3 and reader 4 queue up. -/
def pre1 : List (Lbl mach) :=
  [.env (.lock (0, true)), .run 0 true, .run 0 true,
   .env (.lock (1, false)), .run 1 true, .run 1 true, .run 1 true, .run 1 true, .run 1 false, .run 1 true, .run 1 true, .run 1 true,
   .env (.lock (2, false)), .run 2 true, .run 2 true, .run 2 true, .run 2 true, .run 2 true, .run 2 true, .run 2 true,
   .env (.lock (3, true)), .run 3 true, .run 3 true, .run 3 true, .run 3 true, .run 3 true, .run 3 true,
   .env (.lock (4, false)), .run 4 true, .run 4 true, .run 4 true, .run 4 true, .run 4 true, .run 4 true, .run 4 true]

def demo : Conf mach := mach.after init pre1

example : demo.sh.log = [.lock (0, true), .fast (0, true), .acq (0, true), .lock (1, false), .enq (1, false),
    .lock (2, false), .enq (2, false), .lock (3, true), .enq (3, true), .lock (4, false), .enq (4, false)] := by rfl
/-- Hypotheses of `C18_waiting_is_held` and `C18_head_is_blocked`. -/
example : (∀ a ∈ demo.acts, a = []) ∧ Ev.lock (4, false) ∈ demo.sh.log ∧ Ev.acq (4, false) ∉ demo.sh.log ∧
    (spec demo.sh.log).q.head? = some (1, false) ∧ holding demo.sh.log = [(0, true)] := by decide

/-- The writer releases: both readers are admitted. They release, one after the other: the second
writer is admitted, and when it releases, the last reader. A `try_lock` fails in between. -/
def demo2 : Conf mach := mach.after init (pre1 ++
  [.env (.unlock (0, true)), .run 5 true, .run 5 true, .run 5 true, .run 5 true, .run 5 true, .run 5 true, .run 5 true,
   .env (.tryLock (5, true)), .run 6 true,
   .env (.unlock (1, false)), .run 7 true, .run 7 true,
   .env (.unlock (2, false)), .run 8 true, .run 8 true, .run 8 true, .run 8 true, .run 8 true, .run 8 true, .run 8 true,
   .env (.unlock (3, true)), .run 9 true, .run 9 true, .run 9 true, .run 9 true, .run 9 true, .run 9 true])

theorem demo2_reach : MReach demo2 := Reach.after _ _ _

/-- Hypotheses of C16 (with the overlapping readers 1 and 2) and of C17 are met. -/
example : demo2.sh.log = [.lock (0, true), .fast (0, true), .acq (0, true), .lock (1, false), .enq (1, false),
    .lock (2, false), .enq (2, false), .lock (3, true), .enq (3, true), .lock (4, false), .enq (4, false),
    .unlock (0, true), .grant (0, true) [(1, false), (2, false)], .acq (1, false), .acq (2, false),
    .tryLock (5, true), .fail (5, true),
    .unlock (1, false), .rel (1, false), .unlock (2, false), .grant (2, false) [(3, true)], .acq (3, true),
    .unlock (3, true), .grant (3, true) [(4, false)], .acq (4, false)] := by rfl
example : Quiescent demo2 := by intro a ha; revert a ha; decide
example : holding demo2.sh.log = [(4, false)] := by rfl

theorem demo_reach : MReach demo := Reach.after _ _ _
theorem demo_rest : Quiescent demo := by intro a ha; revert a ha; decide

example : (1, false).2 = false ∧ (2, false).2 = false :=
  C16_exclusion demo2_reach (l1 := demo2.sh.log.take 13) (t := (1, false)) (l2 := []) (u := (2, false)) (l3 := demo2.sh.log.drop 15)
    rfl (by simp)
example : (holding demo2.sh.log).length ≤ 1 ∨ ∀ t ∈ holding demo2.sh.log, t.2 = false := C16_holders demo2_reach

/-- Reader 4 starts when writer 3 is already in the queue. -/
example : Ev.acq (3, true) ∈ demo2.sh.log.take 24 :=
  (C17_no_barging demo2_reach (l1 := demo2.sh.log.take 8) (i := (3, true)) (l2 := (demo2.sh.log.drop 9).take 15) (k := (4, false))
    (l3 := []) rfl (by decide) (by intro x; cases x <;> decide) (by intro x; cases x <;> decide)).2 (.inl rfl)
example : Ev.acq (1, false) ∈ demo2.sh.log.take 21 :=
  (C17_fifo demo2_reach (l1 := demo2.sh.log.take 4) (i := (1, false)) (l2 := (demo2.sh.log.drop 5).take 3) (k := (3, true))
    (l3 := (demo2.sh.log.drop 9).take 12) (l4 := demo2.sh.log.drop 22) rfl).2 (.inr rfl)
example : [(1, false), (2, false), (3, true), (4, false)] ++ (spec demo2.sh.log).q =
    [(1, false), (2, false), (3, true), (4, false)] := C17_queue demo2_reach
example : (spec (demo2.sh.log.take 12)).own = [(0, true)] :=
  (C17_batch demo2_reach (l1 := demo2.sh.log.take 12) (u := (0, true)) (ts := [(1, false), (2, false)]) (l2 := demo2.sh.log.drop 13)
    rfl).1
example : (spec (demo2.sh.log.take 1)).q = [] :=
  (C17_fast demo2_reach (l1 := demo2.sh.log.take 1) (t := (0, true)) (l2 := demo2.sh.log.drop 2) rfl).1

example : ((1, false) : Req).2 = true ∧ holding demo.sh.log ≠ [] ∨
    ((1, false) : Req).2 = false ∧ ∃ j, holding demo.sh.log = [(j, true)] :=
  C18_head_is_blocked demo_reach demo_rest rfl
example : (4, false) ∈ (spec demo.sh.log).q ∧ ∃ k ∈ holding demo.sh.log, k ≠ (4, false) :=
  C18_waiting_is_held demo_reach demo_rest (by decide) (by decide)

/-- A reader comes and goes; a `try_lock` fails. -/
def demo3 : Conf mach := mach.after init
  [.env (.lock (0, false)), .run 0 true, .run 0 true, .run 0 true, .env (.tryLock (1, true)), .run 1 true,
   .env (.unlock (0, false)), .run 2 true, .run 2 true]

example : demo3.sh.log = [.lock (0, false), .fast (0, false), .acq (0, false), .tryLock (1, true), .fail (1, true),
    .unlock (0, false), .rel (0, false)] := by rfl
example : ∃ e, Ev.acq (1, e) ∈ demo3.sh.log ∨ Ev.fail (1, e) ∈ demo3.sh.log :=
  (C18_free_means_served (c := demo3) (Reach.after _ _ _) (by intro a ha; revert a ha; decide) rfl (t := (1, true))).2 (by decide)
example : demo2.sh.log.count (.acq (1, false)) + demo2.sh.log.count (.fail (1, false)) ≤ 1 :=
  C18_at_most_once demo2_reach (1, false)
example : demo2.bad = false := C18_no_assertion demo2_reach

/-- Two calls are running. -/
def demo4 : Conf mach := mach.after init
  [.env (.lock (0, true)), .run 0 true, .run 0 true, .env (.lock (1, false)), .run 1 true, .env (.unlock (0, true))]

theorem demo4_runs : ¬ Quiescent demo4 := by
  intro h
  exact absurd (h _ (List.mem_of_getElem? (i := 2) rfl)) (by decide)

example : CanStep demo4 := C18_progress (Reach.after _ _ _) demo4_runs
example : ∃ n, Bounded demo4 n := C18_terminates (Reach.after _ _ _)
example : CanFinish demo4 := C18_can_finish (Reach.after _ _ _)

end Verif.SharedMutex
