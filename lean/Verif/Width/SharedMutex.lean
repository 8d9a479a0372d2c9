import Verif.SharedMutex.Props

/-!
# The counter of `shared_mutex` (mutex.hpp 190-194)

`Verif/SharedMutex/Model.lean` counts the shared owners with natural numbers. The code counts them in an `unsigned int`. Here is the
same machine with arithmetic modulo `M`; `M` is `2 ^ 32` for the usual widths.
-/

namespace Verif.Width.SharedMutex

open Verif.SharedMutex (Id Req Ev Wd Instr St init spec holding Act)

/-- As `Verif.SharedMutex.exec`. The three places at which the code increments a counter (`try_lock_shared` line 430,
`lock_shared_operation::start` line 341, `unlock` line 489) do so modulo `M`. The counter is decremented at lines 522 and 550, only if
it is greater than one. -/
def exec (M : Nat) (s : St) : Instr → Bool → Out St Instr
  | .lsT i f v, _ =>
    if v.c = .none then
      if s.st = v then .ok (s.admit (i, false) ⟨.locked, 1⟩) [.acq (i, false)]
      else .ok s [.lsT i f s.st]
    else if v.c = .locked ∧ v.n ≠ 0 then
      if s.st = v then .ok (s.admit (i, false) ⟨.locked, (v.n + 1) % M⟩) [.acq (i, false)]
      else .ok s [.lsT i f s.st]
    else if f then .ok s [.acqM (i, false)]
    else .ok { s with log := s.log ++ [.fail (i, false)] } []
  | .chk (i, false) v, b =>
    if v.c = .none then
      if s.st = v ∧ b then .ok (s.admit (i, false) ⟨.locked, 1⟩) [.relM, .acq (i, false)]
      else .ok s [.chk (i, false) s.st]
    else if v.c = .locked ∧ v.n ≠ 0 then
      if s.st = v ∧ b then .ok (s.admit (i, false) ⟨.locked, (v.n + 1) % M⟩) [.relM, .acq (i, false)]
      else .ok s [.chk (i, false) s.st]
    else if v.c = .locked then
      if s.st = v ∧ b then .ok { s with st := ⟨.contended, 0⟩ } [.push (i, false)]
      else .ok s [.chk (i, false) s.st]
    else .ok s [.push (i, false)]
  | .stR js, _ =>
    .ok { s with st := ⟨if s.waiters = [] then .locked else .contended, js.length % M⟩ }
      (.relM :: js.map (fun j => .acq (j, false)))
  | x, b => Verif.SharedMutex.exec s x b

abbrev mach (M : Nat) : Mach := ⟨St, Instr, Act, exec M, Verif.SharedMutex.env⟩

/-- The same configuration of the other machine. -/
def conf {M : Nat} (c : Conf (mach M)) : Conf Verif.SharedMutex.mach := ⟨c.sh, c.acts, c.bad⟩

/-- Either the two machines do the same, or they differ only in the counter, which is too big for `M`. -/
theorem exec_cases (M : Nat) (s : St) (x : Instr) (b : Bool) :
    exec M s x b = Verif.SharedMutex.exec s x b ∨
    ∃ s1 s2 p, exec M s x b = .ok s1 p ∧ Verif.SharedMutex.exec s x b = .ok s2 p ∧ s1.log = s2.log ∧ M ≤ s2.st.n := by
  have key : ∀ n, n % M = n ∨ M ≤ n := by
    intro n
    by_cases h : n < M
    · exact .inl (Nat.mod_eq_of_lt h)
    · exact .inr (by omega)
  cases x with
  | lsT i f v =>
    rcases key (v.n + 1) with h | h
    · left; simp only [exec, Verif.SharedMutex.exec, h]
    · simp only [exec, Verif.SharedMutex.exec]
      split
      · split <;> exact .inl rfl
      · split
        · split
          · exact .inr ⟨_, _, _, rfl, rfl, rfl, h⟩
          · exact .inl rfl
        · split <;> exact .inl rfl
  | chk t v =>
    obtain ⟨i, e⟩ := t
    cases e
    · rcases key (v.n + 1) with h | h
      · left; simp only [exec, Verif.SharedMutex.exec, h]
      · simp only [exec, Verif.SharedMutex.exec]
        split
        · split <;> exact .inl rfl
        · split
          · split
            · exact .inr ⟨_, _, _, rfl, rfl, rfl, h⟩
            · exact .inl rfl
          · split
            · split <;> exact .inl rfl
            · exact .inl rfl
    · exact .inl rfl
  | stR js =>
    rcases key js.length with h | h
    · left; simp only [exec, Verif.SharedMutex.exec, h]
    · exact .inr ⟨_, _, _, rfl, rfl, rfl, h⟩
  | _ => exact .inl rfl

theorem ws_mono {ι : Type} {u v : ι → Nat} (h : ∀ x, u x ≤ v x) (acts : List (List ι)) : ws u acts ≤ ws v acts := by
  have hl : ∀ l : List ι, wl u l ≤ wl v l := by
    intro l; induction l with
    | nil => simp
    | cons x l ih => simp only [wl_cons]; have := h x; omega
  induction acts with
  | nil => simp
  | cons a acts ih => simp only [ws_cons]; have := hl a; omega

/-- The counter counts owners. -/
theorem count_le {s : St} {acts : List (List Instr)} (h : Verif.SharedMutex.Inv s acts) : s.st.n ≤ (spec s.log).own.length := by
  have hw : ws Verif.SharedMutex.wS acts ≤ ws (cw Verif.SharedMutex.toks (!·.2)) acts := by
    apply ws_mono
    intro x
    cases x <;> simp [Verif.SharedMutex.wS, cw, Verif.SharedMutex.toks]
    rename_i t; obtain ⟨i, e⟩ := t; cases e <;> simp
  have hx : ws Verif.SharedMutex.isX acts ≤ ws (cw Verif.SharedMutex.toks (fun _ => true)) acts := by
    apply ws_mono
    intro x
    cases x <;> simp [Verif.SharedMutex.isX, cw, Verif.SharedMutex.toks]
  have ho := h.own (!·.2)
  have ho' := h.own (fun _ => true)
  simp only [List.countP_true] at ho'
  have hc : (spec s.log).own.countP (!·.2) ≤ (spec s.log).own.length := List.countP_le_length
  have ok := h.ok
  by_cases hn : s.st.c = .none
  · have := (ok.none hn).2.2
    simp only [Verif.SharedMutex.view] at this; omega
  · by_cases hR : 0 < ws Verif.SharedMutex.isR acts
    · have := (ok.rr hR).1
      simp only [Verif.SharedMutex.view] at this; omega
    · by_cases hX : 0 < ws Verif.SharedMutex.isX acts
      · have h1 := (ok.xx hX).1
        simp only [Verif.SharedMutex.view] at h1
        omega
      · have := (ok.norm hn (by simp only [Verif.SharedMutex.view]; omega) (by simp only [Verif.SharedMutex.view]; omega)).1
        simp only [Verif.SharedMutex.view] at this
        omega

theorem log_prefix {M : Nat} {s : St} {x : Instr} {b : Bool} {s' : St} {p : List Instr} (he : exec M s x b = .ok s' p) :
    s.log <+: s'.log := by
  have key : ∀ {t : St} {q : List Instr}, Verif.SharedMutex.exec s x b = .ok t q → s.log <+: t.log := by
    intro t q h
    rcases (Verif.SharedMutex.exec_setts h).2.1 with e | ⟨v, e⟩ <;> rw [e]
    · exact List.prefix_refl _
    · exact List.prefix_append _ _
  rcases exec_cases M s x b with h | ⟨s1, s2, q, h1, h2, h3, _⟩
  · exact key (h ▸ he)
  · rw [h1] at he
    simp only [Out.ok.injEq] at he
    obtain ⟨rfl, rfl⟩ := he
    rw [h3]; exact key h2

/-- As long as there are fewer than `M` owners, every configuration is one of the machine with natural numbers. -/
theorem reach {M : Nat} {c : Conf (mach M)} (h : Reach (mach M) init c)
    (hf : ∀ l, l <+: c.sh.log → (spec l).own.length < M) : Reach Verif.SharedMutex.mach init (conf c) := by
  induction h with
  | init => exact .init
  | @step c c' l _ hs ih =>
    obtain ⟨s, acts, bad⟩ := c
    cases l with
    | env a =>
      simp only [Mach.step] at hs
      split at hs
      · simp at hs
      · rename_i hb
        have hb : bad = false := by simpa using hb
        subst hb
        split at hs
        · rename_i s' p he
          simp at hs; subst hs
          have := ih (fun l hl => hf l (hl.trans (by
            obtain ⟨v, e⟩ := Verif.SharedMutex.env_log (acts := acts) he
            rw [e]; exact List.prefix_append _ _)))
          refine this.step (l := .env a) ?_
          simp [Mach.step, conf, he]
        · simp at hs
    | run k b =>
      simp only [Mach.step] at hs
      split at hs
      · simp at hs
      · rename_i hb
        have hb : bad = false := by simpa using hb
        subst hb
        split at hs
        · rename_i x r hk
          split at hs
          · rename_i s' p he
            simp at hs; subst hs
            have hr := ih (fun l hl => hf l (hl.trans (log_prefix he)))
            have hst : ∀ {t q}, Verif.SharedMutex.exec s x b = .ok t q → Reach Verif.SharedMutex.mach init
                ⟨t, acts.set k (q ++ r), false⟩ := by
              intro t q h
              refine hr.step (l := .run k b) ?_
              simp [Mach.step, conf, hk, h]
            rcases exec_cases M s x b with h | ⟨s1, s2, q, h1, h2, h3, h4⟩
            · exact hst (h ▸ he)
            · exfalso
              rw [h1] at he
              simp only [Out.ok.injEq] at he
              obtain ⟨rfl, rfl⟩ := he
              have := count_le (Verif.SharedMutex.reach_inv (hst h2))
              have := hf _ (List.prefix_refl _)
              simp only at *
              rw [h3] at this
              omega
          · simp at hs
          · rename_i he
            simp at hs; subst hs
            have hr := ih hf
            refine hr.step (l := .run k b) ?_
            rcases exec_cases M s x b with h | ⟨s1, s2, q, h1, h2, h3, h4⟩
            · rw [h] at he; simp [Mach.step, conf, hk, he]
            · simp [h1] at he
        · simp at hs

/-! ## Too many owners -/

theorem runs_append {N : Mach} {a b : Conf N} {l m : List (Lbl N)} (h : N.runs a l = some b) :
    N.runs a (l ++ m) = N.runs b m := by
  induction l generalizing a with
  | nil => simp [Mach.runs] at h; subst h; rfl
  | cons x l ih =>
    simp only [Mach.runs, List.cons_append] at h ⊢
    split at h
    · rename_i c hc; exact ih h
    · simp at h

/-- `m` calls of `try_lock_shared` have returned true. -/
theorem many {M : Nat} (hM : 1 < M) (m : Nat) (hm : m < M) :
    ∃ s : St, Reach (mach M) init ⟨s, List.replicate (m + 1) [], false⟩ ∧ s.st = ⟨.locked, (m + 1) % M⟩ ∧
      (∀ i, s.used i = decide (i ≤ m)) ∧
      s.log = (List.range (m + 1)).flatMap (fun i => [.tryLock (i, false), .fast (i, false), .acq (i, false)]) ∧
      (0, false) ∈ holding s.log := by
  induction m with
  | zero =>
    refine ⟨_, Reach.of_runs (ls := [.env (.tryLock (0, false)), .run 0 true, .run 0 true, .run 0 true]) .init rfl, ?_, ?_, rfl,
      show (0, false) ∈ [((0, false) : Req)] by simp⟩
    · simp [Nat.mod_eq_of_lt hM]; rfl
    · intro i
      show upd (fun _ => false) 0 true i = _
      simp only [upd_apply]
      by_cases e : i = 0 <;> simp [e]
  | succ m ih =>
    obtain ⟨s, hr, hst, hu, hl, hh⟩ := ih (by omega)
    rw [Nat.mod_eq_of_lt hm] at hst
    have hus : s.used (m + 1) = false := by rw [hu]; simp
    have e1 : (mach M).step ⟨s, List.replicate (m + 1) [], false⟩ (.env (.tryLock (m + 1, false))) =
        some ⟨{ s with used := upd s.used (m + 1) true, log := s.log ++ [.tryLock (m + 1, false)] },
          List.replicate (m + 1) [] ++ [[.tryLockS (m + 1)]], false⟩ := by
      simp [Mach.step, Verif.SharedMutex.env, hus, Verif.SharedMutex.Instr.ofTry]
    have hset : ∀ p q : List Instr, (List.replicate (m + 1) [] ++ [p]).set (m + 1) q = List.replicate (m + 1) [] ++ [q] := by
      intro p q
      rw [List.set_append_right _ _ (by simp)]; simp
    have hget : ∀ p : List Instr, (List.replicate (m + 1) ([] : List Instr) ++ [p])[m + 1]? = some p := by
      intro p
      rw [List.getElem?_append_right (by simp)]; simp
    have h1 := hr.step e1
    have h2 := h1.step (l := .run (m + 1) true) (by
      simp only [Mach.step, hget]
      simp only [exec, Verif.SharedMutex.exec, hset]; rfl)
    have h3 := h2.step (l := .run (m + 1) true) (by
      simp only [Mach.step, hget, List.append_nil]
      simp only [exec, hst, hset]; rfl)
    have h4 := h3.step (l := .run (m + 1) true) (by
      simp only [Mach.step, hget, List.append_nil]
      simp only [exec, Verif.SharedMutex.exec, hset]; rfl)
    refine ⟨_, by simpa [← List.replicate_succ'] using h4, ?_, ?_, ?_, ?_⟩
    · rfl
    · intro (i : Nat)
      simp only [Verif.SharedMutex.St.admit, upd_apply, hu]
      by_cases e : i = m + 1
      · simp [e]
      · have : i ≤ m ↔ i ≤ m + 1 := by omega
        simp [e, this]
    · rw [List.range_succ, List.flatMap_append, ← hl]
      simp [Verif.SharedMutex.St.admit]
    · simp only [Verif.SharedMutex.St.admit, holding, List.foldl_append] at hh ⊢
      simp [hh, Verif.SharedMutex.holding.step]

/-- After `M` calls of `try_lock_shared` the counter is zero. -/
theorem overflow {M : Nat} (hM : 1 < M) :
    ∃ c : Conf (mach M), Reach (mach M) init c ∧ c.bad = true ∧
      c.sh.log = (List.range M).flatMap (fun i => [.tryLock (i, false), .fast (i, false), .acq (i, false)]) ++
        [.unlock (0, false)] := by
  obtain ⟨m, rfl⟩ : ∃ m, M = m + 1 := ⟨M - 1, by omega⟩
  obtain ⟨s, hr, hst, _, hl, hh⟩ := many hM m (by omega)
  obtain ⟨st, mtx, wt, used, log⟩ := s
  simp only [Nat.mod_self] at hst hl hh
  subst hst
  generalize hA : List.replicate (m + 1) ([] : List Instr) = A at hr
  have hget : ∀ p : List Instr, (A ++ [p])[m + 1]? = some p := by
    intro p
    rw [← hA, List.getElem?_append_right (by simp)]; simp
  have e1 : (mach (m + 1)).runs ⟨⟨⟨.locked, 0⟩, mtx, wt, used, log⟩, A, false⟩ [.env (.unlock (0, false)), .run (m + 1) true] =
      some ⟨⟨⟨.locked, 0⟩, mtx, wt, used, log ++ [.unlock (0, false)]⟩, A ++ [[.unlockS 0]], true⟩ := by
    simp [Mach.runs, Mach.step, Verif.SharedMutex.env, hh, Verif.SharedMutex.Instr.ofUnlock, hget, exec, Verif.SharedMutex.exec]
  exact ⟨_, hr.of_runs e1, rfl, by rw [← hl]⟩

/-- A writer has the mutex, and `m + 2` readers are queued. -/
theorem queued {M : Nat} (m : Nat) :
    ∃ (s : St) (w : List Req), Reach (mach M) init ⟨s, List.replicate (m + 3) [], false⟩ ∧ s.st = ⟨.contended, 0⟩ ∧ s.mtx = false ∧
      s.waiters = (1, false) :: (2, false) :: w ∧ w.length = m ∧ (∀ t ∈ w, t.2 = false) ∧
      (∀ i, s.used i = decide (i ≤ m + 2)) ∧ holding s.log = [(0, true)] := by
  induction m with
  | zero =>
    have r : (mach M).runs ((mach M).init init) [.env (.tryLock (0, true)), .run 0 true, .run 0 true] = some
        ⟨⟨⟨.locked, 0⟩, false, [], upd (fun _ => false) 0 true, [.tryLock (0, true), .fast (0, true), .acq (0, true)]⟩,
          [[]], false⟩ := by
      simp [Mach.runs, Mach.step, Mach.init, init, exec, Verif.SharedMutex.exec, Verif.SharedMutex.env,
        Verif.SharedMutex.Instr.ofTry, Verif.SharedMutex.St.admit]
    have h1 := Reach.of_runs .init r
    have r : (mach M).runs ⟨⟨⟨.locked, 0⟩, false, [], upd (fun _ => false) 0 true,
          [.tryLock (0, true), .fast (0, true), .acq (0, true)]⟩, [[]], false⟩
        [.env (.lock (1, false)), .run 1 true, .run 1 true, .run 1 true, .run 1 true, .run 1 true, .run 1 true, .run 1 true] = some
        ⟨⟨⟨.contended, 0⟩, false, [(1, false)], upd (upd (fun _ => false) 0 true) 1 true,
          [.tryLock (0, true), .fast (0, true), .acq (0, true), .lock (1, false), .enq (1, false)]⟩, [[], []], false⟩ := by
      simp [Mach.runs, Mach.step, exec, Verif.SharedMutex.exec, Verif.SharedMutex.env, Verif.SharedMutex.Instr.ofLock, upd_apply]
    have h2 := h1.of_runs r
    have r : (mach M).runs ⟨⟨⟨.contended, 0⟩, false, [(1, false)], upd (upd (fun _ => false) 0 true) 1 true,
          [.tryLock (0, true), .fast (0, true), .acq (0, true), .lock (1, false), .enq (1, false)]⟩, [[], []], false⟩
        [.env (.lock (2, false)), .run 2 true, .run 2 true, .run 2 true, .run 2 true, .run 2 true, .run 2 true, .run 2 true] = some
        ⟨⟨⟨.contended, 0⟩, false, [(1, false), (2, false)], upd (upd (upd (fun _ => false) 0 true) 1 true) 2 true,
          [.tryLock (0, true), .fast (0, true), .acq (0, true), .lock (1, false), .enq (1, false), .lock (2, false),
            .enq (2, false)]⟩, [[], [], []], false⟩ := by
      simp [Mach.runs, Mach.step, exec, Verif.SharedMutex.exec, Verif.SharedMutex.env, Verif.SharedMutex.Instr.ofLock, upd_apply]
    have h3 := h2.of_runs r
    refine ⟨_, [], h3, rfl, rfl, rfl, rfl, by simp, ?_, rfl⟩
    intro (i : Nat)
    show upd (upd (upd (fun _ => false) 0 true) 1 true) 2 true i = _
    simp only [upd_apply]
    by_cases e : i ≤ 2
    · simp only [e, Nat.zero_add, decide_true]
      have : i = 0 ∨ i = 1 ∨ i = 2 := by omega
      rcases this with rfl | rfl | rfl <;> rfl
    · have h0 : i ≠ 0 := by omega
      have h1 : i ≠ 1 := by omega
      have h2 : i ≠ 2 := by omega
      simp [e, h0, h1, h2]
  | succ m ih =>
    obtain ⟨s, w, hr, hst, hm, hwt, hlen, hall, hu, hh⟩ := ih
    have hus : s.used (m + 3) = false := by rw [hu]; simp
    have hset : ∀ p q : List Instr, (List.replicate (m + 3) [] ++ [p]).set (m + 3) q = List.replicate (m + 3) [] ++ [q] := by
      intro p q
      rw [List.set_append_right _ _ (by simp)]; simp
    have hget : ∀ p : List Instr, (List.replicate (m + 3) ([] : List Instr) ++ [p])[m + 3]? = some p := by
      intro p
      rw [List.getElem?_append_right (by simp)]; simp
    have e1 : (mach M).step ⟨s, List.replicate (m + 3) [], false⟩ (.env (.lock (m + 3, false))) =
        some ⟨{ s with used := upd s.used (m + 3) true, log := s.log ++ [.lock (m + 3, false)] },
          List.replicate (m + 3) [] ++ [[.lockS (m + 3)]], false⟩ := by
      simp [Mach.step, Verif.SharedMutex.env, hus, Verif.SharedMutex.Instr.ofLock]
    have h1 := hr.step e1
    have h2 := h1.step (l := .run (m + 3) true) (by
      simp only [Mach.step, hget]
      simp only [exec, Verif.SharedMutex.exec, hset]; rfl)
    have h3 := h2.step (l := .run (m + 3) true) (by
      simp only [Mach.step, hget, List.append_nil]
      simp only [exec, hst, hset]; rfl)
    have h4 := h3.step (l := .run (m + 3) true) (by
      simp only [Mach.step, hget, List.append_nil]
      simp only [exec, Verif.SharedMutex.exec, hm, hset]; rfl)
    have h5 := h4.step (l := .run (m + 3) true) (by
      simp only [Mach.step, hget, List.append_nil]
      simp only [exec, Verif.SharedMutex.exec, hset]; rfl)
    have h6 := h5.step (l := .run (m + 3) true) (by
      simp only [Mach.step, hget, List.append_nil]
      simp only [exec, hst, hset]; rfl)
    have h7 := h6.step (l := .run (m + 3) true) (by
      simp only [Mach.step, hget, List.append_nil]
      simp only [exec, Verif.SharedMutex.exec, hset]; rfl)
    have h8 := h7.step (l := .run (m + 3) true) (by
      simp only [Mach.step, hget, List.append_nil]
      simp only [exec, Verif.SharedMutex.exec, hset]; rfl)
    refine ⟨_, w ++ [(m + 3, false)], by simpa [← List.replicate_succ'] using h8, ?_, rfl, ?_, ?_, ?_, ?_, ?_⟩
    · rfl
    · simp [hwt]
    · simp [hlen]
    · intro t ht
      simp only [List.mem_append, List.mem_singleton] at ht
      rcases ht with ht | rfl
      · exact hall t ht
      · rfl
    · intro (i : Nat)
      simp only [upd_apply, hu]
      by_cases e : i = m + 3
      · simp [e]
      · have : i ≤ m + 2 ↔ i ≤ m + 1 + 2 := by omega
        simp [e, this]
    · simp only [holding, List.foldl_append] at hh ⊢
      simp [hh, Verif.SharedMutex.holding.step]

theorem take_all {w : List Req} (h : ∀ t ∈ w, t.2 = false) :
    w.takeWhile (fun t => !t.2) = w ∧ w.dropWhile (fun t => !t.2) = [] := by
  induction w with
  | nil => simp
  | cons t w ih =>
    have := ih (fun u hu => h u (by simp [hu]))
    simp [h t (by simp), this]

/-- With `M + 1` queued readers: the counter is one when the writer unlocks. -/
theorem broken {M : Nat} (hM : 1 < M) :
    ∃ c : Conf (mach M), Reach (mach M) init c ∧ holding c.sh.log = [(2, false), (M + 2, true)] := by
  obtain ⟨m, rfl⟩ : ∃ m, M = m + 1 := ⟨M - 1, by omega⟩
  obtain ⟨s, w, hr, hst, hm, hwt, hlen, hall, hu, hh⟩ := queued (M := m + 1) m
  have hus : s.used (m + 3) = false := by rw [hu]; simp
  generalize hA : List.replicate (m + 3) ([] : List Instr) = A at hr
  have hAl : A.length = m + 3 := by simp [← hA]
  have g1 : ∀ p : List Instr, (A ++ [p])[m + 3]? = some p := by
    intro p; rw [List.getElem?_append_right (by omega)]; simp [hAl]
  have s1 : ∀ p q : List Instr, (A ++ [p]).set (m + 3) q = A ++ [q] := by
    intro p q; rw [List.set_append_right _ _ (by omega)]; simp [hAl]
  have g2 : ∀ x p : List Instr, (A ++ [x, p])[m + 4]? = some p := by
    intro x p; rw [List.getElem?_append_right (by omega)]; simp [hAl, show m + 4 - (m + 3) = 1 by omega]
  have s2 : ∀ x p q : List Instr, (A ++ [x, p]).set (m + 4) q = A ++ [x, q] := by
    intro x p q; rw [List.set_append_right _ _ (by omega)]; simp [hAl, show m + 4 - (m + 3) = 1 by omega]
  have g3 : ∀ x y p : List Instr, (A ++ [x, y, p])[m + 5]? = some p := by
    intro x y p; rw [List.getElem?_append_right (by omega)]; simp [hAl, show m + 5 - (m + 3) = 2 by omega]
  have s3 : ∀ x y p q : List Instr, (A ++ [x, y, p]).set (m + 5) q = A ++ [x, y, q] := by
    intro x y p q; rw [List.set_append_right _ _ (by omega)]; simp [hAl, show m + 5 - (m + 3) = 2 by omega]
  obtain ⟨st, mtx, wt, used, log⟩ := s
  simp only at hst hm hwt hu hh hus
  subst hst hm hwt
  have hta : ((1, false) :: (2, false) :: w).takeWhile (fun t : Req => !t.2) = (1, false) :: (2, false) :: w ∧
      ((1, false) :: (2, false) :: w).dropWhile (fun t : Req => !t.2) = [] := by
    apply take_all; intro t ht; simp at ht; rcases ht with rfl | rfl | ht
    · rfl
    · rfl
    · exact hall t ht
  have hmem : (0, true) ∈ holding log := by simp [hh]
  have e1 : (mach (m + 1)).runs ⟨⟨⟨.contended, 0⟩, false, (1, false) :: (2, false) :: w, used, log⟩, A, false⟩
      [.env (.unlock (0, true)), .run (m + 3) true, .run (m + 3) true, .run (m + 3) true, .run (m + 3) true, .run (m + 3) true,
        .run (m + 3) true, .run (m + 3) true] =
      some ⟨⟨⟨.locked, 1⟩, false, [], used, log ++ [.unlock (0, true), .grant (0, true) ((1, false) :: (2, false) :: w),
        .acq (1, false), .acq (2, false)]⟩, A ++ [w.map (fun t => .acq (t.1, false))], false⟩ := by
    have hmod : (w.length + 1 + 1) % (m + 1) = 1 := by
      rw [hlen, show m + 1 + 1 = 1 + (m + 1) by omega, Nat.add_mod_right]; exact Nat.mod_eq_of_lt hM
    simp [Mach.runs, Mach.step, Verif.SharedMutex.env, hmem, Verif.SharedMutex.Instr.ofUnlock, g1, s1, exec,
      Verif.SharedMutex.exec, hta, hmod, Function.comp_def]
  have h1 := hr.of_runs e1
  have hh1 : holding (log ++ [.unlock (0, true), .grant (0, true) ((1, false) :: (2, false) :: w), .acq (1, false),
      .acq (2, false)]) = [(1, false), (2, false)] := by
    simp only [holding, List.foldl_append] at hh ⊢
    simp [hh, Verif.SharedMutex.holding.step]
  generalize (log ++ [.unlock (0, true), .grant (0, true) ((1, false) :: (2, false) :: w), .acq (1, false),
      .acq (2, false)]) = log1 at h1 hh1
  generalize w.map (fun t => Instr.acq (t.1, false)) = B at h1
  have hmem1 : (1, false) ∈ holding log1 := by simp [hh1]
  have e2 : (mach (m + 1)).runs ⟨⟨⟨.locked, 1⟩, false, [], used, log1⟩, A ++ [B], false⟩
      [.env (.unlock (1, false)), .run (m + 4) true, .run (m + 4) true, .env (.tryLock (m + 3, true)), .run (m + 5) true,
        .run (m + 5) true] =
      some ⟨⟨⟨.locked, 0⟩, false, [], upd used (m + 3) true, log1 ++ [.unlock (1, false), .rel (1, false),
        .tryLock (m + 3, true), .fast (m + 3, true), .acq (m + 3, true)]⟩, A ++ [B, [], []], false⟩ := by
    simp [Mach.runs, Mach.step, Verif.SharedMutex.env, hmem1, hus, Verif.SharedMutex.Instr.ofUnlock, Verif.SharedMutex.Instr.ofTry,
      g2, s2, g3, s3, exec, Verif.SharedMutex.exec, Verif.SharedMutex.St.admit]
  refine ⟨_, h1.of_runs e2, ?_⟩
  simp only [holding, List.foldl_append] at hh1 ⊢
  simp [hh1, Verif.SharedMutex.holding.step]

end Verif.Width.SharedMutex
