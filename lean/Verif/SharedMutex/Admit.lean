import Verif.SharedMutex.Order
import Verif.SharedMutex.Live
import Verif.Induct

/-! # When requests for the shared mutex are refused or queued: lemmas -/

namespace Verif.SharedMutex

/-- A request is outstanding: started by `async_lock` or `async_lock_shared` and not completed. -/
def Outstanding (log : List Ev) (t : Req) : Prop := .lock t ∈ log ∧ .acq t ∉ log

/-- Somebody owns the mutex exclusively (is admitted and has not given it up). -/
def OwnedExclusively (log : List Ev) : Prop := ∃ j, (j, true) ∈ (spec log).own

/-- Requests of `async_lock` and `async_lock_shared` that an instruction works on. -/
def lk : Instr → List Req
  | .lock i => [(i, true)]
  | .lockS i => [(i, false)]
  | .lsT i true _ => [(i, false)]
  | .acqM t => [t]
  | .ld t => [t]
  | .chk t _ => [t]
  | .push t => [t]
  | .stE j => [(j, true)]
  | .stS j => [(j, true)]
  | .stR js => js.map (·, false)
  | _ => []

/-- Values of `st_` with which `try_lock_shared` gives up. -/
def Wd.shut (v : Wd) : Prop := ¬ v.c = .none ∧ ¬ (v.c = .locked ∧ v.n ≠ 0)

/-- The mutex was busy at some moment after the shared request was started. -/
def Since (i : Id) (log : List Ev) : Prop :=
  ∃ l1 l2, log = l1 ++ l2 ∧ (.tryLock (i, false) ∈ l1 ∨ .lock (i, false) ∈ l1) ∧
    (OwnedExclusively l1 ∨ ∃ t, Outstanding l1 t)

theorem Since.mono {i : Id} {log : List Ev} (l : List Ev) (h : Since i log) : Since i (log ++ l) := by
  obtain ⟨l1, l2, rfl, h⟩ := h
  exact ⟨l1, l2 ++ l, by simp, h⟩

/-- Provenance and the reason for giving up. -/
structure Adm (s : St) (acts : List (List Instr)) : Prop where
  src : ∀ x, Pending acts x → ∀ t ∈ lk x, .lock t ∈ s.log
  wt : ∀ t ∈ s.waiters, .lock t ∈ s.log
  try_ : ∀ i, Pending acts (.tryLockS i) → .tryLock (i, false) ∈ s.log
  tryT : ∀ i v, Pending acts (.lsT i false v) → .tryLock (i, false) ∈ s.log
  shut : ∀ i f v, Pending acts (.lsT i f v) → v.shut → Since i s.log
  hist : Hist (fun before v => ∀ i, v = .fail (i, false) → .tryLock (i, false) ∈ before ∧ Since i before) s.log

theorem over_of_pending {s : St} {acts : List (List Instr)} (h : Inv s acts) {x : Instr} (hx : Pending acts x) {i : Id}
    (hi : i ∈ ops x) (e : Bool) : .acq (i, e) ∉ s.log := by
  intro ha
  have h1 := h.op i
  obtain ⟨a, ha1, hx1⟩ := hx
  have h2 := ws_pos_of_mem (w := cw ops (· == i)) ha1 hx1
  have h3 : 0 < (ops x).countP (· == i) := List.countP_pos_iff.2 ⟨i, hi, by simp⟩
  have h4 : 0 < (overs s.log).count i := List.count_pos_iff.2 (mem_flat ha (by simp [Ev.overs]))
  simp only [cw] at h2
  split at h1 <;> omega

theorem over_of_waiting {s : St} {acts : List (List Instr)} (h : Inv s acts) {t : Req} (ht : t ∈ s.waiters) (e : Bool) :
    .acq (t.1, e) ∉ s.log := by
  intro ha
  have h1 := h.op t.1
  have h3 : 0 < (s.waiters.map (·.1)).count t.1 := List.count_pos_iff.2 (List.mem_map.2 ⟨t, ht, rfl⟩)
  have h4 : 0 < (overs s.log).count t.1 := List.count_pos_iff.2 (mem_flat ha (by simp [Ev.overs]))
  split at h1 <;> omega

/-- Why `st_` has such a value. -/
theorem busy {s : St} {acts : List (List Instr)} (h : Inv s acts) (src : ∀ x, Pending acts x → ∀ t ∈ lk x, .lock t ∈ s.log)
    (wt : ∀ t ∈ s.waiters, .lock t ∈ s.log) (hs : s.st.shut) :
    OwnedExclusively s.log ∨ ∃ t, Outstanding s.log t := by
  have own : ∀ x, Pending acts x → ∀ j, (j, true) ∈ toks x → OwnedExclusively s.log := by
    intro x ⟨a, ha, hx⟩ j hj
    refine ⟨j, ?_⟩
    have key : ∀ p : Req → Bool, p (j, true) = true → 0 < (spec s.log).own.countP p := by
      intro p hp
      have h1 := h.own p
      have h2 := ws_pos_of_mem (w := cw toks p) ha hx
      have h3 : 0 < (toks x).countP p := List.countP_pos_iff.2 ⟨_, hj, hp⟩
      simp only [cw] at h2
      omega
    obtain ⟨w, hw, he⟩ := List.countP_pos_iff.1 (key (fun r => decide (r = (j, true))) (by simp))
    simp at he; subst he; exact hw
  have hE := h.numE
  obtain ⟨h1, h2, h3, h4, h5, h6, h7, h8, h9, h10⟩ := h.ok
  obtain ⟨s1, s2⟩ := hs
  simp only [view] at *
  by_cases hc : s.st.c = .contended
  · have h6 := h6 hc
    by_cases hl : s.waiters = []
    · rw [hl] at h6
      simp only [List.length_nil, Nat.zero_add] at h6
      have : 0 < ws isPu acts ∨ 0 < ws isE acts ∨ 0 < ws isR acts ∨ 0 < ws isX acts := by omega
      rcases this with hp | hp | hp | hp
      · obtain ⟨a, ha, x, hx, hw⟩ := exists_of_ws_pos hp
        cases x <;> simp [isPu] at hw
        rename_i t
        exact .inr ⟨t, src _ ⟨a, ha, hx⟩ t (by simp [lk]), over_of_pending h ⟨a, ha, hx⟩ (i := t.1) (by simp [ops]) t.2⟩
      · obtain ⟨a, ha, x, hx, hw⟩ := exists_of_ws_pos hp
        cases x <;> simp [isE] at hw
        rename_i j
        exact .inl (own _ ⟨a, ha, hx⟩ j (by simp [toks]))
      · obtain ⟨a, ha, x, hx, hw⟩ := exists_of_ws_pos hp
        cases x <;> simp [isR] at hw
        rename_i js
        have hb := ws_pos_of_mem (w := isBad) ha hx
        cases js with
        | nil => simp [isBad] at hb; omega
        | cons j js =>
          exact .inr ⟨(j, false), src _ ⟨a, ha, hx⟩ (j, false) (by simp [lk]),
            over_of_pending h ⟨a, ha, hx⟩ (i := j) (by simp [ops]) false⟩
      · obtain ⟨a, ha, x, hx, hw⟩ := exists_of_ws_pos hp
        cases x <;> simp [isX] at hw
        rename_i j
        exact .inl (own _ ⟨a, ha, hx⟩ j (by simp [toks]))
    · obtain ⟨t, ht⟩ := List.exists_mem_of_ne_nil _ hl
      exact .inr ⟨t, wt t ht, over_of_waiting h ht t.2⟩
  · have h7 := h7 hc
    have hlk : s.st.c = .locked := by
      cases hcc : s.st.c <;> simp_all
    have hn : s.st.n = 0 := by
      apply Classical.byContradiction; intro hn; exact s2 ⟨hlk, hn⟩
    have h2 := h2 s1 (by omega) (by omega)
    have h2 := h2.2.1 hn
    left
    obtain ⟨⟨j, e⟩, hw, he⟩ := List.countP_pos_iff.1 (show 0 < (spec s.log).own.countP (·.2) by omega)
    simp at he; subst he
    exact ⟨j, hw⟩

theorem exec_lk {K : Req → Prop} {s : St} {x : Instr} {b : Bool} {s' : St} {p : List Instr} (he : exec s x b = .ok s' p)
    (hx : ∀ t ∈ lk x, K t) (hw : ∀ t ∈ s.waiters, K t) :
    (∀ y ∈ p, ∀ t ∈ lk y, K t) ∧ (∀ t ∈ s'.waiters, K t) := by
  have acqs : ∀ js : List Id, ∀ y ∈ js.map (fun j => Instr.acq (j, false)), ∀ t ∈ lk y, K t := by
    intro js y hy t ht
    obtain ⟨j, -, rfl⟩ := List.mem_map.1 hy
    simp [lk] at ht
  cases x with
  | chk t v =>
    obtain ⟨i, e⟩ := t
    cases e <;> simp only [exec] at he <;> (repeat' split at he) <;>
      simp only [Out.ok.injEq, reduceCtorEq] at he <;> obtain ⟨rfl, rfl⟩ := he <;>
      exact ⟨by grind [lk], hw⟩
  | popU i =>
    simp only [exec] at he
    split at he <;> simp only [Out.ok.injEq, reduceCtorEq] at he
    · obtain ⟨rfl, rfl⟩ := he
      rename_i j w hq
      rw [hq] at hw
      exact ⟨by simpa [lk] using hw (j, true) (by simp), fun t ht => hw t (by simp [ht])⟩
    · obtain ⟨rfl, rfl⟩ := he
      rename_i j w hq
      rw [hq] at hw
      refine ⟨?_, fun t ht => hw t ((List.dropWhile_sublist (fun t : Req => !t.2)).subset ht)⟩
      intro y hy t ht
      simp only [List.mem_singleton] at hy; subst hy
      simp only [lk, List.map_map, List.mem_map] at ht
      obtain ⟨u, hu, rfl⟩ := ht
      have h1 := hw u ((List.takeWhile_sublist _).subset hu)
      have h2 := List.all_takeWhile (p := fun t : Req => !t.2) (l := (j, false) :: w)
      rw [List.all_eq_true] at h2
      have h3 := h2 u hu
      obtain ⟨a, e⟩ := u
      simp at h3; subst h3
      exact h1
  | popS i =>
    simp only [exec] at he
    split at he <;> simp only [Out.ok.injEq, reduceCtorEq] at he
    obtain ⟨rfl, rfl⟩ := he
    rename_i j w hq
    rw [hq] at hw
    exact ⟨by simpa [lk] using hw (j, true) (by simp), fun t ht => hw t (by simp [ht])⟩
  | stR js =>
    simp only [exec, Out.ok.injEq] at he; obtain ⟨rfl, rfl⟩ := he
    refine ⟨?_, hw⟩
    intro y hy t ht
    rcases List.mem_cons.1 hy with rfl | hy
    · simp [lk] at ht
    · exact acqs js y hy t ht
  | lsT i f v =>
    cases f <;> simp only [exec] at he <;> (repeat' split at he) <;>
      simp only [Out.ok.injEq, reduceCtorEq] at he <;> obtain ⟨rfl, rfl⟩ := he <;>
      exact ⟨by grind [lk], hw⟩
  | push t =>
    simp only [exec, Out.ok.injEq] at he; obtain ⟨rfl, rfl⟩ := he
    refine ⟨by grind [lk], fun u hu => ?_⟩
    rcases List.mem_append.1 hu with h | h
    · exact hw _ h
    · exact hx _ (by simpa [lk] using h)
  | _ =>
    simp only [exec] at he <;> (repeat' split at he) <;> simp only [Out.ok.injEq, reduceCtorEq] at he <;>
      obtain ⟨rfl, rfl⟩ := he <;> exact ⟨by grind [lk], hw⟩

/-- New instructions of `try_lock_shared`, and its failure. -/
theorem exec_try {s : St} {x : Instr} {b : Bool} {s' : St} {p : List Instr} (he : exec s x b = .ok s' p) :
    (∀ i, .tryLockS i ∉ p) ∧
    (∀ i f v, .lsT i f v ∈ p → v = s.st ∧ s'.log = s.log ∧
      (f = false → x = .tryLockS i ∨ ∃ w, x = .lsT i false w) ∧ (f = true → lk x = [(i, false)])) ∧
    (s'.log = s.log ∨ ∃ v, s'.log = s.log ++ [v] ∧ ∀ i, v = .fail (i, false) → ∃ w, x = .lsT i false w ∧ w.shut) := by
  have acqs : ∀ (js : List Id) (y : Instr), y ∈ js.map (fun j => Instr.acq (j, false)) → ∃ t, y = .acq t := by
    intro js y hy
    obtain ⟨j, -, rfl⟩ := List.mem_map.1 hy
    exact ⟨_, rfl⟩
  cases x with
  | chk t v =>
    obtain ⟨i, e⟩ := t
    cases e <;> simp only [exec] at he <;> (repeat' split at he) <;>
      simp only [Out.ok.injEq, reduceCtorEq] at he <;> obtain ⟨rfl, rfl⟩ := he <;> simp [St.admit]
  | stR js =>
    simp only [exec, Out.ok.injEq] at he; obtain ⟨rfl, rfl⟩ := he
    refine ⟨?_, ?_, .inl rfl⟩
    · intro i hi
      rcases List.mem_cons.1 hi with h | h
      · cases h
      · obtain ⟨t, h⟩ := acqs js _ h; cases h
    · intro i f v hi
      rcases List.mem_cons.1 hi with h | h
      · cases h
      · obtain ⟨t, h⟩ := acqs js _ h; cases h
  | lsT i f v =>
    cases f <;> simp only [exec] at he <;> (repeat' split at he) <;>
      simp only [Out.ok.injEq, reduceCtorEq] at he <;> obtain ⟨rfl, rfl⟩ := he <;> simp [St.admit, lk, Wd.shut] <;> grind
  | _ =>
    simp only [exec] at he <;> (repeat' split at he) <;> simp only [Out.ok.injEq, reduceCtorEq] at he <;>
      obtain ⟨rfl, rfl⟩ := he <;> simp [St.admit, lk] <;> grind

theorem reach_adm {c : Conf mach} (h : Reach mach init c) : Adm c.sh c.acts := by
  refine Reach.inv_with (P := Inv) (Q := Adm) (fun _ hc => reach_inv hc) ?_ ?_ ?_ h
  · exact ⟨by simp [Pending], by simp [init], by simp [Pending], by simp [Pending], by simp [Pending], Hist.nil⟩
  · rintro s acts a s' p - - ⟨h1, h2, h3, h4, h5, h6⟩ he
    have hp : ∀ y, Pending (acts ++ [p]) y → y ∈ p ∨ Pending acts y := fun y => pending_append
    have key : ∀ (v : Ev) (x : Instr), p = [x] → s'.log = s.log ++ [v] → s'.waiters = s.waiters →
        (∀ t ∈ lk x, v = .lock t) → (∀ i, x = .tryLockS i → v = .tryLock (i, false)) →
        (∀ i f w, x ≠ .lsT i f w) → (∀ t, v ≠ .fail t) → Adm s' (acts ++ [p]) := by
      intro v x hpx hl hw k1 k2 k3 k4
      constructor
      · intro y hy t ht
        rw [hl]
        rcases hp y hy with hy | hy
        · rw [hpx] at hy; simp at hy; subst hy; simp [k1 t ht]
        · simp [h1 y hy t ht]
      · intro t ht; rw [hl]; rw [hw] at ht; simp [h2 t ht]
      · intro i hy
        rw [hl]
        rcases hp _ hy with hy | hy
        · rw [hpx] at hy; simp at hy; simp [k2 i hy.symm]
        · simp [h3 i hy]
      · intro i w hy
        rw [hl]
        rcases hp _ hy with hy | hy
        · rw [hpx] at hy; simp at hy; exact absurd hy.symm (k3 _ _ _)
        · simp [h4 i w hy]
      · intro i f w hy hs
        rw [hl]
        rcases hp _ hy with hy | hy
        · rw [hpx] at hy; simp at hy; exact absurd hy.symm (k3 _ _ _)
        · exact (h5 i f w hy hs).mono _
      · rw [hl, Hist.snoc]
        exact ⟨h6, fun i e => absurd e (k4 _)⟩
    cases a with
    | lock t =>
      obtain ⟨j, e⟩ := t
      simp only [env] at he; split at he <;>
        simp only [Option.some.injEq, Prod.mk.injEq, reduceCtorEq] at he; obtain ⟨rfl, rfl⟩ := he
      exact key (.lock (j, e)) (.ofLock (j, e)) rfl rfl rfl (by cases e <;> simp [Instr.ofLock, lk])
        (by cases e <;> simp [Instr.ofLock]) (by cases e <;> simp [Instr.ofLock]) (by simp)
    | tryLock t =>
      obtain ⟨j, e⟩ := t
      simp only [env] at he; split at he <;>
        simp only [Option.some.injEq, Prod.mk.injEq, reduceCtorEq] at he; obtain ⟨rfl, rfl⟩ := he
      exact key (.tryLock (j, e)) (.ofTry (j, e)) rfl rfl rfl (by cases e <;> simp [Instr.ofTry, lk])
        (by cases e <;> simp [Instr.ofTry]) (by cases e <;> simp [Instr.ofTry]) (by simp)
    | unlock t =>
      obtain ⟨j, e⟩ := t
      simp only [env] at he; split at he <;>
        simp only [Option.some.injEq, Prod.mk.injEq, reduceCtorEq] at he; obtain ⟨rfl, rfl⟩ := he
      exact key (.unlock (j, e)) (.ofUnlock (j, e)) rfl rfl rfl (by cases e <;> simp [Instr.ofUnlock, lk])
        (by cases e <;> simp [Instr.ofUnlock]) (by cases e <;> simp [Instr.ofUnlock]) (by simp)
  · rintro s acts k x r b s' p hI - ⟨h1, h2, h3, h4, h5, h6⟩ hk he
    have hp : ∀ y, Pending (acts.set k (p ++ r)) y → y ∈ p ∨ Pending acts y := fun y => pending_set hk
    obtain ⟨k1, k2⟩ := exec_lk (K := fun t => .lock t ∈ s.log) he (h1 x (pending_top hk)) h2
    obtain ⟨t1, t2, t3⟩ := exec_try he
    have hl : ∃ l, s'.log = s.log ++ l := by
      rcases t3 with e | ⟨v, e, -⟩
      · exact ⟨[], by simp [e]⟩
      · exact ⟨[v], e⟩
    obtain ⟨l, hl⟩ := hl
    have start : ∀ i f v, .lsT i f v ∈ p → (f = false → .tryLock (i, false) ∈ s.log) ∧
        (f = true → .lock (i, false) ∈ s.log) := by
      intro i f v hy
      obtain ⟨-, -, e3, e4⟩ := t2 i f v hy
      refine ⟨fun hf => ?_, fun hf => h1 x (pending_top hk) _ (by rw [e4 hf]; simp)⟩
      rcases e3 hf with rfl | ⟨w, rfl⟩
      · exact h3 i (pending_top hk)
      · exact h4 i w (pending_top hk)
    constructor
    · intro y hy t ht
      rw [hl]
      rcases hp y hy with hy | hy
      · simp [k1 y hy t ht]
      · simp [h1 y hy t ht]
    · intro t ht; rw [hl]; simp [k2 t ht]
    · intro i hy
      rw [hl]
      rcases hp _ hy with hy | hy
      · exact absurd hy (t1 i)
      · simp [h3 i hy]
    · intro i w hy
      rw [hl]
      rcases hp _ hy with hy | hy
      · simp [(start i false w hy).1 rfl]
      · simp [h4 i w hy]
    · intro i f w hy hs
      rw [hl]
      rcases hp _ hy with hy | hy
      · obtain ⟨rfl, e2, -⟩ := t2 i f w hy
        refine Since.mono _ ⟨s.log, [], by simp, ?_, busy hI h1 h2 hs⟩
        cases f
        · exact .inl ((start i false _ hy).1 rfl)
        · exact .inr ((start i true _ hy).2 rfl)
      · exact (h5 i f w hy hs).mono _
    · rcases t3 with e | ⟨v, e, hv⟩
      · rw [e]; exact h6
      · rw [e, Hist.snoc]
        refine ⟨h6, fun i hi => ?_⟩
        obtain ⟨w, rfl, hw⟩ := hv i hi
        exact ⟨h4 i w (pending_top hk), h5 i false w (pending_top hk) hw⟩

/-- While somebody is queued, somebody owns the mutex, and a writer owns it or is first in the queue. -/
theorem queue_reason {l : List Ev} (h : Hist legal l) (hq : (spec l).q ≠ []) :
    (spec l).own ≠ [] ∧ (OwnedExclusively l ∨ ∃ j r, (spec l).q = (j, true) :: r) := by
  induction l using List.reverseRecOn with
  | nil => simp [spec] at hq
  | append_singleton l v ih =>
    rw [Hist.snoc] at h
    have ih := ih h.1
    have hv := h.2
    have hok := own_ok h.1
    simp only [OwnedExclusively] at ih ⊢
    rw [spec_append] at hq ⊢
    cases v <;> simp only [Spec.step] at hq ⊢ <;> (try exact ih hq)
    · exact absurd hv.1 hq
    · rename_i t
      by_cases hqe : (spec l).q = []
      · rw [hqe]
        have hv := hv.resolve_left (by simp [hqe])
        unfold compat at hv
        obtain ⟨j, e⟩ := t
        cases e
        · simp at hv
          obtain ⟨i, hi⟩ := hv
          exact ⟨by intro hn; rw [hn] at hi; simp at hi, .inl ⟨i, hi⟩⟩
        · simp at hv
          exact ⟨hv, .inr ⟨j, [], rfl⟩⟩
      · obtain ⟨a, b⟩ := ih hqe
        refine ⟨a, b.imp id ?_⟩
        rintro ⟨j, r, e⟩
        exact ⟨j, r ++ [t], by rw [e]; rfl⟩
    · rename_i t
      obtain ⟨h1, h2⟩ := hv
      have h2 := h2.resolve_left hq
      obtain ⟨a, b⟩ := ih hq
      refine ⟨?_, .inr (b.resolve_left ?_)⟩
      · intro hn
        have := List.length_erase_of_mem h1
        rw [hn] at this
        simp at this; omega
      · rintro ⟨j, hj⟩
        rcases hok with hok | hok
        · omega
        · exact absurd (hok _ hj) (by simp)
    · rename_i t ts
      obtain ⟨h1, h2, h3⟩ := hv
      rw [h1]
      simp only [List.erase_cons_head, List.nil_append]
      refine ⟨h3, ?_⟩
      rw [h2] at hq ⊢
      cases hqq : (spec l).q with
      | nil => rw [hqq] at hq; simp at hq
      | cons u q =>
        obtain ⟨j, e⟩ := u
        cases e
        · right
          rw [hqq] at hq
          have e1 : batch ((j, false) :: q) = ((j, false) :: q).takeWhile (fun t => !t.2) := rfl
          rw [e1] at hq ⊢
          have e2 : ((j, false) :: q).drop (((j, false) :: q).takeWhile (fun t => !t.2)).length =
              ((j, false) :: q).dropWhile (fun t => !t.2) := by
            conv => lhs; rw [← List.takeWhile_append_dropWhile (p := fun t : Req => !t.2) (l := (j, false) :: q)]
            rw [List.drop_append_of_le_length]
            · simp
            · simp
          rw [e2] at hq ⊢
          cases hd : ((j, false) :: q).dropWhile (fun t => !t.2) with
          | nil => exact absurd hd hq
          | cons u r =>
            have := List.head?_dropWhile_not (fun t : Req => !t.2) ((j, false) :: q)
            rw [hd] at this
            simp at this
            obtain ⟨k, e⟩ := u
            simp at this; subst this
            exact ⟨k, r, rfl⟩
        · left
          exact ⟨j, by simp [batch]⟩

end Verif.SharedMutex
