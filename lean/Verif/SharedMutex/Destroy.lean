import Verif.SharedMutex.Props
import Verif.Induct

/-! # When a shared mutex may be destroyed (mutex.hpp lines 182-609) -/

namespace Verif.SharedMutex

theorem OK.writer {v : View} (h : OK v) (hE : 0 < v.HE) : v.E = 0 ∧ v.S = 0 ∧ v.nR = 0 ∧ v.nX = 0 := by
  obtain ⟨h1, h2, h3, h4, -, -, -, -, -, -⟩ := h
  have hc : v.c ≠ .none := fun hc => by have := (h1 hc).1; omega
  have hR : v.nR = 0 := by
    rcases Nat.eq_zero_or_pos v.nR with h | h
    · exact h
    · have := (h3 h).2.1; omega
  have hX : v.nX = 0 := by
    rcases Nat.eq_zero_or_pos v.nX with h | h
    · exact h
    · have := (h4 h).2.1; omega
  obtain ⟨h5, h6, h7⟩ := h2 hc hR hX
  rcases Nat.eq_zero_or_pos v.n with h | h
  · have := h6 h; omega
  · have := h7 h; omega

theorem OK.crit_le {v : View} (h : OK v) : v.C + v.nR + v.nX + v.nE + v.Pu ≤ 1 := by
  rw [h.crit]; split <;> simp

/-- An operation that has only to leave the internal critical section has queued up. -/
def Queued (s : St) (acts : List (List Instr)) : Prop := ∀ a ∈ acts, a = [.relM] → s.waiters ≠ []

theorem queued_set {s' : St} {acts : List (List Instr)} {k : Nat} {p : List Instr}
    (h : ∀ a ∈ acts, a = [.relM] → s'.waiters ≠ []) (hp : p = [.relM] → s'.waiters ≠ []) :
    Queued s' (acts.set k p) := by
  intro a ha e
  rcases List.mem_or_eq_of_mem_set ha with ha | rfl
  · exact h a ha e
  · exact hp e

theorem env_queued {s : St} {acts : List (List Instr)} (h : Queued s acts) {a : Act} {s' : St}
    {p : List Instr} (he : env s acts a = some (s', p)) : Queued s' (acts ++ [p]) := by
  intro q hq e
  rcases List.mem_append.1 hq with hq | hq
  · have := h q hq e
    cases a <;> simp only [env] at he <;> split at he <;> simp at he <;> obtain ⟨rfl, rfl⟩ := he <;> exact this
  · simp at hq; subst hq; subst e
    cases a <;> rename_i t <;> obtain ⟨i, b⟩ := t <;> cases b <;> simp only [env, Instr.ofLock, Instr.ofTry, Instr.ofUnlock] at he <;>
      split at he <;> simp at he

theorem run_queued {s : St} {acts : List (List Instr)} (hI : Inv s acts) (h : Queued s acts) {k : Nat} {x : Instr}
    {r p : List Instr} (hk : acts[k]? = some (x :: r)) {b : Bool} {s' : St}
    (he : exec s x b = .ok s' p) : Queued s' (acts.set k (p ++ r)) := by
  have hsh := hI.shape _ (List.mem_of_getElem? hk)
  simp only [List.tail_cons] at hsh
  have hr : r ≠ [.relM] := by
    rintro rfl
    obtain ⟨j, hj⟩ := hsh .relM (by simp)
    cases hj
  have keep : s'.waiters = s.waiters → p.head? ≠ some .relM ∨ (∃ j l, p = .relM :: .acq j :: l) →
      Queued s' (acts.set k (p ++ r)) := by
    intro e hp
    refine queued_set (by rw [e]; exact h) ?_
    intro e'
    cases p with
    | nil => exact absurd e' hr
    | cons y p =>
      rcases hp with hp | ⟨j, l, hp⟩
      · simp at hp e'; exact absurd e'.1 hp
      · simp [hp] at e'
  have pop : isC x = 1 → x ≠ .relM → p.head? ≠ some .relM → Queued s' (acts.set k (p ++ r)) := by
    intro hc hx hp
    refine queued_set ?_ ?_
    · intro a ha e
      exfalso
      have h3 := hI.ok.crit_le
      have h4 : 2 ≤ ws isC acts := by
        obtain ⟨m, hm⟩ := List.mem_iff_getElem?.1 ha
        have hne : m ≠ k := by
          rintro rfl
          rw [hk] at hm; cases hm; cases e; exact hx rfl
        have h5 := ws_set isC (acts := acts) (k := k) (x := x) (r := r) [] hk
        have h6 : Pending (acts.set k ([] ++ r)) .relM :=
          ⟨a, List.mem_iff_getElem?.2 ⟨m, by rw [List.getElem?_set_ne (Ne.symm hne)]; exact hm⟩, by rw [e]; simp⟩
        have h7 := h6.le isC
        rw [hc] at h5
        simp only [wl_nil] at h5
        simp only [isC] at h7
        omega
      simp only [view] at h3
      omega
    · intro e
      cases p with
      | nil => exact absurd e hr
      | cons y p => simp at hp e; exact absurd e.1 hp
  cases x with
  | chk t v =>
    obtain ⟨i, e⟩ := t
    cases e <;> simp only [exec, St.admit] at he <;> (repeat' split at he) <;> simp at he <;> obtain ⟨rfl, rfl⟩ := he
    all_goals first
      | exact keep rfl (.inr ⟨_, _, rfl⟩)
      | exact keep rfl (.inl (by simp))
  | push i =>
    simp only [exec] at he; simp at he; obtain ⟨rfl, rfl⟩ := he
    exact queued_set (fun _ _ _ => by simp) (fun _ => by simp)
  | popU i =>
    simp only [exec] at he; split at he <;> simp at he <;> obtain ⟨rfl, rfl⟩ := he <;> exact pop rfl (by simp) (by simp)
  | popS i =>
    simp only [exec] at he; split at he <;> simp at he <;> obtain ⟨rfl, rfl⟩ := he <;> exact pop rfl (by simp) (by simp)
  | stE j => simp only [exec] at he; simp at he; obtain ⟨rfl, rfl⟩ := he; exact keep rfl (.inr ⟨_, _, rfl⟩)
  | stS j => simp only [exec] at he; simp at he; obtain ⟨rfl, rfl⟩ := he; exact keep rfl (.inr ⟨_, _, rfl⟩)
  | stR js =>
    have hb := hI.ok.bad
    have hb' := (pending_top hk).le isBad
    simp only [exec] at he; simp at he; obtain ⟨rfl, rfl⟩ := he
    cases js with
    | nil => simp [view, isBad] at hb hb'; omega
    | cons j js => exact keep rfl (.inr ⟨_, _, rfl⟩)
  | _ =>
    simp only [exec, St.admit] at he <;> (repeat' split at he) <;> simp at he <;> obtain ⟨rfl, rfl⟩ := he <;>
      exact keep rfl (.inl (by simp))

theorem reach_queued {c : Conf mach} (h : MReach c) : Queued c.sh c.acts :=
  Reach.inv_with (M := mach) (P := Inv) (Q := Queued) (fun _ h => reach_inv h) (by intro a ha; simp at ha)
    (fun _ _ _ _ _ _ _ hQ he => env_queued hQ he) (fun _ _ _ _ _ _ _ _ hP _ hQ hk he => run_queued hP hQ hk he) h

/-- C79. Somebody holds the mutex exclusively and every call of the lock functions is over. Then no call is running at
all, in particular every `unlock` and `unlock_shared` has made its last access: the holder may destroy the mutex. -/
theorem C79_shared_mutex {c : Conf mach} (h : MReach c) {k : Id} (hk : (k, true) ∈ holding c.sh.log)
    (ho : ∀ t, .lock t ∈ c.sh.log ∨ .tryLock t ∈ c.sh.log → .acq t ∈ c.sh.log ∨ .fail t ∈ c.sh.log) :
    Quiescent c := by
  have hI := reach_inv h
  have hQ := reach_queued h
  have h1 : ∀ i, ws (cw ops (· == i)) c.acts = 0 ∧ (c.sh.waiters.map (·.1)).count i = 0 := by
    intro i
    have h2 := hI.op i
    cases hu : c.sh.used i with
    | false => rw [hu] at h2; simp only [Bool.false_eq_true, if_false] at h2; omega
    | true =>
      have h3 : 0 < (overs c.sh.log).count i := by
        obtain ⟨e, he⟩ := (hI.beg i).1 hu
        rw [List.count_pos_iff, overs, List.mem_flatMap]
        rcases ho _ he with h4 | h4
        · exact ⟨_, h4, by simp [Ev.overs]⟩
        · exact ⟨_, h4, by simp [Ev.overs]⟩
      rw [hu] at h2; simp only [if_true] at h2; omega
  have hw : c.sh.waiters = [] := by
    rw [List.eq_nil_iff_forall_not_mem]
    intro t ht
    have := List.count_pos_iff.2 (List.mem_map_of_mem (f := (·.1)) ht)
    have := (h1 t.1).2
    omega
  obtain ⟨g1, g2, g3, g4⟩ := hI.ok.writer (List.countP_pos_iff.2 ⟨_, hk, rfl⟩)
  simp only [view] at g1 g2 g3 g4
  have none : ∀ x, Pending c.acts x → x = .relM := by
    intro x hx
    have e1 := hx.le wE
    have e2 := hx.le wS
    have e3 := hx.le isR
    have e4 := hx.le isX
    have e7 : ∀ i, i ∈ ops x → False := by
      intro i hi
      have := hx.le (cw ops (· == i))
      rw [(h1 i).1] at this
      have h5 : 0 < (ops x).countP (· == i) := List.countP_pos_iff.2 ⟨i, hi, by simp⟩
      simp only [cw] at this
      omega
    cases x <;> simp [ops, wE, wS, isR, isX] at e1 e2 e3 e4 e7 ⊢ <;> omega
  intro a ha
  cases a with
  | nil => rfl
  | cons x r =>
    exfalso
    have hx := none x ⟨_, ha, by simp⟩
    cases r with
    | nil => exact hQ _ ha (by rw [hx]) hw
    | cons y r =>
      obtain ⟨j, hj⟩ := hI.shape _ ha y (by simp)
      have := none y ⟨_, ha, by simp⟩
      rw [hj] at this; cases this

end Verif.SharedMutex
