import Verif.Mutex.Props
import Verif.Induct

/-! # When a mutex may be destroyed (mutex.hpp lines 9-180) -/

namespace Verif.Mutex

theorem OK.tok_le {v : View} (h : OK v) : v.held + v.A + v.U0 + v.U1 + v.P + v.T ≤ 1 := by
  rw [h.tok]; split <;> simp

theorem OK.crit_le {v : View} (h : OK v) : v.P + v.T + v.Pu + v.CC + v.CO + v.R ≤ 1 := by
  rw [h.crit]; split <;> simp

/-- An operation that has only to leave the internal critical section has queued up. -/
def Queued (s : St) (acts : List (List Instr)) : Prop := ∀ a ∈ acts, a = [.relM] → s.waiters ≠ []

theorem queued_set {s' : St} {acts : List (List Instr)} {k : Nat} {p : List Instr}
    (h : ∀ a ∈ acts, a = [.relM] → s'.waiters ≠ []) (hp : p = [.relM] → s'.waiters ≠ []) :
    Queued s' (acts.set k p) := by
  intro a ha e
  rcases List.mem_or_eq_of_mem_set ha with ha | rfl
  · exact h a ha e
  · exact hp e

theorem env_queued {s : St} {acts : List (List Instr)} (h : Queued s acts) {a : Act} {s' : St}
    {p : List Instr} (he : env s acts a = some (s', p)) : Queued s' (acts ++ [p]) := by
  intro q hq e
  rcases List.mem_append.1 hq with hq | hq
  · have := h q hq e
    cases a <;> simp only [env] at he <;> split at he <;> simp at he <;> obtain ⟨rfl, rfl⟩ := he <;> exact this
  · simp at hq; subst hq; subst e
    cases a <;> simp only [env] at he <;> split at he <;> simp at he

theorem run_queued {s : St} {acts : List (List Instr)} (hI : Inv s acts) (h : Queued s acts) {k : Nat} {x : Instr}
    {r p : List Instr} (hk : acts[k]? = some (x :: r)) {b : Bool} {s' : St}
    (he : exec s x b = .ok s' p) : Queued s' (acts.set k (p ++ r)) := by
  have hsh := hI.shape _ (List.mem_of_getElem? hk)
  simp only [List.tail_cons] at hsh
  have hr : r ≠ [.relM] := by
    rintro rfl
    obtain ⟨j, hj⟩ := hsh .relM (by simp)
    cases hj
  have keep : s'.waiters = s.waiters → p.head? ≠ some .relM ∨ (∃ j l, p = .relM :: .acq j :: l) →
      Queued s' (acts.set k (p ++ r)) := by
    intro e hp
    refine queued_set (by rw [e]; exact h) ?_
    intro e'
    cases p with
    | nil => exact absurd e' hr
    | cons y p =>
      rcases hp with hp | ⟨j, l, hp⟩
      · simp at hp e'; exact absurd e'.1 hp
      · simp [hp] at e'
  cases x with
  | lock i => simp only [exec] at he; split at he <;> simp at he <;> obtain ⟨rfl, rfl⟩ := he <;> exact keep rfl (.inl (by simp))
  | tryLock i => simp only [exec] at he; split at he <;> simp at he <;> obtain ⟨rfl, rfl⟩ := he <;> exact keep rfl (.inl (by simp))
  | acqM i => simp only [exec] at he; split at he <;> simp at he <;> obtain ⟨rfl, rfl⟩ := he <;> exact keep rfl (.inl (by simp))
  | ld i => simp only [exec] at he; simp at he; obtain ⟨rfl, rfl⟩ := he; exact keep rfl (.inl (by simp))
  | chk i v =>
    cases v <;> simp only [exec] at he <;> (try split at he) <;> simp at he <;> obtain ⟨rfl, rfl⟩ := he
    all_goals first
      | exact keep rfl (.inr ⟨_, _, rfl⟩)
      | exact keep rfl (.inl (by simp))
  | push i =>
    simp only [exec] at he; simp at he; obtain ⟨rfl, rfl⟩ := he
    exact queued_set (fun _ _ _ => by simp) (fun _ => by simp)
  | relM => simp only [exec] at he; simp at he; obtain ⟨rfl, rfl⟩ := he; exact keep rfl (.inl (by simp))
  | acq i => simp only [exec] at he; simp at he; obtain ⟨rfl, rfl⟩ := he; exact keep rfl (.inl (by simp))
  | unlock i => simp only [exec] at he; split at he <;> simp at he <;> obtain ⟨rfl, rfl⟩ := he <;> exact keep rfl (.inl (by simp))
  | casU i => simp only [exec] at he; split at he <;> simp at he <;> obtain ⟨rfl, rfl⟩ := he <;> exact keep rfl (.inl (by simp))
  | acqU i => simp only [exec] at he; split at he <;> simp at he <;> obtain ⟨rfl, rfl⟩ := he <;> exact keep rfl (.inl (by simp))
  | popU i =>
    simp only [exec] at he; split at he <;> simp at he; obtain ⟨rfl, rfl⟩ := he
    refine queued_set ?_ (by simp)
    intro a ha e
    have h1 := (pending_top hk).le isP
    have h2 := Pending.le (acts := acts) (y := Instr.relM) ⟨a, ha, by rw [e]; simp⟩ isR
    have h3 := hI.ok.crit_le
    simp only [view, isP, isR] at h1 h2 h3
    omega
  | stU j => simp only [exec] at he; simp at he; obtain ⟨rfl, rfl⟩ := he; exact keep rfl (.inr ⟨_, _, rfl⟩)

theorem reach_queued {c : Conf mach} (h : MReach c) : Queued c.sh c.acts :=
  Reach.inv_with (M := mach) (P := Inv) (Q := Queued) (fun _ h => reach_inv h) (by intro a ha; simp at ha)
    (fun _ _ _ _ _ _ _ hQ he => env_queued hQ he) (fun _ _ _ _ _ _ _ _ hP _ hQ hk he => run_queued hP hQ hk he) h

/-- C79. Somebody holds the mutex and every call of `async_lock` and `try_lock` is over. Then no call is running at all, in
particular every `unlock` has made its last access: the holder may destroy the mutex. -/
theorem C79_mutex {c : Conf mach} (h : MReach c) {k : Id} (hk : k ∈ holding c.sh.log)
    (ho : ∀ i, .lock i ∈ c.sh.log ∨ .tryLock i ∈ c.sh.log → .acq i ∈ c.sh.log ∨ .fail i ∈ c.sh.log) :
    Quiescent c := by
  have hI := reach_inv h
  have hQ := reach_queued h
  have h1 : ∀ i, ws (opW i) c.acts = 0 ∧ c.sh.waiters.count i = 0 := by
    intro i
    have h2 := hI.op i
    cases hu : c.sh.used i with
    | false => rw [hu] at h2; simp at h2; omega
    | true =>
      have h3 : 0 < over i c.sh.log := by
        rw [over, List.countP_pos_iff]
        rcases ho i ((hI.beg i).1 hu) with h4 | h4
        · exact ⟨_, h4, by simp⟩
        · exact ⟨_, h4, by simp⟩
      rw [hu] at h2; simp at h2; omega
  have hw : c.sh.waiters = [] := by
    rw [List.eq_nil_iff_forall_not_mem]
    intro i hi
    have := List.count_pos_iff.2 hi
    have := (h1 i).2
    omega
  have ht := hI.ok.tok_le
  have hl := List.length_pos_of_mem hk
  simp only [view] at ht
  have none : ∀ x, Pending c.acts x → x = .relM := by
    intro x hx
    have e1 := hx.le isA
    have e2 := hx.le isU0
    have e3 := hx.le isU1
    have e4 := hx.le isP
    have e5 := fun i => hx.le (opW i)
    have e6 := fun i => (h1 i).1
    have e7 : ∀ i, opId x = some i → False := by
      intro i hi
      have := e5 i
      rw [e6 i] at this
      simp [opW, hi] at this
    cases x <;> simp [opId, isA, isU0, isU1, isP] at e1 e2 e3 e4 e7 ⊢ <;> omega
  intro a ha
  cases a with
  | nil => rfl
  | cons x r =>
    exfalso
    have hx := none x ⟨_, ha, by simp⟩
    cases r with
    | nil => exact hQ _ ha (by rw [hx]) hw
    | cons y r =>
      obtain ⟨j, hj⟩ := hI.shape _ ha y (by simp)
      have := none y ⟨_, ha, by simp⟩
      rw [hj] at this; cases this

end Verif.Mutex
