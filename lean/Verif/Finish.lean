import Verif.Termination

/-! # Termination of calls that never wait -/

namespace Verif

theorem exists_top {M : Mach} {c : Conf M} (hq : ¬ Quiescent c) :
    ∃ (k : Nat) (x : M.ι) (r : List M.ι), c.acts[k]? = some (x :: r) := by
  apply Classical.byContradiction
  intro hn
  apply hq
  intro a ha
  obtain ⟨n, hn2, e⟩ := List.getElem_of_mem ha
  cases a with
  | nil => rfl
  | cons x r => exact absurd ⟨n, x, r, by rw [List.getElem?_eq_getElem hn2, e]⟩ hn

/-- If instructions never block and every instruction pushes only instructions of smaller total cost, then the
running calls execute at most as many instructions as they cost, and can be run to the end. -/
theorem terminates_of {M : Mach} {s0 : M.σ} (cost : M.ι → Nat)
    (hcost : ∀ s x b s' p, M.exec s x b = .ok s' p → wl cost p + 1 ≤ cost x)
    (hnb : ∀ s x b, M.exec s x b ≠ .block)
    (hf : ∀ c : Conf M, Reach M s0 c → c.bad = false)
    {c : Conf M} (hc : Reach M s0 c) : Bounded c (ws cost c.acts) ∧ CanFinish c := by
  have hb : ∀ c : Conf M, Reach M s0 c → Bounded c (ws cost c.acts) := fun c h =>
    bounded_of (M := M) (s0 := s0) (P := fun _ _ => True) (fun _ acts => ws cost acts) (fun _ _ => trivial) hf
      (by
        intro s acts k x r b s' p _ hk he
        have h1 := hcost _ _ _ _ _ he
        have h2 := ws_set cost p hk
        split <;> omega) h
  refine ⟨hb c hc, canFinish_of hf ?_ (fun c h => ⟨_, hb c h⟩) hc⟩
  intro c h hq
  obtain ⟨k, x, r, hk⟩ := exists_top hq
  refine ⟨k, fun b => ?_⟩
  cases he : M.exec c.sh x b with
  | ok s' p => exact ⟨⟨s', c.acts.set k (p ++ r), false⟩, by simp [Mach.step, hf c h, hk, he]⟩
  | fault =>
    have hs : M.step c (.run k b) = some ⟨c.sh, c.acts, true⟩ := by simp [Mach.step, hf c h, hk, he]
    have := hf _ (.step h hs)
    simp at this
  | block => exact absurd he (hnb _ _ _)

/-- As `terminates_of`, for a set of configurations that the running calls do not leave. -/
theorem terminates_on {M : Mach} {P : Conf M → Prop} (Φ : Conf M → Nat)
    (hP : ∀ c k b c', P c → M.step c (.run k b) = some c' → P c' ∧ Φ c' < Φ c)
    (hf : ∀ c, P c → c.bad = false)
    (hs : ∀ c, P c → ¬ Quiescent c → CanStep c)
    {c : Conf M} (hc : P c) : Bounded c (Φ c) ∧ CanFinish c := by
  constructor
  · intro ls
    induction ls generalizing c with
    | nil => intro c' _; simp
    | cons l ls ih =>
      intro c' h
      simp only [Mach.runActs, List.map_cons, Mach.runs] at h
      split at h
      · rename_i c1 hs1
        obtain ⟨h1, h2⟩ := hP _ _ _ _ hc hs1
        have h3 := ih h1 c' h
        rw [List.countP_cons]
        split <;> omega
      · simp at h
  · generalize hn : Φ c = n
    induction n using Nat.strongRecOn generalizing c with
    | ind n ih =>
      by_cases hq : Quiescent c
      · exact ⟨[], c, rfl, hf c hc, hq⟩
      · obtain ⟨k, hk⟩ := hs c hc hq
        obtain ⟨c1, hc1⟩ := hk true
        obtain ⟨h1, h2⟩ := hP _ _ _ _ hc hc1
        obtain ⟨ls, c', h3, h4, h5⟩ := ih _ (hn ▸ h2) h1 rfl
        refine ⟨(k, true) :: ls, c', ?_, h4, h5⟩
        simp only [Mach.runActs, List.map_cons, Mach.runs, hc1]; exact h3

/-- However the running calls are scheduled, they execute at most `n` instructions, spurious
failures included. -/
def Steps {M : Mach} (c : Conf M) (n : Nat) : Prop :=
  ∀ ls c', M.runActs c ls = some c' → ls.length ≤ n

theorem Steps.bounded {M : Mach} {c : Conf M} {n : Nat} (h : Steps c n) : Bounded c n :=
  fun ls c' h' => Nat.le_trans List.countP_le_length (h ls c' h')

theorem Steps.mono {M : Mach} {c : Conf M} {n m : Nat} (h : Steps c n) (hm : n ≤ m) : Steps c m :=
  fun ls c' h' => Nat.le_trans (h ls c' h') hm

theorem steps_of {M : Mach} {s0 : M.σ} {P : M.σ → List (List M.ι) → Prop}
    (Φ : M.σ → List (List M.ι) → Nat)
    (hinv : ∀ c : Conf M, Reach M s0 c → P c.sh c.acts)
    (hf : ∀ c : Conf M, Reach M s0 c → c.bad = false)
    (hdec : ∀ (s : M.σ) (acts : List (List M.ι)) (k : Nat) (x : M.ι) (r : List M.ι) (b : Bool)
      (s' : M.σ) (p : List M.ι), P s acts → acts[k]? = some (x :: r) → M.exec s x b = .ok s' p →
      Φ s' (acts.set k (p ++ r)) + 1 ≤ Φ s acts)
    {c : Conf M} (hc : Reach M s0 c) : Steps c (Φ c.sh c.acts) := by
  intro ls
  induction ls generalizing c with
  | nil => intro c' _; simp
  | cons l ls ih =>
    intro c' h
    simp only [Mach.runActs, List.map_cons, Mach.runs] at h
    split at h
    · rename_i c1 hs
      have hc1 := Reach.step hc hs
      have h1 := ih hc1 c' h
      have hd : Φ c1.sh c1.acts + 1 ≤ Φ c.sh c.acts := by
        simp only [Mach.step, hf c hc] at hs
        simp only [Bool.false_eq_true, if_false] at hs
        split at hs
        · rename_i x r hk
          split at hs
          · rename_i s' p he; simp at hs; subst hs; exact hdec _ _ _ _ _ _ _ _ (hinv c hc) hk he
          · simp at hs
          · simp at hs; have := hf c1 hc1; rw [← hs] at this; simp at this
        · simp at hs
      rw [List.length_cons]
      omega
    · simp at h

end Verif
