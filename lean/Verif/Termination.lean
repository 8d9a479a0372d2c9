import Verif.Base

/-!
# Termination of library calls

Generic facts used to show that running library calls come to an end. A schedule that only runs
library calls is a list of pairs: the activity and the choice. A choice of `false` stands for a
spurious failure where the instruction has one.
-/

namespace Verif

/-- Run the given activities, with the given choices. -/
def Mach.runActs (M : Mach) (c : Conf M) (ls : List (Nat × Bool)) : Option (Conf M) :=
  M.runs c (ls.map (fun l => .run l.1 l.2))

/-- However the running calls are scheduled, they execute at most `n` instructions that do not
fail spuriously. -/
def Bounded {M : Mach} (c : Conf M) (n : Nat) : Prop :=
  ∀ ls c', M.runActs c ls = some c' → ls.countP (·.2) ≤ n

/-- Some activity can execute its next instruction, whatever the choice. -/
def CanStep {M : Mach} (c : Conf M) : Prop :=
  ∃ k, ∀ b, ∃ c', M.step c (.run k b) = some c'

/-- The running calls can be run until all of them have returned. -/
def CanFinish {M : Mach} (c : Conf M) : Prop :=
  ∃ ls c', M.runActs c ls = some c' ∧ c'.bad = false ∧ Quiescent c'

theorem bounded_of {M : Mach} {s0 : M.σ} {P : M.σ → List (List M.ι) → Prop}
    (Φ : M.σ → List (List M.ι) → Nat)
    (hinv : ∀ c : Conf M, Reach M s0 c → P c.sh c.acts)
    (hf : ∀ c : Conf M, Reach M s0 c → c.bad = false)
    (hdec : ∀ (s : M.σ) (acts : List (List M.ι)) (k : Nat) (x : M.ι) (r : List M.ι) (b : Bool)
      (s' : M.σ) (p : List M.ι), P s acts → acts[k]? = some (x :: r) → M.exec s x b = .ok s' p →
      Φ s' (acts.set k (p ++ r)) + (if b then 1 else 0) ≤ Φ s acts)
    {c : Conf M} (hc : Reach M s0 c) : Bounded c (Φ c.sh c.acts) := by
  intro ls
  induction ls generalizing c with
  | nil => intro c' _; simp
  | cons l ls ih =>
    intro c' h
    simp only [Mach.runActs, List.map_cons, Mach.runs] at h
    split at h
    · rename_i c1 hs
      have hc1 := Reach.step hc hs
      have h1 := ih hc1 c' h
      have hd : Φ c1.sh c1.acts + (if l.2 then 1 else 0) ≤ Φ c.sh c.acts := by
        simp only [Mach.step, hf c hc] at hs
        simp only [Bool.false_eq_true, if_false] at hs
        split at hs
        · rename_i x r hk
          split at hs
          · rename_i s' p he; simp at hs; subst hs; exact hdec _ _ _ _ _ _ _ _ (hinv c hc) hk he
          · simp at hs
          · simp at hs; have := hf c1 hc1; rw [← hs] at this; simp at this
        · simp at hs
      rw [List.countP_cons]
      omega
    · simp at h

theorem canFinish_of {M : Mach} {s0 : M.σ}
    (hf : ∀ c : Conf M, Reach M s0 c → c.bad = false)
    (hp : ∀ c : Conf M, Reach M s0 c → ¬ Quiescent c → CanStep c)
    (hb : ∀ c : Conf M, Reach M s0 c → ∃ n, Bounded c n)
    {c : Conf M} (hc : Reach M s0 c) : CanFinish c := by
  obtain ⟨n, hn⟩ := hb c hc
  induction n generalizing c with
  | zero =>
    by_cases hq : Quiescent c
    · exact ⟨[], c, rfl, hf c hc, hq⟩
    · obtain ⟨k, hk⟩ := hp c hc hq
      obtain ⟨c', hc'⟩ := hk true
      have := hn [(k, true)] c' (by simp [Mach.runActs, Mach.runs, hc'])
      simp at this
  | succ n ih =>
    by_cases hq : Quiescent c
    · exact ⟨[], c, rfl, hf c hc, hq⟩
    · obtain ⟨k, hk⟩ := hp c hc hq
      obtain ⟨c1, hc1⟩ := hk true
      have hr := Reach.step hc hc1
      have hb1 : Bounded c1 n := by
        intro ls c' h
        have := hn ((k, true) :: ls) c' (by
          simp only [Mach.runActs, List.map_cons, Mach.runs, hc1]; exact h)
        simp at this; omega
      obtain ⟨ls, c', h1, h2, h3⟩ := ih hr hb1
      refine ⟨(k, true) :: ls, c', ?_, h2, h3⟩
      simp only [Mach.runActs, List.map_cons, Mach.runs, hc1]; exact h1

/-- If the history grows by at most one event per step, then a property of the histories of
all reachable configurations holds of all prefixes. -/
theorem Reach.prefixes {M : Mach} {s0 : M.σ} {ε : Type} (log : M.σ → List ε) {Q : List ε → Prop}
    (h0 : log s0 = [])
    (henv : ∀ s acts a s' p, M.env s acts a = some (s', p) →
      log s' = log s ∨ ∃ v, log s' = log s ++ [v])
    (hrun : ∀ s x b s' p, M.exec s x b = .ok s' p → log s' = log s ∨ ∃ v, log s' = log s ++ [v])
    (hQ : ∀ c : Conf M, Reach M s0 c → Q (log c.sh))
    {c : Conf M} (hc : Reach M s0 c) : Hist (fun before _ => Q before) (log c.sh) := by
  induction hc with
  | init => show Hist _ (log s0); rw [h0]; exact Hist.nil
  | @step c c' l hr hs ih =>
    have : log c'.sh = log c.sh ∨ ∃ v, log c'.sh = log c.sh ++ [v] := by
      cases l with
      | env a =>
        simp only [Mach.step] at hs
        split at hs
        · simp at hs
        · split at hs
          · rename_i s' p he; simp at hs; subst hs; exact henv _ _ _ _ _ he
          · simp at hs
      | run k b =>
        simp only [Mach.step] at hs
        split at hs
        · simp at hs
        · split at hs
          · split at hs
            · rename_i s' p he; simp at hs; subst hs; exact hrun _ _ _ _ _ he
            · simp at hs
            · simp at hs; subst hs; exact .inl rfl
          · simp at hs
    rcases this with h | ⟨v, h⟩
    · rw [h]; exact ih
    · rw [h, Hist.snoc]; exact ⟨ih, hQ c hr⟩

end Verif
