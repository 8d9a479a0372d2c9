import Verif.Base

/-!
# Counting calls

Calls are counted in the schedule, effects in the history. This file does not model code of `/repo`.
-/

namespace Verif

variable {M : Mach}

/-- The schedule makes such a call at this point. -/
def Lbl.makes (f : M.α → Bool) : Lbl M → Bool
  | .env a => f a
  | .run _ _ => false

/-- Number of such calls in a schedule. -/
def calls (f : M.α → Bool) (ls : List (Lbl M)) : Nat := ls.countP (Lbl.makes f)

/-- Whatever was called is running or has happened: `n` counts what has happened, `w` what is running; `m` counts what has
happened and gives rise to further such effects. -/
theorem runs_count {f : M.α → Bool} {n m : M.σ → Nat} {w : M.ι → Nat}
    (henv : ∀ s acts a s' p, M.env s acts a = some (s', p) → n s' + wl w p + m s = n s + m s' + (f a).toNat)
    (hrun : ∀ s x b s' p, M.exec s x b = .ok s' p → n s' + wl w p + m s = n s + m s' + w x)
    {ls : List (Lbl M)} {c c' : Conf M} (h : M.runs c ls = some c') :
    n c'.sh + ws w c'.acts + m c.sh = n c.sh + ws w c.acts + m c'.sh + calls f ls := by
  induction ls generalizing c with
  | nil => simp [Mach.runs] at h; subst h; simp [calls]
  | cons l ls ih =>
    simp only [Mach.runs] at h
    split at h
    · rename_i c1 hs
      have h1 := ih h
      have e : calls f (l :: ls) = calls f ls + (Lbl.makes f l).toNat := by
        cases hm : Lbl.makes f l <;> simp [calls, hm]
      rw [e]
      cases l with
      | env a =>
        simp only [Mach.step] at hs
        split at hs
        · simp at hs
        · split at hs
          · rename_i s' p he
            simp at hs; subst hs
            have h2 := henv _ _ _ _ _ he
            cases hf : f a <;> simp [Lbl.makes, hf] at * <;> omega
          · simp at hs
      | run k b =>
        simp only [Mach.step] at hs
        split at hs
        · simp at hs
        · split at hs
          · rename_i x r hk
            split at hs
            · rename_i s' p he
              simp at hs; subst hs
              have h2 := hrun _ _ _ _ _ he
              have h3 := ws_set w p hk
              simp [Lbl.makes] at *
              omega
            · simp at hs
            · simp at hs; subst hs
              simpa [Lbl.makes] using h1
          · simp at hs
    · simp at h

/-- `n` effects stand against `k` calls: never more effects than calls, and as many when nothing is running. -/
def Matches (c : Conf M) (n k : Nat) : Prop := n ≤ k ∧ (Quiescent c → n = k)

theorem runs_matches {f : M.α → Bool} {n : M.σ → Nat} (w : M.ι → Nat) {s0 : M.σ} (h0 : n s0 = 0)
    (henv : ∀ s acts a s' p, M.env s acts a = some (s', p) → n s' + wl w p = n s + (f a).toNat)
    (hrun : ∀ s x b s' p, M.exec s x b = .ok s' p → n s' + wl w p = n s + w x)
    {ls : List (Lbl M)} {c : Conf M} (h : M.runs (M.init s0) ls = some c) : Matches c (n c.sh) (calls f ls) := by
  have := runs_count (M := M) (m := fun _ => 0) henv hrun h
  simp [Mach.init, h0] at this
  exact ⟨by omega, fun hq => by rw [ws_quiescent w hq] at this; omega⟩

/-- For examples: the calls one after the other, each with the number of its steps. -/
def sched (k : Nat) : List (M.α × Nat) → List (Lbl M)
  | [] => []
  | (a, n) :: l => .env a :: List.replicate n (.run k true) ++ sched (k + 1) l

end Verif
