import Verif.Base

/-!
# Depth of the call stack

The machines drop a function from the stack of its activity as soon as nothing is left to do in it. A real stack frame stays until the
function returns. Here each instruction carries the number of frames that are on the stack while it is executed: an instruction that is
executed with `d` frames, and that calls a function, leaves a frame behind until the callee returns, so that the callee is executed with
`d + 1` frames. This adds nothing to the behaviour of the machine (`Reach.shallow`, `Reach.deep`).

This file does not model code of `/repo`.
-/

namespace Verif

/-- The machine with depths. `cost x`: 1 if `x` is a call, 0 if `x` is executed in the frame of the function that pushes it. -/
abbrev Mach.deep (M : Mach) (cost : M.ι → Nat) : Mach where
  σ := M.σ
  ι := M.ι × Nat
  α := M.α
  exec s x b := match M.exec s x.1 b with
    | .ok s' p => .ok s' (p.map fun y => (y, x.2 + cost y))
    | .block => .block
    | .fault => .fault
  env s acts a := match M.env s (acts.map (·.map (·.1))) a with
    | some (s', p) => some (s', p.map fun y => (y, cost y))
    | none => none

variable {M : Mach} {cost : M.ι → Nat}

/-- Forget the depths. -/
def Conf.flat (c : Conf (M.deep cost)) : Conf M := ⟨c.sh, c.acts.map (·.map (·.1)), c.bad⟩

/-- The same label. -/
def Lbl.flat : Lbl (M.deep cost) → Lbl M
  | .env a => .env a
  | .run k b => .run k b

theorem map_pair {α : Type u} (p : List α) (f : α → Nat) : (p.map fun y => (y, f y)).map (·.1) = p := by
  simp [List.map_map, Function.comp_def]

theorem deep_exec (s : M.σ) (x : M.ι) (d : Nat) (b : Bool) : (M.deep cost).exec s (x, d) b = match M.exec s x b with
    | .ok s' p => .ok s' (p.map fun y => (y, d + cost y))
    | .block => .block
    | .fault => .fault := rfl

theorem deep_env (s : M.σ) (acts : List (List (M.ι × Nat))) (a : M.α) : (M.deep cost).env s acts a =
    match M.env s (acts.map (·.map (·.1))) a with
    | some (s', p) => some (s', p.map fun y => (y, cost y))
    | none => none := rfl

theorem deep_step {c c' : Conf (M.deep cost)} {l : Lbl (M.deep cost)} (h : (M.deep cost).step c l = some c') :
    M.step c.flat l.flat = some c'.flat := by
  obtain ⟨s, acts, bad⟩ := c
  cases bad with
  | true => cases l <;> simp [Mach.step] at h
  | false =>
    cases l with
    | env a =>
      simp only [Mach.step, Bool.false_eq_true, if_false] at h
      simp only [Mach.step, Lbl.flat, Conf.flat, Bool.false_eq_true, if_false]
      cases he : M.env s (acts.map (·.map (·.1))) a with
      | none => simp [he] at h
      | some r =>
        simp only [he, Option.some.injEq] at h
        subst h
        simp [Function.comp_def]
    | run k b =>
      simp only [Mach.step, Bool.false_eq_true, if_false] at h
      simp only [Mach.step, Lbl.flat, Conf.flat, Bool.false_eq_true, if_false, List.getElem?_map]
      split at h
      · rename_i x r hx
        obtain ⟨x, d⟩ := x
        rw [hx]
        simp only [Option.map_some, List.map_cons]
        cases he : M.exec s x b with
        | ok s' p =>
          simp only [he, Option.some.injEq] at h
          subst h
          simp [Function.comp_def, List.map_set]
        | block => simp [he] at h
        | fault =>
          simp only [he, Option.some.injEq] at h
          subst h
          rfl
      · cases h

/-- Depths only add information: an execution with depths is an execution. -/
theorem Reach.shallow {s0 : M.σ} {c : Conf (M.deep cost)} (h : Reach (M.deep cost) s0 c) : Reach M s0 c.flat := by
  induction h with
  | init => exact .init
  | step _ hs ih => exact .step ih (deep_step hs)

theorem step_deep {c : Conf (M.deep cost)} {d' : Conf M} {l : Lbl (M.deep cost)} (h : M.step c.flat l.flat = some d') :
    ∃ c', (M.deep cost).step c l = some c' ∧ c'.flat = d' := by
  obtain ⟨s, acts, bad⟩ := c
  cases bad with
  | true => cases l <;> simp [Mach.step, Lbl.flat, Conf.flat] at h
  | false =>
    cases l with
    | env a =>
      simp only [Mach.step, Lbl.flat, Conf.flat, Bool.false_eq_true, if_false] at h
      simp only [Mach.step, Bool.false_eq_true, if_false]
      split at h
      · rename_i s' p he
        cases h
        exact ⟨⟨s', acts ++ [p.map fun y => (y, cost y)], false⟩, by simp [he], by simp [Conf.flat, Function.comp_def]⟩
      · cases h
    | run k b =>
      simp only [Mach.step, Lbl.flat, Conf.flat, Bool.false_eq_true, if_false] at h
      simp only [Mach.step, Bool.false_eq_true, if_false]
      split at h
      · rename_i x r hx
        rw [List.getElem?_map] at hx
        obtain ⟨a, ha, hx⟩ := Option.map_eq_some_iff.1 hx
        obtain ⟨⟨y, n⟩, t, rfl, rfl, rfl⟩ := List.map_eq_cons_iff.1 hx
        rw [ha]
        simp only
        split at h
        · rename_i s' p he
          cases h
          exact ⟨⟨s', acts.set k (p.map (fun z => (z, n + cost z)) ++ t), false⟩, by rw [he],
            by simp [Conf.flat, Function.comp_def, List.map_set]⟩
        · cases h
        · rename_i he
          cases h
          exact ⟨⟨s, acts, true⟩, by rw [he], by simp [Conf.flat]⟩
      · cases h

/-- Every execution has depths. -/
theorem Reach.deep {s0 : M.σ} {d : Conf M} (h : Reach M s0 d) : ∃ c : Conf (M.deep cost), Reach (M.deep cost) s0 c ∧ c.flat = d := by
  induction h with
  | init => exact ⟨_, .init, rfl⟩
  | @step d d' l _ hs ih =>
    obtain ⟨c, hc, rfl⟩ := ih
    obtain ⟨l', rfl⟩ : ∃ l' : Lbl (M.deep cost), l'.flat = l := by
      cases l with
      | env a => exact ⟨.env a, rfl⟩
      | run k b => exact ⟨.run k b, rfl⟩
    obtain ⟨c', h1, h2⟩ := step_deep hs
    exact ⟨c', .step hc h1, h2⟩

/-- Some activity is about to execute an instruction with at least `n` frames on its stack. -/
def Conf.tall (c : Conf (M.deep cost)) (n : Nat) : Prop := ∃ a ∈ c.acts, ∃ x ∈ a, n ≤ x.2

end Verif
