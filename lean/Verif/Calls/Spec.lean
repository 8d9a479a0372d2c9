import Verif.Depth.Tree

/-! # Compositions whose calls come to an end: specification -/

namespace Verif.Tree

/-- `Tame w d S`: in the expression `S` (nested at most `d` deep, at most `w + 1` senders per `sequence`, `when_all` or
`race_and_cancel`), every `repeat_while` satisfies one of the following. Either no iteration completes inside of `start()` (unless
a leaf does), or its condition is false as soon as it was true for `w` iterations of the loop. -/
inductive Tame (w : Nat) : Nat → Snd → Prop where
  | leaf {d : Nat} : Tame w d .leaf
  | inv {d : Nat} {f : List Ev → Nat} : Tame w d (.inv f)
  | xform {d : Nat} {S : Snd} {f : List Ev → Nat → Nat} : Tame w d S → Tame w (d + 1) (.xform S f)
  | ite {d : Nat} {c : List Ev → Bool} {S T : Snd} : Tame w d S → Tame w d T → Tame w (d + 1) (.ite c S T)
  | letS {d : Nat} {g : List Ev → Nat} {f : Nat → Snd} : (∀ v, Tame w d (f v)) → Tame w (d + 1) (.letS g f)
  | lam {d : Nat} {S : Snd} : Tame w d S → Tame w (d + 1) (.lam S)
  | seq {d n : Nat} {f : Nat → Snd} : n ≤ w → (∀ k, k ≤ n → Tame w d (f k)) → Tame w (d + 1) (.seq n f)
  | waits {d : Nat} {c : List Ev → Bool} {f : List Ev → Snd} : (∀ h, Tame w d (f h)) → (∀ h, Waits (f h)) → Tame w (d + 1) (.rep c f)
  | stops {d : Nat} {c : List Ev → Bool} {f : List Ev → Snd} : (∀ h, Tame w d (f h)) →
      (∀ p h, (∀ j, j < w → .cond p j true ∈ h) → c h = false) → Tame w (d + 1) (.rep c f)
  | all {d n : Nat} {f : Nat → Snd} : n ≤ w → (∀ k, k ≤ n → Tame w d (f k)) → Tame w (d + 1) (.all n f)
  | race {d n : Nat} {f : Nat → Snd} : n ≤ w → (∀ k, k ≤ n → Tame w d (f k)) → Tame w (d + 1) (.race n f)

/-- Every loop of `S` either waits or ends. -/
def Ends (S : Snd) : Prop := ∃ w d, Tame w d S

end Verif.Tree
