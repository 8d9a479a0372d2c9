import Verif.Prog.Model
import Verif.Tree.Props

/-!
# What an operation of a program consists of

An operation is a coroutine (`.inl i`) or a part of an expression (`.inr p`). Histories: `s.1.log` of the coroutines (`Result.Ev`),
`s.2.1.log` of the expressions (`Tree.Ev`), `s.2.2.log` of the library (`Resolver.Ev`).
-/

namespace Verif.Prog

open Verif.Resolver (DS)
open Verif.Tree (Path)
open Verif.Result (Id Body awaited)

variable {S : DS} {B : Body}

def Started (s : PSt S B) : Id ⊕ Path → Prop
  | .inl i => ∃ b, .start i b ∈ s.1.log
  | .inr p => .start p ∈ s.2.1.log

/-- How often the receiver of the operation was completed. -/
def times (s : PSt S B) : Id ⊕ Path → Nat
  | .inl i => Result.dones i s.1.log
  | .inr p => s.2.1.log.countP (Tree.isDone p)

/-- Operation `y` is a part of operation `x`: `x` itself, an argument of an algorithm that is a part of `x`, a coroutine that is a
leaf of `x`, or an expression that a coroutine that is a part of `x` has awaited. -/
inductive Under (W : Wire S B) (s : PSt S B) (x : Id ⊕ Path) : Id ⊕ Path → Prop where
  | refl : Under W s x x
  | child {p : Path} (k : Nat) : Under W s x (.inr p) → Under W s x (.inr (k :: p))
  | coro {p : Path} {j : Id} {b : B.S} : Under W s x (.inr p) → W.co p = some (j, b) → Under W s x (.inl j)
  | await {i : Id} {k a : Nat} : Under W s x (.inl i) → (awaited i s.1.log)[k]? = some a → (W.expr a).isSome →
      Under W s x (.inr [W.root i k a])

theorem Under.path {W : Wire S B} {s : PSt S B} {x : Id ⊕ Path} {p q : Path} (h : Under W s x (.inr p)) (hq : p <:+ q) :
    Under W s x (.inr q) := by
  obtain ⟨l, rfl⟩ := hq
  induction l with
  | nil => exact h
  | cons k l ih => exact .child k ih

theorem Under.trans {W : Wire S B} {s : PSt S B} {x y z : Id ⊕ Path} (h : Under W s x y) (h' : Under W s y z) : Under W s x z := by
  induction h' with
  | refl => exact h
  | child k _ ih => exact .child k ih
  | coro _ h2 ih => exact .coro ih h2
  | await _ h2 h3 ih => exact .await ih h2 h3

end Verif.Prog
