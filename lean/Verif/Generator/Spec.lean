import Verif.Generator.Model

/-! # Specification of `generator<T>`: the meaning of a body and reading a history -/

namespace Verif.Generator

/-- From state `s` the body gets to state `t`, yielding `os`, when its first `co_await`s return `vs`. -/
inductive Gives (B : Body) (s : B.S) : List Nat → List Nat → B.S → Prop where
  | nil : Gives B s [] [] s
  | await {vs os : List Nat} {t : B.S} {a : Nat} {k : Nat → B.S} (v : Nat) :
      Gives B s vs os t → B.next t = .await a k → Gives B s (vs ++ [v]) os (k v)
  | yield {vs os : List Nat} {t t' : B.S} {v : Nat} :
      Gives B s vs os t → B.next t = .yield v t' → Gives B s vs (os ++ [v]) t'

/-- Body `s` yields `os`, when its first `co_await`s return `vs`. -/
def Yields (B : Body) (s : B.S) (vs os : List Nat) : Prop := ∃ t, Gives B s vs os t

/-- Body `s` yields `os` and then returns, when its `co_await`s return `vs`. -/
def Ends (B : Body) (s : B.S) (vs os : List Nat) : Prop := ∃ t, Gives B s vs os t ∧ B.next t = .ret

/-- Body `s` awaits sender `a` after yielding `os`, when its first `co_await`s return `vs`. -/
def Awaits (B : Body) (s : B.S) (vs os : List Nat) (a : Nat) : Prop :=
  ∃ t k, Gives B s vs os t ∧ B.next t = .await a k

variable {S : Type}

/-- The values that `co_await` returned in the body of generator `g`. -/
def resumed (g : Id) (log : List (Ev S)) : List Nat :=
  log.filterMap (fun | .resume j v => if j = g then some v else none | _ => none)

/-- The values of the senders awaited by generator `g`. -/
def completed (g : Id) (log : List (Ev S)) : List Nat :=
  log.filterMap (fun | .complete j v => if j = g then some v else none | _ => none)

/-- The senders awaited by generator `g`. -/
def awaited (g : Id) (log : List (Ev S)) : List Nat :=
  log.filterMap (fun | .await j a => if j = g then some a else none | _ => none)

/-- The values that generator `g` yielded. -/
def yielded (g : Id) (log : List (Ev S)) : List Nat :=
  log.filterMap (fun | .yield j v => if j = g then some v else none | _ => none)

/-- The results of the `next()` operations on generator `g`. -/
def results (g : Id) (log : List (Ev S)) : List (Option Nat) :=
  log.filterMap (fun | .result j _ o => if j = g then some o else none | _ => none)

/-- How often operation `n` delivered a result. -/
def delivered (n : Id) (log : List (Ev S)) : Nat :=
  log.countP (fun | .result _ m _ => m == n | _ => false)

/-- What may happen after `before`. -/
def Ok (B : Body) (before : List (Ev B.S)) : Ev B.S → Prop
  | .result g n o =>
    ((∃ s os, .create g s ∈ before ∧ results g before = os.map some ∧
      match o with
      | some v => Yields B s (completed g before) (os ++ [v])
      | none => Ends B s (completed g before) os) ∧
    .next g n ∈ before) ∧ ∀ g' o', .result g' n o' ∉ before
  | _ => True

end Verif.Generator
