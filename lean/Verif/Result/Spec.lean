import Verif.Result.Model

/-! # Specification of `result<T>`: the meaning of a body and reading a history -/

namespace Verif.Result

/-- From state `s` the body gets to state `t` when its first `co_await`s return the values `vs`. -/
inductive Runs (B : Body) (s : B.S) : List Nat → B.S → Prop where
  | nil : Runs B s [] s
  | snoc {vs : List Nat} {t : B.S} {a : Nat} {k : Nat → B.S} (v : Nat) :
      Runs B s vs t → B.next t = .await a k → Runs B s (vs ++ [v]) (k v)

/-- Body `s` awaits sender `a` after its `co_await`s returned `vs`. -/
def Awaits (B : Body) (s : B.S) (vs : List Nat) (a : Nat) : Prop := ∃ t k, Runs B s vs t ∧ B.next t = .await a k

/-- Body `s` returns `v` if its `co_await`s return `vs`. -/
def Returns (B : Body) (s : B.S) (vs : List Nat) (v : Nat) : Prop := ∃ t, Runs B s vs t ∧ B.next t = .ret v

variable {S : Type}

/-- The values that `co_await` returned in the body of operation `i`. -/
def resumed (i : Id) (log : List (Ev S)) : List Nat :=
  log.filterMap (fun | .resume j v => if j = i then some v else none | _ => none)

/-- The values of the senders awaited by operation `i`. -/
def completed (i : Id) (log : List (Ev S)) : List Nat :=
  log.filterMap (fun | .complete j v => if j = i then some v else none | _ => none)

/-- The senders awaited by operation `i`. -/
def awaited (i : Id) (log : List (Ev S)) : List Nat :=
  log.filterMap (fun | .await j a => if j = i then some a else none | _ => none)

/-- How often the receiver of operation `i` was completed. -/
def dones (i : Id) (log : List (Ev S)) : Nat :=
  log.countP (fun | .done j _ => j == i | _ => false)

def Ev.op : Ev S → Id
  | .start i _ | .await i _ | .complete i _ | .resume i _ | .ret i _ | .fin i | .left i | .done i _ => i

/-- What may happen after `before`. -/
def Ok (B : Body) (before : List (Ev B.S)) : Ev B.S → Prop
  | .start i _ => ∀ e ∈ before, e.op ≠ i
  | .await i a => ∃ s, .start i s ∈ before ∧ Awaits B s (resumed i before) a ∧
      completed i before = resumed i before ∧ (awaited i before).length = (completed i before).length ∧
      (∀ v, .ret i v ∉ before)
  | .complete i _ => (awaited i before).length = (completed i before).length + 1
  | .resume i v => completed i before = resumed i before ++ [v]
  | .ret i v => ∃ s, .start i s ∈ before ∧ Returns B s (resumed i before) v ∧ ∀ w, .ret i w ∉ before
  | .fin i => (∃ s, .start i s ∈ before) ∧ ∀ w, .done i w ∉ before
  | .left i => (∃ s, .start i s ∈ before) ∧ ∀ w, .done i w ∉ before
  | .done i v => (.ret i v ∈ before ∧ ∃ s, .start i s ∈ before ∧ Returns B s (resumed i before) v ∧
      completed i before = resumed i before) ∧ ∀ w, .done i w ∉ before

end Verif.Result
