import Verif.Resolver.Facts

/-!
# `recurring_event` (recurring-event.hpp) with an arbitrary user program around it

`async_wait_if` evaluates a condition supplied by the user while it holds the lock of the event.
The model therefore contains the state `U` the conditions read, and the atomic actions `A` by which
the user changes it; an action may be followed by a call to `raise()` in the same function, as in
`sequenced_event::raise` and `barrier::do_arrive`. `async_wait` (lines 180-188) is the case of a
condition that is always true.

The `transform`s around `wait_if_sender` (lines 163-170, 180-188) only translate the result and
assert that it is not `cancelled` (or not `condition_failed`); see C07 and C26 for why these
assertions hold.
-/

namespace Verif.Recurring

open Resolver

/-- The user program around the event. -/
structure User where
  /-- State read by the conditions. -/
  U : Type
  /-- Atomic actions on that state. -/
  A : Type
  /-- Results of these actions. -/
  R : Type
  /-- Conditions. -/
  P : Type
  dec : DecidableEq A
  /-- Value of a condition (true: wait). `none`: an assertion in it fails. -/
  cond : U → P → Option Bool
  /-- Effect of an action, whether the same call goes on with `raise()`, and result.
  `none`: an assertion fails. -/
  act : U → A → Option (U × Bool × R)
  /-- Contract for waiting with this condition. -/
  admit : U → P → Bool
  /-- Contract for calling an action, given the calls that have not taken effect yet. -/
  ok : U → List A → A → Bool
  /-- Whether the user calls `raise()` directly as well. -/
  direct : Bool

attribute [instance] User.dec

/-- `node::state`, lines 14-19. -/
inductive St where
  | none | submitted | pending | cancelled
deriving DecidableEq

/-- Result of `async_wait_if`, basic.hpp lines 102-110 (`maybe_cancelled`, `maybe_awaited`). -/
inductive Res where
  | awaited | conditionFailed | cancelled
deriving DecidableEq

variable (X : User)

/-- Shared state. -/
structure D where
  /-- State of the user. -/
  u : X.U
  /-- `queue_`, lines 193-200. -/
  queue : List OpId
  /-- `st_` of each node, line 42. -/
  st : OpId → St
  /-- `cond_` of each operation, line 139. -/
  key : OpId → Option X.P
  /-- Calls of actions that have not taken effect yet (for the contract only). -/
  pendA : List X.A
  /-- Number of calls to `raise()` that have not woken the queue yet (for the history only). -/
  pendR : Nat

/-- Events. -/
inductive E where
  /-- An action takes effect, with result; the flag says whether `raise()` follows. -/
  | act (a : X.A) (f : Bool) (r : X.R)
  /-- Operation `i` suspends. The flag says whether at this moment some `raise()` has been called
  (or a function that ends with it has done its update) but has not woken the queue yet. -/
  | enq (i : OpId) (busy : Bool)
  /-- The condition of operation `i` is false at its start. -/
  | skip (i : OpId)
  /-- Operation `i` is withdrawn by cancellation. -/
  | unq (i : OpId)
  /-- `raise()` takes effect on these operations. -/
  | raise (l : List OpId)

/-- Instructions. -/
inductive I where
  /-- Atomic action of the user. -/
  | act (a : X.A)
  /-- `raise()`, lines 46-72. -/
  | raise

variable {X}

/-- `wait_if_operation::start`, lines 95-115, critical section. -/
def start (d : D X) (i : OpId) : Option (D X × Option Res × List (E X)) :=
  if d.st i ≠ .none then none  -- assert, line 96
  else match d.key i with
    | none => none
    | some p => match X.cond d.u p with
      | none => none
      | some false =>
        some ({ d with st := upd d.st i .pending }, some .conditionFailed, [.skip i])
      | some true =>
        some ({ d with st := upd d.st i .submitted, queue := d.queue ++ [i] }, none,
          [.enq i (0 < d.pendR)])

/-- `try_cancel`, lines 74-84. -/
def tryCancel (d : D X) (i : OpId) : Option (D X × Bool × List (E X)) :=
  if d.st i = .submitted then
    if i ∈ d.queue then
      some ({ d with st := upd d.st i .cancelled, queue := d.queue.erase i }, true, [.unq i])
    else none  -- erase of an element that is not in the list
  else some (d, false, [])

/-- `raise`, lines 46-72: the critical section, followed by `complete()` on the items in order;
and the actions of the user. -/
def exec (d : D X) : I X → Bool → Option (D X × List (OpId ⊕ I X) × List (E X))
  | .raise, _ =>
    if d.queue.all (fun i => d.st i = .submitted) then
      some ({ d with queue := [], pendR := d.pendR - 1,
                     st := fun i => if i ∈ d.queue then .pending else d.st i },
        d.queue.map .inl, [.raise d.queue])
    else none  -- assert, line 61
  | .act a, _ =>
    match X.act d.u a with
    | none => none
    | some (u', f, r) =>
      some ({ d with u := u', pendA := d.pendA.erase a,
                     pendR := if f then d.pendR + 1 else d.pendR },
        if f then [.inr .raise] else [], [.act a f r])

/-- Contract for calls. -/
def call (d : D X) : I X → Option (D X)
  | .raise => if X.direct then some { d with pendR := d.pendR + 1 } else none
  | .act a => if X.ok d.u d.pendA a then some { d with pendA := a :: d.pendA } else none

/-- The event as data structure of the resolver machine. -/
abbrev ds (X : User) : DS where
  D := D X
  I := I X
  V := Res
  E := E X
  P := X.P
  admit d i p := if X.admit d.u p then some { d with key := upd d.key i (some p) } else none
  start d i _ := start d i
  tryCancel := tryCancel
  val d i := if d.st i = .cancelled then .cancelled else .awaited  -- resume_fn, lines 124-132
  fin d _ := d
  call := call
  exec := exec

/-- Event without waiters, user in state `u`. -/
def init (u : X.U) : D X :=
  ⟨u, [], fun _ => .none, fun _ => none, [], 0⟩

/-! ## Specification: reading a history -/

abbrev Event (X : User) := Ev (ds X)

/-- State of the user after an event. -/
def uStep (u : X.U) : Event X → X.U
  | .ds (.act a _ _) => match X.act u a with
    | some (u', _) => u'
    | none => u
  | _ => u

/-- State of the user after a history. -/
def uOf (u0 : X.U) (log : List (Event X)) : X.U := log.foldl uStep u0

/-- Effect of an event on the list of suspended operations. -/
def waitStep (w : List OpId) : Event X → List OpId
  | .ds (.enq i _) => w ++ [i]
  | .ds (.unq i) => w.erase i
  | .ds (.raise _) => []
  | _ => w

/-- The suspended operations, in the order in which they suspended. -/
def waiters (log : List (Event X)) : List OpId := log.foldl waitStep []

/-- Number of wakeups of operation `i`. -/
def wakes (i : OpId) (log : List (Event X)) : Nat :=
  (log.filterMap fun v => match v with
    | .ds (.raise l) => some (l.count i)
    | _ => none).sum

/-- What the property of a raising discipline says about a program: a change without `raise()`
does not turn a condition from true to false. -/
def Disciplined (X : User) : Prop :=
  ∀ u a u' r p, X.act u a = some (u', false, r) → X.cond u p = some true →
    X.cond u' p = some true

/-- Programs in which every update that is followed by `raise()` turns every condition false that
was true, and nothing turns a condition true that was false, and `raise()` is not called without
an update. `sequenced_event` and `barrier` are of this kind. -/
def Flushing (X : User) : Prop :=
  X.direct = false ∧
  (∀ u a u' f r p, X.act u a = some (u', f, r) → X.cond u p = some false →
    X.cond u' p = some false) ∧
  (∀ u a u' r p, X.act u a = some (u', true, r) → X.cond u p = some true →
    X.cond u' p = some false)

/-- A user program that keeps its contracts fails no assertion of its own. -/
structure UserOk (X : User) (u0 : X.U) where
  Inv : X.U → List X.A → Prop
  init : Inv u0 []
  perm : ∀ {u l l'}, Inv u l → l.Perm l' → Inv u l'
  call : ∀ {u l a}, Inv u l → X.ok u l a = true → Inv u (a :: l)
  act : ∀ {u l a}, Inv u (a :: l) → ∃ u' f r, X.act u a = some (u', f, r) ∧ Inv u' l
  admit : ∀ {u p}, X.admit u p = true → (X.cond u p).isSome
  stable : ∀ {u a u' f r p}, X.act u a = some (u', f, r) → (X.cond u p).isSome →
    (X.cond u' p).isSome

end Verif.Recurring
