import Verif.Resolver.Facts

/-!
# The state shared by `promise` and `future` (promise.hpp 23-142, 239-296, 368-376, 391-399)

One shared state and the `get()` operations on it. Handles and reference counts are modelled in
`Verif/Promise/Handles.lean`; here the state is assumed to be alive (a `get()` operation holds no
reference, so the user has to keep a future until it has completed).

`promise::set_value` takes the lock twice: once to publish the value, once (in `wake()`) to grab the
queue. The model has both critical sections. The list of `complete()` calls that follows the second
one is announced by the first one; the second one faults if the announcement was wrong.
-/

namespace Verif.Promise

open Resolver

variable (T : Type)

/-- Shared state. -/
structure D where
  /-- `has_value_` and the storage, lines 107 and 132. -/
  value : Option T
  /-- `queue_`, lines 62-69. -/
  queue : List OpId
  /-- `cancelled_` of each node, line 59. -/
  canc : OpId → Bool
  /-- `set_value()` was called (for the contract only). -/
  called : Bool

/-- Events. -/
inductive E where
  /-- The value is published. -/
  | set (v : T)
  /-- `wake()` grabs the queue. -/
  | wake (l : List OpId)
  /-- A `get()` suspends. -/
  | enq (i : OpId)
  /-- A `get()` finds the value. -/
  | skip (i : OpId)
  /-- A `get()` is withdrawn by cancellation. -/
  | unq (i : OpId)

/-- Instructions. -/
inductive I where
  /-- `set_value`, lines 369-372. -/
  | set (v : T)
  /-- `wake`, lines 84-97; `l` is the queue at the time of the first section. -/
  | wake (l : List OpId)

variable {T}

/-- `get_operation::start`, lines 253-272. -/
def start (d : D T) (i : OpId) : Option (D T × Option (Option T) × List (E T)) :=
  match d.value with
  | none => some ({ d with queue := d.queue ++ [i] }, none, [.enq i])
  | some v => some (d, some (some v), [.skip i])

/-- `try_cancel`, lines 71-81. -/
def tryCancel (d : D T) (i : OpId) : Option (D T × Bool × List (E T)) :=
  match d.value with
  | none =>
    if i ∈ d.queue then
      some ({ d with canc := upd d.canc i true, queue := d.queue.erase i }, true, [.unq i])
    else none  -- erase of an element that is not in the list
  | some _ => some (d, false, [])

/-- `promise::set_value`, lines 368-376; `promise_state::set_value`, lines 125-130; `wake`, lines
83-105. -/
def exec (d : D T) : I T → Option (D T × List (OpId ⊕ I T) × List (E T))
  | .set v =>
    match d.value with
    | some _ => none  -- assert, line 127
    | none => some ({ d with value := some v }, .inr (.wake d.queue) :: d.queue.map .inl, [.set v])
  | .wake l =>
    if d.value.isNone then none  -- assert, line 84
    else if d.queue = l then some ({ d with queue := [] }, [], [.wake l])
    else none  -- the model announced the wrong items

/-- Contract: `set_value()` is called at most once. (It disowns the state, so a second call
dereferences a null pointer.) -/
def call (d : D T) : I T → Option (D T)
  | .set _ => if d.called then none else some { d with called := true }
  | .wake _ => none

/-- The shared state as data structure of the resolver machine. A `get()` delivers `some v` if it
was not cancelled (a pointer to the value in the code) and `none` otherwise. -/
abbrev ds (T : Type) : DS where
  D := D T
  I := I T
  V := Option T
  E := E T
  P := Unit
  admit d _ _ := some d
  start d i _ := start d i
  tryCancel := tryCancel
  val d i := if d.canc i then none else d.value  -- resume_fn, lines 281-293
  fin d _ := d
  call := call
  exec d x _ := exec d x

/-- Initial state. -/
def init : D T := ⟨none, [], fun _ => false, false⟩

abbrev Event (T : Type) := Ev (ds T)

end Verif.Promise
