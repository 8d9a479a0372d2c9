import Verif.Resolver.Facts

/-!
# `queue` (queue.hpp)

The queue as a data structure of the resolver machine (`Verif/Resolver/Model.lean`). The type of
items `T` is arbitrary. Not modelled: `empty()` (lines 144-146), which reads the buffer without
the lock.
-/

namespace Verif.Queue

open Resolver

variable (T : Type)

/-- Shared state. -/
structure Q where
  /-- `buffer_`, line 161. -/
  buffer : List T
  /-- `sinks_`, lines 163-170: the operations that are suspended. -/
  sinks : List OpId
  /-- `sink::value` of each operation, line 27. -/
  value : OpId → Option T

/-- Events. -/
inductive E where
  /-- `put(x)` / `emplace(x)` takes effect. -/
  | put (x : T)
  /-- Item `x` is assigned to operation `i`, or returned by `maybe_get()` (`none`). -/
  | claim (who : Option OpId) (x : T)
  /-- Operation `i` suspends. -/
  | enq (i : OpId)
  /-- Operation `i` is withdrawn by cancellation. -/
  | unq (i : OpId)

/-- Member functions. -/
inductive I where
  /-- `emplace`, lines 50-67. -/
  | put (x : T)
  /-- `maybe_get`, lines 148-156. -/
  | maybeGet

variable {T}

/-- `get_operation::start`, lines 78-96, critical section. -/
def start (d : Q T) (i : OpId) : Option (Q T × Option (Option T) × List (E T)) :=
  match d.buffer with
  | x :: rest =>
    if d.sinks = [] then
      some ({ d with buffer := rest, value := upd d.value i (some x) }, some (some x),
        [.claim (some i) x])
    else none  -- assert, line 84
  | [] => some ({ d with sinks := d.sinks ++ [i] }, none, [.enq i])

/-- `try_cancel`, lines 33-42. -/
def tryCancel (d : Q T) (i : OpId) : Option (Q T × Bool × List (E T)) :=
  match d.value i with
  | none =>
    if i ∈ d.sinks then some ({ d with sinks := d.sinks.erase i }, true, [.unq i])
    else none  -- erase of an element that is not in the list
  | some _ => some (d, false, [])

/-- `emplace`, lines 51-66, and `maybe_get`, lines 148-156. -/
def exec (d : Q T) : I T → Bool → Option (Q T × List (OpId ⊕ I T) × List (E T))
  | .put x, _ =>
    match d.sinks with
    | i :: rest =>
      if d.buffer = [] then
        some ({ d with sinks := rest, value := upd d.value i (some x) }, [.inl i],
          [.put x, .claim (some i) x])
      else none  -- assert, line 56
    | [] => some ({ d with buffer := d.buffer ++ [x] }, [], [.put x])
  | .maybeGet, _ =>
    match d.buffer with
    | [] => some (d, [], [])
    | x :: rest => some ({ d with buffer := rest }, [], [.claim none x])

/-- The queue as data structure of the resolver machine. -/
abbrev ds (T : Type) : DS where
  D := Q T
  I := I T
  V := Option T
  E := E T
  P := Unit
  admit d _ _ := some d
  start d i _ := start d i
  tryCancel := tryCancel
  val d i := d.value i  -- resume_fn, lines 107-112
  fin d _ := d
  call d _ := some d
  exec := exec

/-- Empty queue. -/
def init : Q T := ⟨[], [], fun _ => none⟩

/-! ## Specification: reading a history -/

abbrev Event (T : Type) := Ev (ds T)

/-- The items put, in order. -/
def puts (log : List (Event T)) : List T :=
  log.filterMap fun v => match v with
    | .ds (.put x) => some x
    | _ => none

/-- The items handed out, in order. -/
def claims (log : List (Event T)) : List T :=
  log.filterMap fun v => match v with
    | .ds (.claim _ x) => some x
    | _ => none

/-- The items handed to operation `i`. -/
def claimsOf (i : OpId) (log : List (Event T)) : List T :=
  log.filterMap fun v => match v with
    | .ds (.claim (some j) x) => if j = i then some x else none
    | _ => none

/-- Effect of an event on the list of suspended operations. -/
def waitStep (w : List OpId) : Event T → List OpId
  | .ds (.enq i) => w ++ [i]
  | .ds (.unq i) => w.erase i
  | .ds (.claim (some i) _) => w.erase i
  | _ => w

/-- The operations that are suspended and neither served nor withdrawn, in the order in which
they suspended. -/
def waiters (log : List (Event T)) : List OpId := log.foldl waitStep []

/-- The service discipline: an item goes to the operation that suspended first, or, if nobody is
suspended, to a caller that takes it right away. -/
def served (before : List (Event T)) : Event T → Prop
  | .ds (.claim (some i) _) =>
    (waiters before).head? = some i ∨ (waiters before = [] ∧ (.ds (.enq i) : Event T) ∉ before)
  | .ds (.claim none _) => waiters before = []
  | _ => True

end Verif.Queue
