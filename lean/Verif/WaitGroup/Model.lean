import Verif.Resolver.Facts

/-!
# `wait_group`, `wait_in_group` (wait-group.hpp) and `oneshot_event` (oneshot-event.hpp 11-25)

`ctr_` is accessed both under the lock and outside of it. Every critical section makes one access
to it, so a critical section is one atomic step that takes effect at that access. `done()` is a
loop of single accesses outside of the lock followed by a critical section.

`oneshot_event` is a `wait_group` with count 1 that is never increased; `raise()` is `done()`.

`wait_in_group(wg, s)` is modelled as calls into the group: `add(1)`, then the wrapped sender
starts; the environment completes the wrapped sender, which calls `done()` and then forwards the
value of type `T`.
-/

namespace Verif.WaitGroup

open Resolver

variable (T : Type)

/-- What the user may do. -/
structure Cfg where
  /-- `add()` (and `wait_in_group`) is used. -/
  adds : Bool
  /-- The contract of `add()` is kept, see `okAdd`. -/
  safeAdd : Bool
  /-- The contract of `done()` is kept, see `okDone`. -/
  safeDone : Bool

/-- Status of a `wait_in_group` operation (exists in the model only). -/
inductive WSt where
  /-- Not started. -/
  | none
  /-- `start()` was called, line 226. -/
  | called
  /-- `add(1)` done, line 227. -/
  | added
  /-- The wrapped sender runs, line 228. -/
  | running
  /-- The wrapped sender has completed and `set_value` is about to be called. -/
  | told (v : T)
  /-- `set_value` (lines 205-206) runs `done()`. -/
  | decing (v : T)
  /-- `done()` has taken effect. -/
  | dropped (v : T)
  /-- The value was forwarded. -/
  | fin (v : T)

/-- Shared state. -/
structure D where
  /-- `ctr_`, line 176 (`size_t`, wrap-around is a fault in the model). -/
  ctr : Nat
  /-- `queue_`, lines 178-185. -/
  queue : List OpId
  /-- `cancelled_` of each node, line 35. -/
  canc : OpId → Bool
  /-- Calls of `done()` that have not decremented yet (for the contract only). -/
  pendD : Nat
  /-- Calls of `add()` that have not incremented yet (for the contract only). -/
  pendA : Nat
  /-- Operations that were woken but not resumed yet (for the contract only). -/
  fly : List OpId
  /-- Status of `wait_in_group` operations. -/
  wst : Nat → WSt T
  /-- `wait_in_group` operations whose wrapped sender has not completed yet (for the contract). -/
  held : List Nat

/-- Events. The parameter `w` of `add`, `dec` and `zero` is the `wait_in_group` operation on behalf
of which the call was made, if any. -/
inductive E where
  /-- `add(n)`. -/
  | add (n : Nat) (w : Option Nat)
  /-- `done()` without reaching zero. -/
  | dec (w : Option Nat)
  /-- `done()` reaching zero, waking these operations. -/
  | zero (w : Option Nat) (l : List OpId)
  /-- A wait suspends. -/
  | enq (i : OpId)
  /-- A wait finds the count zero. -/
  | skip (i : OpId)
  /-- A wait is withdrawn by cancellation. -/
  | unq (i : OpId)
  /-- A wrapped sender is started. -/
  | cstart (j : Nat)
  /-- A wrapped sender completes. -/
  | cdone (j : Nat) (v : T)
  /-- A `wait_in_group` operation completes. -/
  | wdone (j : Nat) (v : T)

/-- Instructions. The parameter `w` is the `wait_in_group` operation on whose behalf `done()` was
called, with the value to be forwarded. -/
inductive I where
  /-- `add`, lines 89-91. -/
  | add (n : Nat) (w : Option Nat)
  /-- `done`, line 53: the load. -/
  | ld (w : Option (Nat × T))
  /-- `done`, line 55: the compare-exchange with expected value `v`. -/
  | cas (v : Nat) (w : Option (Nat × T))
  /-- `done`, lines 60-66: the critical section. -/
  | lock (w : Option (Nat × T))
  /-- Start of the wrapped sender, line 228. -/
  | cstart (j : Nat)
  /-- `set_value` of the inner receiver, lines 205-211. -/
  | cdone (j : Nat) (v : T)
  /-- `set_value` of the outer receiver, lines 207-210. -/
  | wset (j : Nat) (v : T)

variable {T}

/-- The part of `done` after a value was obtained, lines 54-58. -/
def decide_ (v : Nat) (w : Option (Nat × T)) : Option (List (OpId ⊕ I T)) :=
  if 1 < v then some [.inr (.cas v w)]
  else if v = 0 then none  -- assert, line 58
  else some [.inr (.lock w)]

/-- What follows `done()`. -/
def cont : Option (Nat × T) → List (OpId ⊕ I T)
  | none => []
  | some (j, v) => [.inr (.wset j v)]

/-- The status after `done()` took effect. -/
def dropped (wst : Nat → WSt T) : Option (Nat × T) → Nat → WSt T
  | none => wst
  | some (j, v) => upd wst j (.dropped v)

/-- `wait_operation::start`, lines 102-118. -/
def start (d : D T) (i : OpId) : Option (D T × Option Bool × List (E T)) :=
  if 0 < d.ctr then some ({ d with queue := d.queue ++ [i] }, none, [.enq i])
  else some (d, some true, [.skip i])

/-- `try_cancel`, lines 76-87. -/
def tryCancel (d : D T) (i : OpId) : Option (D T × Bool × List (E T)) :=
  if 0 < d.ctr then
    if i ∈ d.queue then
      some ({ d with canc := upd d.canc i true, queue := d.queue.erase i }, true, [.unq i])
    else none  -- erase of an element that is not in the list
  else some (d, false, [])

/-- `add` (lines 89-91), `done` (lines 41-74) and `wait_in_group` (lines 188-239). -/
def exec (d : D T) : I T → Option (D T × List (OpId ⊕ I T) × List (E T))
  | .add n w =>
    let d' := { d with ctr := d.ctr + n, pendA := d.pendA - 1 }
    match w with
    | none => some (d', [], [.add n none])
    | some j => some ({ d' with wst := upd d.wst j .added, held := j :: d.held },
        [.inr (.cstart j)], [.add n (some j)])
  | .ld w => (decide_ d.ctr w).map fun l => (d, l, [])
  | .cas v w =>
    if d.ctr = v then
      some ({ d with ctr := v - 1, pendD := d.pendD - 1, wst := dropped d.wst w }, cont w,
        [.dec (w.map (·.1))])
    else (decide_ d.ctr w).map fun l => (d, l, [])
  | .lock w =>
    if d.ctr = 0 then none  -- the counter wraps around
    else if 1 < d.ctr then
      some ({ d with ctr := d.ctr - 1, pendD := d.pendD - 1, wst := dropped d.wst w }, cont w,
        [.dec (w.map (·.1))])
    else
      some ({ d with ctr := 0, queue := [], pendD := d.pendD - 1, fly := d.fly ++ d.queue,
                     wst := dropped d.wst w },
        d.queue.map .inl ++ cont w, [.zero (w.map (·.1)) d.queue])
  | .cstart j => some ({ d with wst := upd d.wst j .running }, [], [.cstart j])
  | .cdone j v =>
    some ({ d with wst := upd d.wst j (.decing v) }, [.inr (.ld (some (j, v)))], [.cdone j v])
  | .wset j v => some ({ d with wst := upd d.wst j (.fin v) }, [], [.wdone j v])

/-- Contract of `add()`: when it takes effect the count is not zero, or no woken waiter is still
being resumed. It is expressed at the time of the call: there is a unit of work that no running
`done()` is about to release, or the count is zero already. -/
def okAdd (d : D T) : Bool := d.pendD < d.ctr || (d.ctr == 0 && d.fly.isEmpty)

/-- Contract of `done()` with respect to `add()`: the last `done()` does not race with `add()`. -/
def okDone (d : D T) : Bool := d.pendA == 0 || d.pendD + 1 < d.ctr

/-- Contract for calls. `done()` releases a unit of work that is not released by a running `done()`
and not held by a `wait_in_group` operation. A `wait_in_group` operation is started once, and its
wrapped sender completes once. -/
def call (c : Cfg) (d : D T) : I T → Option (D T)
  | .add n none =>
    if c.adds && (!c.safeAdd || okAdd d) then some { d with pendA := d.pendA + 1 } else none
  | .add n (some j) =>
    match d.wst j with
    | .none =>
      if n = 1 && c.adds && (!c.safeAdd || okAdd d) then
        some { d with pendA := d.pendA + 1, wst := upd d.wst j .called }
      else none
    | _ => none
  | .ld none =>
    if !c.safeDone || (d.pendD + 1 + d.held.length ≤ d.ctr && (!c.safeAdd || okDone d)) then
      some { d with pendD := d.pendD + 1 }
    else none
  | .cdone j v =>
    match d.wst j with
    | .running =>
      if !c.safeAdd || okDone d then
        some { d with pendD := d.pendD + 1, wst := upd d.wst j (.told v), held := d.held.erase j }
      else none
    | _ => none
  | _ => none

/-- `wait_group` as data structure of the resolver machine. -/
abbrev ds (T : Type) (c : Cfg) : DS where
  D := D T
  I := I T
  V := Bool
  E := E T
  P := Unit
  admit d _ _ := some d
  start d i _ := start d i
  tryCancel := tryCancel
  val d i := !d.canc i  -- resume_fn, lines 127-132
  fin d i := { d with fly := d.fly.erase i }
  call := call c
  exec d x _ := exec d x

/-- `wait_group(n)`, line 39. -/
def init (n : Nat) : D T :=
  ⟨n, [], fun _ => false, 0, 0, [], fun _ => .none, []⟩

/-! ## Specification: reading a history -/

abbrev Event (T : Type) (c : Cfg) := Ev (ds T c)

variable {c : Cfg}

/-- Effect of an event on the work count. -/
def countStep (k : Nat) : Event T c → Nat
  | .ds (.add n _) => k + n
  | .ds (.dec _) => k - 1
  | .ds (.zero _ _) => k - 1
  | _ => k

/-- Work count after a history of a group that started with count `n`. -/
def count (n : Nat) (log : List (Event T c)) : Nat := log.foldl countStep n

/-- Effect of an event on the list of suspended operations. -/
def waitStep (w : List OpId) : Event T c → List OpId
  | .ds (.enq i) => w ++ [i]
  | .ds (.unq i) => w.erase i
  | .ds (.zero _ _) => []
  | _ => w

/-- The suspended operations, in the order in which they suspended. -/
def waiters (log : List (Event T c)) : List OpId := log.foldl waitStep []

/-- The count was zero at some moment after operation `i` was started. -/
def ZeroSince (n : Nat) (i : OpId) (log : List (Event T c)) : Prop :=
  ∃ before after, log = before ++ after ∧ (∃ ct p, Ev.begin i ct p ∈ before) ∧ count n before = 0

/-- The steps of a `wait_in_group` operation. -/
inductive WStep (T : Type) where
  | add (n : Nat) | start | done (v : T) | dec | forward (v : T)

/-- The part of an event that concerns `wait_in_group` operation `j`. -/
def wstep (j : Nat) : Event T c → Option (WStep T)
  | .ds (.add n (some k)) => if k = j then some (.add n) else none
  | .ds (.dec (some k)) => if k = j then some .dec else none
  | .ds (.zero (some k) _) => if k = j then some .dec else none
  | .ds (.cstart k) => if k = j then some .start else none
  | .ds (.cdone k v) => if k = j then some (.done v) else none
  | .ds (.wdone k v) => if k = j then some (.forward v) else none
  | _ => none

/-- The steps of `wait_in_group` operation `j` in a history. -/
def wsteps (j : Nat) (log : List (Event T c)) : List (WStep T) := log.filterMap (wstep j)

end Verif.WaitGroup
