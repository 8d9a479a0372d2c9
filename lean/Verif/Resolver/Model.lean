import Verif.Base

/-!
# `cancellation_event` and `cancellation_resolver`, generic in the data structure using them

Models `/repo/include/async/cancellation.hpp`, lines 24-94 (`cancellation_event`,
`cancellation_token`), 228-324 (`cancellation_resolver`) and 326-352 (`cancel`, `reset`).

Five data structures use `cancellation_resolver` in the same way (queue, recurring_event,
wait_group, promise, post_ack): `start()` enqueues a node under the lock of the structure and then
calls `listen()`, the structure calls `complete()` on nodes it has removed, and `tryCancel_` asks
the structure to unlink the node. `DS` is the interface of such a structure.
-/

namespace Verif.Resolver

abbrev OpId := Nat
abbrev EvId := Nat

/-- A data structure whose wait operations use `cancellation_resolver`.
Every function is one atomic step (one critical section of the lock of the structure, or one
access to an atomic); `none` is a fault (failing assertion or undefined behaviour). -/
structure DS where
  /-- State of the structure, including the fields of all its nodes. -/
  D : Type
  /-- Instructions of its other member functions (`put`, `raise`, `done`, ...). -/
  I : Type
  /-- Values delivered to the receivers of wait operations. -/
  V : Type
  /-- Events written to the history. -/
  E : Type
  /-- Parameters of wait operations. -/
  P : Type
  /-- Contract for creating and starting wait operation `i` with a parameter. -/
  admit : D → OpId → P → Option D
  /-- The critical section in the `start()` of wait operation `i`. `some v`: fast path, the
  receiver is completed with `v` right away. `none`: the node was enqueued. The Boolean is a
  choice of the schedule. -/
  start : D → OpId → Bool → Option (D × Option V × List E)
  /-- The critical section of the cancellation function of the structure. -/
  tryCancel : D → OpId → Option (D × Bool × List E)
  /-- The value passed to `set_value` by the resume function of operation `i`. -/
  val : D → OpId → V
  /-- Effect on the structure of completing operation `i` (in the resume function or on the fast
  path). -/
  fin : D → OpId → D
  /-- Contract for calling a member function: the first instruction of the call. -/
  call : D → I → Option D
  /-- Execution of an instruction: new state, what to do next (`inl i`: call `complete()` on
  node `i`; `inr x`: continue with instruction `x`), events. -/
  exec : D → I → Bool → Option (D × List (OpId ⊕ I) × List E)

/-- The bits of `state_`, cancellation.hpp lines 313-318. -/
structure Bits where
  listen : Bool := false
  compl : Bool := false
  canc : Bool := false
deriving DecidableEq, Repr

/-- `old | new`. -/
def Bits.or (a b : Bits) : Bits :=
  ⟨a.listen || b.listen, a.compl || b.compl, a.canc || b.canc⟩

/-- `(old & new) != 0`. -/
def Bits.meets (a b : Bits) : Bool :=
  (a.listen && b.listen) || (a.compl && b.compl) || (a.canc && b.canc)

/-- History events. -/
inductive Ev (S : DS) where
  /-- Operation `i` is created with the given token and its `start()` is called. -/
  | begin (i : OpId) (ct : Option EvId) (p : S.P)
  /-- The receiver of operation `i` is completed with `v`. -/
  | done (i : OpId) (v : S.V)
  /-- `cancel()` takes effect on event `e`. -/
  | cancel (e : EvId)
  /-- `reset()` takes effect on event `e`. -/
  | reset (e : EvId)
  /-- Event of the data structure. -/
  | ds (x : S.E)

/-- Pending instructions. -/
inductive Instr (S : DS) where
  /-- `start()` of the operation: critical section of the data structure. -/
  | start (i : OpId)
  /-- `set_value` on the fast path of `start()`. -/
  | setFast (i : OpId) (v : S.V)
  /-- `listen()`, lines 241-245. -/
  | listen (i : OpId)
  /-- `listen()`, lines 249-260. -/
  | register (i : OpId)
  /-- `tryCancel_(this)` from `listen()` (lines 264-268, flag set) or `call()` (lines 277-281). -/
  | tryCancel (i : OpId) (fromListen : Bool)
  /-- `transition_(bits)`, lines 284-300: the `fetch_or` and the decisions based on it. -/
  | transition (i : OpId) (b : Bits)
  /-- `transition_`, lines 302-306: critical section on the event, reads `event_`. -/
  | unregister (i : OpId)
  /-- `resume_(this)`, line 310. -/
  | resume (i : OpId)
  /-- `complete()`, lines 271-273. -/
  | complete (i : OpId)
  /-- `cancellation_event::cancel()`, critical section. -/
  | cancel (e : EvId)
  /-- Instruction of the data structure. -/
  | ds (x : S.I)

/-- The operation whose memory an instruction accesses. -/
def Instr.op {S : DS} : Instr S → Option OpId
  | .start i | .setFast i _ | .listen i | .register i | .tryCancel i _ | .transition i _
  | .unregister i | .resume i | .complete i => some i
  | .cancel _ | .ds _ => none

/-- Shared state. -/
structure RSt (S : DS) where
  /-- The data structure. -/
  d : S.D
  /-- `_was_requested` of each event, line 57. -/
  req : EvId → Bool
  /-- `_cbs` of each event, lines 59-66. Only resolvers are registered in this model. -/
  cbs : EvId → List OpId
  /-- `state_` of each operation, line 321. -/
  bits : OpId → Bits
  /-- `event_` of each operation, line 320. -/
  evt : OpId → Option EvId
  /-- The token given to the constructor of the operation. -/
  ct : OpId → Option EvId
  /-- Operations whose `start()` was called. -/
  started : OpId → Bool
  /-- History, oldest first. -/
  log : List (Ev S)

/-- Nothing happened yet. -/
def RSt.init {S : DS} (d : S.D) : RSt S :=
  { d, req := fun _ => false, cbs := fun _ => [], bits := fun _ => {}, evt := fun _ => none,
    ct := fun _ => none, started := fun _ => false, log := [] }

/-- Actions of the user. -/
inductive Act (S : DS) where
  /-- Connect operation `i` with a token and a parameter, and start it. -/
  | newOp (i : OpId) (ct : Option EvId) (p : S.P)
  /-- Call `cancel()` on an event. -/
  | cancel (e : EvId)
  /-- Call a member function of the data structure. -/
  | call (x : S.I)
  /-- Call `reset()` on an event. -/
  | reset (e : EvId)

/-- The operation is completed in the history. -/
def isDone {S : DS} (i : OpId) : Ev S → Bool
  | .done j _ => j == i
  | _ => false

/-- Contract of `reset()`: all operations that were given a token of the event have completed and
no call touching one of them is running. (The header does not state a contract. Without one,
`reset()` makes lines 302-306 erase an element that `cancel()` already removed.) -/
def resetOk {S : DS} (s : RSt S) (acts : List (List (Instr S))) (e : EvId) : Bool :=
  s.log.all (fun v => match v with
    | .begin i ct _ => ct != some e || s.log.any (isDone i)
    | _ => true) &&
  acts.all (fun a => a.all (fun x => match x.op with
    | some i => s.ct i != some e
    | none => true))

/-- Actions allowed by the contract and their immediate effect. An operation is started at most
once. `reset()` is a single critical section (lines 349-352). -/
def env {S : DS} (s : RSt S) (acts : List (List (Instr S))) : Act S → Option (RSt S × List (Instr S))
  | .newOp i ct p =>
    if s.started i then none
    else match S.admit s.d i p with
      | some d' =>
        some ({ s with d := d', ct := upd s.ct i ct, started := upd s.started i true,
                       log := s.log ++ [.begin i ct p] }, [.start i])
      | none => none
  | .cancel e => some (s, [.cancel e])
  | .call x => match S.call s.d x with
    | some d' => some ({ s with d := d' }, [.ds x])
    | none => none
  | .reset e =>
    if resetOk s acts e then
      some ({ s with req := upd s.req e false, log := s.log ++ [.reset e] }, [])
    else none

/-- Translation of the follow-up actions of a data structure. -/
def follow {S : DS} : OpId ⊕ S.I → Instr S
  | .inl i => .complete i
  | .inr x => .ds x

/-- Execution of one instruction. -/
def exec {S : DS} (s : RSt S) (x : Instr S) (b : Bool) : Out (RSt S) (Instr S) :=
  match x with
  | .start i =>
    -- e.g. queue.hpp lines 78-96: critical section, then set_value or listen()
    match S.start s.d i b with
    | none => .fault
    | some (d', some v, es) => .ok { s with d := d', log := s.log ++ es.map .ds } [.setFast i v]
    | some (d', none, es) => .ok { s with d := d', log := s.log ++ es.map .ds } [.listen i]
  | .setFast i v => .ok { s with d := S.fin s.d i, log := s.log ++ [.done i v] } []
  | .listen i =>
    -- lines 241-245
    match s.ct i with
    | none => .ok { s with evt := upd s.evt i none }
        [.transition i { listen := true, canc := true }]
    | some e => .ok { s with evt := upd s.evt i (some e) } [.register i]
  | .register i =>
    -- lines 249-260
    match s.evt i with
    | none => .fault
    | some e =>
      if s.req e then .ok s [.tryCancel i true]
      else .ok { s with cbs := upd s.cbs e (s.cbs e ++ [i]) } [.transition i { listen := true }]
  | .tryCancel i l =>
    -- lines 264-268 and 277-281
    match S.tryCancel s.d i with
    | none => .fault
    | some (d', r, es) => .ok { s with d := d', log := s.log ++ es.map .ds }
        [.transition i { listen := l, compl := r, canc := true }]
  | .transition i nb =>
    -- lines 284-300, 310
    if (s.bits i).meets nb then .fault  -- assert, line 288
    else
      let st := (s.bits i).or nb
      let s' := { s with bits := upd s.bits i st }
      if !st.listen || !st.compl then .ok s' []
      else if !st.canc then .ok s' [.unregister i]
      else .ok s' [.resume i]
  | .unregister i =>
    -- lines 300-310
    match s.evt i with
    | none => .fault  -- assert, line 300
    | some e =>
      if s.req e then .ok s []
      else if (s.cbs e).contains i then
        .ok { s with cbs := upd s.cbs e ((s.cbs e).erase i) } [.resume i]
      else .fault  -- erase of an element that is not in the list
  | .resume i =>
    -- line 310, e.g. queue.hpp lines 107-112
    .ok { s with d := S.fin s.d i, log := s.log ++ [.done i (S.val s.d i)] } []
  | .complete i => .ok s [.transition i { compl := true }]
  | .cancel e =>
    -- lines 336-346
    .ok { s with req := upd s.req e true, cbs := upd s.cbs e [], log := s.log ++ [.cancel e] }
      ((s.cbs e).map (fun i => .tryCancel i false))
  | .ds x =>
    match S.exec s.d x b with
    | none => .fault
    | some (d', ps, es) => .ok { s with d := d', log := s.log ++ es.map .ds } (ps.map follow)

/-- The machine. -/
abbrev mach (S : DS) : Mach where
  σ := RSt S
  ι := Instr S
  α := Act S
  exec := exec
  env := env

end Verif.Resolver
