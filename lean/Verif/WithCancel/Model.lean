import Verif.Base

/-!
# `with_cancel_cb` (cancellation.hpp lines 482-563)

Any number of operations and events. The observer follows `cancellation_observer` (lines 145-207), events follow
`cancellation_event::cancel` and `reset` (lines 326-352); a critical section of the event's mutex is one instruction.
The inner operation `op_` belongs to the environment: it completes at any time after it was started, on any thread,
with any value (completing inside `start(op_)` is the schedule in which the starting thread does nothing else before the
completion has returned).

Simplifications: the lists `_cbs` of all events are kept in one list `pool`; the list of an event consists of the
operations with its token. Observers with an empty token are kept there too, although the code does not link them
anywhere; `try_reset` returns true for them without looking at the list, and it is a fault here if one is missing (shown
not to happen). Numbers of operations are not reused. Values are natural numbers (`void`: any number).

Completing the receiver ends the lifetime of the operation: every later access to it is a fault.
-/

namespace Verif.WithCancel

abbrev Id := Nat
abbrev EvId := Nat

inductive Ev where
  /-- `start()` is called. -/
  | start (i : Id) (tok : Option EvId)
  /-- The inner operation is started. -/
  | istart (i : Id)
  /-- The inner operation completes with value `v`. -/
  | inner (i : Id) (v : Nat)
  /-- `cb_` is invoked. -/
  | cb (i : Id)
  /-- `cb_` returned. -/
  | cbRet (i : Id)
  /-- The receiver is completed. -/
  | done (i : Id) (v : Nat)
  /-- `cancel()` takes effect. -/
  | cancel (e : EvId)
  /-- `reset()` of the event. -/
  | revive (e : EvId)
deriving DecidableEq

inductive Phase where
  | fresh
  | running
  | done
deriving DecidableEq

/-- State of the inner operation. -/
inductive Inner where
  | idle
  | started
  | completed
deriving DecidableEq

inductive Instr where
  /-- Line 498: `cobs_.force_set(ct_)`, with `try_set` lines 160-172. -/
  | set (i : Id)
  /-- Line 499. -/
  | istart (i : Id)
  /-- Line 506. -/
  | store (i : Id) (v : Nat)
  /-- Line 509: `try_reset`, lines 183-194. -/
  | tryReset (i : Id)
  /-- Line 510 (`b = true`) or line 526 (`b = false`), with the test. -/
  | sub (i : Id) (b : Bool)
  /-- Line 524: call of `cb_`. -/
  | cb (i : Id)
  /-- Line 524: return of `cb_`. -/
  | cbRet (i : Id)
  /-- Lines 533-540. -/
  | complete (i : Id)
  /-- `cancel()`, lines 336-340. -/
  | cancelCS (e : EvId)
  /-- `cancel()`, lines 342-345. -/
  | drain (l : List Id)
deriving DecidableEq

structure St where
  /-- `_was_requested`. -/
  req : EvId → Bool
  /-- The lists `_cbs` of all events. -/
  pool : List Id
  /-- `ct_`. -/
  tok : Id → Option EvId
  /-- `cancel_state_`. -/
  cst : Id → Nat
  /-- `value_`. -/
  val : Id → Option Nat
  phase : Id → Phase
  inner : Id → Inner
  /-- All operations that were started. -/
  ops : List Id
  log : List Ev

def init : St :=
  ⟨fun _ => false, [], fun _ => none, fun _ => 2, fun _ => none, fun _ => .fresh, fun _ => .idle, [], []⟩

/-- The event of this token is cancelled. -/
def reqT (req : EvId → Bool) : Option EvId → Bool
  | some e => req e
  | none => false

/-- The list of event `e`. -/
def listOf (s : St) (e : EvId) : List Id := s.pool.filter (fun o => s.tok o = some e)
/-- The lists of the other events. -/
def others (s : St) (e : EvId) : List Id := s.pool.filter (fun o => s.tok o ≠ some e)

def exec (s : St) : Instr → Bool → Out St Instr
  | .set i, _ =>
    if s.phase i ≠ .running then .fault
    else if reqT s.req (s.tok i) then .ok s [.cb i, .istart i]
    else .ok { s with pool := s.pool ++ [i] } [.istart i]
  | .istart i, _ =>
    if s.phase i ≠ .running ∨ s.inner i ≠ .idle then .fault
    else .ok { s with inner := upd s.inner i .started, log := s.log ++ [.istart i] } []
  | .store i v, _ =>
    if s.phase i ≠ .running then .fault
    else .ok { s with val := upd s.val i (some v) } [.tryReset i]
  | .tryReset i, _ =>
    if s.phase i ≠ .running then .fault
    else if reqT s.req (s.tok i) then .ok s [.sub i true]
    else if i ∈ s.pool then .ok { s with pool := s.pool.erase i } [.complete i]
    else .fault
  | .sub i _, _ =>
    if s.phase i ≠ .running then .fault
    else if s.cst i = 1 then .ok { s with cst := upd s.cst i 0 } [.complete i]
    else if s.cst i = 0 then .fault
    else .ok { s with cst := upd s.cst i (s.cst i - 1) } []
  | .cb i, _ =>
    if s.phase i ≠ .running then .fault
    else .ok { s with log := s.log ++ [.cb i] } [.cbRet i]
  | .cbRet i, _ =>
    if s.phase i ≠ .running then .fault
    else .ok { s with log := s.log ++ [.cbRet i] } [.sub i false]
  | .complete i, _ =>
    if s.phase i ≠ .running then .fault
    else match s.val i with
    | none => .fault
    | some v => .ok { s with phase := upd s.phase i .done, log := s.log ++ [.done i v] } []
  | .cancelCS e, _ =>
    .ok { s with req := upd s.req e true, pool := others s e, log := s.log ++ [.cancel e] } [.drain (listOf s e)]
  | .drain l, _ =>
    match l with
    | [] => .ok s []
    | i :: l => if s.phase i ≠ .running then .fault else .ok s [.cb i, .drain l]

inductive Act where
  | start (i : Id) (tok : Option EvId)
  | finish (i : Id) (v : Nat)
  | cancel (e : EvId)
  | revive (e : EvId)
deriving DecidableEq

/-- Contract: an operation is started once; the inner operation completes once, after it was started; an event is
reset only when all operations that were started with its token are completed. -/
def env (s : St) (_ : List (List Instr)) : Act → Option (St × List Instr)
  | .start i tok =>
    if s.phase i = .fresh then
      some ({ s with phase := upd s.phase i .running, tok := upd s.tok i tok, ops := i :: s.ops,
                     log := s.log ++ [.start i tok] }, [.set i])
    else none
  | .finish i v =>
    if s.inner i = .started then
      some ({ s with inner := upd s.inner i .completed, log := s.log ++ [.inner i v] }, [.store i v])
    else none
  | .cancel e => some (s, [.cancelCS e])
  | .revive e =>
    if s.ops.all (fun i => s.phase i == .done || s.tok i != some e) then
      some ({ s with req := upd s.req e false, log := s.log ++ [.revive e] }, [])
    else none

abbrev mach : Mach := ⟨St, Instr, Act, exec, env⟩

end Verif.WithCancel
