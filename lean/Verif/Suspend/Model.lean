import Verif.Base

/-!
# `suspend_indefinitely` (cancellation.hpp lines 376-452)

Any number of operations, each with any number of tokens, and any number of events. Observers follow
`cancellation_observer` (lines 145-207), events follow `cancellation_event::cancel` and `reset`
(lines 326-352); a critical section of the event's mutex is one instruction.

Simplifications: the lists `_cbs` of all events are kept in one list `pool`; the list of an event consists
of the elements with its token. Observers with an empty token are kept there too, although the code does
not link them anywhere; `try_reset` returns true for them without looking at the list, and it is a fault
here if one is missing (shown not to happen). Numbers of operations are not reused. The counter in `st_` is
unbounded (N + 1 must not exceed `state_ctr`; see Verif/Width/Suspend.lean for the word).

Completing the receiver ends the lifetime of the operation: every later access to it is a fault.
-/

namespace Verif.Suspend

abbrev Id := Nat
abbrev EvId := Nat

/-- Observer number `k` of operation `op`, with its token (`none`: empty token). -/
structure Obs where
  op : Id
  k : Nat
  tok : Option EvId
deriving DecidableEq

/-- The observers of an operation, lines 393 and 450: `obs_`. -/
def mkObs (i : Id) (toks : List (Option EvId)) : List Obs := toks.zipIdx.map (fun p => ⟨i, p.2, p.1⟩)

inductive Ev where
  /-- `start()` of operation `i` is called. -/
  | start (i : Id) (toks : List (Option EvId))
  /-- All observers of operation `i` are attached. -/
  | attached (i : Id)
  /-- The functor of an observer is invoked. -/
  | fire (o : Obs)
  /-- `try_reset` of an observer returns true. -/
  | reset (o : Obs)
  /-- The receiver is completed. -/
  | done (i : Id)
  /-- `cancel()` takes effect. -/
  | cancel (e : EvId)
  /-- `reset()` of the event. -/
  | revive (e : EvId)
deriving DecidableEq

inductive Phase where
  | fresh
  | running
  | done
deriving DecidableEq

inductive Instr where
  /-- Lines 396-397: `l` are the observers that are still to be attached. -/
  | attach (i : Id) (l : List Obs)
  /-- Lines 403-419: `transition_(state_init)` (`b = true`) or `transition_(state_cancel)` up to the test. -/
  | tOr (i : Id) (b : Bool)
  /-- Lines 420-423: `l` are the remaining observers, `c` is `ctr`. -/
  | rst (i : Id) (l : List Obs) (c : Nat)
  /-- Lines 428-432. -/
  | sub (i : Id) (c : Nat)
  /-- Line 433. -/
  | setv (i : Id)
  /-- `cancel()`, lines 336-340. -/
  | cancelCS (e : EvId)
  /-- `cancel()`, lines 342-345. -/
  | drain (l : List Obs)
deriving DecidableEq

structure St where
  /-- `_was_requested`. -/
  req : EvId → Bool
  /-- The lists `_cbs` of all events. -/
  pool : List Obs
  toks : Id → List (Option EvId)
  /-- Bit `state_init` of `st_`. -/
  ini : Id → Bool
  /-- Bit `state_cancel` of `st_`. -/
  can : Id → Bool
  /-- `st_ & state_ctr`. -/
  ctr : Id → Nat
  phase : Id → Phase
  /-- All operations that were started. -/
  ops : List Id
  log : List Ev

def init : St :=
  ⟨fun _ => false, [], fun _ => [], fun _ => false, fun _ => false, fun _ => 0, fun _ => .fresh, [], []⟩

/-- The event of this token is cancelled. -/
def St.reqT (s : St) : Option EvId → Bool
  | some e => s.req e
  | none => false

/-- The list of event `e`. -/
def listOf (e : EvId) (l : List Obs) : List Obs := l.filter (fun o => o.tok = some e)
/-- The lists of the other events. -/
def others (e : EvId) (l : List Obs) : List Obs := l.filter (fun o => o.tok ≠ some e)

def exec (s : St) : Instr → Bool → Out St Instr
  | .attach i l, _ =>
    if s.phase i ≠ .running then .fault
    else match l with
    | [] => .ok { s with log := s.log ++ [.attached i] } [.tOr i true]
    | o :: l =>
      if s.reqT o.tok then .ok { s with log := s.log ++ [.fire o] } [.tOr i false, .attach i l]
      else .ok { s with pool := s.pool ++ [o] } [.attach i l]
  | .tOr i b, _ =>
    if s.phase i ≠ .running then .fault
    else
      let ini := s.ini i || b
      let can := s.can i || !b
      .ok { s with ini := upd s.ini i ini, can := upd s.can i can }
        (if ini && can && !(s.ini i && s.can i) then [.rst i (mkObs i (s.toks i)) 1] else [.sub i 1])
  | .rst i l c, _ =>
    if s.phase i ≠ .running then .fault
    else match l with
    | [] => .ok s [.sub i c]
    | o :: l =>
      if s.reqT o.tok then .ok s [.rst i l c]
      else if o ∈ s.pool then
        .ok { s with pool := s.pool.erase o, log := s.log ++ [.reset o] } [.rst i l (c + 1)]
      else .fault
  | .sub i c, _ =>
    if s.phase i ≠ .running ∨ s.ctr i < c then .fault
    else if s.ctr i = c then
      if s.ini i = true ∧ c ≠ 0 then .ok { s with ctr := upd s.ctr i 0 } [.setv i] else .fault
    else .ok { s with ctr := upd s.ctr i (s.ctr i - c) } []
  | .setv i, _ =>
    if s.phase i ≠ .running then .fault
    else .ok { s with phase := upd s.phase i .done, log := s.log ++ [.done i] } []
  | .cancelCS e, _ =>
    .ok { s with req := upd s.req e true, pool := others e s.pool, log := s.log ++ [.cancel e] }
      [.drain (listOf e s.pool)]
  | .drain [], _ => .ok s []
  | .drain (o :: l), _ =>
    if s.phase o.op ≠ .running then .fault
    else .ok { s with log := s.log ++ [.fire o] } [.tOr o.op false, .drain l]

inductive Act where
  | start (i : Id) (toks : List (Option EvId))
  | cancel (e : EvId)
  | revive (e : EvId)

/-- Contract: an operation is started once; an event is reset only when all operations that were started with
one of its tokens are completed. -/
def env (s : St) (_ : List (List Instr)) : Act → Option (St × List Instr)
  | .start i toks =>
    if s.phase i = .fresh ∧ toks ≠ [] then
      some ({ s with phase := upd s.phase i .running, toks := upd s.toks i toks, ctr := upd s.ctr i (toks.length + 1),
                     ops := i :: s.ops, log := s.log ++ [.start i toks] }, [.attach i (mkObs i toks)])
    else none
  | .cancel e => some (s, [.cancelCS e])
  | .revive e =>
    if s.ops.all (fun i => s.phase i == .done || !(s.toks i).contains (some e)) then
      some ({ s with req := upd s.req e false, log := s.log ++ [.revive e] }, [])
    else none

abbrev mach : Mach := ⟨St, Instr, Act, exec, env⟩

end Verif.Suspend
