import Verif.Base

/-!
# `run` (basic.hpp lines 364-437)

Any number of calls of `run`. The sender and the I/O service belong to the environment: the sender completes at
most once after `start()` was called; `wait()` of the I/O service returns at any time, for any reason.

Two parameters. `mt`: the sender may complete at any time, on another thread; otherwise it completes inside
`start()` or inside `wait()`, on the thread that called `run`. `dummy`: the I/O service is `dummy_io_service`
(lines 364-368), whose `wait()` panics.

Simplifications: values are natural numbers (`run` for `void` senders, lines 372-400, is the case in which the
value does not matter). Returning from `run` ends the lifetime of `st` and of the operation: every later access is
a fault.
-/

namespace Verif.Run

abbrev Id := Nat

inductive Phase where
  | fresh
  | running
  | done
deriving DecidableEq

inductive Ev where
  /-- `run` is called. -/
  | call (r : Id)
  /-- The sender completes: it calls `set_value` of the receiver. -/
  | complete (r : Id) (v : Nat)
  /-- `ios.wait()` is called. -/
  | wait (r : Id)
  /-- `run` returns. -/
  | ret (r : Id) (v : Nat)
deriving DecidableEq

inductive Instr where
  /-- Lines 424-425: connect and start. -/
  | start (r : Id)
  /-- `start()` or `ios.wait()` returns. -/
  | leave (r : Id)
  /-- Line 427: test `st.done`. -/
  | loop (r : Id)
  /-- Line 428. -/
  | wait (r : Id)
  /-- Line 431. -/
  | ret (r : Id)
  /-- Line 414. -/
  | emplace (r : Id) (v : Nat)
  /-- Line 415. -/
  | setDone (r : Id)
deriving DecidableEq

structure St where
  phase : Id → Phase
  /-- The thread that called `run` is inside `start()` or `wait()`. -/
  inside : Id → Bool
  /-- The operation was started. -/
  started : Id → Bool
  /-- The sender has completed. -/
  compl : Id → Bool
  /-- `set_value` of the receiver is running. -/
  busy : Id → Bool
  /-- `st.done`. -/
  done : Id → Bool
  /-- `st.value`. -/
  value : Id → Option Nat
  log : List Ev

def init : St :=
  ⟨fun _ => .fresh, fun _ => false, fun _ => false, fun _ => false, fun _ => false, fun _ => false, fun _ => none, []⟩

def exec (mt dummy : Bool) (s : St) : Instr → Bool → Out St Instr
  | .start r, _ =>
    if s.phase r ≠ .running then .fault
    else .ok { s with started := upd s.started r true, inside := upd s.inside r true } [.leave r]
  | .leave r, _ =>
    -- On the same thread, `set_value` returns before `start()` or `wait()` does.
    if mt = false ∧ s.busy r = true then .block
    else .ok { s with inside := upd s.inside r false } [.loop r]
  | .loop r, _ =>
    if s.phase r ≠ .running then .fault
    else .ok s (if s.done r then [.ret r] else [.wait r])
  | .wait r, _ =>
    if dummy then .fault
    else .ok { s with inside := upd s.inside r true, log := s.log ++ [.wait r] } [.leave r]
  | .ret r, _ =>
    if s.phase r ≠ .running then .fault
    else match s.value r with
    | some v => .ok { s with phase := upd s.phase r .done, log := s.log ++ [.ret r v] } []
    | none => .fault
  | .emplace r v, _ =>
    if s.phase r ≠ .running then .fault
    else .ok { s with value := upd s.value r (some v) } [.setDone r]
  | .setDone r, _ =>
    if s.phase r ≠ .running then .fault
    else .ok { s with done := upd s.done r true, busy := upd s.busy r false } []

inductive Act where
  | call (r : Id)
  | complete (r : Id) (v : Nat)

/-- Contract: the sender completes at most once, after it was started; see `mt` above. -/
def env (mt : Bool) (s : St) (_ : List (List Instr)) : Act → Option (St × List Instr)
  | .call r =>
    if s.phase r = .fresh then
      some ({ s with phase := upd s.phase r .running, log := s.log ++ [.call r] }, [.start r])
    else none
  | .complete r v =>
    if s.started r = true ∧ s.compl r = false ∧ (mt = true ∨ s.inside r = true) then
      some ({ s with compl := upd s.compl r true, busy := upd s.busy r true, log := s.log ++ [.complete r v] },
        [.emplace r v])
    else none

abbrev mach (mt dummy : Bool) : Mach := ⟨St, Instr, Act, exec mt dummy, env mt⟩

end Verif.Run
