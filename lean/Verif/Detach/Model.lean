import Verif.Base

/-!
# `detach` and `spawn` (basic.hpp lines 491-604)

Any number of calls. The sender belongs to the environment: it completes at most once after its operation was
started, possibly inside `start()`, possibly on another thread.

Simplifications: values are natural numbers (senders passed to `detach` have no value). Numbers of blocks are not
reused. Moving the allocator and the continuation out of the block is one instruction. Every access to a block
that is not alive is a fault.
-/

namespace Verif.Detach

abbrev Id := Nat

inductive Phase where
  | fresh
  | alive
  | freed
deriving DecidableEq

inductive Oper where
  | idle
  | started
  | completed
deriving DecidableEq

inductive Ev where
  /-- `detach` (`spawn`) is called and has allocated and constructed block `b`. -/
  | create (b : Id) (spawn : Bool)
  /-- The sender completes. -/
  | complete (b : Id) (v : Nat)
  /-- The downstream receiver is completed (`spawn`). -/
  | recv (b : Id) (v : Nat)
  /-- The block is destroyed and deallocated. -/
  | free (b : Id)
  /-- The continuation is called (`detach`). -/
  | cont (b : Id)
deriving DecidableEq

inductive Instr where
  /-- Lines 538 and 603. -/
  | start (b : Id)
  /-- Line 570. -/
  | recv (b : Id) (v : Nat)
  /-- Lines 516-517 and 583. -/
  | fin (b : Id)
  /-- Lines 518 and 584. -/
  | free (b : Id)
  /-- Line 519. -/
  | cont (b : Id)
deriving DecidableEq

structure St where
  phase : Id → Phase
  spawn : Id → Bool
  oper : Id → Oper
  log : List Ev

def init : St := ⟨fun _ => .fresh, fun _ => false, fun _ => .idle, []⟩

def exec (s : St) : Instr → Bool → Out St Instr
  | .start b, _ =>
    if s.phase b ≠ .alive then .fault
    else .ok { s with oper := upd s.oper b .started } []
  | .recv b v, _ =>
    if s.phase b ≠ .alive then .fault
    else .ok { s with log := s.log ++ [.recv b v] } [.fin b]
  | .fin b, _ =>
    if s.phase b ≠ .alive then .fault
    else .ok s [.free b]
  | .free b, _ =>
    if s.phase b ≠ .alive then .fault
    else .ok { s with phase := upd s.phase b .freed, log := s.log ++ [.free b] } (if s.spawn b then [] else [.cont b])
  | .cont b, _ => .ok { s with log := s.log ++ [.cont b] } []

inductive Act where
  | create (b : Id) (spawn : Bool)
  | complete (b : Id) (v : Nat)

/-- Contract: the sender completes at most once, after its operation was started. -/
def env (s : St) (_ : List (List Instr)) : Act → Option (St × List Instr)
  | .create b sp =>
    if s.phase b = .fresh then
      some ({ s with phase := upd s.phase b .alive, spawn := upd s.spawn b sp, log := s.log ++ [.create b sp] },
        [.start b])
    else none
  | .complete b v =>
    if s.oper b = .started then
      some ({ s with oper := upd s.oper b .completed, log := s.log ++ [.complete b v] },
        [if s.spawn b then .recv b v else .fin b])
    else none

abbrev mach : Mach := ⟨St, Instr, Act, exec, env⟩

end Verif.Detach
