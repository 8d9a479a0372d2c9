import Verif.Base

/-!
# `async::oneshot_primitive` (oneshot-event.hpp lines 27-126)

Waiters form a singly linked list through the fields `next_` of their operations; the head of the list is
the atomic `state_`. Operations are numbered; the receiver may destroy the operation as soon as it is
completed, so any access to a completed operation is a fault. Memory orders are ignored (sequential
consistency). Numbers of operations are not reused (an address can be reused only after the operation
was completed, that is after `state_` got its final value).
-/

namespace Verif.OneshotPrim

abbrev Id := Nat

/-- Values of `state_` and `next_`, lines 45 and 125. -/
inductive Ptr where
  | null
  | node (i : Id)
  | fired
deriving DecidableEq

/-- What happens, in the order in which it happens. -/
inductive Ev where
  /-- `start()` of wait operation `i` is called. -/
  | begin (i : Id)
  /-- The receiver of operation `i` is completed. -/
  | done (i : Id)
  /-- `raise()` is called. -/
  | call
  /-- The exchange in `raise()`. -/
  | raise
  /-- Operation `i` becomes the head of the list and its `start()` returns without completion. -/
  | push (i : Id)
  /-- `raise()` returns. -/
  | ret
deriving DecidableEq

inductive Instr where
  /-- `start()`, line 75. -/
  | start (i : Id)
  /-- `start()`, lines 77-88: one iteration of the loop; `cur` is the local variable. -/
  | loop (i : Id) (cur : Ptr)
  /-- `start()`, line 78: `set_value`. -/
  | setv (i : Id)
  /-- `raise()`, lines 55-57. -/
  | raise
  /-- `raise()`, lines 58-59; `p` is the local variable `old`. -/
  | walk (p : Ptr)
  /-- `raise()`, lines 60-61 with `complete`, lines 92-95; `i` is `old` and `q` is `next`. -/
  | complete (i : Id) (q : Ptr)
deriving DecidableEq

structure St where
  /-- `state_`, line 125. -/
  head : Ptr
  /-- `next_` of each operation, line 45. -/
  next : Id → Ptr
  started : Id → Bool
  /-- The receiver was completed; the operation may have been destroyed. -/
  gone : Id → Bool
  /-- `raise()` was called. -/
  called : Bool
  log : List Ev

def init : St := ⟨.null, fun _ => .null, fun _ => false, fun _ => false, false, []⟩

/-- Completion of operation `i`; `p` is what the call does afterwards. -/
def St.finish (s : St) (i : Id) (p : List Instr) : Out St Instr :=
  if s.gone i then .fault
  else .ok { s with gone := upd s.gone i true, log := s.log ++ [.done i] } p

/-- One instruction. The write of `next_` (line 79) and the compare-exchange that follows it are one
instruction: until the compare-exchange succeeds nobody else knows the operation. The Boolean is `false` if the weak compare-exchange fails spuriously. -/
def exec (s : St) : Instr → Bool → Out St Instr
  | .start i, _ => .ok s [.loop i s.head]
  | .loop i cur, b =>
    if cur = .fired then .ok s [.setv i]
    else if s.gone i then .fault
    else if s.head = cur ∧ b then
      .ok { s with next := upd s.next i cur, head := .node i, log := s.log ++ [.push i] } []
    else .ok { s with next := upd s.next i cur } [.loop i s.head]
  | .setv i, _ => s.finish i []
  | .raise, _ =>
    if s.head = .fired then .fault  -- assert, line 57
    else .ok { s with head := .fired, log := s.log ++ [.raise] } [.walk s.head]
  | .walk .null, _ => .ok { s with log := s.log ++ [.ret] } []
  | .walk .fired, _ => .fault  -- dereference of the sentinel
  | .walk (.node i), _ =>
    if s.gone i then .fault else .ok s [.complete i (s.next i)]
  | .complete i q, _ => s.finish i [.walk q]

inductive Act where
  | start (i : Id)
  | raise

/-- Contract: `raise()` is called at most once (comment in line 56). Operations are started once. -/
def env (s : St) (_ : List (List Instr)) : Act → Option (St × List Instr)
  | .start i =>
    if s.started i then none
    else some ({ s with started := upd s.started i true, log := s.log ++ [.begin i] }, [.start i])
  | .raise =>
    if s.called then none
    else some ({ s with called := true, log := s.log ++ [.call] }, [.raise])

abbrev mach : Mach := ⟨St, Instr, Act, exec, env⟩

end Verif.OneshotPrim
