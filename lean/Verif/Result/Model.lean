import Verif.Base

/-!
# `result<T>` coroutines and `co_await` of senders (result.hpp, basic.hpp lines 112-186)

Any number of operations on `result<T>` coroutines. The body of a coroutine is arbitrary: a (possibly
infinite) automaton that awaits senders, continues depending on their values, and returns a value. The
awaited senders belong to the environment; they complete at most once after they were started, on any
thread, possibly inside `start()`.

Simplifications: values are natural numbers (`result<void>`, lines 176-283 and 318-348, is the case in which
the value does not matter; it has no `obj_`). Numbers of operations are not reused. The coroutine
machinery itself is the one of C++20: a coroutine is suspended before `await_suspend` runs, and nothing of the
frame is touched after `await_suspend` returns true or `void`.

Completing the receiver ends the lifetime of the operation, and with it that of the coroutine frame, which the
operation owns (`s_`, line 310): every later access to one of them is a fault.
-/

namespace Verif.Result

abbrev Id := Nat

/-- What a coroutine body does next. -/
inductive Cmd (S : Type) where
  /-- `co_return v`. -/
  | ret (v : Nat)
  /-- `co_await` of sender `a`; the body continues with its value. -/
  | await (a : Nat) (k : Nat → S)

/-- A coroutine body. -/
structure Body where
  S : Type
  next : S → Cmd S

/-- The sender that is being awaited. -/
inductive Leaf where
  | connected
  | started
  | completed
deriving DecidableEq

/-- The coroutine frame. -/
inductive Frame (S : Type) where
  /-- Suspended initially, lines 90-111. -/
  | fresh (s : S)
  | running (s : S)
  /-- Suspended in `co_await`; `res` is `result_` of the `sender_awaiter`. -/
  | waiting (k : Nat → S) (leaf : Leaf) (res : Option Nat)
  /-- Value returned, not yet in `await_suspend` of the final awaiter. -/
  | returning
  /-- Suspended finally. -/
  | final

/-- `coroutine_cfp`, result.hpp lines 53-57. -/
inductive Cfp where
  | indeterminate
  | pastStart
  | pastSuspend
deriving DecidableEq

inductive Phase where
  | fresh
  | started
  | done
deriving DecidableEq

inductive Ev (S : Type) where
  /-- `start()` of operation `i` is called; the body is in state `s`. -/
  | start (i : Id) (s : S)
  /-- The body of `i` awaits sender `a`. -/
  | await (i : Id) (a : Nat)
  /-- The sender awaited by `i` completes. -/
  | complete (i : Id) (v : Nat)
  /-- The `co_await` in the body of `i` returns. -/
  | resume (i : Id) (v : Nat)
  /-- The body of `i` returns. -/
  | ret (i : Id) (v : Nat)
  /-- The body of `i` has returned and suspends finally: the exchange of line 123. -/
  | fin (i : Id)
  /-- `start()` of operation `i` executes the exchange, line 297: unless it completes the receiver, this is the last time
  it accesses the operation or the frame. -/
  | left (i : Id)
  /-- The receiver of `i` is completed. -/
  | done (i : Id) (v : Nat)
deriving DecidableEq

inductive Instr where
  /-- result.hpp lines 293-295. -/
  | link (i : Id)
  /-- Line 296: the first `h.resume()`, with `await_resume` of the initial awaiter, lines 103-105. -/
  | go (i : Id)
  /-- Lines 297-302. -/
  | exStart (i : Id)
  /-- Run the body until it awaits or returns. -/
  | seg (i : Id)
  /-- basic.hpp line 142: start the awaited operation. -/
  | awStart (i : Id)
  /-- basic.hpp line 124. -/
  | emplace (i : Id) (v : Nat)
  /-- basic.hpp line 125, continuing with `await_resume`, lines 145-147. -/
  | hres (i : Id)
  /-- Lines 122-131. -/
  | exFin (i : Id)
  /-- Lines 301 and 307. -/
  | setv (i : Id)
deriving DecidableEq

structure St (B : Body) where
  phase : Id → Phase
  frame : Id → Option (Frame B.S)
  /-- `cont_` is set. -/
  cont : Id → Bool
  cfp : Id → Cfp
  /-- `obj_`. -/
  obj : Id → Option Nat
  log : List (Ev B.S)

variable {B : Body}

def init : St B :=
  ⟨fun _ => .fresh, fun _ => none, fun _ => false, fun _ => .indeterminate, fun _ => none, []⟩

def exec (s : St B) : Instr → Bool → Out (St B) Instr
  | .link i, _ =>
    if s.phase i ≠ .started then .fault
    else .ok { s with cont := upd s.cont i true } [.go i]
  | .go i, _ =>
    if s.phase i ≠ .started then .fault
    else match s.frame i with
    | some (.fresh b) =>
      -- assert(promise_->cont_), line 104
      if s.cont i then .ok { s with frame := upd s.frame i (some (.running b)) } [.seg i] else .fault
    | _ => .fault
  | .seg i, _ =>
    if s.phase i ≠ .started then .fault
    else match s.frame i with
    | some (.running b) =>
      match B.next b with
      | .await a k =>
        .ok { s with frame := upd s.frame i (some (.waiting k .connected none)), log := s.log ++ [.await i a] }
          [.awStart i]
      | .ret v =>
        -- return_value, lines 81-88
        if s.cont i then
          .ok { s with frame := upd s.frame i (some .returning), obj := upd s.obj i (some v),
                       log := s.log ++ [.ret i v] } [.exFin i]
        else .fault
    | _ => .fault
  | .awStart i, _ =>
    if s.phase i ≠ .started then .fault
    else match s.frame i with
    | some (.waiting k .connected r) =>
      -- start_inline returns false: await_suspend returns true
      .ok { s with frame := upd s.frame i (some (.waiting k .started r)) } []
    | _ => .fault
  | .emplace i v, _ =>
    if s.phase i ≠ .started then .fault
    else match s.frame i with
    | some (.waiting k l _) => .ok { s with frame := upd s.frame i (some (.waiting k l (some v))) } [.hres i]
    | _ => .fault
  | .hres i, _ =>
    if s.phase i ≠ .started then .fault
    else match s.frame i with
    | some (.waiting k _ (some v)) =>
      .ok { s with frame := upd s.frame i (some (.running (k v))), log := s.log ++ [.resume i v] } [.seg i]
    | _ => .fault
  | .exFin i, _ =>
    if s.phase i ≠ .started then .fault
    else match s.frame i with
    | some .returning =>
      .ok { s with frame := upd s.frame i (some .final), cfp := upd s.cfp i .pastSuspend, log := s.log ++ [.fin i] }
        (if s.cfp i = .pastStart then [.setv i] else [])
    | _ => .fault
  | .exStart i, _ =>
    if s.phase i ≠ .started then .fault
    else .ok { s with cfp := upd s.cfp i .pastStart, log := s.log ++ [.left i] } (if s.cfp i = .pastSuspend then [.setv i] else [])
  | .setv i, _ =>
    if s.phase i ≠ .started then .fault
    else match s.obj i with
    | some v =>
      .ok { s with phase := upd s.phase i .done, frame := upd s.frame i none, log := s.log ++ [.done i v] } []
    | none => .fault

inductive Act (B : Body) where
  | start (i : Id) (s : B.S)
  | complete (i : Id) (v : Nat)

/-- Contract: an operation is started once; an awaited sender completes at most once, after it was started. -/
def env (s : St B) (_ : List (List Instr)) : Act B → Option (St B × List Instr)
  | .start i b =>
    if s.phase i = .fresh then
      some ({ s with phase := upd s.phase i .started, frame := upd s.frame i (some (.fresh b)),
                     log := s.log ++ [.start i b] }, [.link i, .exStart i])
    else none
  | .complete i v =>
    match s.frame i with
    | some (.waiting k .started r) =>
      some ({ s with frame := upd s.frame i (some (.waiting k .completed r)), log := s.log ++ [.complete i v] },
        [.emplace i v])
    | _ => none

abbrev mach (B : Body) : Mach := ⟨St B, Instr, Act B, exec, env⟩

end Verif.Result
