import Verif.Result.Spec

/-!
# `detached` coroutines (basic.hpp lines 467-489) and `co_await` in them (lines 112-186)

Any number of calls of coroutines of type `detached`. As for `result` (`Verif/Result/Model.lean`), a body is an arbitrary
automaton that awaits senders, continues depending on their values, and returns; the awaited senders belong to the
environment; they complete at most once after they were started, on any thread, possibly inside `start()`.

Simplifications: numbers of coroutines are not reused. The coroutine machinery is the one of C++20: if the initial awaiter
does not suspend, the body runs inside the call; if the final awaiter does not suspend, the frame is destroyed when the body
has returned; a coroutine is suspended before `await_suspend` runs, and nothing of the frame is touched after
`await_suspend` returns true. Every access to a frame that is destroyed is a fault.
-/

namespace Verif.Detached

open Verif.Result (Body Cmd Leaf)

abbrev Id := Nat

/-- The coroutine frame. -/
inductive Frame (S : Type) where
  | running (s : S)
  /-- Suspended in `co_await`; `res` is `result_` of the `sender_awaiter`. -/
  | waiting (k : Nat → S) (leaf : Leaf) (res : Option Nat)
  /-- `return_void` was called, lines 481-483. -/
  | returning

inductive Phase where
  | fresh
  | alive
  | freed
deriving DecidableEq

inductive Ev (S : Type) where
  /-- Coroutine `i` is called; the frame is allocated; the body is in state `s`. -/
  | call (i : Id) (s : S)
  /-- The call returns to the caller. -/
  | back (i : Id)
  /-- The body of `i` awaits sender `a`. -/
  | await (i : Id) (a : Nat)
  /-- The sender awaited by `i` completes. -/
  | complete (i : Id) (v : Nat)
  /-- The `co_await` in the body of `i` returns. -/
  | resume (i : Id) (v : Nat)
  /-- The body of `i` returns. -/
  | ret (i : Id)
  /-- The frame of `i` is destroyed. -/
  | free (i : Id)
deriving DecidableEq

inductive Instr where
  /-- Run the body until it awaits or returns. -/
  | seg (i : Id)
  /-- Line 142 or 177: start the awaited operation. -/
  | awStart (i : Id)
  /-- Line 124. -/
  | emplace (i : Id) (v : Nat)
  /-- Line 125 or 157, continuing with `await_resume`, lines 145-147 or 180-182. -/
  | hres (i : Id)
  /-- Lines 477-479: the final awaiter does not suspend. -/
  | fin (i : Id)
  /-- The call returns to the caller. -/
  | back (i : Id)
deriving DecidableEq

structure St (B : Body) where
  phase : Id → Phase
  frame : Id → Option (Frame B.S)
  log : List (Ev B.S)

variable {B : Body}

def init : St B := ⟨fun _ => .fresh, fun _ => none, []⟩

def exec (s : St B) : Instr → Bool → Out (St B) Instr
  | .seg i, _ =>
    match s.frame i with
    | some (.running b) =>
      match B.next b with
      | .await a k =>
        .ok { s with frame := upd s.frame i (some (.waiting k .connected none)), log := s.log ++ [.await i a] }
          [.awStart i]
      | .ret _ => .ok { s with frame := upd s.frame i (some .returning), log := s.log ++ [.ret i] } [.fin i]
    | _ => .fault
  | .awStart i, _ =>
    match s.frame i with
    | some (.waiting k .connected r) =>
      -- start_inline returns false: await_suspend returns true
      .ok { s with frame := upd s.frame i (some (.waiting k .started r)) } []
    | _ => .fault
  | .emplace i v, _ =>
    match s.frame i with
    | some (.waiting k l _) => .ok { s with frame := upd s.frame i (some (.waiting k l (some v))) } [.hres i]
    | _ => .fault
  | .hres i, _ =>
    match s.frame i with
    | some (.waiting k _ (some v)) =>
      .ok { s with frame := upd s.frame i (some (.running (k v))), log := s.log ++ [.resume i v] } [.seg i]
    | _ => .fault
  | .fin i, _ =>
    match s.frame i with
    | some .returning =>
      .ok { s with phase := upd s.phase i .freed, frame := upd s.frame i none, log := s.log ++ [.free i] } []
    | _ => .fault
  | .back i, _ => .ok { s with log := s.log ++ [.back i] } []

inductive Act (B : Body) where
  | call (i : Id) (s : B.S)
  | complete (i : Id) (v : Nat)

/-- Calls: lines 469-475, the initial awaiter does not suspend, so that the body runs inside of the call. Contract: an awaited
sender completes at most once, after it was started. -/
def env (s : St B) (_ : List (List Instr)) : Act B → Option (St B × List Instr)
  | .call i b =>
    if s.phase i = .fresh then
      some ({ s with phase := upd s.phase i .alive, frame := upd s.frame i (some (.running b)),
                     log := s.log ++ [.call i b] }, [.seg i, .back i])
    else none
  | .complete i v =>
    match s.frame i with
    | some (.waiting k .started r) =>
      some ({ s with frame := upd s.frame i (some (.waiting k .completed r)), log := s.log ++ [.complete i v] },
        [.emplace i v])
    | _ => none

abbrev mach (B : Body) : Mach := ⟨St B, Instr, Act B, exec, env⟩

/-! ## Specification: reading a history -/

variable {S : Type}

/-- The values that `co_await` returned in the body of coroutine `i`. -/
def resumed (i : Id) (log : List (Ev S)) : List Nat :=
  log.filterMap (fun | .resume j v => if j = i then some v else none | _ => none)

/-- The values of the senders awaited by coroutine `i`. -/
def completed (i : Id) (log : List (Ev S)) : List Nat :=
  log.filterMap (fun | .complete j v => if j = i then some v else none | _ => none)

/-- The senders awaited by coroutine `i`. -/
def awaited (i : Id) (log : List (Ev S)) : List Nat :=
  log.filterMap (fun | .await j a => if j = i then some a else none | _ => none)

def Ev.op : Ev S → Id
  | .call i _ | .back i | .await i _ | .complete i _ | .resume i _ | .ret i | .free i => i

open Verif.Result (Awaits Returns) in
/-- What may happen after `before`. -/
def Ok (B : Body) (before : List (Ev B.S)) : Ev B.S → Prop
  | .call i _ => ∀ e ∈ before, e.op ≠ i
  | .back i => (∃ s, .call i s ∈ before) ∧ .back i ∉ before
  | .await i a => ∃ s, .call i s ∈ before ∧ Awaits B s (resumed i before) a ∧
      completed i before = resumed i before ∧ (awaited i before).length = (completed i before).length ∧
      .ret i ∉ before
  | .complete i _ => (awaited i before).length = (completed i before).length + 1
  | .resume i v => completed i before = resumed i before ++ [v]
  | .ret i => (∃ s v, .call i s ∈ before ∧ Returns B s (resumed i before) v) ∧ completed i before = resumed i before ∧
      .ret i ∉ before
  | .free i => (.ret i ∈ before ∧ .free i ∉ before) ∧ ∃ s v, .call i s ∈ before ∧ Returns B s (completed i before) v

end Verif.Detached
