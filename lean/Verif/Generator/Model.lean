import Verif.Base

/-!
# `generator<T>` (generator.hpp)

Any number of generators and of `next()` operations. The body of a generator is arbitrary: a (possibly
infinite) automaton that yields values, awaits senders and returns. Awaited senders belong to the environment;
they complete at most once after they were started, on any thread, possibly inside `start()`
(`sender_awaiter`, basic.hpp lines 112-155).

Simplifications: values are natural numbers; numbers of generators and operations are not reused. Moving a
`generator` object does not change the coroutine and is not modelled; the destructor (lines 72-75) is.

Delivering a result ends the lifetime of the `next()` operation, the destructor ends that of the coroutine
frame: every later access is a fault. Resuming a coroutine that is running, awaiting or at its final suspension
point is a fault, and so is the panic in line 38.
-/

namespace Verif.Generator

abbrev Id := Nat

/-- What a generator body does next. -/
inductive Cmd (S : Type) where
  /-- The body returns. -/
  | ret
  /-- `co_yield v`. -/
  | yield (v : Nat) (k : S)
  /-- `co_await` of sender `a`; the body continues with its value. -/
  | await (a : Nat) (k : Nat → S)

/-- A generator body. -/
structure Body where
  S : Type
  next : S → Cmd S

/-- The sender that is being awaited. -/
inductive Leaf where
  | connected
  | started
  | completed
deriving DecidableEq

/-- The coroutine frame. -/
inductive Frame (S : Type) where
  /-- Suspended initially (line 26) or in `co_yield`. -/
  | suspended (s : S)
  | running (s : S)
  /-- Suspended in `co_await`; `res` is `result_` of the `sender_awaiter`. -/
  | waiting (k : Nat → S) (leaf : Leaf) (res : Option Nat)
  /-- Suspended finally, line 49. -/
  | final

inductive Phase where
  | fresh
  | started
  | done
deriving DecidableEq

inductive Ev (S : Type) where
  /-- Generator `g` is created; its body is in state `s`. -/
  | create (g : Id) (s : S)
  /-- `start()` of the `next()` operation `n` on generator `g` is called. -/
  | next (g n : Id)
  /-- The body of `g` awaits sender `a`. -/
  | await (g : Id) (a : Nat)
  /-- The sender awaited by `g` completes. -/
  | complete (g : Id) (v : Nat)
  /-- The `co_await` in the body of `g` returns. -/
  | resume (g : Id) (v : Nat)
  /-- The body of `g` yields. -/
  | yield (g : Id) (v : Nat)
  /-- The body of `g` returns. -/
  | ret (g : Id)
  /-- Operation `n` delivers its result. -/
  | result (g n : Id) (o : Option Nat)
  /-- Generator `g` is destroyed. -/
  | destroy (g : Id)
deriving DecidableEq

inductive Instr where
  /-- Line 83. -/
  | nlink (g n : Id)
  /-- Line 84. -/
  | nres (g n : Id)
  /-- Run the body until it yields, awaits or returns. -/
  | seg (g : Id)
  /-- basic.hpp line 142. -/
  | awStart (g : Id)
  /-- basic.hpp line 124. -/
  | emplace (g : Id) (v : Nat)
  /-- basic.hpp line 125, continuing with `await_resume`. -/
  | hres (g : Id)
  /-- Lines 32-38. -/
  | ysusp (g : Id)
  /-- Lines 88-89. -/
  | comp (g n : Id)
  /-- Line 90. -/
  | setv (g n : Id) (o : Option Nat)
deriving DecidableEq

structure St (B : Body) where
  frame : Id → Option (Frame B.S)
  /-- The generator was created. -/
  made : Id → Bool
  /-- `cont`. -/
  cont : Id → Option Id
  /-- `current_value`. -/
  cur : Id → Option Nat
  /-- State of the operations. -/
  op : Id → Phase
  /-- The operation that is outstanding (known to the user of the generator). -/
  outst : Id → Option Id
  /-- The end was delivered (known to the user of the generator). -/
  ended : Id → Bool
  log : List (Ev B.S)

variable {B : Body}

def init : St B :=
  ⟨fun _ => none, fun _ => false, fun _ => none, fun _ => none, fun _ => .fresh, fun _ => none, fun _ => false, []⟩

def exec (s : St B) : Instr → Bool → Out (St B) Instr
  | .nlink g n, _ =>
    if s.op n ≠ .started ∨ s.frame g = none then .fault
    else .ok { s with cont := upd s.cont g (some n) } [.nres g n]
  | .nres g n, _ =>
    if s.op n ≠ .started then .fault
    else match s.frame g with
    | some (.suspended b) => .ok { s with frame := upd s.frame g (some (.running b)) } [.seg g]
    | _ => .fault
  | .seg g, _ =>
    match s.frame g with
    | some (.running b) =>
      match B.next b with
      | .await a k =>
        .ok { s with frame := upd s.frame g (some (.waiting k .connected none)), log := s.log ++ [.await g a] }
          [.awStart g]
      | .yield v k =>
        -- yield_value, lines 44-47
        .ok { s with frame := upd s.frame g (some (.suspended k)), cur := upd s.cur g (some v),
                     log := s.log ++ [.yield g v] } [.ysusp g]
      | .ret => .ok { s with frame := upd s.frame g (some .final), log := s.log ++ [.ret g] } [.ysusp g]
    | _ => .fault
  | .awStart g, _ =>
    match s.frame g with
    | some (.waiting k .connected r) =>
      .ok { s with frame := upd s.frame g (some (.waiting k .started r)) } []
    | _ => .fault
  | .emplace g v, _ =>
    match s.frame g with
    | some (.waiting k l _) => .ok { s with frame := upd s.frame g (some (.waiting k l (some v))) } [.hres g]
    | _ => .fault
  | .hres g, _ =>
    match s.frame g with
    | some (.waiting k _ (some v)) =>
      .ok { s with frame := upd s.frame g (some (.running (k v))), log := s.log ++ [.resume g v] } [.seg g]
    | _ => .fault
  | .ysusp g, _ =>
    if s.frame g = none then .fault
    else match s.cont g with
    | some n => .ok { s with cont := upd s.cont g none } [.comp g n]
    | none => .fault  -- panic, line 38
  | .comp g n, _ =>
    if s.op n ≠ .started ∨ s.frame g = none then .fault
    else .ok { s with cur := upd s.cur g none } [.setv g n (s.cur g)]
  | .setv g n o, _ =>
    if s.op n ≠ .started then .fault
    else .ok { s with op := upd s.op n .done, outst := upd s.outst g none,
                      ended := upd s.ended g (s.ended g || o.isNone), log := s.log ++ [.result g n o] } []

inductive Act (B : Body) where
  | create (g : Id) (s : B.S)
  | next (g n : Id)
  | complete (g : Id) (v : Nat)
  | destroy (g : Id)

/-- Contract: an operation is started once, when no other operation of the generator is outstanding, the end was
not delivered and the generator was not destroyed; a generator is destroyed when no operation is outstanding; an
awaited sender completes at most once, after it was started. -/
def env (s : St B) (_ : List (List Instr)) : Act B → Option (St B × List Instr)
  | .create g b =>
    if s.made g then none
    else some ({ s with frame := upd s.frame g (some (.suspended b)), made := upd s.made g true,
                        log := s.log ++ [.create g b] }, [])
  | .next g n =>
    if s.frame g ≠ none ∧ s.outst g = none ∧ s.ended g = false ∧ s.op n = .fresh then
      some ({ s with op := upd s.op n .started, outst := upd s.outst g (some n), log := s.log ++ [.next g n] },
        [.nlink g n])
    else none
  | .complete g v =>
    match s.frame g with
    | some (.waiting k .started r) =>
      some ({ s with frame := upd s.frame g (some (.waiting k .completed r)), log := s.log ++ [.complete g v] },
        [.emplace g v])
    | _ => none
  | .destroy g =>
    if s.frame g ≠ none ∧ s.outst g = none then
      some ({ s with frame := upd s.frame g none, log := s.log ++ [.destroy g] }, [])
    else none

abbrev mach (B : Body) : Mach := ⟨St B, Instr, Act B, exec, env⟩

end Verif.Generator
