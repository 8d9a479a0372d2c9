import Verif.Base

/-!
# The promise object itself: `set_value`, `get_future` and the destructor (promise.hpp 23-35, 84-110, 144-184, 211-220,
255-276, 368-376)

One promise, the state that it allocated, any number of futures and of `get` operations, any number of threads. The other
models of `promise` follow the shared state; here the promise is an object too, with its pointer `state_`, which
`set_value` reads three times and then clears. Sections under the mutex of the shared state are one instruction. The
operations have no cancellation token (see `Verif/Promise/Model.lean` for cancellation). Moving and assigning handles is left
out (see `Verif/Promise/Handles.lean`).
-/

namespace Verif.Promise.Owner

abbrev Hd := Nat
abbrev Id := Nat

/-- Events. -/
inductive Ev where
  /-- The user starts operation `i` of `get` on future `h`. -/
  | begin (i : Id) (h : Hd)
  /-- Operation `i` completes with the value. -/
  | value (i : Id)
  /-- `set_value` returns. -/
  | setRet
  /-- The destructor of the promise has finished. -/
  | destroyed
  /-- The destructor of future `h` gives up the reference. -/
  | drop (h : Hd)
  /-- The shared state, and the value in it, is destroyed. -/
  | free
deriving DecidableEq

/-- Instructions. The flag `d` says on whose behalf `disown_state` runs: `true` for the destructor, `false` for
`set_value`. -/
inductive Instr where
  /-- Lines 370-371. -/
  | setCS
  /-- Line 374: `wake`, lines 93-97. -/
  | wakeCS
  /-- Lines 174-175: `if (state_`. -/
  | disR (d : Bool)
  /-- Line 175: `state_->unref()`. -/
  | unrefP (d : Bool)
  /-- Line 176: `frg::destruct(alloc_, state_)`. -/
  | freeP (d : Bool)
  /-- Line 179: `state_ = nullptr`. -/
  | disW (d : Bool)
  /-- Line 376. -/
  | retS
  /-- End of the destructor, line 155. -/
  | kill
  /-- `get_future()`, lines 169-171, 348-352. -/
  | pref (g : Hd)
  /-- Copy constructor of `future`, lines 216-220. -/
  | ref (h g : Hd)
  /-- Destructor of `future`, line 212. -/
  | unrefF (h : Hd)
  /-- Destructor of `future`, line 213. -/
  | freeF
  /-- `get_operation::start`, lines 253-263. -/
  | start (i : Id)
  /-- Completion of an operation, lines 267-272 and 100-104 with 289-296. -/
  | fin (i : Id)
deriving DecidableEq

/-- State. -/
structure St where
  /-- The promise object exists. -/
  alive : Bool
  /-- `state_` of the promise is not null, line 182. -/
  ptr : Bool
  /-- `ctr_`, line 110. -/
  ctr : Nat
  /-- The shared state was destroyed. -/
  freed : Bool
  /-- `has_value_`, line 107. -/
  has : Bool
  /-- `queue_`, lines 62-69. -/
  queue : List Id
  /-- Futures that refer to the state, and all there have been. -/
  own : List Hd
  used : List Hd
  /-- Operations that have not completed, with their futures, and all there have been. -/
  out : List (Id × Hd)
  ops : List Id
  /-- `set_value` is running; `get_future` is running. -/
  inSet : Bool
  inGet : Bool
  /-- `set_value` was called. -/
  called : Bool
  /-- The destructor was called. -/
  dead : Bool
  log : List Ev

/-- `promise_base()`, lines 150-151. -/
def St.init : St := ⟨true, true, 1, false, false, [], [], [], [], [], false, false, false, false, []⟩

/-- Accesses to the promise after its destructor has finished, and accesses to the state after it was destroyed, are
faults. -/
def exec (s : St) (x : Instr) (_ : Bool) : Out St Instr :=
  match x with
  | .setCS =>
    if s.alive && s.ptr && !s.freed && !s.has then .ok { s with has := true } [.wakeCS]  -- assert, line 127
    else .fault
  | .wakeCS =>
    if s.alive && s.ptr && !s.freed && s.has then  -- assert, line 84
      .ok { s with queue := [] } (s.queue.map .fin ++ [.disR false])
    else .fault
  | .disR d => if s.alive then .ok s [if s.ptr then .unrefP d else .disW d] else .fault
  | .unrefP d =>
    if s.freed then .fault
    else .ok { s with ctr := s.ctr - 1 } [if s.ctr - 1 = 0 then .freeP d else .disW d]
  | .freeP d =>
    if s.alive && s.ptr && !s.freed && s.ctr == 0 then  -- assert, line 25
      .ok { s with freed := true, log := s.log ++ [.free] } [.disW d]
    else .fault
  | .disW d => if s.alive then .ok { s with ptr := false } [if d then .kill else .retS] else .fault
  | .retS => .ok { s with inSet := false, log := s.log ++ [.setRet] } []
  | .kill => .ok { s with alive := false, log := s.log ++ [.destroyed] } []
  | .pref g =>
    if s.alive then
      if s.ptr then
        if s.freed then .fault else .ok { s with ctr := s.ctr + 1, own := g :: s.own, inGet := false } []
      else .ok { s with inGet := false } []  -- the future is empty
    else .fault
  | .ref _ g => if s.freed then .fault else .ok { s with ctr := s.ctr + 1, own := g :: s.own } []
  | .unrefF h =>
    if s.freed then .fault
    else .ok { s with ctr := s.ctr - 1, log := s.log ++ [.drop h] } (if s.ctr - 1 = 0 then [.freeF] else [])
  | .freeF =>
    if !s.freed && s.ctr == 0 then .ok { s with freed := true, log := s.log ++ [.free] } [] else .fault  -- line 25
  | .start i =>
    if s.freed then .fault
    else if s.has then .ok s [.fin i] else .ok { s with queue := s.queue ++ [i] } []
  | .fin i =>
    if s.freed || !s.has then .fault  -- assert, line 121
    else .ok { s with out := s.out.filter (·.1 ≠ i), log := s.log ++ [.value i] } []

/-- What the user does. -/
inductive Act where
  | set
  | getFuture (g : Hd)
  | get (i : Id) (h : Hd)
  | copy (h g : Hd)
  | drop (h : Hd)
  | destroy

/-- Some operation has completed with the value. -/
def St.told (s : St) : Bool := s.log.any fun | .value _ => true | _ => false

/-- What the user respects. The promise is used by one thread at a time, and `set_value` is called on a promise that has a
state. A future is not destroyed while it is copied or while one of its operations has not completed. The promise is
destroyed once, and not while `get_future` runs. If `strict`, it is also not destroyed before `set_value` has returned;
otherwise it may be destroyed, too, once some operation has received the value. -/
def env (strict : Bool) (s : St) (acts : List (List Instr)) : Act → Option (St × List Instr)
  | .set =>
    if !s.dead && !s.inSet && !s.inGet && s.ptr then some ({ s with inSet := true, called := true }, [.setCS]) else none
  | .getFuture g =>
    if !s.dead && !s.inSet && !s.inGet && decide (g ∉ s.used) then
      some ({ s with inGet := true, used := g :: s.used }, [.pref g])
    else none
  | .get i h =>
    if h ∈ s.own ∧ i ∉ s.ops then
      some ({ s with out := (i, h) :: s.out, ops := i :: s.ops, log := s.log ++ [.begin i h] }, [.start i])
    else none
  | .copy h g => if h ∈ s.own ∧ g ∉ s.used then some ({ s with used := g :: s.used }, [.ref h g]) else none
  | .drop h =>
    if h ∈ s.own ∧ (∀ o ∈ s.out, o.2 ≠ h) ∧
        acts.all (fun a => a.all fun | .ref h' _ => decide (h' ≠ h) | _ => true) then
      some ({ s with own := s.own.erase h }, [.unrefF h])
    else none
  | .destroy =>
    if !s.dead && !s.inGet && (!s.inSet || (!strict && s.told)) then some ({ s with dead := true }, [.disR true])
    else none

abbrev mach (strict : Bool) : Mach := ⟨St, Instr, Act, exec, env strict⟩

end Verif.Promise.Owner
