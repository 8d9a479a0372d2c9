import Verif.Base

/-!
# The reference count of the state shared by `promise` and `future`, with concurrent handles (promise.hpp 23-35, 110,
144-184, 211-231)

One shared state; any number of handles (promises and futures) that refer to it, used by any number of threads. A handle is
used by one thread at a time, as the user has to ensure: it is not destroyed while it is being used. The handles are
identified by numbers; handle 0 is the promise that allocated the state. Moving a handle does not touch the count: it
renames the handle and is left out. `Verif/Promise/Handles.lean` has all operations on handles, one after the other.
-/

namespace Verif.Promise.RefCount

abbrev Hd := Nat

/-- Events. -/
inductive Ev where
  /-- Access to the shared state through handle `h`: `set_value`, `get`, and what the operations of `get` do. -/
  | use (h : Hd)
  /-- Handle `g` is constructed from handle `h`. -/
  | ref (h g : Hd)
  /-- Handle `h` gives up its reference. -/
  | drop (h : Hd)
  /-- The shared state is destroyed. -/
  | free
deriving DecidableEq

/-- Instructions. -/
inductive Instr where
  | use (h : Hd)
  /-- `ref()`, lines 28-30, called by `get_future` (lines 169-171, 348-352) and by the copy constructor (lines 216-220). -/
  | ref (h g : Hd)
  /-- `unref()`, lines 32-34, called by `disown_state` (line 175) and by the destructor of `future` (line 212). -/
  | unref (h : Hd)
  /-- `frg::destruct`, lines 176 and 213. -/
  | free
deriving DecidableEq

/-- State. -/
structure St where
  /-- `ctr_`, line 110. -/
  ctr : Nat
  /-- Handles that refer to the state. -/
  own : List Hd
  /-- All handles there have been. -/
  used : List Hd
  /-- The state was destroyed. -/
  freed : Bool
  log : List Ev

/-- `promise_base()`, lines 150-151. -/
def St.init : St := ⟨1, [0], [0], false, []⟩

/-- What the user does. -/
inductive Act where
  | use (h : Hd)
  | copy (h g : Hd)
  | drop (h : Hd)

/-- Does the instruction work with handle `h`? -/
def Instr.needs (h : Hd) : Instr → Bool
  | .use g | .ref g _ => g = h
  | _ => false

def exec (s : St) (x : Instr) (_ : Bool) : Out St Instr :=
  if s.freed then .fault  -- access to a destroyed state
  else match x with
  | .use h => .ok { s with log := s.log ++ [.use h] } []
  | .ref h g => .ok { s with ctr := s.ctr + 1, own := g :: s.own, log := s.log ++ [.ref h g] } []
  | .unref h =>
    .ok { s with ctr := s.ctr - 1, log := s.log ++ [.drop h] } (if s.ctr - 1 = 0 then [.free] else [])
  | .free =>
    if s.ctr = 0 then .ok { s with freed := true, log := s.log ++ [.free] } []
    else .fault  -- assert, line 25

/-- A handle is used, copied and destroyed while it exists, and not destroyed while it is used. -/
def env (s : St) (acts : List (List Instr)) : Act → Option (St × List Instr)
  | .use h => if h ∈ s.own then some (s, [.use h]) else none
  | .copy h g => if h ∈ s.own ∧ g ∉ s.used then some ({ s with used := g :: s.used }, [.ref h g]) else none
  | .drop h =>
    if h ∈ s.own ∧ acts.all (fun a => a.all (fun x => !x.needs h)) then
      some ({ s with own := s.own.erase h }, [.unref h])
    else none

abbrev mach : Mach := ⟨St, Instr, Act, exec, env⟩

end Verif.Promise.RefCount
