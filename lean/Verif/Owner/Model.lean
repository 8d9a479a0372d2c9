import Verif.Base

/-!
# The objects `generator<T>` and `result<T>` as owners of coroutines

generator.hpp lines 60-75 and result.hpp lines 255-279. Both are move-only owners of a coroutine handle `h_`, with
different code: `generator` exchanges handles, `result` swaps them. (`result_operation`, result.hpp lines 281-324,
contains a `result` that is initialised by its move constructor and destroyed with the operation.)

A program is any sequence of calls of constructors, assignment operators and destructors; one object is not used by
two threads at the same time, hence each call is one step. Destroying a coroutine frame that does not exist is
undefined behaviour (`none`), and so is access to an object outside of its lifetime. What the coroutine does is the
subject of `Verif/Generator` and `Verif/Result`.
-/

namespace Verif.Owner

/-- Number of an object. -/
abbrev Obj := Nat
/-- Number of a coroutine frame; not reused. -/
abbrev Id := Nat

inductive Kind where
  | generator
  | result
deriving DecidableEq

inductive Ev where
  /-- Coroutine frame `g` is allocated. -/
  | create (g : Id)
  /-- Coroutine frame `g` is destroyed. -/
  | destroy (g : Id)
deriving DecidableEq

structure St where
  /-- `h_` of the objects in their lifetime. -/
  obj : Obj → Option (Option Id)
  /-- The frame exists. -/
  live : Id → Bool
  log : List Ev

def init : St := ⟨fun _ => none, fun _ => false, []⟩

/-- `o.h_`. -/
def St.get (s : St) (o : Obj) : Option (Option Id) := s.obj o

/-- `o.h_ = h`. -/
def St.put (s : St) (o : Obj) (h : Option Id) : Option St :=
  match s.obj o with
  | some _ => some { s with obj := upd s.obj o (some h) }
  | none => none

/-- The lifetime of `o` begins. -/
def St.begin (s : St) (o : Obj) (h : Option Id) : Option St := some { s with obj := upd s.obj o (some h) }

/-- The lifetime of `o` ends. -/
def St.finish (s : St) (o : Obj) : Option St := some { s with obj := upd s.obj o none }

/-- `h.destroy()`. -/
def St.destroy (s : St) (g : Id) : Option St :=
  if s.live g then some { s with live := upd s.live g false, log := s.log ++ [.destroy g] } else none

/-- `if(h_) h_.destroy();` -/
def St.clean (s : St) (h : Option Id) : Option St :=
  match h with
  | some g => s.destroy g
  | none => some s

/-- `~generator`, generator.hpp 72-75; `~result`, result.hpp 268-271. -/
def dtor (s : St) (o : Obj) : Option St := do
  let h ← s.get o
  let s ← s.clean h
  s.finish o

/-- `generator(generator &&other)`, generator.hpp 62. -/
def moveGen (s : St) (o src : Obj) : Option St := do
  let h ← s.get src
  let s ← s.put src none
  s.begin o h

/-- `result(result &&other)`, result.hpp 263-266: the default constructor and `std::swap`. -/
def moveRes (s : St) (o src : Obj) : Option St := do
  let s ← s.begin o none
  let a ← s.get o
  let b ← s.get src
  let s ← s.put o b
  s.put src a

/-- `generator &operator=(generator &&other)`, generator.hpp 64-70. -/
def assignGen (s : St) (o src : Obj) : Option St := do
  let h ← s.get src
  let s ← s.put src none
  let old ← s.get o
  let s ← s.clean old
  s.put o h

/-- `result &operator= (result other)`, result.hpp 273-276. The parameter is object `tmp`: it is initialised by the move
constructor before the body, and destroyed after it. -/
def assignRes (s : St) (o src tmp : Obj) : Option St := do
  let s ← moveRes s tmp src
  let a ← s.get o
  let b ← s.get tmp
  let s ← s.put o b
  let s ← s.put tmp a
  dtor s tmp

inductive Call where
  /-- A coroutine is called: frame `g` is allocated, `get_return_object` (generator.hpp 22-24, result.hpp 73-75, 187-189) initialises
  `o`. -/
  | make (o : Obj) (g : Id)
  /-- `result()`, result.hpp 257. -/
  | empty (o : Obj)
  /-- Initialisation of `o` from `std::move(src)`. -/
  | move (o src : Obj)
  /-- `o = std::move(src)`; `tmp` is the name of the parameter object. -/
  | assign (o src tmp : Obj)
  /-- `o` is destroyed. -/
  | del (o : Obj)
deriving DecidableEq

/-- Contract: calls use objects in their lifetime, and new objects are new. (No condition relates `o` and `src` of an
assignment.) -/
def allowed (k : Kind) (s : St) : Call → Bool
  | .make o g => s.obj o == none && !(s.log.contains (Ev.create g))
  | .empty o => s.obj o == none && k == .result
  | .move o src => s.obj o == none && s.obj src != none
  | .assign o src tmp => s.obj o != none && s.obj src != none && s.obj tmp == none
  | .del o => s.obj o != none

/-- The effect of a call; `none` is undefined behaviour. -/
def call (k : Kind) (s : St) : Call → Option St
  | .make o g => St.begin { s with live := upd s.live g true, log := s.log ++ [.create g] } o (some g)
  | .empty o => s.begin o none
  | .move o src => match k with
    | .generator => moveGen s o src
    | .result => moveRes s o src
  | .assign o src tmp => match k with
    | .generator => assignGen s o src
    | .result => assignRes s o src tmp
  | .del o => dtor s o

/-- A sequence of calls respects the contract and leads from the initial state to `s` (`none`: undefined behaviour). -/
inductive Runs (k : Kind) : List Call → Option St → Prop where
  | nil : Runs k [] (some init)
  | snoc {cs : List Call} {s : St} {c : Call} : Runs k cs (some s) → allowed k s c = true → Runs k (cs ++ [c]) (call k s c)

end Verif.Owner
