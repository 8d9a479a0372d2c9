import Verif.Base

/-!
# What the algorithms hand to the user's functors: lifetimes

algorithm.hpp: `let` (lines 449-478), `lambda` (754-766), `race_and_cancel` (354-430), `repeat_while` (251-300). These algorithms call
functors of the user, which return senders, and give them references: to the variable of `let`, to the arguments of `lambda`, to the
`cancellation_event`s of `race_and_cancel` (through tokens). A functor that is a coroutine lambda also refers to its own closure
object. The operations that are made from the senders may use all of these.

One operation object of one of the algorithms is connected, started, and destroyed. Constructors, the part of `start()` that makes
operations, and destructors each are one step: before `start()` and after the completion no other code has access to the
operation object. (`repeat_while`: the step from one operation to the next is one step.) What the functors, the operations and
their destructors use is given by a table (`Beh`); it is recorded in the history, whether the object is alive or not.
-/

namespace Verif.Handout

/-- `race n`: `n + 1` functors. -/
inductive Alg where
  | letA
  | lam
  | rep
  | race (n : Nat)
deriving DecidableEq

inductive Obj where
  /-- The closure object of functor number `k`: `func_` (474), `fn_` (764), `factory_` (297), `fs` (350). -/
  | fn (k : Nat)
  /-- The arguments of `lambda(f)(args…)` that are not lvalues. -/
  | arg
  /-- `imm_` (475). -/
  | imm
  /-- `cs_[k]` (428). -/
  | ev (k : Nat)
deriving DecidableEq

/-- When a user's code may use an object. -/
inductive Point where
  /-- When the functor is called to make the sender. -/
  | make
  /-- When the sender is connected. -/
  | conn
  /-- While the operation runs. -/
  | run
  /-- When the operation is destroyed. -/
  | del
deriving DecidableEq

inductive Ev where
  /-- The lifetime of the object begins. -/
  | ctor (o : Obj)
  /-- The lifetime of the object ends. -/
  | dtor (o : Obj)
  /-- Functor, sender or operation number `k` uses the object. -/
  | use (k : Nat) (o : Obj)
deriving DecidableEq

/-- Which objects the user's code uses, when, and in which of the functors, senders and operations. -/
abbrev Beh := Point → Nat → Obj → Bool

/-- The objects that functor number `k` and what is made from it have references to. `repeat_while` calls the same functor for all
iterations. -/
def hand : Alg → Nat → List Obj
  | .letA, _ => [.fn 0, .imm]
  | .lam, _ => [.fn 0, .arg]
  | .rep, _ => [.fn 0]
  | .race _, k => [.ev k, .fn k]

def uses (A : Alg) (B : Beh) (p : Point) (k : Nat) : List Ev := ((hand A k).filter (B p k)).map (.use k)

/-- The numbers `0 … n`. -/
def upto (n : Nat) : List Nat := List.range (n + 1)

/-- Connecting the sender. `let`, lines 455-456: the members are constructed in the order of lines 473-477. `lambda`, 756-757: `args` is a parameter;
`fn_` is constructed first, then the functor is called and the sender is connected (`op_`), then the constructor
returns, and the parameter is destroyed. `repeat_while`, 255-256. `race_and_cancel`, 393-405: the sender `s` with its functors is a
parameter of `make_operations_tuple`, which is called to initialise `ops_` (427); `cs_` (428) is constructed after that. (C++ lets
an implementation destroy a parameter when the function returns or at the end of the full expression; the model takes the former.) -/
def connectEvs (B : Beh) : Alg → List Ev
  | .letA => [.ctor (.fn 0), .ctor .imm]
  | .lam => [.ctor .arg, .ctor (.fn 0)] ++ uses .lam B .make 0 ++ uses .lam B .conn 0 ++ [.dtor .arg]
  | .rep => [.ctor (.fn 0)]
  | .race n => (upto n).map (fun k => .ctor (.fn k)) ++ (upto n).flatMap (uses (.race n) B .make) ++
      (upto n).map (fun k => .dtor (.fn k)) ++ (upto n).flatMap (uses (.race n) B .conn) ++ (upto n).map (fun k => .ctor (.ev k))

/-- Make and connect a sender in `start()`: `let`, lines 467-471; `repeat_while`, 270-274. -/
def makeEvs (A : Alg) (B : Beh) (k : Nat) : List Ev := uses A B .make k ++ uses A B .conn k

/-- The destructor. Members are destroyed in the reverse order of their declaration. `let`, 462-464: the body of the destructor
destroys the operation first. `repeat_while`: the operation in the box was destroyed when it completed. -/
def destroyEvs (B : Beh) : Alg → List Ev
  | .letA => uses .letA B .del 0 ++ [.dtor .imm, .dtor (.fn 0)]
  | .lam => uses .lam B .del 0 ++ [.dtor (.fn 0)]
  | .rep => [.dtor (.fn 0)]
  | .race n => (upto n).reverse.map (fun k => .dtor (.ev k)) ++ (upto n).reverse.flatMap (uses (.race n) B .del)

inductive Stage where
  | raw
  | conn
  | run
  | gone
deriving DecidableEq

structure St where
  stage : Stage
  /-- `repeat_while`: the iteration that runs. -/
  cur : Option Nat
  /-- The operations that have completed. -/
  fin : Nat → Bool
  log : List Ev

def init : St := ⟨.raw, none, fun _ => false, []⟩

inductive Act where
  | connect
  /-- `b`: what the condition of `repeat_while` says. -/
  | start (b : Bool)
  /-- Operation `k` uses an object. -/
  | touch (k : Nat) (o : Obj)
  /-- Operation `k` completes. -/
  | finish (k : Nat) (b : Bool)
  | destroy
deriving DecidableEq

/-- The number of operations that run at the same time, except for `repeat_while`. -/
def width : Alg → Nat
  | .race n => n + 1
  | _ => 1

/-- Operation `k` exists and was started. -/
def live (A : Alg) (s : St) (k : Nat) : Bool :=
  match A with
  | .rep => s.cur == some k
  | A => s.stage == .run && decide (k < width A)

/-- All operations have completed. -/
def idle (A : Alg) (s : St) : Bool :=
  match A with
  | .rep => s.cur == none
  | A => (List.range (width A)).all s.fin

/-- Contract: an operation object is started once, and destroyed if it has completed or was never started (`let`: if it has completed,
see C71). -/
def step (A : Alg) (B : Beh) (s : St) : Act → Option St
  | .connect => if s.stage = .raw then some { s with stage := .conn, log := s.log ++ connectEvs B A } else none
  | .start b =>
    if s.stage = .conn then
      match A with
      | .letA => some { s with stage := .run, log := s.log ++ makeEvs A B 0 }
      | .rep => if b then some { s with stage := .run, cur := some 0, log := s.log ++ makeEvs A B 0 } else some { s with stage := .run }
      | _ => some { s with stage := .run }
    else none
  | .touch k o => if live A s k ∧ o ∈ hand A k ∧ B .run k o then some { s with log := s.log ++ [.use k o] } else none
  | .finish k b =>
    if live A s k ∧ s.fin k = false then
      match A with
      | .rep =>
        if b then some { s with cur := some (k + 1), fin := upd s.fin k true, log := s.log ++ uses A B .del k ++ makeEvs A B (k + 1) }
        else some { s with cur := none, fin := upd s.fin k true, log := s.log ++ uses A B .del k }
      | _ => some { s with fin := upd s.fin k true }
    else none
  | .destroy =>
    if (s.stage = .conn ∧ A ≠ .letA) ∨ (s.stage = .run ∧ idle A s = true) then
      some { s with stage := .gone, log := s.log ++ destroyEvs B A }
    else none

def run (A : Alg) (B : Beh) : St → List Act → Option St
  | s, [] => some s
  | s, a :: l => match step A B s a with
    | some s' => run A B s' l
    | none => none

end Verif.Handout
