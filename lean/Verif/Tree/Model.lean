import Verif.Base

/-!
# Sender algorithms (algorithm.hpp)

Any number of sender expressions, built from leaves and the algorithms of algorithm.hpp, nested arbitrarily. Leaves
belong to the environment: they complete at any time after they were started, on any thread, with any value (completing
inside `start()` is the schedule in which the starting thread does nothing else before the completion has returned).

An operation is identified by its path: `[t]` is the outermost operation of expression number `t`, and `k :: p` is the
child number `k` of `p` (`repeat_while`: the sender of iteration `k`). Calls of `start()` and `set_value()` are
instructions (two instructions each: the call, and what is done by the callee); what a function does after such a call
are the instructions below it on the stack of the thread.

User supplied functors are functions of the history, so that they may have any state.

Simplifications: `start_inline` (execution.hpp lines 63-77) always returns false, hence the branches for inline
completion are dead code and not modelled. All values are natural numbers (`void`: any number). Operations that are
constructed when their parent is connected (`transform`, `when_all`, `race_and_cancel`, `lambda`) are entered when
their parent is started. The counter `n_done_` of `race_and_cancel` is represented by the number of children that
are missing. For `transform`, `ite`, `let` and `lambda`, whose children share the receiver or the storage of
their parent, the completion of parent and child are two steps. Destruction is not explicit: an operation may be
destroyed as soon as its receiver is completed, together with all its children, and from then on every access to it is a
fault. A leaf does not access its operation after completing.
-/

namespace Verif.Tree

abbrev Path := List Nat

/-- Update of a function. -/
def updP {α : Type} (f : Path → α) (p : Path) (a : α) : Path → α := fun q => if q = p then a else f q

theorem updP_apply {α : Type} (f : Path → α) (p : Path) (a : α) (q : Path) :
    updP f p a q = if q = p then a else f q := rfl

inductive Ev where
  /-- `start()` of operation `p` is called. -/
  | start (p : Path)
  /-- `set_value(v)` of the receiver of operation `p` is called. -/
  | done (p : Path) (v : Nat)
  /-- The functor of `transform` operation `p` is called with `w` and returns `v`. -/
  | call (p : Path) (w v : Nat)
  /-- The functor of `invocable` operation `p` is called and returns `v`. -/
  | invoke (p : Path) (v : Nat)
  /-- The condition of `ite` or `repeat_while` operation `p` is evaluated for the time number `k`, with result `b`. -/
  | cond (p : Path) (k : Nat) (b : Bool)
  /-- The predicate of `let` operation `p` is evaluated with result `v`. -/
  | bind (p : Path) (v : Nat)
  /-- The cancellation event of child `p` of `race_and_cancel` is cancelled. -/
  | cancel (p : Path)
deriving DecidableEq

/-- Sender expressions. `seq n f`, `all n f` and `race n f` have the `n + 1` senders `f 0 … f n`. -/
inductive Snd where
  /-- A sender of the environment. -/
  | leaf
  /-- `invocable(f)`, lines 35-55. -/
  | inv (f : List Ev → Nat)
  /-- `transform(s, f)`, lines 82-173. -/
  | xform (s : Snd) (f : List Ev → Nat → Nat)
  /-- `ite(c, a, b)`, lines 180-243. -/
  | ite (c : List Ev → Bool) (a b : Snd)
  /-- `let(g, f)`, lines 450-508. -/
  | letS (g : List Ev → Nat) (f : Nat → Snd)
  /-- `lambda(…)(…)`, lines 754-802. -/
  | lam (s : Snd)
  /-- `sequence(…)`, lines 514-660. -/
  | seq (n : Nat) (f : Nat → Snd)
  /-- `repeat_while(c, f)`, lines 251-330. -/
  | rep (c : List Ev → Bool) (f : List Ev → Snd)
  /-- `when_all(…)`, lines 667-748. -/
  | all (n : Nat) (f : Nat → Snd)
  /-- `race_and_cancel(…)`, lines 336-443. -/
  | race (n : Nat) (f : Nat → Snd)

inductive Phase where
  /-- Not constructed. -/
  | none
  /-- Constructed. -/
  | conn
  | started
  /-- The receiver was completed. -/
  | done
deriving DecidableEq

inductive Instr where
  /-- Call of `start()` of operation `p`. -/
  | start (p : Path)
  /-- The body of `start()`. -/
  | begin (p : Path)
  /-- Operation `p` calls `set_value(v)` of its receiver. -/
  | setv (p : Path) (v : Nat)
  /-- The body of that `set_value`. -/
  | recv (p : Path) (v : Nat)
  /-- `repeat_while`: `loop_`, lines 269-278, iteration number `k`, and what its callers do if it returns true (lines
  263 and 288). -/
  | loop (p : Path) (k : Nat)
  /-- `when_all`: lines 709-712, after all children were started. -/
  | trail (p : Path)
  /-- `race_and_cancel`: line 367, cancelling child `j`. -/
  | cancel (p : Path) (j : Nat)
deriving DecidableEq

structure St where
  snd : Path → Option Snd
  phase : Path → Phase
  /-- The child that was constructed in `box_` / `op_` and has not completed (not used by the code). -/
  cur : Path → Option Nat
  /-- Children numbered `nx p` and above were not constructed so far. -/
  nx : Path → Nat
  /-- `ctr_` of `when_all`; `n + 1 - n_done_` of `race_and_cancel` (0 before the operation is started). -/
  ctr : Path → Nat
  /-- The leaf is going to be completed by the environment. -/
  rdy : Path → Bool
  log : List Ev

def init : St :=
  ⟨fun _ => none, fun _ => .none, fun _ => none, fun _ => 0, fun _ => 0, fun _ => false, []⟩

/-- Neither the operation nor one of those it is a part of is destroyed. -/
def alive (s : St) : Path → Bool
  | [] => true
  | k :: q => s.phase (k :: q) != .done && alive s q

/-- Append to the history. -/
def St.ev (s : St) (e : Ev) : St := { s with log := s.log ++ [e] }

/-- Construct operation `k :: q` in the box of `q`. -/
def St.box (s : St) (q : Path) (k : Nat) (S : Snd) : St :=
  { s with snd := updP s.snd (k :: q) (some S), phase := updP s.phase (k :: q) .conn,
           cur := updP s.cur q (some k), nx := updP s.nx q (k + 1) }

/-- `p` is one of the children `0 … n` of `q`. -/
def isKid (q : Path) (n : Nat) (p : Path) : Prop := p.tail = q ∧ p ≠ [] ∧ p.headD 0 ≤ n

instance (q : Path) (n : Nat) (p : Path) : Decidable (isKid q n p) := by unfold isKid; infer_instance

/-- Construct operations `0 :: q … n :: q`. -/
def St.kids (s : St) (q : Path) (n : Nat) (f : Nat → Snd) : St :=
  { s with snd := fun p => if isKid q n p then some (f (p.headD 0)) else s.snd p
           phase := fun p => if isKid q n p then .conn else s.phase p
           nx := updP s.nx q (n + 1), ctr := updP s.ctr q (n + 1) }

def starts (q : Path) (n : Nat) : List Instr := (List.range (n + 1)).map (fun k => .start (k :: q))

def cancels (q : Path) (n k : Nat) : List Instr :=
  ((List.range (n + 1)).filter (fun j => j ≠ k)).map (fun j => .cancel q j)

def exec (s : St) : Instr → Bool → Out St Instr
  | .start p, _ =>
    if alive s p = false ∨ s.phase p ≠ .conn then .fault
    else .ok { s with phase := updP s.phase p .started, log := s.log ++ [.start p] } [.begin p]
  | .begin p, _ =>
    if alive s p = false then .fault
    else match s.snd p with
    | none => .fault
    | some .leaf => .ok { s with rdy := updP s.rdy p true } []
    | some (.inv f) => .ok (s.ev (.invoke p (f s.log))) [.setv p (f s.log)]
    | some (.xform S _) => .ok (s.box p 0 S) [.start (0 :: p)]
    | some (.ite c a b) =>
      if c s.log then .ok ((s.ev (.cond p 0 true)).box p 0 a) [.start (0 :: p)]
      else .ok ((s.ev (.cond p 0 false)).box p 1 b) [.start (1 :: p)]
    | some (.letS g f) =>
      .ok ((s.ev (.bind p (g s.log))).box p 0 (f (g s.log))) [.start (0 :: p)]
    | some (.lam S) => .ok (s.box p 0 S) [.start (0 :: p)]
    | some (.seq _ f) => .ok (s.box p 0 (f 0)) [.start (0 :: p)]
    | some (.rep _ _) => .ok s [.loop p 0]
    | some (.all n f) => .ok (s.kids p n f) (starts p n ++ [.trail p])
    | some (.race n f) => .ok (s.kids p n f) (starts p n)
  | .setv p v, _ =>
    if alive s p = false ∨ s.phase p ≠ .started then .fault
    else .ok { s with phase := updP s.phase p .done, cur := updP s.cur p.tail none, log := s.log ++ [.done p v] } [.recv p v]
  | .recv [] _, _ => .fault
  | .recv [_] _, _ => .ok s []
  | .recv (k :: i :: q) v, _ =>
    if alive s (i :: q) = false then .fault
    else match s.snd (i :: q) with
    | none | some .leaf | some (.inv _) => .fault
    | some (.xform _ f) =>
      .ok { s with log := s.log ++ [.call (i :: q) v (f s.log v)] }
        [.setv (i :: q) (f s.log v)]
    | some (.ite _ _ _) | some (.letS _ _) | some (.lam _) =>
      .ok s [.setv (i :: q) v]
    | some (.seq n f) =>
      if k = n then .ok s [.setv (i :: q) v]
      else .ok (s.box (i :: q) (k + 1) (f (k + 1))) [.start ((k + 1) :: i :: q)]
    | some (.rep _ _) => .ok s [.loop (i :: q) (k + 1)]
    | some (.all _ _) =>
      if s.ctr (i :: q) = 0 then .fault
      else .ok { s with ctr := updP s.ctr (i :: q) (s.ctr (i :: q) - 1) }
        (if s.ctr (i :: q) = 1 then [.setv (i :: q) 0] else [])
    | some (.race n _) =>
      if s.ctr (i :: q) = 0 then .fault
      else .ok { s with ctr := updP s.ctr (i :: q) (s.ctr (i :: q) - 1) }
        ((if s.ctr (i :: q) = n + 1 then cancels (i :: q) n k else []) ++
          (if s.ctr (i :: q) = 1 then [.setv (i :: q) 0] else []))
  | .loop p k, _ =>
    match s.snd p with
    | some (.rep c f) =>
      if alive s p = false then .fault
      else if c s.log then
        .ok ((s.ev (.cond p k true)).box p k (f (s.log ++ [.cond p k true]))) [.start (k :: p)]
      else .ok (s.ev (.cond p k false)) [.setv p 0]
    | _ => .fault
  | .trail p, _ => if alive s p = false ∨ s.ctr p = 0 then .fault else .ok s []
  | .cancel p j, _ => if alive s p = false then .fault else .ok (s.ev (.cancel (j :: p))) []

inductive Act where
  | start (t : Nat) (S : Snd)
  | finish (p : Path) (v : Nat)

/-- Contract: an expression is connected and started once; a leaf completes once, after it was started. -/
def env (s : St) (_ : List (List Instr)) : Act → Option (St × List Instr)
  | .start t S =>
    if s.phase [t] = .none then
      some ({ s with snd := updP s.snd [t] (some S), phase := updP s.phase [t] .conn }, [.start [t]])
    else none
  | .finish p v =>
    if s.rdy p then some ({ s with rdy := updP s.rdy p false }, [.setv p v]) else none

abbrev mach : Mach := ⟨St, Instr, Act, exec, env⟩

end Verif.Tree
