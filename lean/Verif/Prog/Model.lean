import Verif.Compose.JointModel
import Verif.Result.Spec

/-!
# Programs: coroutines, sender expressions, and the operations of the library

`Verif/Result/Model.lean` is about `result<T>` coroutines; the senders that they await belong to the environment.
`Verif/Compose/JointModel.lean` is about sender expressions whose leaves are operations of synchronisation objects; the other
leaves, and the code that starts the expressions, belong to the environment. This file puts them together:

* A coroutine awaits a sender expression (a single operation, or a coroutine, is an expression that consists of one leaf). When
  `await_suspend` starts the operation (basic.hpp 142), the expression is started, on the same thread. When the expression completes,
  `set_value` of the receiver of the awaiter (basic.hpp 123-126) runs, on the thread that completes it and within the
  call that completes it: the coroutine continues there.
* A leaf of an expression is a coroutine, that is, a `result<T>` object. When `start()` of the leaf runs, it runs `start()` of the
  operation of the coroutine (result.hpp 292-303), on the same thread; when the coroutine has returned, `set_value` (301 and 307) runs
  the receiver of the algorithm.

So coroutines may await coroutines, to any depth, directly or through `race_and_cancel`, `when_all`, …; the tokens of
`race_and_cancel` may be handed to any coroutine, which may hand them to any operation.

Each step is a step of one of the two machines, or of both. Pending instructions of both machines are on the stacks of the same
threads. The conditions under which senders may complete (`Result.env`, `Tree.env`) are not assumed: if they do not hold, there
is a fault.

Simplifications: those of the models. A coroutine that calls a function of an object (`put()`, `cancel()`, …) between two
`co_await`s is a coroutine and a call that is made by somebody else at some time.
-/

namespace Verif.Prog

open Verif.Resolver (DS OpId EvId)
open Verif.Tree (Path Snd)
open Verif.Result (Id Body awaited)
open Verif.Joint (Glue JSt JInstr)

/-- What the awaited senders and the leaves are. The names of expressions and coroutines are not used by the code, so that it is
no restriction that the tables are fixed. -/
structure Wire (S : DS) (B : Body) where
  /-- Which operations of the library the leaves are. -/
  G : Glue S
  /-- The expression that sender `a` is (`Result.Cmd.await`). `none`: a sender of the user. -/
  expr : Nat → Option Snd
  /-- The number of the expression that coroutine `i` awaits when it awaits for the time number `k`, and this is sender `a`. -/
  root : Id → Nat → Nat → Nat
  /-- The `co_await` that an expression belongs to. `none`: it is not awaited by a coroutine. -/
  site : Nat → Option (Id × Nat × Nat)
  /-- The coroutine that leaf `p` is, with the initial state of its body. `none`: the leaf is not a coroutine. -/
  co : Path → Option (Id × B.S)
  /-- The leaf that a coroutine is. `none`: it is not a part of an expression. -/
  leaf : Id → Option Path
  root_site : ∀ i k a, (expr a).isSome → site (root i k a) = some (i, k, a)
  site_root : ∀ n i k a, site n = some (i, k, a) → root i k a = n ∧ (expr a).isSome
  co_leaf : ∀ p j b, co p = some (j, b) → leaf j = some p
  leaf_co : ∀ p j, leaf j = some p → ∃ b, co p = some (j, b)
  co_user : ∀ p x, co p = some x → G.op p = none

variable {S : DS} {B : Body}

abbrev PSt (S : DS) (B : Body) := Result.St B × JSt S
abbrev PInstr (S : DS) := Result.Instr ⊕ JInstr S

/-- What an instruction of a coroutine makes the expressions do: an awaited expression is started; a leaf completes. -/
def down (W : Wire S B) (t : Result.St B) : Result.Instr → Option (Joint.Act S)
  | .awStart i => match (awaited i t.log).getLast? with
    | some a => (W.expr a).map (fun E => .start (W.root i ((awaited i t.log).length - 1) a) E)
    | none => none
  | .setv j => match W.leaf j, t.obj j with
    | some p, some v => some (.finish p v)
    | _, _ => none
  | _ => none

/-- What an instruction of an expression makes the coroutines do: a leaf is started; an awaited expression completes. -/
def up (W : Wire S B) (q : JSt S) : JInstr S → Option (Result.Act B)
  | .inl (.begin p) => match q.1.snd p with
    | some .leaf => (W.co p).map (fun x => .start x.1 x.2)
    | _ => none
  | .inl (.setv [n] v) => (W.site n).map (fun x => .complete x.1 v)
  | _ => none

def exec (W : Wire S B) (s : PSt S B) : PInstr S → Bool → Out (PSt S B) (PInstr S)
  | .inl x, b =>
    match Result.exec s.1 x b with
    | .fault => .fault
    | .block => .block
    | .ok t ps =>
      match down W s.1 x with
      | none => .ok (t, s.2) (ps.map .inl)
      | some a =>
        match Joint.env W.G s.2 [] a with
        | none => .fault
        | some (q, qs) => .ok (t, q) (qs.map .inr ++ ps.map .inl)
  | .inr x, b =>
    match Joint.exec W.G s.2 x b with
    | .fault => .fault
    | .block => .block
    | .ok q qs =>
      match up W s.2 x with
      | none => .ok (s.1, q) (qs.map .inr)
      | some a =>
        match Result.env s.1 [] a with
        | none => .fault
        | some (t, ps) => .ok (t, q) (ps.map .inl ++ qs.map .inr)

inductive Act (S : DS) (B : Body) where
  /-- Connect and start a coroutine. -/
  | start (i : Id) (b : B.S)
  /-- A sender of the user that coroutine `i` awaits completes. -/
  | complete (i : Id) (v : Nat)
  /-- The user starts an expression, a sender of the user completes, or the user uses an object or an event. -/
  | code (a : Joint.Act S)

/-- What the user may do. Coroutines that are leaves are started by the algorithms only, and their leaves complete when they
return; awaited expressions are started by the coroutines only. -/
def userOk (W : Wire S B) : Joint.Act S → Bool
  | .start n _ => (W.site n).isNone
  | .finish p _ => (W.co p).isNone
  | .user _ => true

/-- The pending instructions of expressions and library. -/
def lib (acts : List (List (PInstr S))) : List (List (JInstr S)) :=
  acts.map (List.filterMap (fun x => match x with | .inl _ => none | .inr y => some y))

def env (W : Wire S B) (s : PSt S B) (acts : List (List (PInstr S))) : Act S B → Option (PSt S B × List (PInstr S))
  | .start i b =>
    if (W.leaf i).isSome then none
    else match Result.env s.1 [] (.start i b) with
      | none => none
      | some (t, ps) => some ((t, s.2), ps.map .inl)
  | .complete i v =>
    if (awaited i s.1.log).getLast?.bind W.expr |>.isSome then none
    else match Result.env s.1 [] (.complete i v) with
      | none => none
      | some (t, ps) => some ((t, s.2), ps.map .inl)
  | .code a =>
    if userOk W a then
      match Joint.env W.G s.2 (lib acts) a with
      | none => none
      | some (q, qs) => some ((s.1, q), qs.map .inr)
    else none

abbrev mach (W : Wire S B) : Mach := ⟨PSt S B, PInstr S, Act S B, exec W, env W⟩

/-- No coroutine, no expression, and the object is in state `d`. -/
def init (d : S.D) : PSt S B := (Result.init, Joint.init d)

abbrev PReach (W : Wire S B) (d : S.D) (c : Conf (mach W)) : Prop := Reach (mach W) (init d) c

end Verif.Prog
