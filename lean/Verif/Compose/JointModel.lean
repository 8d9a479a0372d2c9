import Verif.Tree.Model
import Verif.Resolver.Facts

/-!
# Sender expressions over the operations of the library

`Verif/Tree/Model.lean` is about the algorithms of algorithm.hpp; the leaves of its expressions belong to the environment.
`Verif/Resolver/Model.lean` is about synchronisation objects; the code that starts their operations belongs to the
environment. This file puts the two together: leaves are operations such as `queue::async_get`, `wait_group::async_wait`,
`oneshot_event::wait`, started by the algorithms, and their completions call the receivers of the algorithms. `S` is the
object, or a collection of objects (`fam`, `Verif/Compose/FamilyModel.lean`).

* When `start()` of a leaf runs, it runs `start()` of the operation (execution.hpp 46-61), on the same thread.
* When the operation completes, `set_value` runs the receiver of the algorithm, on the thread that completes it and within
  the call that completes it (`start()`, `put()`, `done()`, `raise()`, `cancel()`, …).
* `cs_[j].cancel()` of `race_and_cancel` (algorithm.hpp 365-369) is `cancellation_event::cancel()`. The tokens of `cs_`
  (398) may be given to any operation.

Each step is a step of one of the two machines, or of both. Pending instructions of both machines are on the stacks of the same
threads. The conditions under which a leaf may complete (`Tree.env`) are not assumed: if they do not hold, there is a fault.

Simplifications: those of the two models. The user calls neither `cancel()` nor `reset()` on the events of a `race_and_cancel`,
which are private members.
-/

namespace Verif.Joint

open Verif.Resolver (DS RSt OpId EvId completions cancelled)
open Verif.Tree (Path Snd)

/-- Which operations the leaves are. The names of operations and events are not used by the code, so that it is no restriction
that the table is fixed. -/
structure Glue (S : DS) where
  /-- The operation that leaf `p` is, with the token and the parameter that it is created with. `none`: the leaf is a sender
  of the user. -/
  op : Path → Option (OpId × Option EvId × S.P)
  /-- The leaf that an operation is. `none`: the operation is not a part of an expression. -/
  leaf : OpId → Option Path
  /-- The event `cs_[j]` (algorithm.hpp 428) of `race_and_cancel` operation `p` has the number `ev (j :: p)`. -/
  ev : Path → EvId
  /-- The events that are members of `race_and_cancel` operations. -/
  priv : EvId → Bool
  /-- What the algorithms see of the value of an operation. -/
  val : S.V → Nat
  op_leaf : ∀ p i ct a, op p = some (i, ct, a) → leaf i = some p
  leaf_op : ∀ p i, leaf i = some p → ∃ ct a, op p = some (i, ct, a)
  ev_priv : ∀ p, priv (ev p) = true

variable {S : DS}

abbrev JSt (S : DS) := Tree.St × RSt S
abbrev JInstr (S : DS) := Tree.Instr ⊕ Resolver.Instr S

/-- Calls from the algorithms to the library: `start()` of an operation, `cancel()` of an event. -/
inductive Down (S : DS) where
  | start (i : OpId) (ct : Option EvId) (a : S.P)
  | cancel (e : EvId)

/-- The call made by an instruction of an algorithm. -/
def down (G : Glue S) (t : Tree.St) : Tree.Instr → Option (Down S)
  | .begin p => match t.snd p with
    | some .leaf => (G.op p).map (fun x => .start x.1 x.2.1 x.2.2)
    | _ => none
  | .cancel p j => some (.cancel (G.ev (j :: p)))
  | _ => none

/-- The instruction calls `set_value(v)` of operation `i`. -/
def completes (r : RSt S) : Resolver.Instr S → Option (OpId × S.V)
  | .setFast i v => some (i, v)
  | .resume i => some (i, S.val r.d i)
  | _ => none

/-- `block`: the program does not keep the contract of the object when it starts the operation (`admit`); such programs are not
considered. -/
def exec (G : Glue S) (s : JSt S) : JInstr S → Bool → Out (JSt S) (JInstr S)
  | .inl x, b =>
    match Tree.exec s.1 x b with
    | .fault => .fault
    | .block => .block
    | .ok t ps =>
      match down G s.1 x with
      | none => .ok (t, s.2) (ps.map .inl)
      | some (.cancel e) => .ok (t, s.2) (.inr (.cancel e) :: ps.map .inl)
      | some (.start i ct a) =>
        if s.2.started i then .fault
        else match Resolver.env s.2 [] (.newOp i ct a) with
          | none => .block
          | some (r, qs) => .ok (t, r) (qs.map .inr ++ ps.map .inl)
  | .inr x, b =>
    match Resolver.exec s.2 x b with
    | .fault => .fault
    | .block => .block
    | .ok r qs =>
      match completes s.2 x with
      | none => .ok (s.1, r) (qs.map .inr)
      | some (i, v) =>
        match G.leaf i with
        | none => .ok (s.1, r) (qs.map .inr)
        | some p =>
          match Tree.env s.1 [] (.finish p (G.val v)) with
          | none => .fault
          | some (t, ps) => .ok (t, r) (ps.map .inl ++ qs.map .inr)

inductive Act (S : DS) where
  /-- Connect and start an expression. -/
  | start (n : Nat) (E : Snd)
  /-- A sender of the user completes. -/
  | finish (p : Path) (v : Nat)
  /-- The user uses the object or an event. -/
  | user (a : Resolver.Act S)

/-- What the user may do. Operations that are leaves are started by the algorithms only. -/
def userOk (G : Glue S) : Resolver.Act S → Bool
  | .newOp i _ _ => (G.leaf i).isNone
  | .cancel e | .reset e => !G.priv e
  | .call _ => true

/-- The pending instructions of the library. -/
def lib (acts : List (List (JInstr S))) : List (List (Resolver.Instr S)) :=
  acts.map (List.filterMap (fun x => match x with | .inl _ => none | .inr y => some y))

def env (G : Glue S) (s : JSt S) (acts : List (List (JInstr S))) : Act S → Option (JSt S × List (JInstr S))
  | .start n E => match Tree.env s.1 [] (.start n E) with
    | none => none
    | some (t, ps) => some ((t, s.2), ps.map .inl)
  | .finish p v =>
    if (G.op p).isSome then none
    else match Tree.env s.1 [] (.finish p v) with
      | none => none
      | some (t, ps) => some ((t, s.2), ps.map .inl)
  | .user a =>
    if userOk G a then
      match Resolver.env s.2 (lib acts) a with
      | none => none
      | some (r, qs) => some ((s.1, r), qs.map .inr)
    else none

abbrev mach (G : Glue S) : Mach := ⟨JSt S, JInstr S, Act S, exec G, env G⟩

/-- No expression, and the object is in state `d`. -/
def init (d : S.D) : JSt S := (Tree.init, RSt.init d)

abbrev JReach (G : Glue S) (d : S.D) (c : Conf (mach G)) : Prop := Reach (mach G) (init d) c

end Verif.Joint
