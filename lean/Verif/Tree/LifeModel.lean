import Verif.Tree.Model

/-!
# Lifetimes of operation objects (algorithm.hpp)

The machine of Verif/Tree/Model.lean says which functions of operations are called in which order. This file adds the
objects: where the code constructs and destroys the operation objects of child senders, and which objects each function
accesses. `LMem` is the memory: the objects that exist, and the contents of the members `then_op_`, `else_op_`, `op_` and
`box_` in which operations are constructed by hand.

Constructing an object over an existing one, destroying an object that does not exist, access to an object that does not
exist, and a failing assertion of `frg::manual_box` (construction in a box that is full, destruction of the contents of an
empty box) set `bad`.

Simplifications: `transform` has no operation of its own (its `connect` returns the operation of the inner sender); it is
modelled as an object that contains the inner one. Senders, receivers and functors are not separate objects: they belong to
the operation they are stored in. The user destroys the outermost operation at any time after its receiver was completed
(while the receiver runs, or later). Destruction of an operation that was never started is treated apart, in
Verif/Tree/LifeProps.lean.
-/

namespace Verif.Tree

structure LMem where
  /-- The objects within their lifetime. -/
  live : Path → Bool
  /-- Which child the box of an operation contains: `then_op_` (child 0) or `else_op_` (child 1) of `ite` (algorithm.hpp
  213-214), `box_` of `repeat_while` (303), `op_` of `let` (478), `box_` of `sequence` (640). -/
  box : Path → Option Nat
  /-- `imm_` of `let` (476). -/
  imm : Path → Nat
  bad : Bool

namespace LMem

def init : LMem := ⟨fun _ => false, fun _ => none, fun _ => 0, false⟩

/-- Access to object `p`. -/
def use (m : LMem) (p : Path) : LMem := { m with bad := m.bad || !m.live p }

/-- The lifetime of object `p` begins; boxes are empty. -/
def birth (m : LMem) (p : Path) : LMem :=
  { m with live := updP m.live p true, box := updP m.box p none, imm := updP m.imm p 0, bad := m.bad || m.live p }

/-- The lifetime of object `p` ends. -/
def kill (m : LMem) (p : Path) : LMem := { m with live := updP m.live p false, bad := m.bad || !m.live p }

end LMem

/-- `g n`, …, `g 0`. -/
def each (g : Nat → LMem → LMem) : Nat → LMem → LMem
  | 0, m => g 0 m
  | n + 1, m => each g n (g (n + 1) m)

/-- Constructors of operations. `when_all` (algorithm.hpp 696-699) and `race_and_cancel` (403-404) construct the operations
of all senders, `transform` (130-133, 153-156) and `lambda` (756-757) that of their sender. The others construct nothing:
`invocable` 35-55, `ite` 183-185, `repeat_while` 255-256, `let` 457-458, `sequence` 517-518. -/
def ctor : Snd → Path → LMem → LMem
  | .leaf, p, m | .inv _, p, m | .ite _ _ _, p, m | .letS _ _, p, m | .seq _ _, p, m | .rep _ _, p, m => m.birth p
  | .xform S _, p, m | .lam S, p, m => ctor S (0 :: p) (m.birth p)
  | .all n f, p, m | .race n f, p, m => each (fun k => ctor (f k) (k :: p)) n (m.birth p)

/-- Destructors. `ite` (algorithm.hpp 191-196) destroys the contents of its boxes, if any. `let` (463-465) destroys the contents
of its box, which asserts that the box is full. `sequence` and `repeat_while` have no destructor, and their boxes do not
destroy what they contain. Tuples of operations are destroyed back to front. -/
def dtor : Snd → Path → LMem → LMem
  | .leaf, p, m | .inv _, p, m | .seq _ _, p, m | .rep _ _, p, m => m.kill p
  | .xform S _, p, m | .lam S, p, m => (dtor S (0 :: p) m).kill p
  | .ite _ a b, p, m =>
    let m1 := if m.box p = some 0 then dtor a (0 :: p) m else m
    let m2 := if m1.box p = some 1 then dtor b (1 :: p) m1 else m1
    m2.kill p
  | .letS _ f, p, m =>
    if m.box p = some 0 then (dtor (f (m.imm p)) (0 :: p) m).kill p else { m.kill p with bad := true }
  | .all n f, p, m | .race n f, p, m => (each (fun k => dtor (f k) (k :: p)) n m).kill p

namespace LMem

/-- `construct_with`, or placement new in the box of a `sequence`: the box must be empty. -/
def put (m : LMem) (q : Path) (k : Nat) (S : Snd) : LMem :=
  ctor S (k :: q) { m with box := updP m.box q (some k), bad := m.bad || (m.box q).isSome }

/-- `destruct()`, or the call of the destructor in `sequence`: the box must contain child `k`. -/
def take (m : LMem) (q : Path) (k : Nat) (S : Snd) : LMem :=
  let m1 := dtor S (k :: q) { m with bad := m.bad || decide (m.box q ≠ some k) }
  { m1 with box := updP m1.box q none }

end LMem

/-- What instruction `x` does to the objects. Functions of an operation access the operation (`use`); a receiver is a part
of the operation that completes it, and accesses the parent through a pointer. -/
def life (s : St) (m : LMem) : Instr → LMem
  | .start p => m.use p
  | .begin p =>
    match s.snd p with
    | some (.ite c a b) =>
      -- lines 198-210
      if c s.log then (m.use p).put p 0 a else (m.use p).put p 1 b
    | some (.letS g f) =>
      -- lines 468-472
      { m.use p with imm := updP m.imm p (g s.log) }.put p 0 (f (g s.log))
    | some (.seq _ f) =>
      -- lines 524-526, 534-539
      (m.use p).put p 0 (f 0)
    | _ => m.use p
  | .setv p _ => m.use p
  | .recv [] _ => m
  | .recv [_] _ => m
  | .recv (k :: i :: q) _ =>
    match s.snd (i :: q) with
    | some (.seq n f) =>
      -- lines 588-624: the receiver is read, then destroyed; `s` is the parent
      let m1 := ((m.use (k :: i :: q)).take (i :: q) k (f k)).use (i :: q)
      if k = n then m1 else m1.put (i :: q) (k + 1) (f (k + 1))
    | some (.rep _ _) =>
      -- lines 284-286
      match s.snd (k :: i :: q) with
      | some S => ((m.use (k :: i :: q)).take (i :: q) k S).use (i :: q)
      | none => { m with bad := true }
    | _ => (m.use (k :: i :: q)).use (i :: q)
  | .loop p k =>
    match s.snd p with
    | some (.rep c f) =>
      -- lines 270-273
      if c s.log then (m.use p).put p k (f (s.log ++ [.cond p k true])) else m.use p
    | _ => m.use p
  | .trail p => m.use p
  | .cancel p _ => m.use p

/-- What a step does to the objects. -/
def LMem.next (m : LMem) (c : Conf mach) : Lbl mach → LMem
  | .env (.start t S) => ctor S [t] m
  | .env (.finish _ _) => m
  | .run k _ =>
    match c.acts[k]? with
    | some (x :: _) => life c.sh m x
    | _ => m

/-- Executions with objects. The user destroys the outermost operation of an expression at most once, at any time after it
has completed. -/
inductive LReach : Conf mach → LMem → Prop where
  | init : LReach (mach.init init) .init
  | step {c c' : Conf mach} {m : LMem} {l : Lbl mach} : LReach c m → mach.step c l = some c' → LReach c' (m.next c l)
  | destroy {c : Conf mach} {m : LMem} {t v : Nat} {S : Snd} : LReach c m → .done [t] v ∈ c.sh.log →
      c.sh.snd [t] = some S → m.live [t] = true → LReach c (dtor S [t] m)

theorem LReach.reach {c : Conf mach} {m : LMem} (h : LReach c m) : Reach mach Tree.init c := by
  induction h with
  | init => exact .init
  | step _ hs ih => exact .step ih hs
  | destroy _ _ _ _ ih => exact ih

end Verif.Tree
