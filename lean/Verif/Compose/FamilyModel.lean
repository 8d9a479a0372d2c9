import Verif.Resolver.Model

/-!
# Several synchronisation objects that share cancellation events

`Verif/Resolver/Model.lean` is about one object (one queue, one event, …) whose operations may use any number of
`cancellation_event`s. Programs use many objects, and the operations of different objects may be given tokens of the same
event: `cancel()` (cancellation.hpp lines 336-346) then walks over a list of resolvers that belong to different objects.
`fam own S` is the collection of the objects `S 0, S 1, …`, as one data structure for that machine. Each function runs the
function of one of the objects. `own i` is the object that operation number `i` belongs to; the numbers are names that the
code does not use, so that it is no restriction that `own` is fixed.
-/

namespace Verif.Resolver

/-- Replace the state of object number `n`. -/
def updD {S : Nat → DS} (d : ∀ n, (S n).D) (n : Nat) (x : (S n).D) : ∀ n, (S n).D :=
  fun m => if h : m = n then h ▸ x else d m

/-- What follows after an instruction of object `n`. -/
def next {S : Nat → DS} (n : Nat) : OpId ⊕ (S n).I → OpId ⊕ Σ n, (S n).I
  | .inl i => .inl i
  | .inr z => .inr ⟨n, z⟩

/-- All objects together. -/
def fam (own : OpId → Nat) (S : Nat → DS) : DS where
  D := ∀ n, (S n).D
  I := Σ n, (S n).I
  V := Σ n, (S n).V
  E := Σ n, (S n).E
  P := Σ n, (S n).P
  admit d i p :=
    if p.1 = own i then
      match (S p.1).admit (d p.1) i p.2 with
      | some x => some (updD d p.1 x)
      | none => none
    else none
  start d i b :=
    match (S (own i)).start (d (own i)) i b with
    | some (x, r, es) => some (updD d (own i) x, r.map (fun v => ⟨own i, v⟩), es.map (fun e => ⟨own i, e⟩))
    | none => none
  tryCancel d i :=
    match (S (own i)).tryCancel (d (own i)) i with
    | some (x, r, es) => some (updD d (own i) x, r, es.map (fun e => ⟨own i, e⟩))
    | none => none
  val d i := ⟨own i, (S (own i)).val (d (own i)) i⟩
  fin d i := updD d (own i) ((S (own i)).fin (d (own i)) i)
  call d x :=
    match (S x.1).call (d x.1) x.2 with
    | some y => some (updD d x.1 y)
    | none => none
  exec d x b :=
    match (S x.1).exec (d x.1) x.2 b with
    | some (y, ps, es) => some (updD d x.1 y, ps.map (next x.1), es.map (fun e => ⟨x.1, e⟩))
    | none => none

/-- The part of a value, event or instruction that belongs to object `n`. -/
def part {F : Nat → Type} (n : Nat) (x : Σ n, F n) : Option (F n) :=
  if h : x.1 = n then some (h ▸ x.2) else none

/-- What object `n` sees of an event. Cancellations are seen by all objects. -/
def evPart {own : OpId → Nat} {S : Nat → DS} (n : Nat) : Ev (fam own S) → Option (Ev (S n))
  | .begin i ct p => (part n p).map (.begin i ct)
  | .done i v => (part n v).map (.done i)
  | .cancel e => some (.cancel e)
  | .reset e => some (.reset e)
  | .ds x => (part n x).map .ds

/-- The history of object `n`. -/
def history {own : OpId → Nat} {S : Nat → DS} (n : Nat) (log : List (Ev (fam own S))) : List (Ev (S n)) :=
  log.filterMap (evPart n)

/-- The instruction, if it concerns object `n`. -/
def instrPart {own : OpId → Nat} {S : Nat → DS} (n : Nat) : Instr (fam own S) → Option (Instr (S n))
  | .start i => if own i = n then some (.start i) else none
  | .setFast i v => (part n v).map (.setFast i)
  | .listen i => if own i = n then some (.listen i) else none
  | .register i => if own i = n then some (.register i) else none
  | .tryCancel i b => if own i = n then some (.tryCancel i b) else none
  | .transition i b => if own i = n then some (.transition i b) else none
  | .unregister i => if own i = n then some (.unregister i) else none
  | .resume i => if own i = n then some (.resume i) else none
  | .complete i => if own i = n then some (.complete i) else none
  | .cancel e => some (.cancel e)
  | .ds x => (part n x).map .ds

/-- What object `n` sees of the running calls. -/
def calls {own : OpId → Nat} {S : Nat → DS} (n : Nat) (acts : List (List (Instr (fam own S)))) : List (List (Instr (S n))) :=
  acts.map (List.filterMap (instrPart n))

end Verif.Resolver
