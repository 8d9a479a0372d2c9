import Verif.Base

/-!
# Type erasure: `any_receiver` (basic.hpp 196-244), `callback` (basic.hpp 253-290), `run_queue_item::arm` (311-315)

An object of a class is a sequence of bytes. The code of a class (call operator, `set_value`) gets the bytes and an
argument and gives new bytes and a result; results stand for everything that is observable. Both templates
store the bytes of an object in storage of the size of a pointer, together with a pointer to a function that knows the
class. Alignment is left out. Programs are sequences of operations on variables.
-/

namespace Verif.Erase

abbrev Byte := Nat

/-- `sizeof(void *)`. -/
def word : Nat := 8

/-- A trivially copyable class: `sizeof` and what a call does. -/
structure Cls (α β : Type) where
  size : Nat
  call : List Byte → α → List Byte × β

/-- Calls do not change the size of an object. -/
def Cls.Ok {α β : Type} (c : Cls α β) : Prop := ∀ o a, (c.call o a).1.length = o.length

variable {α β : Type}

/-- A functor or receiver of the user. -/
structure Obj (α β : Type) where
  cls : Cls α β
  bytes : List Byte

/-- Contents of memory, starting at the address of the storage (lines 217, 242 and 289); the storage consists of the first
`word` bytes. -/
abbrev Stor := Nat → Byte

/-- Writing an object to the storage: writes its bytes, leaves the others. `none`: out of bounds. -/
def put (st : Stor) (o : List Byte) : Option Stor :=
  if o.length ≤ word then some (fun i => (o[i]?).getD (st i)) else none

/-- The object in the storage. `none`: out of bounds. -/
def get (st : Stor) (n : Nat) : Option (List Byte) :=
  if n ≤ word then some ((List.range n).map st) else none

/-- `any_receiver`, lines 196-244. -/
structure Any (α β : Type) where
  stor : Stor
  /-- `set_value_fptr_` is the function for this class, lines 218 and 243. -/
  fptr : Cls α β

/-- Constructor, lines 204-210 and 229-235; `junk` is what was in the memory. -/
def Any.new (junk : Stor) (o : Obj α β) : Option (Any α β) :=
  (put junk o.bytes).map fun st => ⟨st, o.cls⟩

/-- `set_value`, lines 212-214 and 237-239, with the function of lines 206-209 and 231-234: it gets a pointer to the
storage. -/
def Any.setValue (x : Any α β) (a : α) : Option (Any α β × β) :=
  match get x.stor x.fptr.size with
  | none => none
  | some o =>
    let r := x.fptr.call o a
    (put x.stor r.1).map fun st => ({ x with stor := st }, r.2)

/-- `callback`, lines 253-290. -/
structure Cb (α β : Type) where
  stor : Stor
  /-- `_function`, line 288; `none` is the null pointer. -/
  fn : Option (Cls α β)

/-- Default constructor, lines 264-265. -/
def Cb.empty (junk : Stor) : Cb α β := ⟨junk, none⟩

/-- Constructor, lines 274-277. -/
def Cb.new (junk : Stor) (o : Obj α β) : Option (Cb α β) :=
  (put junk o.bytes).map fun st => ⟨st, some o.cls⟩

/-- `operator bool`, lines 279-281. -/
def Cb.bool (x : Cb α β) : Bool := x.fn.isSome

/-- `operator()`, lines 283-285, and `invoke`, lines 258-261: the function gets a copy of the storage, which is
destroyed when it returns. `none`: call of a null pointer. -/
def Cb.call (x : Cb α β) (a : α) : Option (Cb α β × β) :=
  match x.fn with
  | none => none
  | some c =>
    let object := x.stor
    match get object c.size with
    | none => none
    | some o =>
      let r := c.call o a
      (put object r.1).map fun _ => (x, r.2)

/-- `run_queue_item::arm`, lines 311-315. `none`: an assertion fails. -/
def arm (item cb : Cb α β) : Option (Cb α β) :=
  if item.bool then none
  else if !cb.bool then none
  else some cb

/-! ## Programs -/

/-- Outcome of an operation: the variables and a result. -/
inductive Res (σ ρ : Type) where
  | ok (s : σ) (r : Option ρ)
  /-- Access out of bounds, call of a null pointer or failing assertion. -/
  | fault
  /-- Not a program: a variable does not exist or a constraint of a template is not met. -/
  | illTyped

/-- What is seen of a program: results of its operations, up to the first one that fails. -/
inductive Seen (ρ : Type) where
  | res (r : Option ρ)
  | fault
deriving DecidableEq

/-- The observations of a program. -/
def observe {σ ρ ω : Type} (step : σ → ω → Res σ ρ) (s : σ) : List ω → List (Seen ρ)
  | [] => []
  | p :: ps => match step s p with
    | .ok s' r => .res r :: observe step s' ps
    | .fault => [.fault]
    | .illTyped => []

/-- The constraints of the constructors, lines 199-203, 224-228 and 268-273; and the object is an object of its class. -/
def Obj.Fits (o : Obj α β) : Bool := decide (o.cls.size ≤ word) && decide (o.bytes.length = o.cls.size)

/-- Operations on variables of type `any_receiver`. -/
inductive AOp (α β : Type) where
  | new (h : Nat) (junk : Stor) (o : Obj α β)
  /-- Copy construction or assignment. -/
  | copy (h g : Nat)
  | set (h : Nat) (a : α)

/-- One operation. -/
def astep (s : Nat → Option (Any α β)) : AOp α β → Res (Nat → Option (Any α β)) β
  | .new h junk o =>
    if o.Fits then
      match Any.new junk o with
      | some x => .ok (upd s h (some x)) none
      | none => .fault
    else .illTyped
  | .copy h g => match s g with
    | some x => .ok (upd s h (some x)) none
    | none => .illTyped
  | .set h a => match s h with
    | some x => match x.setValue a with
      | some (x', r) => .ok (upd s h (some x')) (some r)
      | none => .fault
    | none => .illTyped

/-- Operations on variables of type `callback`. -/
inductive COp (α β : Type) where
  | empty (h : Nat) (junk : Stor)
  | new (h : Nat) (junk : Stor) (o : Obj α β)
  /-- Copy construction or assignment. -/
  | copy (h g : Nat)
  | call (h : Nat) (a : α)
  /-- `operator bool`. -/
  | test (h : Nat)
  /-- `arm(g)` on a `run_queue_item` with callback `h`. -/
  | arm (h g : Nat)

/-- One operation. Results are results of calls or of `operator bool`. -/
def cstep (s : Nat → Option (Cb α β)) : COp α β → Res (Nat → Option (Cb α β)) (β ⊕ Bool)
  | .empty h junk => .ok (upd s h (some (Cb.empty junk))) none
  | .new h junk o =>
    if o.Fits then
      match Cb.new junk o with
      | some x => .ok (upd s h (some x)) none
      | none => .fault
    else .illTyped
  | .copy h g => match s g with
    | some x => .ok (upd s h (some x)) none
    | none => .illTyped
  | .call h a => match s h with
    | some x => match x.call a with
      | some (x', r) => .ok (upd s h (some x')) (some (.inl r))
      | none => .fault
    | none => .illTyped
  | .test h => match s h with
    | some x => .ok s (some (.inr x.bool))
    | none => .illTyped
  | .arm h g => match s h, s g with
    | some x, some y => match Erase.arm x y with
      | some x' => .ok (upd s h (some x')) none
      | none => .fault
    | _, _ => .illTyped

end Verif.Erase
