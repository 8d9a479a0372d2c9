import Verif.Promise.HandlesProps

/-!
# Which allocator frees the state of a promise (promise.hpp 144-184, 198-242, 348-352)

The handles of `Verif.Promise.Handles`, together with their members `alloc_`. An allocator is a number: two allocators with the
same number are copies of each other. The member initialiser of a move constructor that does not mention `alloc_`, or that says
`alloc_{}`, creates a default constructed allocator, number 0.
-/

namespace Verif.Promise.Alloc

open Handles (Op)

inductive Ev where
  /-- State `a` is allocated by allocator `al`. -/
  | alloc (a al : Nat)
  /-- State `a` is freed by allocator `al`. -/
  | free (a al : Nat)
  /-- A promise that refers to `a` is moved from, or is assigned to. -/
  | move (a : Nat)
deriving DecidableEq

structure St where
  h : Handles.St
  /-- `alloc_` of a handle, lines 183 and 355. -/
  al : Nat → Nat
  log : List Ev

def St.init : St := ⟨.init, fun _ => 0, []⟩

/-- `alloc_` after an operation; `α` is the argument of a constructor that takes an allocator. -/
def alloc' (al : Nat → Nat) (α : Nat) : Op → Nat → Nat
  | .newPromise h => upd al h α                              -- lines 150-151
  | .moveP h _ => upd al h 0                                 -- lines 145-148, 159-162: `swap` leaves `alloc_` alone
  | .assignP _ _ => al                                       -- lines 164-167: likewise
  | .setValue _ => al
  | .getFuture h g => upd al h (al g)                        -- lines 169-171
  | .newFuture h => upd al h α                               -- lines 208-209
  | .copyF h g => upd al h (al g)                            -- lines 216-217
  | .copyAssignF h g => upd al h (al g)                      -- line 229
  | .moveF h g => upd (upd al h (al g)) g 0                  -- lines 202-206, 234-237
  | .moveAssignF h g => upd (upd al h (al g)) g (al h)       -- lines 202-206, 239-242
  | .swapF h g => upd (upd al h (al g)) g (al h)             -- lines 202-206
  | .destroy _ => al

/-- The allocator that is used if the operation frees a state. -/
def user (al : Nat → Nat) : Op → Nat
  | .assignP _ _ => 0                                        -- the destructor of `other`, lines 164-167 and 175-177
  | .setValue h | .destroy h | .copyAssignF h _ => al h      -- lines 175-177, 211-214, 223-226
  | _ => 0

/-- The promises that are moved from or assigned to by an operation. -/
def movedBy (s : Handles.St) : Op → List Nat
  | .moveP _ g => (s.ptr g).toList
  | .assignP h g => (s.ptr g).toList ++ (s.ptr h).toList
  | _ => []

/-- The effect on the heap, with the allocators. -/
def note (α β : Nat) : Handles.Ev → Ev
  | .alloc a => .alloc a α
  | .free a => .free a β

/-- One operation, if it is defined. -/
def step (s : St) (o : Op) (α : Nat) : Option St :=
  match Handles.step s.h o with
  | .ok h' => some
      ⟨h', alloc' s.al α o,
        s.log ++ (movedBy s.h o).map .move ++ (h'.log.drop s.h.log.length).map (note α (user s.al o))⟩
  | _ => none

/-- Programs that respect the requirements of C36. -/
inductive Reach : St → Prop where
  | init : Reach .init
  | step {s s' : St} {o : Op} {α : Nat} : Reach s → Handles.Allowed s.h o → step s o α = some s' → Reach s'

end Verif.Promise.Alloc
