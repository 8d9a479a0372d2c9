import Verif.WakeOrder.Proof

/-!
# Which fields of operations the instructions of the resolver machine access

The operations that use `cancellation_resolver` have four ordinary (non-atomic) fields that change after
construction: the hook by which they are in the list of the object, the state (`st_`, `value`, `cancelled_`,
`pending`), `event_` of the resolver, and the hook by which the resolver is in the list of the cancellation event
(cancellation.hpp line 98). Constant fields and the atomic `state_` are left out.

Two accesses race if different calls are about to make them, one of them is a write, and the calls do not
make them under a common lock.
-/

namespace Verif.Resolver

variable {S : DS} {d0 : S.D}

inductive Field where
  /-- Links of the list of the object. -/
  | hook
  /-- What tells how the operation ended. -/
  | state
  /-- `event_`, cancellation.hpp line 320. -/
  | event
  /-- Links of the list of the cancellation event. -/
  | eventHook
deriving DecidableEq

inductive Lock where
  /-- The mutex of the object. -/
  | object
  /-- The mutex of a cancellation event. -/
  | event (e : EvId)
deriving DecidableEq

structure Access where
  op : OpId
  field : Field
  write : Bool
  lock : Option Lock

/-- Accesses to the same field of several operations. -/
def each (l : List OpId) (f : Field) (w : Bool) (k : Option Lock) : List Access := l.map fun i => ⟨i, f, w, k⟩

/-- The operations that a call has yet to complete: the local list `items`. -/
def completing (p : List (Instr S)) : List OpId :=
  p.filterMap fun x => match x with
    | .complete i => some i
    | _ => none

/-- The operations whose resolvers `cancel()` has yet to call: the local list `pending`. -/
def calling (p : List (Instr S)) : List OpId :=
  p.filterMap fun x => match x with
    | .tryCancel i false => some i
    | _ => none

/-- What a call accesses by its next instruction. `q` are the operations in the list of the object. Functions on
lists count as accesses to all elements. -/
def fieldAccesses (q : List OpId) (s : RSt S) : List (Instr S) → List Access
  | [] => []
  -- e.g. recurring-event.hpp lines 96-107
  | .start i :: _ => ⟨i, .state, true, none⟩ :: each (i :: q) .hook true (some .object)
  -- e.g. queue.hpp line 94
  | .setFast i _ :: _ => [⟨i, .state, true, none⟩]
  -- cancellation.hpp lines 241-245
  | .listen i :: _ => [⟨i, .event, true, none⟩]
  -- lines 250-256
  | .register i :: _ => ⟨i, .event, false, none⟩ ::
      match s.evt i with
      | none => []
      | some e => each (i :: s.cbs e) .eventHook true (some (.event e))
  -- lines 341-345 (if called by `cancel`), 264, 277; e.g. recurring-event.hpp lines 74-84
  | .tryCancel i l :: r =>
      (if l then [] else each (i :: calling r) .eventHook true none) ++
      ⟨i, .state, true, some .object⟩ :: (if i ∈ q then each q .hook true (some .object) else [])
  | .transition _ _ :: _ => []
  -- cancellation.hpp lines 300-306
  | .unregister i :: _ => ⟨i, .event, false, none⟩ ::
      match s.evt i with
      | none => []
      | some e => each (s.cbs e) .eventHook true (some (.event e))
  -- e.g. queue.hpp lines 107-112
  | .resume i :: _ => [⟨i, .state, true, none⟩]
  -- e.g. recurring-event.hpp lines 67-71
  | .complete i :: r => each (i :: completing r) .hook true none
  -- cancellation.hpp lines 335-339
  | .cancel e :: _ => each (s.cbs e) .eventHook true (some (.event e))
  -- e.g. recurring-event.hpp lines 56-64, promise.hpp lines 93-97
  | .ds _ :: r => each q .hook true (some .object) ++ each q .state true (some .object) ++
      each (completing r) .hook true none

/-- The accesses race. -/
def Races (a b : Access) : Prop :=
  a.op = b.op ∧ a.field = b.field ∧ (a.write = true ∨ b.write = true) ∧ (a.lock = none ∨ a.lock ≠ b.lock)

/-- No two calls are about to make accesses that race. -/
def RaceFree (q : S.D → List OpId) (c : Conf (mach S)) : Prop :=
  ∀ k k' : Nat, k ≠ k' → ∀ p p' : List (Instr S), c.acts[k]? = some p → c.acts[k']? = some p' →
    ∀ a ∈ fieldAccesses (q c.sh.d) c.sh p, ∀ b ∈ fieldAccesses (q c.sh.d) c.sh p', ¬ Races a b

end Verif.Resolver
