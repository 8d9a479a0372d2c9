import Verif.Hb.Order
import Verif.SharedMutex.Props

/-!
# Memory orders of `async::shared_mutex`

Annotation of `Verif/SharedMutex/Model.lean` with the memory orders of mutex.hpp lines 182-609.
-/

namespace Verif.SharedMutex

/-- The atomic variable `st_` (line 599) and the internal `mutex_` (line 592). -/
inductive Loc where
  | st
  | mtx
deriving DecidableEq

/-- A compare-exchange with the given order on success; failure is relaxed everywhere. -/
def cas (success : Bool) (o : Ord) : List (Acc Loc) := if success then [.rmw o .st] else [.load .rlx .st]

/-- Memory accesses of the instructions. -/
def eff (s : St) : Instr → Bool → List (Acc Loc)
  | .lock _, _ | .tryLock _, _ => cas (s.st = ⟨.none, 0⟩) .acq  -- lines 407-412
  | .lockS _, _ | .tryLockS _, _ => [.load .rlx .st]  -- line 416
  | .lsT _ _ v, _ =>  -- lines 419-424 and 428-433
    if v.c = .none ∨ (v.c = .locked ∧ v.n ≠ 0) then cas (s.st = v) .acq else []
  | .acqM _, _ => [.lock .mtx]
  | .ld _, _ => [.load .rlx .st]  -- lines 240 and 326
  | .chk (_, true) v, b =>
    if v.c = .none then cas (s.st = v ∧ b) .acq  -- lines 243-248
    else if v.c = .locked then cas (s.st = v ∧ b) .rlx  -- lines 253-258
    else []
  | .chk (_, false) v, b =>
    if v.c = .none ∨ (v.c = .locked ∧ v.n ≠ 0) then cas (s.st = v ∧ b) .acq  -- lines 329-334 and 339-344
    else if v.c = .locked then cas (s.st = v ∧ b) .rlx  -- lines 351-356
    else []
  | .push _, _ => []
  | .relM, _ => [.unlock .mtx]
  | .acq _, _ => []
  | .unlock _, _ => [.load .rlx .st]  -- line 443
  | .casU _, _ => cas (s.st = ⟨.locked, 0⟩) .rel  -- lines 449-454
  | .acqU _, _ => [.lock .mtx]
  | .popU _, _ => []
  | .stE _, _ => if s.waiters = [] then [.store .rlx .st] else []  -- lines 480-483
  | .stR _, _ => [.store .rlx .st]  -- lines 493-501
  | .unlockS _, _ => [.load .rlx .st]  -- line 512
  | .usL _ n, b => cas (s.st = ⟨.locked, n⟩ ∧ b) .rel  -- lines 520-525 and 530-535
  | .usC _ v, b => if 1 < v.n then cas (s.st = v ∧ b) .rel else []  -- lines 548-553
  | .acqS _, _ => [.lock .mtx]
  | .popS _, _ => []
  | .stS _, _ => [.store .rlx .st]  -- lines 575-584

/-- The user calls `unlock` or `unlock_shared` after learning that the mutex was acquired. -/
def entry (s : St) : Act → Nat → Bool
  | .unlock t, n => s.log[n]? == some (.acq t)
  | _, _ => false

abbrev ann : Ann mach := ⟨Loc, inferInstance, fun s => s.log.length, entry, eff⟩

/-- The statement of C51: of two critical sections that are not both shared, the earlier one happens before the later
one. -/
def Ordered (log : List Ev) (m : Mem Loc) : Prop :=
  ∀ l1 l2 l3 (t u : Req), log = l1 ++ .unlock t :: l2 ++ .acq u :: l3 → t.2 = true ∨ u.2 = true →
    m.hb l1.length (l1.length + 1 + l2.length)

/-- Has the mutex been handed over, and not been free since? -/
def handed.step (p : Spec × Bool) (v : Ev) : Spec × Bool :=
  (p.1.step v, match v with
    | .grant _ _ => true
    | _ => p.2 && !(p.1.step v).own.isEmpty)

def handed (log : List Ev) : Bool := (log.foldl handed.step ({}, false)).2

/-- `unlock_shared` hands the mutex over to a writer. -/
def ReaderHandsOver (log : List Ev) : Prop := ∃ i ts, .grant (i, false) ts ∈ log

/-- A reader that does not queue joins readers to whom the mutex was handed over. -/
def JoinsHandover (log : List Ev) : Prop :=
  ∃ l1 i l2, log = l1 ++ .fast (i, false) :: l2 ∧ handed l1 = true

end Verif.SharedMutex
