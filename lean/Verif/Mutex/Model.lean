import Verif.Base

/-!
# `async::mutex` (mutex.hpp lines 9-180)

Instructions are single atomic accesses to `st_`, operations on the internal `platform::mutex`, and
accesses to `waiters_` (which happen while the internal mutex is held). Memory orders are ignored
(sequential consistency). An acquisition is identified by a number: the `lock_operation`, or the
call of `try_lock`.
-/

namespace Verif.Mutex

abbrev Id := Nat

/-- `mutex::state`, lines 158-162. -/
inductive LSt where
  | none
  | locked
  | contended
deriving DecidableEq

/-- What happens, in the order in which it happens. -/
inductive Ev where
  /-- `async_lock` is started. -/
  | lock (i : Id)
  /-- `try_lock` is called. -/
  | tryLock (i : Id)
  /-- `unlock` is called by the holder. -/
  | unlock (i : Id)
  /-- The mutex is free and taken. -/
  | fast (i : Id)
  /-- The operation is appended to the list of waiters. -/
  | enq (i : Id)
  /-- The mutex becomes free. -/
  | rel (i : Id)
  /-- `unlock` of `i` hands the mutex over to `j`. -/
  | grant (i j : Id)
  /-- The user learns that the acquisition succeeded: the receiver is completed or `try_lock`
  returns true. -/
  | acq (i : Id)
  /-- `try_lock` returns false. -/
  | fail (i : Id)
deriving DecidableEq

/-- Instructions. -/
inductive Instr where
  /-- `lock_operation::start`, line 40: the call of `try_lock`. -/
  | lock (i : Id)
  /-- `try_lock` called by the user, lines 112-120. -/
  | tryLock (i : Id)
  /-- Line 44: take the internal mutex. -/
  | acqM (i : Id)
  /-- Line 46: load `st_`. -/
  | ld (i : Id)
  /-- Lines 47-75: one iteration of the loop; `v` is the local variable `st`. -/
  | chk (i : Id) (v : LSt)
  /-- Lines 66 and 72: `push_back`. -/
  | push (i : Id)
  /-- End of the scope of the lock. -/
  | relM
  /-- Lines 41, 78 and 83: `set_value`. For `try_lock`: return true. -/
  | acq (i : Id)
  /-- `unlock`, lines 123-124. -/
  | unlock (i : Id)
  /-- Lines 128-137. -/
  | casU (i : Id)
  /-- Line 142: take the internal mutex. -/
  | acqU (i : Id)
  /-- Lines 144-147: take the first waiter. -/
  | popU (i : Id)
  /-- Lines 148-151: adapt `st_`; `j` is `next`. -/
  | stU (j : Id)
deriving DecidableEq

structure St where
  /-- `st_`, line 170. -/
  st : LSt
  /-- `mutex_` is taken, line 164. -/
  mtx : Bool
  /-- `waiters_`, lines 172-179. -/
  waiters : List Id
  /-- Numbers that are in use. -/
  used : Id → Bool
  log : List Ev

def init : St := ⟨.none, false, [], fun _ => false, []⟩

/-- Acquisitions that the user holds: acquired and `unlock` not called. -/
def holding (log : List Ev) : List Id :=
  log.foldl (fun l v => match v with
    | .acq i => l ++ [i]
    | .unlock i => l.erase i
    | _ => l) []

/-- One instruction. The Boolean is `false` if a weak compare-exchange fails spuriously. -/
def exec (s : St) : Instr → Bool → Out St Instr
  | .lock i, _ =>
    if s.st = .none then .ok { s with st := .locked, log := s.log ++ [.fast i] } [.acq i]
    else .ok s [.acqM i]
  | .tryLock i, _ =>
    if s.st = .none then .ok { s with st := .locked, log := s.log ++ [.fast i] } [.acq i]
    else .ok { s with log := s.log ++ [.fail i] } []
  | .acqM i, _ => if s.mtx then .block else .ok { s with mtx := true } [.ld i]
  | .ld i, _ => .ok s [.chk i s.st]
  | .chk i .none, b =>
    if s.st = .none ∧ b then
      .ok { s with st := .locked, log := s.log ++ [.fast i] } [.relM, .acq i]
    else .ok s [.chk i s.st]
  | .chk i .locked, b =>
    if s.st = .locked ∧ b then .ok { s with st := .contended } [.push i]
    else .ok s [.chk i s.st]
  | .chk i .contended, _ => .ok s [.push i]
  | .push i, _ => .ok { s with waiters := s.waiters ++ [i], log := s.log ++ [.enq i] } [.relM]
  | .relM, _ => .ok { s with mtx := false } []
  | .acq i, _ => .ok { s with log := s.log ++ [.acq i] } []
  | .unlock i, _ =>
    match s.st with
    | .none => .fault  -- assert, line 124
    | .locked => .ok s [.casU i]
    | .contended => .ok s [.acqU i]
  | .casU i, _ =>
    match s.st with
    | .locked => .ok { s with st := .none, log := s.log ++ [.rel i] } []
    | .contended => .ok s [.acqU i]
    | .none => .fault  -- assert, line 138
  | .acqU i, _ => if s.mtx then .block else .ok { s with mtx := true } [.popU i]
  | .popU i, _ =>
    match s.waiters with
    | [] => .fault  -- assert, line 145
    | j :: w => .ok { s with waiters := w, log := s.log ++ [.grant i j] } [.stU j]
  | .stU j, _ =>
    .ok { s with st := if s.waiters = [] then .locked else s.st } [.relM, .acq j]

/-- What the user does. -/
inductive Act where
  | lock (i : Id)
  | tryLock (i : Id)
  | unlock (i : Id)

/-- Contract of the user: only a holder calls `unlock`. (Numbers of acquisitions are fresh.) -/
def env (s : St) (_ : List (List Instr)) : Act → Option (St × List Instr)
  | .lock i =>
    if s.used i then none
    else some ({ s with used := upd s.used i true, log := s.log ++ [.lock i] }, [.lock i])
  | .tryLock i =>
    if s.used i then none
    else some ({ s with used := upd s.used i true, log := s.log ++ [.tryLock i] }, [.tryLock i])
  | .unlock i =>
    if i ∈ holding s.log then some ({ s with log := s.log ++ [.unlock i] }, [.unlock i])
    else none

/-- The machine. -/
abbrev mach : Mach := ⟨St, Instr, Act, exec, env⟩

/-! ## Specification: a lock with a first-in first-out queue -/

structure Spec where
  owner : Option Id := none
  q : List Id := []

def Spec.step (s : Spec) : Ev → Spec
  | .fast i => { s with owner := some i }
  | .enq i => { s with q := s.q ++ [i] }
  | .rel _ => { s with owner := none }
  | .grant _ j => { owner := some j, q := s.q.tail }
  | _ => s

/-- State of the specification after a history. -/
def spec (log : List Ev) : Spec := log.foldl Spec.step {}

@[simp] theorem spec_append (log : List Ev) (v : Ev) : spec (log ++ [v]) = (spec log).step v := by
  simp [spec, List.foldl_append]

def holding.step (l : List Id) : Ev → List Id
  | .acq i => l ++ [i]
  | .unlock i => l.erase i
  | _ => l

@[simp] theorem holding_append (log : List Ev) (v : Ev) :
    holding (log ++ [v]) = holding.step (holding log) v := by
  simp only [holding, List.foldl_append, List.foldl_cons, List.foldl_nil]
  cases v <;> rfl

/-- When an event is allowed. -/
def legal (before : List Ev) : Ev → Prop
  | .fast _ => (spec before).owner = none ∧ (spec before).q = []
  | .enq i => (spec before).owner ≠ none ∧ i ∉ (spec before).q
  | .rel i => (spec before).owner = some i ∧ (spec before).q = []
  | .grant i j => (spec before).owner = some i ∧ ∃ r, (spec before).q = j :: r
  | .acq i => (spec before).owner = some i ∧ holding before = []
  | .fail _ => (spec before).owner ≠ none
  | _ => True

/-- Order in which acquisitions take effect. -/
def wins (log : List Ev) : List Id :=
  log.filterMap (fun v => match v with | .fast i => some i | .grant _ j => some j | _ => none)

/-- Order in which users learn of their acquisitions. -/
def acqs (log : List Ev) : List Id :=
  log.filterMap (fun v => match v with | .acq i => some i | _ => none)

/-- Order in which operations queue up. -/
def enqs (log : List Ev) : List Id :=
  log.filterMap (fun v => match v with | .enq i => some i | _ => none)

/-- Order in which queued operations get the mutex. -/
def grants (log : List Ev) : List Id :=
  log.filterMap (fun v => match v with | .grant _ j => some j | _ => none)

/-- How often an acquisition attempt is over. -/
def over (i : Id) (log : List Ev) : Nat :=
  log.countP (fun v => match v with | .acq j => j == i | .fail j => j == i | _ => false)

end Verif.Mutex
