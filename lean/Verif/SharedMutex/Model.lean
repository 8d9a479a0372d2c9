import Verif.Base

/-!
# `async::shared_mutex` (mutex.hpp lines 182-609)

Instructions are single atomic accesses to `st_`, operations on the internal `platform::mutex`, and
accesses to `waiters_` (which happen while the internal mutex is held; taking several readers off
the list, lines 486-489, is one instruction). Memory orders are ignored (sequential consistency).
`shared_cnt` is a natural number; see Verif/Width/SharedMutex.lean for overflow of `unsigned int`.
A request is a number together with its mode: `true` for exclusive, `false` for shared.
-/

namespace Verif.SharedMutex

abbrev Id := Nat

/-- A request: `lock_operation`, `lock_shared_operation`, or a call of `try_lock` or
`try_lock_shared`, and whether it is exclusive (`node::exclusive`, line 213). -/
abbrev Req := Id × Bool

/-- `contention`, lines 184-188. -/
inductive Cn where
  | none
  | locked
  | contended
deriving DecidableEq

/-- `state`, lines 191-194. -/
structure Wd where
  c : Cn
  n : Nat
deriving DecidableEq

/-- What happens, in the order in which it happens. -/
inductive Ev where
  /-- `async_lock` or `async_lock_shared` is started. -/
  | lock (t : Req)
  /-- `try_lock` or `try_lock_shared` is called. -/
  | tryLock (t : Req)
  /-- `unlock` or `unlock_shared` is called by a holder. -/
  | unlock (t : Req)
  /-- The request is admitted without being queued. -/
  | fast (t : Req)
  /-- The request is appended to the list of waiters. -/
  | enq (t : Req)
  /-- A holder gives up the mutex, nobody is admitted. -/
  | rel (t : Req)
  /-- A holder gives up the mutex and admits the given queued requests. -/
  | grant (t : Req) (ts : List Req)
  /-- The user learns that the request was admitted: the receiver is completed or the
  function returns true. -/
  | acq (t : Req)
  /-- `try_lock` or `try_lock_shared` returns false. -/
  | fail (t : Req)
deriving DecidableEq

/-- Instructions. -/
inductive Instr where
  /-- `lock_operation::start`, line 234: the call of `try_lock`. -/
  | lock (i : Id)
  /-- `try_lock` called by the user, lines 405-413. -/
  | tryLock (i : Id)
  /-- `lock_shared_operation::start`, line 320: `try_lock_shared`, its load (line 416). -/
  | lockS (i : Id)
  /-- `try_lock_shared` called by the user, its load (line 416). -/
  | tryLockS (i : Id)
  /-- Lines 417-439: one iteration of the loop of `try_lock_shared`; `v` is the local variable
  `st`; `f` tells whether it was called by `start`. -/
  | lsT (i : Id) (f : Bool) (v : Wd)
  /-- Lines 238 and 324: take the internal mutex. -/
  | acqM (t : Req)
  /-- Lines 240 and 326: load `st_`. -/
  | ld (t : Req)
  /-- Lines 241-269 and 327-368: one iteration of the loop; `v` is the local variable `st`. -/
  | chk (t : Req) (v : Wd)
  /-- Lines 260, 266, 358 and 364: `push_back`. -/
  | push (t : Req)
  /-- End of the scope of the lock. -/
  | relM
  /-- Lines 235, 272, 277, 321, 371 and 376: `set_value`. For the `try` functions: return true. -/
  | acq (t : Req)
  /-- `unlock`, lines 443-445. -/
  | unlock (i : Id)
  /-- Lines 448-458. -/
  | casU (i : Id)
  /-- Line 471: take the internal mutex. -/
  | acqU (i : Id)
  /-- Lines 474-477 and 486-490: take the next waiter, or all readers at the head of the list. -/
  | popU (i : Id)
  /-- Lines 478-484: adapt `st_`, the next holder being the writer `j`. -/
  | stE (j : Id)
  /-- Lines 491-502: set `st_`, the next holders being the readers `js`. -/
  | stR (js : List Id)
  /-- `unlock_shared`, lines 512-514. -/
  | unlockS (i : Id)
  /-- Lines 518-541: one iteration of the loop; `n` is `st.shared_cnt`. -/
  | usL (i : Id) (n : Nat)
  /-- Lines 547-557: one iteration of the loop; `v` is the local variable `st`. -/
  | usC (i : Id) (v : Wd)
  /-- Line 561: take the internal mutex. -/
  | acqS (i : Id)
  /-- Lines 566-572: take the next waiter. -/
  | popS (i : Id)
  /-- Lines 573-585: set `st_`, the next holder being the writer `j`. -/
  | stS (j : Id)
deriving DecidableEq

structure St where
  /-- `st_`, line 599. -/
  st : Wd
  /-- `mutex_` is taken, line 592. -/
  mtx : Bool
  /-- `waiters_`, lines 601-608. -/
  waiters : List Req
  /-- Numbers that are in use. -/
  used : Id → Bool
  log : List Ev

def init : St := ⟨⟨.none, 0⟩, false, [], fun _ => false, []⟩

/-- Requests that the user holds: acquired and not released. -/
def holding.step (l : List Req) : Ev → List Req
  | .acq t => l ++ [t]
  | .unlock t => l.erase t
  | _ => l

def holding (log : List Ev) : List Req := log.foldl holding.step []

@[simp] theorem holding_append (log : List Ev) (v : Ev) :
    holding (log ++ [v]) = holding.step (holding log) v := by
  simp [holding, List.foldl_append]

/-- Successful compare-exchange that admits a request. -/
def St.admit (s : St) (t : Req) (v : Wd) : St := { s with st := v, log := s.log ++ [.fast t] }

/-- One instruction. The Boolean is `false` if a weak compare-exchange fails spuriously. -/
def exec (s : St) : Instr → Bool → Out St Instr
  | .lock i, _ =>
    if s.st = ⟨.none, 0⟩ then .ok (s.admit (i, true) ⟨.locked, 0⟩) [.acq (i, true)]
    else .ok s [.acqM (i, true)]
  | .tryLock i, _ =>
    if s.st = ⟨.none, 0⟩ then .ok (s.admit (i, true) ⟨.locked, 0⟩) [.acq (i, true)]
    else .ok { s with log := s.log ++ [.fail (i, true)] } []
  | .lockS i, _ => .ok s [.lsT i true s.st]
  | .tryLockS i, _ => .ok s [.lsT i false s.st]
  | .lsT i f v, _ =>
    if v.c = .none then
      if s.st = v then .ok (s.admit (i, false) ⟨.locked, 1⟩) [.acq (i, false)]
      else .ok s [.lsT i f s.st]
    else if v.c = .locked ∧ v.n ≠ 0 then
      if s.st = v then .ok (s.admit (i, false) ⟨.locked, v.n + 1⟩) [.acq (i, false)]
      else .ok s [.lsT i f s.st]
    else if f then .ok s [.acqM (i, false)]
    else .ok { s with log := s.log ++ [.fail (i, false)] } []
  | .acqM t, _ => if s.mtx then .block else .ok { s with mtx := true } [.ld t]
  | .ld t, _ => .ok s [.chk t s.st]
  | .chk (i, true) v, b =>
    if v.c = .none then
      if s.st = v ∧ b then .ok (s.admit (i, true) ⟨.locked, 0⟩) [.relM, .acq (i, true)]
      else .ok s [.chk (i, true) s.st]
    else if v.c = .locked then
      if s.st = v ∧ b then .ok { s with st := ⟨.contended, v.n⟩ } [.push (i, true)]
      else .ok s [.chk (i, true) s.st]
    else .ok s [.push (i, true)]
  | .chk (i, false) v, b =>
    if v.c = .none then
      if s.st = v ∧ b then .ok (s.admit (i, false) ⟨.locked, 1⟩) [.relM, .acq (i, false)]
      else .ok s [.chk (i, false) s.st]
    else if v.c = .locked ∧ v.n ≠ 0 then
      if s.st = v ∧ b then .ok (s.admit (i, false) ⟨.locked, v.n + 1⟩) [.relM, .acq (i, false)]
      else .ok s [.chk (i, false) s.st]
    else if v.c = .locked then
      if s.st = v ∧ b then .ok { s with st := ⟨.contended, 0⟩ } [.push (i, false)]
      else .ok s [.chk (i, false) s.st]
    else .ok s [.push (i, false)]
  | .push t, _ => .ok { s with waiters := s.waiters ++ [t], log := s.log ++ [.enq t] } [.relM]
  | .relM, _ => .ok { s with mtx := false } []
  | .acq t, _ => .ok { s with log := s.log ++ [.acq t] } []
  | .unlock i, _ =>
    if s.st.c = .none then .fault  -- assert, line 444
    else if s.st.n ≠ 0 then .fault  -- assert, line 445
    else if s.st.c = .locked then .ok s [.casU i]
    else .ok s [.acqU i]
  | .casU i, _ =>
    if s.st = ⟨.locked, 0⟩ then
      .ok { s with st := ⟨.none, 0⟩, log := s.log ++ [.rel (i, true)] } []
    else if s.st.n ≠ 0 then .fault  -- assert, line 457
    else if s.st.c = .contended then .ok s [.acqU i]
    else .fault  -- assert, line 460
  | .acqU i, _ => if s.mtx then .block else .ok { s with mtx := true } [.popU i]
  | .popU i, _ =>
    match s.waiters with
    | [] => .fault  -- assert, line 474
    | (j, true) :: w =>
      .ok { s with waiters := w, log := s.log ++ [.grant (i, true) [(j, true)]] } [.stE j]
    | (j, false) :: w =>
      let ts := ((j, false) :: w).takeWhile (fun t => !t.2)
      .ok { s with
        waiters := ((j, false) :: w).dropWhile (fun t => !t.2)
        log := s.log ++ [.grant (i, true) ts] } [.stR (ts.map (·.1))]
  | .stE j, _ =>
    .ok { s with st := if s.waiters = [] then ⟨.locked, 0⟩ else s.st } [.relM, .acq (j, true)]
  | .stR js, _ =>
    .ok { s with st := ⟨if s.waiters = [] then .locked else .contended, js.length⟩ }
      (.relM :: js.map (fun j => .acq (j, false)))
  | .unlockS i, _ =>
    if s.st.c = .none then .fault  -- assert, line 513
    else if s.st.n = 0 then .fault  -- assert, line 514
    else if s.st.c = .locked then .ok s [.usL i s.st.n]
    else .ok s [.usC i s.st]
  | .usL i n, b =>
    if n = 0 then .fault  -- assert, line 529
    else if s.st = ⟨.locked, n⟩ ∧ b then
      .ok { s with
        st := if 1 < n then ⟨.locked, n - 1⟩ else ⟨.none, 0⟩
        log := s.log ++ [.rel (i, false)] } []
    else if s.st.c = .none then .fault  -- assert, line 539
    else if s.st.n = 0 then .fault  -- assert, line 540
    else if s.st.c = .locked then .ok s [.usL i s.st.n]
    else .ok s [.usC i s.st]
  | .usC i v, b =>
    if 1 < v.n then
      if s.st = v ∧ b then
        .ok { s with st := ⟨.contended, v.n - 1⟩, log := s.log ++ [.rel (i, false)] } []
      else .ok s [.usC i s.st]
    else if v.n = 1 then .ok s [.acqS i]
    else .fault  -- assert, line 557
  | .acqS i, _ => if s.mtx then .block else .ok { s with mtx := true } [.popS i]
  | .popS i, _ =>
    match s.waiters with
    | [] => .fault  -- assert, line 567
    | (_, false) :: _ => .fault  -- assert, line 570
    | (j, true) :: w =>
      .ok { s with waiters := w, log := s.log ++ [.grant (i, false) [(j, true)]] } [.stS j]
  | .stS j, _ =>
    .ok { s with st := ⟨if s.waiters = [] then .locked else .contended, 0⟩ }
      [.relM, .acq (j, true)]

/-- What the user does. -/
inductive Act where
  | lock (t : Req)
  | tryLock (t : Req)
  | unlock (t : Req)

/-- First instruction of a request. -/
def Instr.ofLock : Req → Instr
  | (i, true) => .lock i
  | (i, false) => .lockS i

def Instr.ofTry : Req → Instr
  | (i, true) => .tryLock i
  | (i, false) => .tryLockS i

def Instr.ofUnlock : Req → Instr
  | (i, true) => .unlock i
  | (i, false) => .unlockS i

/-- Contract of the user: only holders unlock, in the mode they hold. (Numbers of requests are
fresh.) -/
def env (s : St) (_ : List (List Instr)) : Act → Option (St × List Instr)
  | .lock t =>
    if s.used t.1 then none
    else some ({ s with used := upd s.used t.1 true, log := s.log ++ [.lock t] }, [.ofLock t])
  | .tryLock t =>
    if s.used t.1 then none
    else some ({ s with used := upd s.used t.1 true, log := s.log ++ [.tryLock t] }, [.ofTry t])
  | .unlock t =>
    if t ∈ holding s.log then some ({ s with log := s.log ++ [.unlock t] }, [.ofUnlock t])
    else none

/-- The machine. -/
abbrev mach : Mach := ⟨St, Instr, Act, exec, env⟩

/-! ## Specification: a readers-writer lock with a first-in first-out queue -/

structure Spec where
  /-- Who has been admitted and has not given up the mutex. -/
  own : List Req := []
  q : List Req := []

def Spec.step (s : Spec) : Ev → Spec
  | .fast t => { s with own := s.own ++ [t] }
  | .enq t => { s with q := s.q ++ [t] }
  | .rel t => { s with own := s.own.erase t }
  | .grant t ts => { own := s.own.erase t ++ ts, q := s.q.drop ts.length }
  | _ => s

/-- State of the specification after a history. -/
def spec (log : List Ev) : Spec := log.foldl Spec.step {}

@[simp] theorem spec_append (log : List Ev) (v : Ev) : spec (log ++ [v]) = (spec log).step v := by
  simp [spec, List.foldl_append]

/-- Whether the request can be admitted besides the given ones. -/
def compat (own : List Req) (t : Req) : Prop :=
  if t.2 then own = [] else ∀ u ∈ own, u.2 = false

/-- The requests that a queue admits when nobody holds the mutex: a writer at the head, or all readers
at the head. -/
def batch : List Req → List Req
  | (j, true) :: _ => [(j, true)]
  | q => q.takeWhile (fun t => !t.2)

/-- When an event is allowed. -/
def legal (before : List Ev) : Ev → Prop
  | .fast t => (spec before).q = [] ∧ compat (spec before).own t
  | .enq t => (spec before).q ≠ [] ∨ ¬ compat (spec before).own t
  | .rel t => t ∈ (spec before).own ∧ ((spec before).q = [] ∨ 1 < (spec before).own.length)
  | .grant t ts => (spec before).own = [t] ∧ ts = batch (spec before).q ∧ ts ≠ []
  | .acq t => t ∈ (spec before).own
  | .fail t => t.2 = true → ¬ compat (spec before).own t
  | _ => True

end Verif.SharedMutex
