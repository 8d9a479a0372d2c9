import Verif.Base

/-!
# `cancellation_event`, `cancellation_token`, `cancellation_callback`, `cancellation_observer`
(cancellation.hpp lines 12-207 and 326-352)

Any number of events, callbacks and observers; callbacks and observers of one event share its list.
A critical section of the event's mutex is one instruction, except that the constructor of
`cancellation_callback` runs the functor while it holds the mutex. Functors are user code: `call` and
`ret` mark beginning and end, and other calls may run in between, in any order. (Calls that a functor
makes itself are activities of their own here; that is a superset of the real schedules.)

Numbers of objects are not reused. A destroyed callback whose functor is called anyway, and the erasure
of an object that is not in the list, are faults.
-/

namespace Verif.Callback

abbrev Id := Nat
abbrev EvId := Nat

/-- What happens, in the order in which it happens. Objects are callbacks and observers. -/
inductive Ev where
  /-- The constructor of callback `i` is called with a token (`none`: empty token). -/
  | ctor (i : Id) (t : Option EvId)
  /-- `unbind()` of callback `i` is called. -/
  | unbind (i : Id)
  /-- `unbind()` returns. -/
  | unbound (i : Id)
  /-- The destructor of callback `i` is called. -/
  | dtor (i : Id)
  /-- The destructor returns. -/
  | dead (i : Id)
  /-- `try_set` (`f = false`) or `force_set` (`f = true`) of observer `i` is called. -/
  | set (i : Id) (t : Option EvId) (f : Bool)
  /-- `try_set` returns false. -/
  | refuse (i : Id) (e : EvId)
  /-- `try_reset` of observer `i` is called. -/
  | treset (i : Id)
  /-- `try_reset` returns. -/
  | tret (i : Id) (b : Bool)
  /-- Object `i` is registered with event `e`. -/
  | bound (i : Id) (e : EvId)
  /-- Object `i` is removed from the list of event `e` by `unbind`, the destructor or `try_reset`. -/
  | erase (i : Id) (e : EvId)
  /-- The functor of `i` is invoked. -/
  | call (i : Id) (e : EvId)
  /-- The functor of `i` returns. -/
  | ret (i : Id)
  /-- `cancel()` takes effect. -/
  | cancel (e : EvId)
  /-- `reset()` of the event. -/
  | reset (e : EvId)
  /-- `is_cancellation_requested()` returns `b`. -/
  | query (t : Option EvId) (b : Bool)
deriving DecidableEq

inductive Phase where
  | fresh
  /-- The constructor or `try_set`/`force_set` is running. -/
  | making
  | live
  /-- Destructor or `try_reset` is running. -/
  | closing
  /-- The destructor or `try_reset` has returned. -/
  | gone
deriving DecidableEq

inductive Instr where
  /-- Constructor of a callback, lines 98-108. -/
  | ctor (i : Id) (t : Option EvId)
  /-- Line 104: the functor returns. -/
  | cret (i : Id) (e : EvId)
  /-- Line 108: end of the constructor, the mutex is released. -/
  | unlock (i : Id) (e : EvId)
  /-- `unbind`, lines 126-134. -/
  | unb (i : Id) (t : Option EvId)
  | uret (i : Id)
  /-- Destructor, lines 113-121. -/
  | dtor (i : Id) (t : Option EvId)
  | dret (i : Id)
  /-- `try_set`, lines 160-172, called by the user or by `force_set`, lines 178-181. -/
  | set (i : Id) (t : Option EvId) (f : Bool)
  /-- Line 180: `force_set` invokes the functor. -/
  | fire (i : Id) (e : EvId)
  | fret (i : Id)
  /-- `try_reset`, lines 183-194. -/
  | treset (i : Id) (t : Option EvId)
  | tret (i : Id) (b : Bool)
  /-- `cancel()`, lines 336-340. -/
  | cancelCS (e : EvId)
  /-- `cancel()`, lines 342-345, `l` is the remaining list `pending`. -/
  | drain (e : EvId) (l : List Id)
  /-- Line 345: the functor returns; `l` is the remaining list. -/
  | ret (i : Id) (e : EvId) (l : List Id)
  /-- `is_cancellation_requested`, lines 85-90. -/
  | query (t : Option EvId)
deriving DecidableEq

structure St where
  /-- Which contract the user keeps, see `env`. -/
  strict : Bool
  /-- `_was_requested`, line 57. -/
  req : EvId → Bool
  /-- `_cbs`, lines 59-66. -/
  cbs : EvId → List Id
  /-- `_mutex` is held by a constructor that runs its functor, line 55. -/
  mtx : EvId → Bool
  /-- The object is a callback (otherwise an observer). -/
  cb : Id → Bool
  /-- `_event`, lines 141 and 205. -/
  ev : Id → Option EvId
  phase : Id → Phase
  /-- `unbind()` was called. -/
  unb : Id → Bool
  /-- All objects. -/
  objs : List Id
  log : List Ev

def init (strict : Bool) : St :=
  ⟨strict, fun _ => false, fun _ => [], fun _ => false, fun _ => false, fun _ => none, fun _ => .fresh,
   fun _ => false, [], []⟩

def St.emit (s : St) (v : Ev) : St := { s with log := s.log ++ [v] }

/-- Removal from the list, lines 118-119, 131-132 and 189-190; `k` follows. -/
def St.remove (s : St) (i : Id) (e : EvId) (k : List Instr) : Out St Instr :=
  if i ∈ s.cbs e then .ok { s with cbs := upd s.cbs e ((s.cbs e).erase i), log := s.log ++ [.erase i e] } k
  else .fault

def exec (s : St) : Instr → Bool → Out St Instr
  | .ctor i none, _ => .ok { s with phase := upd s.phase i .live } []
  | .ctor i (some e), _ =>
    if s.mtx e then .block
    else if s.req e then .ok { s with mtx := upd s.mtx e true, log := s.log ++ [.call i e] } [.cret i e]
    else .ok { s with cbs := upd s.cbs e (s.cbs e ++ [i]), phase := upd s.phase i .live,
                      log := s.log ++ [.bound i e] } []
  | .cret i e, _ => .ok (s.emit (.ret i)) [.unlock i e]
  | .unlock i e, _ => .ok { s with mtx := upd s.mtx e false, phase := upd s.phase i .live } []
  | .unb i none, _ => .ok s [.uret i]
  | .unb i (some e), _ =>
    if s.mtx e then .block
    else if s.req e then .ok s [.uret i]
    else s.remove i e [.uret i]
  | .uret i, _ => .ok (s.emit (.unbound i)) []
  | .dtor i none, _ => .ok s [.dret i]
  | .dtor i (some e), _ =>
    if s.mtx e then .block
    else if s.req e then .ok s [.dret i]
    else s.remove i e [.dret i]
  | .dret i, _ => .ok { s with phase := upd s.phase i .gone, log := s.log ++ [.dead i] } []
  | .set i none _, _ => .ok { s with phase := upd s.phase i .live } []
  | .set i (some e) f, _ =>
    if s.mtx e then .block
    else if s.req e then
      if f then .ok { s with phase := upd s.phase i .live } [.fire i e]
      else .ok { s with phase := upd s.phase i .live, log := s.log ++ [.refuse i e] } []
    else .ok { s with cbs := upd s.cbs e (s.cbs e ++ [i]), phase := upd s.phase i .live,
                      log := s.log ++ [.bound i e] } []
  | .fire i e, _ => .ok (s.emit (.call i e)) [.fret i]
  | .fret i, _ => .ok (s.emit (.ret i)) []
  | .treset i none, _ => .ok s [.tret i true]
  | .treset i (some e), _ =>
    if s.mtx e then .block
    else if s.req e then .ok s [.tret i false]
    else s.remove i e [.tret i true]
  | .tret i b, _ => .ok { s with phase := upd s.phase i .gone, log := s.log ++ [.tret i b] } []
  | .cancelCS e, _ =>
    if s.mtx e then .block
    else .ok { s with req := upd s.req e true, cbs := upd s.cbs e [], log := s.log ++ [.cancel e] }
      [.drain e (s.cbs e)]
  | .drain _ [], _ => .ok s []
  | .drain e (i :: l), _ =>
    if s.cb i ∧ s.phase i = .gone then .fault  -- the callback is destroyed
    else .ok (s.emit (.call i e)) [.ret i e l]
  | .ret i e l, _ => .ok (s.emit (.ret i)) [.drain e l]
  | .query none, _ => .ok (s.emit (.query none false)) []
  | .query (some e), _ => if s.mtx e then .block else .ok (s.emit (.query (some e) (s.req e))) []

/-- The event that an instruction is about. -/
def evOf (s : St) : Instr → Option EvId
  | .ctor _ t | .unb _ t | .dtor _ t | .set _ t _ | .treset _ t | .query t => t
  | .cret _ e | .unlock _ e | .fire _ e | .cancelCS e | .drain e _ | .ret _ e _ => some e
  | .uret i | .dret i | .fret i | .tret i _ => s.ev i

/-- A running instruction satisfies `f`. -/
def anyI (acts : List (List Instr)) (f : Instr → Bool) : Bool := acts.any (·.any f)

/-- A call of `unbind` of this object is running. -/
def isUnb (i : Id) : Instr → Bool
  | .unb j _ | .uret j => j == i
  | _ => false

/-- `cancel()` of the event of object `i` was called and has not yet invoked the functor of `i`. -/
def threat (s : St) (i : Id) : Instr → Bool
  | .cancelCS e => s.ev i == some e
  | .drain _ l | .ret _ _ l => l.contains i
  | _ => false

/-- `unbind` or the destructor is running for a callback of event `e`. -/
def closes (e : EvId) : Instr → Bool
  | .unb _ t | .dtor _ t => t == some e
  | _ => false

/-- The event of object `i` is cancelled. -/
def St.reqOf (s : St) (i : Id) : Bool :=
  match s.ev i with
  | some e => s.req e
  | none => false

inductive Act where
  | ctor (i : Id) (t : Option EvId)
  | unbind (i : Id)
  | dtor (i : Id)
  | set (i : Id) (t : Option EvId) (f : Bool)
  | treset (i : Id)
  | cancel (e : EvId)
  | reset (e : EvId)
  | query (t : Option EvId)

/-- What the strict contract demands of calls of `unbind` and of the destructor: no `cancel()` that may
still invoke the functor is running; and if `unbind` was called before, the event is cancelled. -/
def St.mayClose (s : St) (acts : List (List Instr)) (i : Id) : Bool :=
  !s.strict || (!anyI acts (threat s i) && (!s.unb i || (s.ev i).isNone || s.reqOf i))

/-- Contract: usual rules about lifetimes. An observer is attached once and `try_reset` is called at
most once, after it was attached. `reset()` is called only while no call concerning the event is running
and after all its callbacks were destroyed and all its observers were reset.
The strict contract adds `mayClose`, and that `cancel()` is not called while `unbind` or the destructor is
running for a callback of the event. -/
def env (s : St) (acts : List (List Instr)) : Act → Option (St × List Instr)
  | .ctor i t =>
    if s.phase i = .fresh then
      some ({ s with phase := upd s.phase i .making, cb := upd s.cb i true, ev := upd s.ev i t,
                     objs := i :: s.objs, log := s.log ++ [.ctor i t] }, [.ctor i t])
    else none
  | .unbind i =>
    if s.cb i ∧ s.phase i = .live ∧ anyI acts (isUnb i) = false ∧ s.mayClose acts i then
      some ({ s with unb := upd s.unb i true, log := s.log ++ [.unbind i] }, [.unb i (s.ev i)])
    else none
  | .dtor i =>
    if s.cb i ∧ s.phase i = .live ∧ anyI acts (isUnb i) = false ∧ s.mayClose acts i then
      some ({ s with phase := upd s.phase i .closing, log := s.log ++ [.dtor i] }, [.dtor i (s.ev i)])
    else none
  | .set i t f =>
    if s.phase i = .fresh then
      some ({ s with phase := upd s.phase i .making, ev := upd s.ev i t,
                     objs := i :: s.objs, log := s.log ++ [.set i t f] }, [.set i t f])
    else none
  | .treset i =>
    if s.cb i = false ∧ s.phase i = .live then
      some ({ s with phase := upd s.phase i .closing, log := s.log ++ [.treset i] }, [.treset i (s.ev i)])
    else none
  | .cancel e =>
    if s.strict ∧ anyI acts (closes e) then none
    else some (s, [.cancelCS e])
  | .reset e =>
    if anyI acts (fun x => evOf s x == some e) = false ∧
        (s.objs.all (fun i => s.ev i != some e || s.phase i == .gone)) then
      some ({ s with req := upd s.req e false, log := s.log ++ [.reset e] }, [])
    else none
  | .query t => some (s, [.query t])

abbrev mach : Mach := ⟨St, Instr, Act, exec, env⟩

end Verif.Callback
