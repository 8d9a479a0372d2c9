import Verif.Locks.Model

/-!
# Executions and critical sections

Vocabulary for C90. An execution is a list of events: which thread executed which instruction, and what it decided. Two executions are
equivalent if they consist of the same events and nobody can tell the difference: threads and variables see the same things in the same
order.
-/

namespace Verif.Locks

/-- One step of an execution. -/
structure Ev where
  thr : Thr
  ins : Instr
  ch : Choice

/-- The execution `es` leads from `s` to `s'`. -/
inductive Trace (A : Instr → Fn → Bool) : St → List Ev → St → Prop where
  | nil {s : St} : Trace A s [] s
  | cons {s s1 s' : St} {e : Ev} {es : List Ev} {r : List Instr} : s.stack e.thr = e.ins :: r → permits A s e.thr e.ch = true →
      step s e.thr e.ch = .ok s1 → Trace A s1 es s' → Trace A s (e :: es) s'

/-- Things that threads share. -/
inductive Var where
  | mutex (o : Obj)
  | field (o : Obj) (f : Fld)
  | atomic (a : Atm)
  /-- Everything that belongs to the user. -/
  | user
deriving DecidableEq

/-- What an instruction accesses, and whether it may change it. (Other instructions do not access shared things.) -/
def Instr.touches : Instr → Option (Var × Bool)
  | .lock o => some (.mutex o, true)
  | .unlock o => some (.mutex o, true)
  | .acc o f w => some (.field o f, w)
  | .atom a w => some (.atomic a, w)
  | .user => some (.user, true)
  | .under _ => some (.user, true)
  | .alt _ _ => none
  | .loop _ => none
  | .callback => none
  | .complete => none

/-- What matters to thread `t` about `v`: all changes of `v`, and its own accesses. -/
def Ev.concerns (t : Thr) (v : Var) (e : Ev) : Bool :=
  match e.ins.touches with
  | some (v', w) => v' = v && (w || e.thr = t)
  | none => false

/-- Equivalent executions: each thread does the same things in the same order, and for each thread and variable, the changes of the
variable and the accesses of this thread happen in the same order. -/
def Equivalent (es es' : List Ev) : Prop :=
  (∀ t, es.filter (fun e => e.thr = t) = es'.filter (fun e => e.thr = t)) ∧
  (∀ t v, es.filter (Ev.concerns t v) = es'.filter (Ev.concerns t v))

/-- A meaning for the instructions: how they change the memory of the thread (registers, local variables, and things that
nobody else uses), and what they access. -/
structure Meaning (L V : Type) where
  /-- Instructions that access nothing that is shared. -/
  loc : Instr → Choice → L → L
  /-- What a thread knows after it has accessed a variable with this content. -/
  know : Instr → Choice → L → V → L
  /-- The new content of the variable. -/
  put : Instr → Choice → L → V → V

/-- Memory. -/
structure Mem (L V : Type) where
  loc : Thr → L
  var : Var → V

/-- Effect of an event on the memory. Accesses that do not change anything leave the variable as it is. -/
def Meaning.step {L V : Type} (M : Meaning L V) (m : Mem L V) (e : Ev) : Mem L V :=
  match e.ins.touches with
  | none => { m with loc := upd m.loc e.thr (M.loc e.ins e.ch (m.loc e.thr)) }
  | some (v, w) =>
    { loc := upd m.loc e.thr (M.know e.ins e.ch (m.loc e.thr) (m.var v)),
      var := fun v' => if w = true ∧ v' = v then M.put e.ins e.ch (m.loc e.thr) (m.var v) else m.var v' }

/-- Effect of an execution. -/
def Meaning.run {L V : Type} (M : Meaning L V) (m : Mem L V) (es : List Ev) : Mem L V := es.foldl M.step m

/-- In a section of mutex `o`: the instruction accesses something that other threads may access while the mutex is locked. The number of a
barrier is changed only with its mutex, so that reading it with the mutex does not count. -/
def exposed (o : Obj) : Instr → Bool
  | .atom (.phase b) false => b ≠ o
  | .atom _ _ => true
  | .user => true
  | .under _ => true
  | _ => false

/-- In `m`, thread `t` makes at most one such access. -/
def AtMostOne (t : Thr) (o : Obj) (m : List Ev) : Prop :=
  (m.filter (fun e => e.thr = t && exposed o e.ins)).length ≤ 1

/-- `es` contains a critical section of thread `t` on mutex `o`; during the section, the events `m` happen. -/
def Section (es : List Ev) (t : Thr) (o : Obj) (m : List Ev) : Prop :=
  ∃ a b c d, es = a ++ ⟨t, .lock o, c⟩ :: (m ++ ⟨t, .unlock o, d⟩ :: b) ∧
    ∀ e ∈ m, e.thr = t → e.ins ≠ .unlock o

/-- At each moment of `es` there is a corresponding moment of `es'`, at which every thread that is not in a section has done the same
things so far: what was over before something else began is still over before it begins. -/
def SameTime (es es' : List Ev) : Prop :=
  ∀ es1 es2 s1, es = es1 ++ es2 → Trace Any .init es1 s1 →
    ∃ a b, es' = a ++ b ∧ ∀ t, (∀ o, s1.holder o ≠ some t) → a.filter (fun e => e.thr = t) = es1.filter (fun e => e.thr = t)

/-- Code that the library calls while it holds a lock makes no calls of the library (`Quiet`), and `queue::empty` is not called. -/
def Plain (x : Instr) (f : Fn) : Bool := Quiet x f && NoEmpty x f

/-- In addition, only `try_lock` is used to lock `mutex` and `shared_mutex`. -/
def NoLock (x : Instr) (f : Fn) : Bool :=
  Plain x f && match f with
    | .lockStart _ => false
    | .lockSharedStart _ => false
    | _ => true

end Verif.Locks
