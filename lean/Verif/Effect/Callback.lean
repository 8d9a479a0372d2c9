import Verif.Callback.Props
import Verif.CallCount

/-! # Calls on events and tokens, with callbacks and observers -/

namespace Verif.Callback

/-- A call of `is_cancellation_requested()` on token `t`. -/
def asks (t : Option EvId) : Act → Bool
  | .query u => u == t
  | _ => false

/-- The answer of such a call. -/
def answers (t : Option EvId) : Ev → Bool
  | .query u _ => u == t
  | _ => false

/-- A call of `cancel()` on event `e`. -/
def cancelCall (e : EvId) : Act → Bool
  | .cancel f => f == e
  | _ => false

/-- Its effect. -/
def cancelled (e : EvId) : Ev → Bool
  | .cancel f => f == e
  | _ => false

def qw (t : Option EvId) : Instr → Nat
  | .query u => (u == t).toNat
  | _ => 0

def kw (e : EvId) : Instr → Nat
  | .cancelCS f => (f == e).toNat
  | _ => 0

theorem count_one (g : Ev → Bool) (l : List Ev) (v : Ev) : (l ++ [v]).countP g = l.countP g + (g v).toNat := by
  cases h : g v <;> simp [h]

/-- C95. Every call of `is_cancellation_requested()` returns one answer. (`C01_query`: the answer is right.) -/
theorem C95_query {b : Bool} {ls : List (Lbl mach)} {c : Conf mach}
    (h : mach.runs (mach.init (init b)) ls = some c) (t : Option EvId) :
    Matches c (c.sh.log.countP (answers t)) (calls (asks t) ls) := by
  refine runs_matches (M := mach) (f := asks t) (n := fun s => s.log.countP (answers t)) (qw t) rfl ?_ ?_ h
  · intro s acts a s' p he
    simp only at he
    env_cases he <;> simp [-List.countP_append, qw, asks, answers, count_one]
  · intro s x b s' p he
    simp only at he
    exec_cases he <;> simp [-List.countP_append, qw, answers, count_one]

/-- C95. Every call of `cancel()` takes effect once, on the event it was called on, also if callbacks and observers are
registered. -/
theorem C95_cancel_callbacks {b : Bool} {ls : List (Lbl mach)} {c : Conf mach}
    (h : mach.runs (mach.init (init b)) ls = some c) (e : EvId) :
    Matches c (c.sh.log.countP (cancelled e)) (calls (cancelCall e) ls) := by
  refine runs_matches (M := mach) (f := cancelCall e) (n := fun s => s.log.countP (cancelled e)) (kw e) rfl ?_ ?_ h
  · intro s acts a s' p he
    simp only at he
    env_cases he <;> simp [-List.countP_append, kw, cancelCall, cancelled, count_one]
  · intro s x b s' p he
    simp only at he
    exec_cases he <;> simp [-List.countP_append, kw, cancelled, count_one]

/-- A call of `unbind()`, of the destructor of a callback, or of `try_reset()`, on object `i`. -/
inductive Close where
  | unbind | dtor | treset
deriving DecidableEq

def closeCall (k : Close) (i : Id) : Act → Bool
  | .unbind j => k == .unbind && j == i
  | .dtor j => k == .dtor && j == i
  | .treset j => k == .treset && j == i
  | _ => false

/-- Its return. -/
def closed (k : Close) (i : Id) : Ev → Bool
  | .unbound j => k == .unbind && j == i
  | .dead j => k == .dtor && j == i
  | .tret j _ => k == .treset && j == i
  | _ => false

def ow (k : Close) (i : Id) : Instr → Nat
  | .unb j _ | .uret j => (k == .unbind && j == i).toNat
  | .dtor j _ | .dret j => (k == .dtor && j == i).toNat
  | .treset j _ | .tret j _ => (k == .treset && j == i).toNat
  | _ => 0

/-- C95. Every call of `unbind()`, of the destructor of a callback and of `try_reset()` returns once.
(`C03`: `try_reset()` returns the right value.) -/
theorem C95_close_returns {b : Bool} {ls : List (Lbl mach)} {c : Conf mach}
    (h : mach.runs (mach.init (init b)) ls = some c) (k : Close) (i : Id) :
    Matches c (c.sh.log.countP (closed k i)) (calls (closeCall k i) ls) := by
  refine runs_matches (M := mach) (f := closeCall k i) (n := fun s => s.log.countP (closed k i)) (ow k i) rfl ?_ ?_ h
  · intro s acts a s' p he
    simp only at he
    env_cases he <;> simp [-List.countP_append, ow, closeCall, closed, count_one]
  · intro s x b s' p he
    simp only at he
    exec_cases he <;> simp [-List.countP_append, ow, closed, count_one]

/-! ## Example -/

/-- A callback is constructed for a cancelled event. While its functor runs, another thread asks; the answer comes after
the mutex was released. -/
def askDemo : List (Lbl mach) :=
  [.env (.cancel 0), .run 0 true, .run 0 true, .env (.ctor 1 (some 0)), .run 1 true, .env (.query (some 0)),
   .env (.query none), .run 3 true, .run 1 true, .run 1 true, .run 2 true]

example : ∃ c, mach.runs (mach.init (init true)) askDemo = some c ∧ Quiescent c ∧
    c.sh.log.countP (answers (some 0)) = 1 ∧ c.sh.log.countP (answers none) = 1 ∧ c.sh.log.countP (cancelled 0) = 1 ∧
    calls (asks (some 0)) askDemo = 1 ∧ .query (some 0) true ∈ c.sh.log :=
  ⟨mach.after (init true) askDemo, rfl, by intro a ha; revert a ha; decide, rfl, rfl, rfl, rfl, by decide⟩

/-- Two callbacks and an observer are closed at the same time, one by `unbind()` and one by its destructor. -/
def closeDemo : List (Lbl mach) :=
  [.env (.ctor 1 (some 0)), .run 0 true, .env (.ctor 2 (some 0)), .run 1 true, .env (.set 3 (some 0) false), .run 2 true,
   .env (.unbind 1), .env (.dtor 2), .env (.treset 3), .run 3 true, .run 4 true, .run 5 true, .run 5 true, .run 4 true,
   .run 3 true]

example : ∃ c, mach.runs (mach.init (init true)) closeDemo = some c ∧ Quiescent c ∧
    c.sh.log.countP (closed .unbind 1) = 1 ∧ c.sh.log.countP (closed .dtor 2) = 1 ∧
    c.sh.log.countP (closed .treset 3) = 1 ∧ calls (closeCall .treset 3) closeDemo = 1 ∧ .tret 3 true ∈ c.sh.log :=
  ⟨mach.after (init true) closeDemo, rfl, by intro a ha; revert a ha; decide, rfl, rfl, rfl, rfl, by decide⟩

end Verif.Callback
