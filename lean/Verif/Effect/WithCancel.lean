import Verif.WithCancel.Props
import Verif.CallCount

/-! # Calls of `cancel()` with `with_cancel_cb` -/

namespace Verif.WithCancel

/-- A call of `cancel()` on event `e`. -/
def cancelCall (e : EvId) : Act → Bool
  | .cancel f => f == e
  | _ => false

/-- Its effect. -/
def cancelled (e : EvId) : Ev → Bool
  | .cancel f => f == e
  | _ => false

def kw (e : EvId) : Instr → Nat
  | .cancelCS f => (f == e).toNat
  | _ => 0

theorem count_one (g : Ev → Bool) (l : List Ev) (v : Ev) : (l ++ [v]).countP g = l.countP g + (g v).toNat := by
  cases h : g v <;> simp [h]

/-- C95. Every call of `cancel()` takes effect once, also if `with_cancel_cb` operations are running. -/
theorem C95_cancel_cb {ls : List (Lbl mach)} {c : Conf mach} (h : mach.runs (mach.init init) ls = some c) (e : EvId) :
    Matches c (c.sh.log.countP (cancelled e)) (calls (cancelCall e) ls) := by
  refine runs_matches (M := mach) (f := cancelCall e) (n := fun s => s.log.countP (cancelled e)) (kw e) rfl ?_ ?_ h
  · intro s acts a s' p he
    simp only at he
    env_cases he <;> simp [-List.countP_append, kw, cancelCall, cancelled, count_one]
  · intro s x b s' p he
    simp only at he
    exec_cases he <;> simp [-List.countP_append, kw, cancelled, count_one]

/-! ## Example -/

/-- The event of a running operation is cancelled, twice. -/
def callsDemo : List (Lbl mach) := sched 0 [(.start 1 (some 0), 2), (.cancel 0, 6), (.finish 1 3, 4), (.cancel 0, 2)]

example : ∃ c, mach.runs (mach.init init) callsDemo = some c ∧ Quiescent c ∧ c.sh.log.countP (cancelled 0) = 2 ∧
    calls (cancelCall 0) callsDemo = 2 :=
  ⟨mach.after init callsDemo, rfl, by intro a ha; revert a ha; decide, rfl, rfl⟩

end Verif.WithCancel
