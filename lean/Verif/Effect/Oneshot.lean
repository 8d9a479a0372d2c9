import Verif.OneshotPrim.Props
import Verif.CallCount

/-! # Calls on a `oneshot_primitive` -/

namespace Verif.OneshotPrim

theorem count_one (g : Ev → Bool) (l : List Ev) (v : Ev) : (l ++ [v]).countP g = l.countP g + (g v).toNat := by
  cases h : g v <;> simp [h]

def raiseCall : Act → Bool
  | .raise => true
  | _ => false

/-- The event is raised. -/
def raised : Ev → Bool
  | .raise => true
  | _ => false

/-- `raise()` returns. -/
def returned : Ev → Bool
  | .ret => true
  | _ => false

def rw : Instr → Nat
  | .raise => 1
  | _ => 0

def tw : Instr → Nat
  | .raise | .walk _ | .complete _ _ => 1
  | _ => 0

/-- C95. The call of `raise()` raises the event. -/
theorem C95_raise {ls : List (Lbl mach)} {c : Conf mach} (h : mach.runs (mach.init init) ls = some c) :
    Matches c (c.sh.log.countP raised) (calls raiseCall ls) := by
  refine runs_matches (M := mach) (f := raiseCall) (n := fun s => s.log.countP raised) rw rfl ?_ ?_ h
  · intro s acts a s' p he
    cases a <;> simp only [env] at he
    all_goals
      split at he <;> simp at he
      obtain ⟨rfl, rfl⟩ := he
      simp [-List.countP_append, rw, raiseCall, raised, count_one]
  · intro s x b s' p he
    simp only [exec, St.finish] at he
    repeat' split at he
    all_goals simp at he
    all_goals obtain ⟨rfl, rfl⟩ := he; simp [-List.countP_append, rw, raised, count_one]

/-- C95. The call of `raise()` returns. -/
theorem C95_raise_returns {ls : List (Lbl mach)} {c : Conf mach} (h : mach.runs (mach.init init) ls = some c) :
    Matches c (c.sh.log.countP returned) (calls raiseCall ls) := by
  refine runs_matches (M := mach) (f := raiseCall) (n := fun s => s.log.countP returned) tw rfl ?_ ?_ h
  · intro s acts a s' p he
    cases a <;> simp only [env] at he
    all_goals
      split at he <;> simp at he
      obtain ⟨rfl, rfl⟩ := he
      simp [-List.countP_append, tw, raiseCall, returned, count_one]
  · intro s x b s' p he
    simp only [exec, St.finish] at he
    repeat' split at he
    all_goals simp at he
    all_goals obtain ⟨rfl, rfl⟩ := he; simp [-List.countP_append, tw, returned, count_one]

/-! ## Example -/

/-- An operation waits, one more comes after `raise()`. -/
def raiseDemo : List (Lbl mach) :=
  [.env (.start 1), .run 0 true, .run 0 true, .env .raise, .run 1 true, .env (.start 2), .run 1 true, .run 1 true,
   .run 1 true, .run 2 true, .run 2 true, .run 2 true]

example : ∃ c, mach.runs (mach.init init) raiseDemo = some c ∧ Quiescent c ∧ c.sh.log.countP raised = 1 ∧
    c.sh.log.countP returned = 1 ∧ calls raiseCall raiseDemo = 1 ∧ .done 1 ∈ c.sh.log ∧ .done 2 ∈ c.sh.log :=
  ⟨mach.after init raiseDemo, rfl, by intro a ha; revert a ha; decide, rfl, rfl, rfl, by decide, by decide⟩

end Verif.OneshotPrim
