import Verif.Mutex.Props
import Verif.CallCount

/-! # Calls on a `mutex` -/

namespace Verif.Mutex

theorem count_one (g : Ev → Bool) (l : List Ev) (v : Ev) : (l ++ [v]).countP g = l.countP g + (g v).toNat := by
  cases h : g v <;> simp [h]

/-- A call of `unlock` by acquisition `i`. -/
def unlockCall (i : Id) : Act → Bool
  | .unlock j => j == i
  | _ => false

/-- Acquisition `i` gives up the mutex: it becomes free or is handed over. -/
def givesUp (i : Id) : Ev → Bool
  | .rel j | .grant j _ => j == i
  | _ => false

def uw (i : Id) : Instr → Nat
  | .unlock j | .casU j | .acqU j | .popU j => (j == i).toNat
  | _ => 0

/-- `async_lock` is started or `try_lock` is called, for acquisition `i`. -/
def request (i : Id) : Act → Bool
  | .lock j | .tryLock j => j == i
  | _ => false

/-- It is decided what happens to acquisition `i`: it gets the mutex, or has to wait, or fails. -/
def decided (i : Id) : Ev → Bool
  | .fast j | .enq j | .fail j => j == i
  | _ => false

def rw (i : Id) : Instr → Nat
  | .lock j | .tryLock j | .acqM j | .ld j | .chk j _ | .push j => (j == i).toNat
  | _ => 0

/-- C95. Every call of `unlock` gives up the mutex, once. -/
theorem C95_unlock {ls : List (Lbl mach)} {c : Conf mach} (h : mach.runs (mach.init init) ls = some c) (i : Id) :
    Matches c (c.sh.log.countP (givesUp i)) (calls (unlockCall i) ls) := by
  refine runs_matches (M := mach) (f := unlockCall i) (n := fun s => s.log.countP (givesUp i)) (uw i) rfl ?_ ?_ h
  · intro s acts a s' p he
    cases a <;> simp only [env] at he
    all_goals
      split at he <;> simp at he
      obtain ⟨rfl, rfl⟩ := he
      simp [-List.countP_append, uw, unlockCall, givesUp, count_one]
  · intro s x b s' p he
    cases x <;> simp only [exec] at he
    case chk i v =>
      cases v <;> simp only at he
      all_goals (try split at he) <;> simp at he <;> obtain ⟨rfl, rfl⟩ := he <;>
        simp [-List.countP_append, uw, givesUp, count_one]
    all_goals (try split at he) <;> (try simp at he) <;> (try (obtain ⟨rfl, rfl⟩ := he)) <;>
      simp [-List.countP_append, uw, givesUp, count_one]

/-- C95. Every `async_lock` and every call of `try_lock` is decided, once. -/
theorem C95_lock {ls : List (Lbl mach)} {c : Conf mach} (h : mach.runs (mach.init init) ls = some c) (i : Id) :
    Matches c (c.sh.log.countP (decided i)) (calls (request i) ls) := by
  refine runs_matches (M := mach) (f := request i) (n := fun s => s.log.countP (decided i)) (rw i) rfl ?_ ?_ h
  · intro s acts a s' p he
    cases a <;> simp only [env] at he
    all_goals
      split at he <;> simp at he
      obtain ⟨rfl, rfl⟩ := he
      simp [-List.countP_append, rw, request, decided, count_one]
  · intro s x b s' p he
    cases x <;> simp only [exec] at he
    case chk i v =>
      cases v <;> simp only at he
      all_goals (try split at he) <;> simp at he <;> obtain ⟨rfl, rfl⟩ := he <;>
        simp [-List.countP_append, rw, decided, count_one]
    all_goals (try split at he) <;> (try simp at he) <;> (try (obtain ⟨rfl, rfl⟩ := he)) <;>
      simp [-List.countP_append, rw, decided, count_one]

/-! ## Example -/

/-- The mutex is handed over and becomes free; `try_lock` fails. -/
def callsDemo : List (Lbl mach) := sched 0 [(.lock 1, 2), (.lock 2, 6), (.tryLock 3, 1), (.unlock 1, 6), (.unlock 2, 2)]

example : ∃ c, mach.runs (mach.init init) callsDemo = some c ∧ Quiescent c ∧ c.sh.log.countP (givesUp 1) = 1 ∧
    c.sh.log.countP (givesUp 2) = 1 ∧
    calls (unlockCall 1) callsDemo = 1 ∧
    c.sh.log.countP (decided 2) = 1 ∧
    c.sh.log.countP (decided 3) = 1 :=
  ⟨mach.after init callsDemo, rfl, by intro a ha; revert a ha; decide, rfl, rfl, rfl, rfl, rfl⟩

end Verif.Mutex
