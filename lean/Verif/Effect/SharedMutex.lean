import Verif.SharedMutex.Props
import Verif.CallCount

/-! # Calls on a `shared_mutex` -/

namespace Verif.SharedMutex

theorem count_one (g : Ev → Bool) (l : List Ev) (v : Ev) : (l ++ [v]).countP g = l.countP g + (g v).toNat := by
  cases h : g v <;> simp [h]

/-- A call of `unlock` or `unlock_shared` by request `t`. -/
def unlockCall (t : Req) : Act → Bool
  | .unlock u => u == t
  | _ => false

/-- Request `t` gives up the mutex. -/
def givesUp (t : Req) : Ev → Bool
  | .rel u | .grant u _ => u == t
  | _ => false

def uw (t : Req) : Instr → Nat
  | .unlock i | .casU i | .acqU i | .popU i => ((i, true) == t).toNat
  | .unlockS i | .usL i _ | .usC i _ | .acqS i | .popS i => ((i, false) == t).toNat
  | _ => 0

/-- The request is made: `async_lock`, `async_lock_shared`, `try_lock` or `try_lock_shared`. -/
def request (t : Req) : Act → Bool
  | .lock u | .tryLock u => u == t
  | _ => false

/-- It is decided what happens to the request: it is admitted, or has to wait, or fails. -/
def decided (t : Req) : Ev → Bool
  | .fast u | .enq u | .fail u => u == t
  | _ => false

def rw (t : Req) : Instr → Nat
  | .lock i | .tryLock i => ((i, true) == t).toNat
  | .lockS i | .tryLockS i | .lsT i _ _ => ((i, false) == t).toNat
  | .acqM u | .ld u | .chk u _ | .push u => (u == t).toNat
  | _ => 0

theorem wl_acq (w : Instr → Nat) (h : ∀ t, w (.acq t) = 0) (l : List Id) : wl w (l.map fun j => .acq (j, false)) = 0 := by
  induction l with
  | nil => rfl
  | cons x l ih => simp [h, ih]

/-- C95. Every call of `unlock` and of `unlock_shared` gives up the mutex, once. -/
theorem C95_unlock {ls : List (Lbl mach)} {c : Conf mach} (h : mach.runs (mach.init init) ls = some c) (t : Req) :
    Matches c (c.sh.log.countP (givesUp t)) (calls (unlockCall t) ls) := by
  refine runs_matches (M := mach) (f := unlockCall t) (n := fun s => s.log.countP (givesUp t)) (uw t) rfl ?_ ?_ h
  · intro s acts a s' p he
    cases a <;> simp only [env] at he
    all_goals
      split at he <;> simp at he
      obtain ⟨rfl, rfl⟩ := he
      rename_i u _
      obtain ⟨i, _ | _⟩ := u <;>
      simp [-List.countP_append, uw, unlockCall, givesUp, count_one, Instr.ofLock, Instr.ofTry, Instr.ofUnlock]
  · intro s x b s' p he
    have hw := wl_acq (uw t) (fun _ => rfl)
    cases x <;> simp only [exec, St.admit] at he
    case chk u v =>
      obtain ⟨i, _ | _⟩ := u <;> simp only at he
      all_goals repeat' split at he
      all_goals simp at he
      all_goals obtain ⟨rfl, rfl⟩ := he
      all_goals simp [-List.countP_append, uw, givesUp, count_one]
    all_goals repeat' split at he
    all_goals try simp at he
    all_goals try (obtain ⟨rfl, rfl⟩ := he)
    all_goals simp [-List.countP_append, uw, givesUp, count_one, hw]

/-- C95. Every request for a `shared_mutex` is decided, once. -/
theorem C95_lock {ls : List (Lbl mach)} {c : Conf mach} (h : mach.runs (mach.init init) ls = some c) (t : Req) :
    Matches c (c.sh.log.countP (decided t)) (calls (request t) ls) := by
  refine runs_matches (M := mach) (f := request t) (n := fun s => s.log.countP (decided t)) (rw t) rfl ?_ ?_ h
  · intro s acts a s' p he
    cases a <;> simp only [env] at he
    all_goals
      split at he <;> simp at he
      obtain ⟨rfl, rfl⟩ := he
      rename_i u _
      obtain ⟨i, _ | _⟩ := u <;>
      simp [-List.countP_append, rw, request, decided, count_one, Instr.ofLock, Instr.ofTry, Instr.ofUnlock]
  · intro s x b s' p he
    have hw := wl_acq (rw t) (fun _ => rfl)
    cases x <;> simp only [exec, St.admit] at he
    case chk u v =>
      obtain ⟨i, _ | _⟩ := u <;> simp only at he
      all_goals repeat' split at he
      all_goals simp at he
      all_goals obtain ⟨rfl, rfl⟩ := he
      all_goals simp [-List.countP_append, rw, decided, count_one]
    all_goals repeat' split at he
    all_goals try simp at he
    all_goals try (obtain ⟨rfl, rfl⟩ := he)
    all_goals simp [-List.countP_append, rw, decided, count_one, hw]

/-! ## Example -/

/-- Two readers, then a writer, then a reader; a `try_lock` fails. -/
def callsDemo : List (Lbl mach) := sched 0 [(.lock (1, false), 3), (.tryLock (2, false), 3), (.lock (3, true), 6), (.tryLock (4, true), 1), (.lock (5, false), 7), (.unlock (1, false), 2), (.unlock (2, false), 7), (.unlock (3, true), 6), (.unlock (5, false), 2)]

example : ∃ c, mach.runs (mach.init init) callsDemo = some c ∧ Quiescent c ∧ c.sh.log.countP (givesUp (1, false)) = 1 ∧
    c.sh.log.countP (givesUp (3, true)) = 1 ∧
    calls (unlockCall (3, true)) callsDemo = 1 ∧
    c.sh.log.countP (decided (4, true)) = 1 ∧
    c.sh.log.countP (decided (5, false)) = 1 :=
  ⟨mach.after init callsDemo, rfl, by intro a ha; revert a ha; decide, rfl, rfl, rfl, rfl, rfl⟩

end Verif.SharedMutex
