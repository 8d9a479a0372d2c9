import Verif.Recurring.Props

/-!
# `barrier` (barrier.hpp)

A program around `recurring_event`. The critical section of `do_arrive` (lines 36-51) is one action;
`evt_.raise()` (line 53) follows it if the phase advances. `seq_` is a natural number here, a 64-bit
counter in the code; `counter_` and `expected_` are integers, `ptrdiff_t` in the code. Arguments of
the arrival functions are not negative.
-/

namespace Verif.Barrier

open Resolver Recurring

/-- State, lines 58-66. -/
structure S where
  seq : Nat
  counter : Int
  expected : Int

/-- Calls, lines 13-23. -/
inductive Call where
  | arrive (n : Nat)
  | join (n : Nat)
  | drop (n : Nat)
deriving DecidableEq

/-- First argument of `do_arrive`. -/
def Call.n : Call → Int
  | .arrive n | .join n => n
  | .drop _ => 0

/-- Second argument of `do_arrive`. -/
def Call.delta : Call → Int
  | .arrive _ => 0
  | .join n => n
  | .drop n => -n

/-- By how much a call reduces the number of outstanding arrivals of the phase. -/
def Call.use (a : Call) : Int := a.n - a.delta

/-- `do_arrive`, lines 33-55. -/
def doArrive (s : S) (n delta : Int) : Option (S × Bool × Nat) :=
  if s.expected + delta < 0 then none  -- assert, line 39
  else if s.counter + n = s.expected + delta then
    some (⟨s.seq + 1, 0, s.expected + delta⟩, true, s.seq)
  else if s.counter + n < s.expected + delta then
    some (⟨s.seq, s.counter + n, s.expected + delta⟩, false, s.seq)
  else none  -- assert, line 49

/-- `barrier`. The contract of a call is that the calls in progress do not exceed the number of
outstanding arrivals of the phase. Tokens come from arrivals. -/
abbrev prog : User where
  U := S
  A := Call
  R := Nat
  P := Nat
  dec := inferInstance
  cond s p := if p ≤ s.seq then some (decide (s.seq = p)) else none  -- lines 26-28
  act s a := doArrive s a.n a.delta
  admit s p := decide (p ≤ s.seq)
  ok s l a := decide ((l.map Call.use).sum + a.use ≤ s.expected - s.counter)
  direct := false

/-- `barrier(expected)`, lines 10-11 and 58-66. -/
abbrev start (e : Nat) : S := ⟨0, 0, e⟩

/-! ## Specification: reading a history -/

/-- Effect of an event on the number of completed phases. -/
def phaseStep (k : Nat) : Event prog → Nat
  | .ds (.act _ true _) => k + 1
  | _ => k

/-- Number of completed phases. -/
def phases (log : List (Event prog)) : Nat := log.foldl phaseStep 0

/-- Effect of an event on the number of arrivals in the current phase. -/
def arrivedStep (k : Int) : Event prog → Int
  | .ds (.act _ true _) => 0
  | .ds (.act a false _) => k + a.n
  | _ => k

/-- Number of arrivals in the current phase. -/
def arrived (log : List (Event prog)) : Int := log.foldl arrivedStep 0

/-- Effect of an event on the expected number of arrivals. -/
def expectStep (k : Int) : Event prog → Int
  | .ds (.act a _ _) => k + a.delta
  | _ => k

/-- Expected number of arrivals per phase. -/
def expect (e : Nat) (log : List (Event prog)) : Int := log.foldl expectStep e

end Verif.Barrier
