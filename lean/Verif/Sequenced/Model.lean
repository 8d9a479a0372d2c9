import Verif.Recurring.Props

/-!
# `sequenced_event` (sequenced-event.hpp)

A program around `recurring_event`: the state is `seq_`. `raise()` (lines 12-15) increments `seq_`
and calls `ev_.raise()`. `async_wait` (lines 21-29) waits while `in_seq >= seq_` and asserts
`seq_ >= in_seq`. Its result is the value of `seq_` loaded by the functor of `transform`, which runs
inside the completion of the wait operation: in a history, the number of increments before the
completion. `seq_` is a natural number here, a 64-bit counter in the code.
-/

namespace Verif.Sequenced

open Resolver Recurring

/-- `sequenced_event`. -/
abbrev prog : User where
  U := Nat
  A := Unit
  R := Unit
  P := Nat
  dec := inferInstance
  cond seq p := if p ≤ seq then some (decide (seq ≤ p)) else none  -- lines 23-25
  act seq _ := some (seq + 1, true, ())  -- lines 13-14
  admit seq p := decide (p ≤ seq)
  ok _ _ _ := true
  direct := false

/-- The number of increments in a history: the value of `seq_` (line 33: initially 0). -/
def seqOf (log : List (Event prog)) : Nat :=
  log.countP fun v => match v with
    | .ds (.act _ _ _) => true
    | _ => false

end Verif.Sequenced
