import Verif.Width.Resolver

/-!
# The word of `cancellation_resolver` and the three Booleans of the model are the same
-/

namespace Verif.Width.Resolver

open Verif.Resolver

/-- C100. `cancellation_resolver`: in every state of every data structure, `transition_` on the word does the same as `transition_` on three
separate flags: the same assertions fail, the word has the same bits afterwards, and the same is done next. -/
theorem C100_resolver_word {S : DS} (s : RSt S) (i : OpId) (nb : Bits) (b : Bool) :
    exec s (.transition i nb) b = match transition (word (s.bits i)) (word nb) with
      | none => .fault
      | some (w, nx) => .ok { s with bits := upd s.bits i (Resolver.bits w) } (nx.instrs i) := by
  simp only [exec]
  generalize s.bits i = ob
  obtain ⟨l1, c1, x1⟩ := ob
  obtain ⟨l2, c2, x2⟩ := nb
  cases l1 <;> cases c1 <;> cases x1 <;> cases l2 <;> cases c2 <;> cases x2 <;> rfl

/-- C100. Words and flags determine each other; every word that occurs is smaller than 8. -/
theorem C100_resolver_bits (b : Bits) : Resolver.bits (word b) = b ∧ word b < 8 := by
  obtain ⟨l, c, x⟩ := b
  cases l <;> cases c <;> cases x <;> decide

/-! A transition that completes the word, and one that repeats a bit. -/

example : transition (word { listen := true }) (word { compl := true }) = some (3, .unregister) := rfl
example : transition (word { listen := true, canc := true }) (word { compl := true }) = some (7, .resume) := rfl
example : transition (word { compl := true }) (word { compl := true, canc := true }) = none := rfl
example : transition 0 8 = none := rfl

end Verif.Width.Resolver
