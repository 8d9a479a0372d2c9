import Verif.Tree.Props

/-! # Steps of the algorithms, as seen by their leaves -/

namespace Verif.Tree

theorem exec_rdy {s s' : St} {x : Instr} {b : Bool} {ps : List Instr} (he : exec s x b = .ok s' ps) (p : Path) :
    (x = .begin p ∧ s.snd p = some .leaf ∧ s'.rdy p = true) ∨
    (¬ (x = .begin p ∧ s.snd p = some .leaf) ∧ s'.rdy p = s.rdy p) := by
  exec_cases he
  all_goals simp_all [St.ev, St.box, St.kids, updP_apply]
  all_goals grind

theorem exec_begin {s s' : St} {x : Instr} {b : Bool} {ps : List Instr} (he : exec s x b = .ok s' ps) {p : Path}
    (h : .begin p ∈ ps) : x = .start p := by
  exec_cases he
  all_goals simp_all [starts, cancels]
  all_goals (try (split at h <;> simp_all))
  all_goals (try (rcases h with h | h <;> (split at h <;> simp_all [cancels])))

theorem exec_setv {s s' : St} {x : Instr} {b : Bool} {ps : List Instr} (he : exec s x b = .ok s' ps) {p : Path} {v : Nat}
    (h : .setv p v ∈ ps) : s.snd p ≠ some .leaf ∧ s.snd p ≠ none := by
  exec_cases he
  all_goals simp_all [starts, cancels]
  all_goals grind

theorem exec_log {s s' : St} {x : Instr} {b : Bool} {ps : List Instr} (he : exec s x b = .ok s' ps) :
    (∀ p, .start p ∈ s'.log → .start p ∈ s.log ∨ x = .start p) ∧
    (∀ p v, .done p v ∈ s'.log → .done p v ∈ s.log ∨ x = .setv p v) ∧
    (∀ q, .cancel q ∈ s'.log → .cancel q ∈ s.log ∨ ∃ p j, q = j :: p ∧ x = .cancel p j) := by
  exec_cases he
  all_goals simp_all [St.ev, St.box, St.kids]
  all_goals grind

end Verif.Tree
