import Verif.Compose.JointTree
import Verif.Tree.LifeInv

/-! # The outermost operations of expressions -/

namespace Verif.Tree

theorem exec_root {s s' : St} {acts : List (List Instr)} {k : Nat} {x : Instr} {r p : List Instr} {b : Bool}
    (h : Inv s acts) (hk : acts[k]? = some (x :: r)) (he : exec s x b = .ok s' p) (n : Nat) : s'.snd [n] = s.snd [n] := by
  have pr := pre h hk
  have rt := h.root
  have hkd := fun p n i => @isKid_ne p n i
  clear h hk
  exec_cases he
  all_goals (try (replace pr := pr.bg _ rfl))
  all_goals (try (replace pr := pr.lp _ _ rfl))
  all_goals (try simp only [St.ev, St.box, St.kids, updP_apply])
  all_goals grind

/-- The expression that an operation is a part of exists. -/
theorem root_exists {c : Conf mach} (h : TReach c) {p : Path} {E : Snd} (hs : c.sh.snd p = some E) :
    ∃ n, p.getLast? = some n ∧ c.sh.snd [n] ≠ none := by
  have hi := reach_inv h
  have x := Ctx.of hi (reach_inv2 h) (reach_inv3 h)
  have hne := ne_nil h hs
  refine ⟨p.getLast hne, List.getLast?_eq_some_getLast hne, fun hn => ?_⟩
  have h1 := (hi.sn _).1 hn
  refine x.anc (x.snd_ne hs) ?_ (by simp) h1
  exact ⟨p.dropLast, List.dropLast_concat_getLast hne⟩

/-- An expression can be started if its name has not been used. -/
theorem enter_ok {u : St} {n : Nat} (h : u.phase [n] = .none) (E : Snd) : ∃ u1, env u [] (.start n E) = some (u1, [.start [n]]) ∧
    u1.log = u.log ∧ ∀ m, u1.snd [m] = if m = n then some E else u.snd [m] := by
  simp only [env, h, if_true]
  refine ⟨_, rfl, rfl, fun m => ?_⟩
  simp [updP_apply]

end Verif.Tree
