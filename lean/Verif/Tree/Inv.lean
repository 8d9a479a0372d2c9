import Verif.Tree.Moves
namespace Verif.Tree
set_option maxHeartbeats 2000000
theorem run_inv {s : St} {acts : List (List Instr)} (h : Inv s acts) {k : Nat} {x : Instr}
    {r p : List Instr} (hk : acts[k]? = some (x :: r)) {b : Bool} {s' : St}
    (he : exec s x b = .ok s' p) : Inv s' (acts.set k (p ++ r)) := by
  have O := fun i => ws_set (own i) p hk
  have R := fun i => ws_set (recw i) p hk
  have B := fun i => ws_set (bgw i) p hk
  have L := fun i j => ws_set (lpw i j) p hk
  have C := fun i => ws_set (rcw i) p hk
  have l := Wt.of_le acts
  have l' := Wt.of_le (acts.set k (p ++ r))
  have Bx := fun i => ws_pos (w := bgw i) hk
  have Ox := fun i => ws_pos (w := own i) hk
  have Lx := fun i j => ws_pos (w := lpw i j) hk
  have Cx := fun i => ws_pos (w := rcw i) hk
  clear hk
  unfold Inv at *
  have e1 : Wt.of acts = ⟨fun p => ws (own p) acts, fun p => ws (recw p) acts, fun p => ws (bgw p) acts,
    fun p k => ws (lpw p k) acts, fun p => ws (rcw p) acts⟩ := rfl
  have e2 : Wt.of (acts.set k (p ++ r)) = ⟨fun i => ws (own i) (acts.set k (p ++ r)),
    fun i => ws (recw i) (acts.set k (p ++ r)), fun i => ws (bgw i) (acts.set k (p ++ r)),
    fun i j => ws (lpw i j) (acts.set k (p ++ r)), fun i => ws (rcw i) (acts.set k (p ++ r))⟩ := rfl
  generalize Wt.of acts = w at *
  generalize Wt.of (acts.set k (p ++ r)) = w' at *
  have O : ∀ i, w'.o i + own i x = w.o i + wl (own i) p := by intro i; rw [e1, e2]; exact O i
  have R : ∀ i, w'.r i + recw i x = w.r i + wl (recw i) p := by intro i; rw [e1, e2]; exact R i
  have B : ∀ i, w'.bg i + bgw i x = w.bg i + wl (bgw i) p := by intro i; rw [e1, e2]; exact B i
  have L : ∀ i j, w'.lp i j + lpw i j x = w.lp i j + wl (lpw i j) p := by intro i j; rw [e1, e2]; exact L i j
  have C : ∀ i, w'.rc i + rcw i x = w.rc i + wl (rcw i) p := by intro i; rw [e1, e2]; exact C i
  have Ox : ∀ i, own i x ≤ w.o i := by intro i; rw [e1]; exact Ox i
  have Bx : ∀ i, bgw i x ≤ w.bg i := by intro i; rw [e1]; exact Bx i
  have Lx : ∀ i j, lpw i j x ≤ w.lp i j := by intro i j; rw [e1]; exact Lx i j
  have Cx : ∀ i, rcw i x ≤ w.rc i := by intro i; rw [e1]; exact Cx i
  clear e1 e2
  have hsta : ∀ i k, s.snd i ≠ none → i ≠ [] → 0 < w.rc (k :: i) → s.phase i = .started := by
    intro i k hs hi hr
    have h1 := h.off i hi
    have h2 := h.con i hi
    have h3 := l.rc i k
    cases hp : s.phase i <;> simp_all <;> omega
  have hloop : ∀ p k, x = .loop p k → s.phase p = .started ∧ s.nx p = k := by
    intro p k e
    have := Lx p k
    subst e
    simp only [lpw, and_self, if_true] at this
    exact h.lp p k this
  have hrcv : ∀ k i v, x = .recv (k :: i) v → i ≠ [] → ∀ S, s.snd i = some S → S.single = true →
      s.nx i = k + 1 ∧ s.phase i = .started := by
    intro k i v e hi S hS hs
    have := Cx (k :: i)
    subst e
    simp only [rcw, if_true] at this
    exact ⟨h.rc i k hi this S hS hs, hsta i k (by simp [hS]) hi this⟩
  exec_cases he
  all_goals simp only [own, recw, bgw, lpw, rcw, wl_cons, wl_nil, wl_append, own_starts, recw_starts, bgw_starts,
    lpw_starts, rcw_starts, own_cancels, recw_cancels, bgw_cancels, lpw_cancels, rcw_cancels, List.tail_cons,
    Nat.add_zero, Nat.zero_add] at O R B L C Ox Bx Lx Cx
  all_goals have hbg := h.bg
  all_goals have hlp := h.lp
  all_goals have hrc := h.rc
  all_goals have hsq := h.sta
  case h_1.isFalse => exact mv_start h l (by grind) (by grind) R (by grind) (by grind) (by grind) _
  case h_2 => exact mv_leaf h l (by assumption) (by grind) O R (by grind) L C
  case h_4 | h_5.isTrue | h_5.isFalse | h_6 | h_7 | h_8 =>
    exact mv_box (a := 1) (b := 0) h l' (by assumption) rfl (by grind) (by grind) rfl (by grind) O (by grind)
      (by grind) (by grind) (by grind) _
  case h_3 => exact mv_log h (by grind) (by grind) (by grind) (by grind) (by grind) _
  case h_9 => exact mv_log h (by grind) (by grind) (by grind) (by grind) (by grind) _
  case h_10 => exact mv_kids h l l' (by assumption) (.inl rfl) (by grind) O (by grind) (by grind) (by grind) (by grind)
  case h_11 => exact mv_kids h l l' (by assumption) (.inr rfl) (by grind) O (by grind) (by grind) (by grind) (by grind)
  case h_3.isFalse => exact mv_setv h l l' (by grind) (by grind) O R (by grind) (by grind) (by grind) _
  case h_5 => exact mv_log h O (by grind) (by grind) (by grind) (by grind) _
  case h_4 | h_5 | h_6 | h_7 | h_8.isTrue =>
    exact mv_pass h l (by assumption) rfl O R (by grind) (by grind) (by grind) _
  case h_8.isFalse =>
    have h1 := hrcv _ _ _ rfl (by simp) _ (by assumption) rfl
    have h2 := hsq _ (by simp) h1.2 _ (by assumption)
    refine mv_box (a := 0) (b := 1) h l' (by assumption) rfl h1.2 (by omega) rfl ?_ (by grind) R (by grind)
      (by grind) (by grind) _
    intro n' f' e
    cases e
    simp only [Load] at h2
    grind
  case h_9 => exact mv_pass h l (by assumption) rfl O R (by grind) (by grind [Snd.single]) (by grind) _
  case h_10.isFalse.isTrue | h_10.isFalse.isFalse =>
    exact mv_dec h (by simp) (by assumption) (.inl rfl) (by assumption) (by grind) R (by grind) (by grind) (by grind)
  case h_11.isFalse.isTrue.isTrue | h_11.isFalse.isTrue.isFalse | h_11.isFalse.isFalse.isTrue |
      h_11.isFalse.isFalse.isFalse =>
    exact mv_dec h (by simp) (by assumption) (.inr rfl) (by assumption) (by grind) R (by grind) (by grind) (by grind)
  case h_1.isFalse.isTrue =>
    have h1 := hloop _ _ rfl
    exact mv_box (a := 1) (b := 0) h l' (by assumption) rfl h1.1 (by omega) rfl (by grind) O (by grind)
      (by grind) (by grind) (by grind) _
  case h_1.isFalse.isFalse => exact mv_log h (by grind) (by grind) (by grind) (by grind) (by grind) _
  case h_8.isFalse => exact mv_log h (by grind) (by grind) (by grind) (by grind) (by grind) _
  case h_9.isFalse => exact mv_log h (by grind) (by grind) (by grind) (by grind) (by grind) _

theorem env_inv {s : St} {acts : List (List Instr)} (h : Inv s acts) {a : Act} {s' : St} {p : List Instr}
    (he : env s acts a = some (s', p)) : Inv s' (acts ++ [p]) := by
  have l := Wt.of_le acts
  env_cases he
  · exact mv_root h l (by assumption) (by simp [Wt.of, own]) (by simp [Wt.of, recw]) (by simp [Wt.of, bgw])
      (by simp [Wt.of, lpw]) (by simp [Wt.of, rcw])
  · exact mv_finish h (by assumption) (by simp [Wt.of, own]) (by simp [Wt.of, recw]) (by simp [Wt.of, bgw])
      (by simp [Wt.of, lpw]) (by simp [Wt.of, rcw])

theorem init_inv : Inv init [] := by
  constructor <;> simp [init, Wt.of]

theorem reach_inv {c : Conf mach} (h : Reach mach init c) : Inv c.sh c.acts :=
  Reach.inv (P := Inv) init_inv (fun _ _ _ _ _ h he => env_inv h he)
    (fun _ _ _ _ _ _ _ _ h hk he => run_inv h hk he) h

end Verif.Tree
