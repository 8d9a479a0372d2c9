import Verif.Tree.Hist

/-!
# Who acts for an operation

The pending instructions that act for an operation (other than the trailing statement of `when_all` and the cancellation
loop of `race_and_cancel`) are *tokens*. Two tokens always belong to different expressions or to different children of a
`when_all` or a `race_and_cancel`.
-/

namespace Verif.Tree

/-- `when_all` and `race_and_cancel`: the children run concurrently. -/
def Snd.par : Snd → Prop
  | .all _ _ | .race _ _ => True
  | _ => False

/-- `p` and `q` belong to different expressions, or to different children of the same `when_all` or
`race_and_cancel`. -/
def Apart (snd : Path → Option Snd) (p q : Path) : Prop :=
  ∃ c i j, i ≠ j ∧ (i :: c) <:+ p ∧ (j :: c) <:+ q ∧ (c = [] ∨ ∃ S, snd c = some S ∧ S.par)

variable {snd snd' : Path → Option Snd} {p q r : Path}

theorem Apart.symm (h : Apart snd p q) : Apart snd q p := by
  obtain ⟨c, i, j, h1, h2, h3, h4⟩ := h
  exact ⟨c, j, i, h1.symm, h3, h2, h4⟩

theorem Apart.ext (h : Apart snd p q) (hq : q <:+ r) : Apart snd p r := by
  obtain ⟨c, i, j, h1, h2, h3, h4⟩ := h
  exact ⟨c, i, j, h1, h2, h3.trans hq, h4⟩

theorem Apart.mono (h : Apart snd p q) (hs : ∀ p S, snd p = some S → snd' p = some S) : Apart snd' p q := by
  obtain ⟨c, i, j, h1, h2, h3, h4⟩ := h
  refine ⟨c, i, j, h1, h2, h3, ?_⟩
  rcases h4 with h4 | ⟨S, h4, h5⟩
  · exact .inl h4
  · exact .inr ⟨S, hs _ _ h4, h5⟩

theorem suffix_head {c : Path} {i j : Nat} (hi : (i :: c) <:+ p) (hj : (j :: c) <:+ p) : i = j := by
  have := List.suffix_of_suffix_length_le hi hj (by simp)
  have := this.eq_of_length (by simp)
  simp at this; exact this

theorem Apart.not_suffix (h : Apart snd p q) (hp : p <:+ q) : False := by
  obtain ⟨c, i, j, h1, h2, h3, _⟩ := h
  exact h1 (suffix_head (h2.trans hp) h3)

/-- Two operations, one of which is not a part of the other, are in different children of a common one. -/
theorem diverge (p q : Path) : p <:+ q ∨ q <:+ p ∨ ∃ c i j, i ≠ j ∧ (i :: c) <:+ p ∧ (j :: c) <:+ q := by
  induction p with
  | nil => exact .inl (List.nil_suffix ..)
  | cons k p ih =>
    rcases ih with h | h | ⟨c, i, j, h1, h2, h3⟩
    · obtain ⟨l, rfl⟩ := h
      rcases List.eq_nil_or_concat l with rfl | ⟨l, j, rfl⟩
      · exact .inr (.inl (by simp))
      · by_cases e : k = j
        · subst e; exact .inl ⟨l, by simp⟩
        · exact .inr (.inr ⟨p, k, j, e, List.suffix_refl _, l, by simp⟩)
    · exact .inr (.inl (h.trans (List.suffix_cons ..)))
    · exact .inr (.inr ⟨c, i, j, h1, h2.trans (List.suffix_cons ..), h3⟩)

/-- A path that is concurrent with a child of `c`, but not with `c`, is in another child of `c`. -/
theorem Apart.up {k : Nat} {c : Path} (h : Apart snd p (k :: c)) (hn : ¬ Apart snd p c) :
    (∃ i, i ≠ k ∧ (i :: c) <:+ p) ∧ (c = [] ∨ ∃ S, snd c = some S ∧ S.par) := by
  obtain ⟨d, i, j, h1, h2, h3, h4⟩ := h
  rcases List.suffix_cons_iff.1 h3 with h5 | h5
  · simp at h5
    obtain ⟨rfl, rfl⟩ := h5
    exact ⟨⟨i, h1, h2⟩, h4⟩
  · exact absurd ⟨d, i, j, h1, h2, h5, h4⟩ hn

/-- The operation that an instruction acts for. -/
def Instr.at : Instr → Path
  | .start p | .begin p | .setv p _ | .recv p _ | .loop p _ | .trail p | .cancel p _ => p

def Instr.tok : Instr → Prop
  | .trail _ | .cancel _ _ => False
  | _ => True

/-- The weight of tokens. -/
def tkw (p : Path) (x : Instr) : Nat := own p x + rcw p x

theorem tkw_tok {x : Instr} (h : x.tok) : tkw x.at x = 1 := by
  cases x <;> simp [Instr.tok, tkw, own, rcw, Instr.at] at *

theorem ws_tkw (p : Path) (acts : List (List Instr)) : ws (tkw p) acts = ws (own p) acts + ws (rcw p) acts :=
  ws_add (fun _ => rfl) acts

/-- The completion of an operation is handled once. -/
def RcOne (acts : List (List Instr)) : Prop := ∀ p, ws (rcw p) acts ≤ 1

theorem reach_rcone {c : Conf mach} (h : Reach mach init c) : RcOne c.acts := by
  refine Reach.inv_with (P := fun s acts => Inv2 s acts) (Q := fun _ acts => RcOne acts) (fun c hc => reach_inv2 hc) ?_ ?_ ?_ h
  · intro p; simp [ws_nil]
  · intro s acts a s' p _ _ hq he i
    have := hq i
    env_cases he <;> simp [rcw] <;> omega
  · intro s acts k x r b s' p h2 _ hq hk he i
    have h3 := hq i
    have h4 := ws_set (rcw i) p hk
    have h5 := h2.rn i
    have h6 := ws_pos (w := rcw i) hk
    by_cases hx : ∃ v, x = .setv i v
    · obtain ⟨v, rfl⟩ := hx
      have h0 : ws (rcw i) acts = 0 := by
        apply Classical.byContradiction
        intro hc
        have := h5 (by omega)
        simp [exec, this] at he
      have h7 : wl (rcw i) p ≤ 1 := by
        clear h4 hk h6
        exec_cases he
        simp [rcw]
      omega
    · have : wl (rcw i) p = 0 := by
        clear h4 hk h6
        have hx : ∀ v, x ≠ .setv i v := fun v e => hx ⟨v, e⟩
        exec_cases he
        all_goals simp only [ne_eq, Instr.setv.injEq, reduceCtorEq, not_false_eq_true, not_and] at hx
        all_goals simp [rcw]
        all_goals grind
      omega

/-- The operation has not completed, or its completion was not handled so far. -/
def Live (s : St) (acts : List (List Instr)) (p : Path) : Prop :=
  (s.phase p = .conn ∨ s.phase p = .started) ∨ 0 < ws (rcw p) acts

section
variable {s : St} {acts : List (List Instr)} (h : Inv s acts) (h2 : Inv2 s acts) (h1 : RcOne acts)
include h

theorem live_parent {k : Nat} {q : Path} (hq : q ≠ []) (hl : Live s acts (k :: q)) : s.phase q = .started := by
  rcases hl with hl | hl
  · exact h.par q k hq hl
  · have h3 := (Wt.of_le acts).rc q k
    have h4 := h.off q hq
    have h5 := h.con q hq
    simp only [Wt.of] at h3 h4 h5
    cases hp : s.phase q <;> simp_all <;> omega

theorem live_up {p q : Path} (hq : q ≠ []) (hl : Live s acts p) (hs : q <:+ p) : q = p ∨ s.phase q = .started := by
  induction p with
  | nil => simp at hs; exact .inl hs
  | cons k p ih =>
    rcases List.suffix_cons_iff.1 hs with e | hs
    · exact .inl e
    · have hp : p ≠ [] := by intro e; subst e; simp at hs; exact hq hs
      have h3 := live_parent h hp hl
      rcases ih (.inl (.inr h3)) hs with rfl | h4
      · exact .inr h3
      · exact .inr h4

/-- An operation with a live child has no token of its own. -/
theorem live_child {k : Nat} {q : Path} (hq : q ≠ []) (hl : Live s acts (k :: q)) :
    ws (own q) acts = 0 ∧ s.rdy q = false ∧ ∃ S, s.snd q = some S := by
  have hp := live_parent h hq hl
  obtain ⟨S, hS⟩ : ∃ S, s.snd q = some S := by
    cases hs : s.snd q with
    | none => rw [(h.sn q).1 hs] at hp; cases hp
    | some S => exact ⟨S, rfl⟩
  have h3 := h.sta q hq hp S hS
  have h4 := (Wt.of_le acts).rc q k
  have h5 := h.fit q k hq
  simp only [Wt.of] at h3 h4
  rcases hl with hl | hl
  · have h6 := h5 hl S hS
    have h7 := fun m (hm : k < m) => kids_pos (ph := s.phase) (q := q) hm (act_pos.2 hl)
    cases S <;> simp [Load, Fits] at h3 h6 <;> try grind
  · cases S <;> simp [Load] at h3 <;> grind

/-- Only `when_all` and `race_and_cancel` have several live children. -/
theorem live_two {i j : Nat} {q : Path} (hq : q ≠ []) (hij : i ≠ j) (hi : Live s acts (i :: q))
    (hj : Live s acts (j :: q)) : ∃ S, s.snd q = some S ∧ S.par := by
  have hp := live_parent h hq hi
  obtain ⟨-, -, S, hS⟩ := live_child h hq hi
  refine ⟨S, hS, ?_⟩
  have h3 := h.sta q hq hp S hS
  have h4 := (Wt.of_le acts).rc q i
  have h4' := (Wt.of_le acts).rc q j
  have h5 := h.fit q i hq
  have h5' := h.fit q j hq
  have h6 := h.rc q i hq
  have h6' := h.rc q j hq
  simp only [Wt.of] at *
  cases S <;> simp [Load, Fits, Snd.par, hS, Snd.single] at * <;> rcases hi with hi | hi <;> rcases hj with hj | hj <;> grind

end

/-- Number of tokens of an operation. -/
def toks (s : St) (acts : List (List Instr)) (p : Path) : Nat := ws (tkw p) acts + if s.rdy p then 1 else 0

section
variable {s : St} {acts : List (List Instr)} (h : Inv s acts) (h2 : Inv2 s acts) (h1 : RcOne acts)
include h h2 h1

omit h2 h1 in
theorem toks_live (ht : 0 < toks s acts p) : p = [] ∨ Live s acts p := by
  by_cases hp : p = []
  · exact .inl hp
  · right
    have h3 := h.off p hp
    simp only [toks, ws_tkw, Wt.of] at ht h3
    by_cases hr : 0 < ws (rcw p) acts
    · exact .inr hr
    · left
      cases hph : s.phase p <;> simp_all

theorem toks_le (p : Path) (hp : p ≠ []) : toks s acts p ≤ 1 := by
  have h3 := h.off p hp
  have h4 := h.con p hp
  have h5 := h.sta p hp
  have h6 := h2.rn p
  have h7 := h1 p
  simp only [toks, ws_tkw, Wt.of] at *
  cases hs : s.snd p with
  | none =>
    have := (h.sn p).1 hs
    rw [this] at h3 h6
    simp at h3 h6
    simp [h3, h6]
  | some S =>
    cases hph : s.phase p
    · rw [hph] at h3 h6; simp at h3 h6; simp [h3, h6]
    · rw [hph] at h4 h6; simp at h4 h6; simp [h4, h6]
    · have h8 := h5 hph S hs
      rw [hph] at h6; simp at h6; rw [h6]
      cases S <;> simp [Load] at h8 <;> grind
    · rw [hph] at h3; simp at h3; simp [h3]; exact h7

omit h1 in
/-- Tokens of different operations are concurrent. -/
theorem toks_apart (hp : p ≠ []) (hq : q ≠ []) (hne : p ≠ q) (tp : 0 < toks s acts p) (tq : 0 < toks s acts q) :
    Apart s.snd p q := by
  have key : ∀ p q : Path, p ≠ [] → q ≠ [] → p ≠ q → 0 < toks s acts p → 0 < toks s acts q → ¬ p <:+ q := by
    intro p q hp hq hne tp tq hs
    have lq := (toks_live h tq).resolve_left hq
    obtain ⟨l, rfl⟩ := hs
    rcases List.eq_nil_or_concat l with rfl | ⟨l, k, rfl⟩
    · exact hne rfl
    · have hl : Live s acts (k :: p) := by
        rcases live_up h (q := k :: p) (by simp) lq ⟨l, by simp⟩ with e | e
        · rw [e]; exact lq
        · exact .inl (.inr e)
      have h3 := live_child h hp hl
      have h4 := live_parent h hp hl
      have h5 := h2.rn p
      simp only [toks, ws_tkw] at tp
      rw [h4] at h5; simp at h5
      simp [h3.1, h3.2.1, h5] at tp
  rcases diverge p q with hs | hs | ⟨c, i, j, hij, hi, hj⟩
  · exact absurd hs (key p q hp hq hne tp tq)
  · exact absurd hs (key q p hq hp (Ne.symm hne) tq tp)
  · refine ⟨c, i, j, hij, hi, hj, ?_⟩
    by_cases hc : c = []
    · exact .inl hc
    · right
      have lp := (toks_live h tp).resolve_left hp
      have lq := (toks_live h tq).resolve_left hq
      have li : Live s acts (i :: c) := by
        rcases live_up h (q := i :: c) (by simp) lp hi with e | e
        · rw [e]; exact lp
        · exact .inl (.inr e)
      have lj : Live s acts (j :: c) := by
        rcases live_up h (q := j :: c) (by simp) lq hj with e | e
        · rw [e]; exact lq
        · exact .inl (.inr e)
      exact live_two h hc hij li lj

end

end Verif.Tree
