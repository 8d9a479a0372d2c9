import Verif.Weights

/-! # Invariants on top of other invariants -/

namespace Verif

/-- An invariant whose proof uses another invariant before and after the step. -/
theorem Reach.inv_with {M : Mach} {s0 : M.σ} {P Q : M.σ → List (List M.ι) → Prop}
    (hP : ∀ c : Conf M, Reach M s0 c → P c.sh c.acts)
    (h0 : Q s0 [])
    (henv : ∀ s acts a s' p, P s acts → P s' (acts ++ [p]) → Q s acts → M.env s acts a = some (s', p) →
      Q s' (acts ++ [p]))
    (hrun : ∀ s acts k x r b s' p, P s acts → P s' (acts.set k (p ++ r)) → Q s acts →
      acts[k]? = some (x :: r) → M.exec s x b = .ok s' p → Q s' (acts.set k (p ++ r)))
    {c : Conf M} (hc : Reach M s0 c) : Q c.sh c.acts := by
  induction hc with
  | init => exact h0
  | @step c c' l hr hs ih =>
    have h1 := hP c hr
    have h2 := hP c' (.step hr hs)
    cases l with
    | env a =>
      simp only [Mach.step] at hs
      split at hs
      · simp at hs
      · split at hs
        · rename_i s' p he; simp at hs; subst hs; exact henv _ _ _ _ _ h1 h2 ih he
        · simp at hs
    | run k b =>
      simp only [Mach.step] at hs
      split at hs
      · simp at hs
      · split at hs
        · rename_i x r hk
          split at hs
          · rename_i s' p he; simp at hs; subst hs; exact hrun _ _ _ _ _ _ _ _ h1 h2 ih hk he
          · simp at hs
          · simp at hs; subst hs; exact ih
        · simp at hs

variable {ι : Type u}

theorem wl_two {w : ι → Nat} {l : List ι} {y : ι} (h : y ∈ l) : w y ≤ wl w l := by
  induction l with
  | nil => simp at h
  | cons x l ih =>
    simp only [wl_cons]
    rcases List.mem_cons.1 h with h | h
    · subst h; omega
    · have := ih h; omega

/-- What is pending after an instruction was executed is new or was pending beside it. -/
theorem pending_set2 {acts : List (List ι)} {k : Nat} {x : ι} {r p : List ι} {y : ι}
    (h : acts[k]? = some (x :: r)) (hy : Pending (acts.set k (p ++ r)) y) :
    y ∈ p ∨ (Pending acts y ∧ ∀ w : ι → Nat, w x + w y ≤ ws w acts) := by
  obtain ⟨a, ha, hya⟩ := hy
  obtain ⟨n, hn, e⟩ := List.getElem_of_mem ha
  have hlt : k < acts.length := by rw [List.getElem?_eq_some_iff] at h; exact h.1
  by_cases hnk : n = k
  · subst hnk
    simp at e; subst e
    rcases List.mem_append.1 hya with h1 | h1
    · exact .inl h1
    · right
      refine ⟨⟨x :: r, List.mem_of_getElem? h, by simp [h1]⟩, fun w => ?_⟩
      have := ws_set w [] h
      have h2 := ws_pos_of_mem (w := w) (acts := acts.set n ([] ++ r)) (List.mem_set hlt _) (a := [] ++ r) (x := y)
        (by simp [h1])
      simp at this h2; omega
  · right
    simp at hn
    have e' : acts[n] = a := by simpa [Ne.symm hnk] using e
    refine ⟨⟨a, e' ▸ List.getElem_mem hn, hya⟩, fun w => ?_⟩
    have := ws_set w [] h
    have hm : a ∈ acts.set k ([] ++ r) := by
      rw [← e']; exact List.mem_iff_getElem.2 ⟨n, by simpa using hn, by simp [Ne.symm hnk]⟩
    have h2 := ws_pos_of_mem (w := w) hm hya
    simp at this h2; omega

/-- A pending instruction stays pending unless it is the one that is executed. -/
theorem pending_stays {acts : List (List ι)} {k : Nat} {x y : ι} {r p : List ι}
    (hk : acts[k]? = some (x :: r)) (hy : Pending acts y) (hne : y ≠ x) :
    Pending (acts.set k (p ++ r)) y := by
  obtain ⟨a, ha, hya⟩ := hy
  obtain ⟨n, hn, e⟩ := List.getElem_of_mem ha
  by_cases hnk : n = k
  · subst hnk
    rw [List.getElem?_eq_getElem hn, e] at hk
    simp at hk; subst hk
    have : y ∈ r := by simpa [hne] using hya
    exact ⟨p ++ r, List.mem_set hn _, by simp [this]⟩
  · refine ⟨a, ?_, hya⟩
    rw [← e]
    exact List.mem_iff_getElem.2 ⟨n, by simpa using hn, by simp [Ne.symm hnk]⟩

theorem pending_new {acts : List (List ι)} {k : Nat} {x y : ι} {r p : List ι}
    (hk : acts[k]? = some (x :: r)) (hy : y ∈ p) : Pending (acts.set k (p ++ r)) y := by
  have hlt : k < acts.length := by rw [List.getElem?_eq_some_iff] at hk; exact hk.1
  exact ⟨p ++ r, List.mem_set hlt _, by simp [hy]⟩

theorem pending_app {acts : List (List ι)} {p : List ι} {y : ι} :
    Pending (acts ++ [p]) y ↔ y ∈ p ∨ Pending acts y := by
  constructor
  · exact pending_append
  · rintro (h | ⟨a, ha, hy⟩)
    · exact ⟨p, by simp, h⟩
    · exact ⟨a, by simp [ha], hy⟩

theorem Pending.le {acts : List (List ι)} {y : ι} (h : Pending acts y) (w : ι → Nat) : w y ≤ ws w acts := by
  obtain ⟨a, ha, hy⟩ := h
  exact ws_pos_of_mem ha hy

theorem not_pending_nil {y : ι} : ¬ Pending ([] : List (List ι)) y := by
  rintro ⟨_, h, _⟩; simp at h

theorem not_pending_quiescent {acts : List (List ι)} (h : ∀ a ∈ acts, a = []) {y : ι} : ¬ Pending acts y := by
  rintro ⟨a, ha, hy⟩; rw [h a ha] at hy; simp at hy

/-- An event that is only justified if it did not occur before, occurs at most once. -/
theorem Hist.count_le_one {ε : Type} [BEq ε] [LawfulBEq ε] {P : List ε → ε → Prop} {log : List ε} {a : ε}
    (h : Hist P log) (ha : ∀ before, P before a → a ∉ before) : log.count a ≤ 1 := by
  apply Classical.byContradiction
  intro hn
  have h1 : 0 < log.count a := by omega
  obtain ⟨l1, l2, e⟩ := List.append_of_mem (List.count_pos_iff.1 h1)
  by_cases h2 : a ∈ l2
  · obtain ⟨l3, l4, e2⟩ := List.append_of_mem h2
    exact ha _ (h (l1 ++ a :: l3) a l4 (by rw [e, e2]; simp)) (by simp)
  · have h3 := ha _ (h l1 a l2 e)
    rw [e, List.count_append, List.count_cons, List.count_eq_zero_of_not_mem h2, List.count_eq_zero_of_not_mem h3] at hn
    simp at hn

/-- Run a schedule, skipping the labels that are not enabled (used to build concrete executions). -/
def Mach.go (M : Mach) (s0 : M.σ) (ls : List (Lbl M)) : Conf M :=
  ls.foldl (fun c l => (M.step c l).getD c) (M.init s0)

theorem Reach.go (M : Mach) (s0 : M.σ) (ls : List (Lbl M)) : Reach M s0 (M.go s0 ls) := by
  have : ∀ c, Reach M s0 c → Reach M s0 (ls.foldl (fun c l => (M.step c l).getD c) c) := by
    induction ls with
    | nil => exact fun c h => h
    | cons l ls ih =>
      intro c h
      apply ih
      dsimp only
      cases hs : M.step c l with
      | none => exact h
      | some c' => exact .step h hs
  exact this _ .init

/-- Every event of a history is justified. -/
theorem Hist.mem {ε : Type} {P : List ε → ε → Prop} {log : List ε} (h : Hist P log) {w : ε} (hw : w ∈ log) :
    ∃ l1 l2, log = l1 ++ w :: l2 ∧ P l1 w := by
  obtain ⟨l1, l2, e⟩ := List.append_of_mem hw
  exact ⟨l1, l2, e, h l1 w l2 e⟩

/-- Every event after `a` is justified by events including `a`. -/
theorem Hist.later {ε : Type} {P : List ε → ε → Prop} {log : List ε} (h : Hist P log) {a w : ε} {l1 l2 : List ε}
    (e : log = l1 ++ a :: l2) (hw : w ∈ l2) : ∃ m, P (l1 ++ a :: m) w := by
  obtain ⟨m, m2, e2⟩ := List.append_of_mem hw
  exact ⟨m, h (l1 ++ a :: m) w m2 (by rw [e, e2]; simp)⟩

/-- Events of a class that are only justified if none of the class occurred before, occur at most once. -/
theorem Hist.countP_le_one {ε : Type} {P : List ε → ε → Prop} {log : List ε} (h : Hist P log) (q : ε → Bool)
    (hq : ∀ before a, q a = true → P before a → ∀ b ∈ before, q b = false) : log.countP q ≤ 1 := by
  apply Classical.byContradiction
  intro hn
  obtain ⟨a, ha, hd⟩ := List.countP_pos_iff.1 (show 0 < log.countP q by omega)
  obtain ⟨l1, l2, e, hp⟩ := h.mem ha
  have h2 : l1.countP q = 0 := by
    rw [List.countP_eq_zero]
    intro b hb
    simp [hq l1 a hd hp b hb]
  have h3 : l2.countP q = 0 := by
    rw [List.countP_eq_zero]
    intro b hb hb2
    obtain ⟨m, hm⟩ := h.later e hb
    have := hq _ b hb2 hm a (by simp)
    simp [hd] at this
  rw [e, List.countP_append, List.countP_cons, h2, h3, hd] at hn
  simp at hn

/-- There is at most one event of such a class. -/
theorem Hist.unique {ε : Type} {P : List ε → ε → Prop} {log : List ε} (h : Hist P log) (q : ε → Bool)
    (hq : ∀ before a, q a = true → P before a → ∀ b ∈ before, q b = false) {a b : ε} (ha : a ∈ log) (hb : b ∈ log)
    (qa : q a = true) (qb : q b = true) : a = b := by
  obtain ⟨l1, l2, e, hp⟩ := h.mem ha
  rw [e] at hb
  rcases List.mem_append.1 hb with hb | hb
  · have := hq l1 a qa hp b hb
    simp [qb] at this
  · rcases List.mem_cons.1 hb with hb | hb
    · exact hb.symm
    · obtain ⟨m, hm⟩ := h.later e hb
      have := hq _ b qb hm a (by simp)
      simp [qa] at this

end Verif
