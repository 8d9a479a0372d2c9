import Verif.Base

/-!
# Stacks that are shared by two machines

A stack of instructions of two machines consists of segments, each of which is a part of a stack of one of the machines.
-/

namespace Verif

variable {ι κ : Type}

/-- The stack consists of the segments in `T` (first machine) and `R` (second machine). -/
inductive Split : List (ι ⊕ κ) → List (List ι) → List (List κ) → Prop where
  | nil : Split [] [] []
  | left {l : List (ι ⊕ κ)} {T : List (List ι)} {R : List (List κ)} (a : List ι) : Split l T R →
      Split (a.map .inl ++ l) (a :: T) R
  | right {l : List (ι ⊕ κ)} {T : List (List ι)} {R : List (List κ)} (a : List κ) : Split l T R →
      Split (a.map .inr ++ l) T (a :: R)

theorem Split.top_left {l : List (ι ⊕ κ)} {T : List (List ι)} {R : List (List κ)} (h : Split l T R) {x : ι}
    {r : List (ι ⊕ κ)} (e : l = .inl x :: r) :
    ∃ t T0, T.Perm ((x :: t) :: T0) ∧ ∀ ps, ∃ T', Split (ps.map .inl ++ r) T' R ∧ T'.Perm ((ps ++ t) :: T0) := by
  induction h with
  | nil => cases e
  | @left l T R a h ih =>
    cases a with
    | nil =>
      obtain ⟨t, T0, h1, h2⟩ := ih (by simpa using e)
      refine ⟨t, [] :: T0, (h1.cons _).trans (.swap ..), fun ps => ?_⟩
      obtain ⟨T', h3, h4⟩ := h2 ps
      exact ⟨[] :: T', .left [] h3, (h4.cons _).trans (.swap ..)⟩
    | cons y a =>
      simp only [List.map_cons, List.cons_append, List.cons.injEq, Sum.inl.injEq] at e
      obtain ⟨rfl, rfl⟩ := e
      refine ⟨a, T, .refl _, fun ps => ⟨(ps ++ a) :: T, ?_, .refl _⟩⟩
      have := Split.left (ps ++ a) h
      simpa [List.map_append, List.append_assoc] using this
  | @right l T R a h ih =>
    cases a with
    | nil =>
      obtain ⟨t, T0, h1, h2⟩ := ih (by simpa using e)
      refine ⟨t, T0, h1, fun ps => ?_⟩
      obtain ⟨T', h3, h4⟩ := h2 ps
      exact ⟨T', .right [] h3, h4⟩
    | cons y a => simp at e

theorem Split.top_right {l : List (ι ⊕ κ)} {T : List (List ι)} {R : List (List κ)} (h : Split l T R) {x : κ}
    {r : List (ι ⊕ κ)} (e : l = .inr x :: r) :
    ∃ t R0, R.Perm ((x :: t) :: R0) ∧ ∀ ps, ∃ R', Split (ps.map .inr ++ r) T R' ∧ R'.Perm ((ps ++ t) :: R0) := by
  induction h with
  | nil => cases e
  | @right l T R a h ih =>
    cases a with
    | nil =>
      obtain ⟨t, T0, h1, h2⟩ := ih (by simpa using e)
      refine ⟨t, [] :: T0, (h1.cons _).trans (.swap ..), fun ps => ?_⟩
      obtain ⟨T', h3, h4⟩ := h2 ps
      exact ⟨[] :: T', .right [] h3, (h4.cons _).trans (.swap ..)⟩
    | cons y a =>
      simp only [List.map_cons, List.cons_append, List.cons.injEq, Sum.inr.injEq] at e
      obtain ⟨rfl, rfl⟩ := e
      refine ⟨a, R, .refl _, fun ps => ⟨(ps ++ a) :: R, ?_, .refl _⟩⟩
      have := Split.right (ps ++ a) h
      simpa [List.map_append, List.append_assoc] using this
  | @left l T R a h ih =>
    cases a with
    | nil =>
      obtain ⟨t, T0, h1, h2⟩ := ih (by simpa using e)
      refine ⟨t, T0, h1, fun ps => ?_⟩
      obtain ⟨T', h3, h4⟩ := h2 ps
      exact ⟨T', .left [] h3, h4⟩
    | cons y a => simp at e

theorem Split.mem_left {l : List (ι ⊕ κ)} {T : List (List ι)} {R : List (List κ)} (h : Split l T R) (x : ι) :
    .inl x ∈ l ↔ Pending T x := by
  induction h with
  | nil => simp [Pending]
  | left a h ih => simp [ih, Pending]
  | right a h ih => simp [ih, Pending]

theorem Split.mem_right {l : List (ι ⊕ κ)} {T : List (List ι)} {R : List (List κ)} (h : Split l T R) (x : κ) :
    .inr x ∈ l ↔ Pending R x := by
  induction h with
  | nil => simp [Pending]
  | left a h ih => simp [ih, Pending]
  | right a h ih => simp [ih, Pending]

/-- The same for all stacks. -/
inductive Splits : List (List (ι ⊕ κ)) → List (List ι) → List (List κ) → Prop where
  | nil : Splits [] [] []
  | cons {a : List (ι ⊕ κ)} {acts : List (List (ι ⊕ κ))} {T T' : List (List ι)} {R R' : List (List κ)} :
      Split a T R → Splits acts T' R' → Splits (a :: acts) (T ++ T') (R ++ R')

theorem Splits.snoc {acts : List (List (ι ⊕ κ))} {T T' : List (List ι)} {R R' : List (List κ)} (h : Splits acts T R)
    {a : List (ι ⊕ κ)} (ha : Split a T' R') : Splits (acts ++ [a]) (T ++ T') (R ++ R') := by
  induction h with
  | nil =>
    have := Splits.cons ha .nil
    simpa using this
  | cons h1 _ ih =>
    have := Splits.cons h1 ih
    simpa [List.append_assoc] using this

theorem Splits.top_left {acts : List (List (ι ⊕ κ))} {T : List (List ι)} {R : List (List κ)} (h : Splits acts T R) {k : Nat}
    {x : ι} {r : List (ι ⊕ κ)} (e : acts[k]? = some (.inl x :: r)) :
    ∃ t T0, T.Perm ((x :: t) :: T0) ∧ ∀ qs ps, ∃ T' R', Splits (acts.set k (qs.map .inr ++ (ps.map .inl ++ r))) T' R' ∧
      T'.Perm ((ps ++ t) :: T0) ∧ R'.Perm (qs :: R) := by
  induction h generalizing k with
  | nil => simp at e
  | @cons a acts T T' R R' h1 h2 ih =>
    cases k with
    | zero =>
      simp only [List.getElem?_cons_zero, Option.some.injEq] at e
      obtain ⟨t, T0, h3, h4⟩ := h1.top_left e
      refine ⟨t, T0 ++ T', h3.append_right T', fun qs ps => ?_⟩
      obtain ⟨T2, h5, h6⟩ := h4 ps
      exact ⟨_, _, .cons (.right qs h5) h2, h6.append_right T', .refl _⟩
    | succ k =>
      obtain ⟨t, T0, h3, h4⟩ := ih (by simpa using e)
      refine ⟨t, T ++ T0, (h3.append_left T).trans List.perm_middle, fun qs ps => ?_⟩
      obtain ⟨T2, R2, h5, h6, h7⟩ := h4 qs ps
      exact ⟨_, _, .cons h1 h5, (h6.append_left T).trans List.perm_middle, (h7.append_left R).trans List.perm_middle⟩

theorem Splits.top_right {acts : List (List (ι ⊕ κ))} {T : List (List ι)} {R : List (List κ)} (h : Splits acts T R) {k : Nat}
    {x : κ} {r : List (ι ⊕ κ)} (e : acts[k]? = some (.inr x :: r)) :
    ∃ t R0, R.Perm ((x :: t) :: R0) ∧ ∀ ps qs, ∃ T' R', Splits (acts.set k (ps.map .inl ++ (qs.map .inr ++ r))) T' R' ∧
      R'.Perm ((qs ++ t) :: R0) ∧ T'.Perm (ps :: T) := by
  induction h generalizing k with
  | nil => simp at e
  | @cons a acts T T' R R' h1 h2 ih =>
    cases k with
    | zero =>
      simp only [List.getElem?_cons_zero, Option.some.injEq] at e
      obtain ⟨t, T0, h3, h4⟩ := h1.top_right e
      refine ⟨t, T0 ++ R', h3.append_right R', fun qs ps => ?_⟩
      obtain ⟨T2, h5, h6⟩ := h4 ps
      exact ⟨_, _, .cons (.left qs h5) h2, h6.append_right R', .refl _⟩
    | succ k =>
      obtain ⟨t, T0, h3, h4⟩ := ih (by simpa using e)
      refine ⟨t, R ++ T0, (h3.append_left R).trans List.perm_middle, fun qs ps => ?_⟩
      obtain ⟨T2, R2, h5, h6, h7⟩ := h4 qs ps
      exact ⟨_, _, .cons h1 h5, (h6.append_left R).trans List.perm_middle, (h7.append_left T).trans List.perm_middle⟩

theorem Splits.mem_left {acts : List (List (ι ⊕ κ))} {T : List (List ι)} {R : List (List κ)} (h : Splits acts T R) (x : ι) :
    Pending acts (.inl x) ↔ Pending T x := by
  induction h with
  | nil => simp [Pending]
  | @cons a acts T T' R R' h1 h2 ih =>
    have h3 := h1.mem_left x
    simp only [Pending, List.mem_cons, List.mem_append, or_and_right, exists_or, exists_eq_left] at *
    rw [h3, ih]

theorem Splits.mem_right {acts : List (List (ι ⊕ κ))} {T : List (List ι)} {R : List (List κ)} (h : Splits acts T R) (x : κ) :
    Pending acts (.inr x) ↔ Pending R x := by
  induction h with
  | nil => simp [Pending]
  | @cons a acts T T' R R' h1 h2 ih =>
    have h3 := h1.mem_right x
    simp only [Pending, List.mem_cons, List.mem_append, or_and_right, exists_or, exists_eq_left] at *
    rw [h3, ih]

/-- The pools consist of the same stacks, apart from order and from stacks that are empty. -/
def Same (A B : List (List ι)) : Prop := (A.filter (fun a => !a.isEmpty)).Perm (B.filter (fun a => !a.isEmpty))

theorem Same.trans_perm {A B C : List (List ι)} (h : Same A B) (hp : B.Perm C) : Same A C :=
  h.trans (hp.filter _)

theorem Same.run {A T0 : List (List ι)} {x : ι} {t : List ι} (h : Same A ((x :: t) :: T0)) (ps : List ι) :
    ∃ k, A[k]? = some (x :: t) ∧ Same (A.set k (ps ++ t)) ((ps ++ t) :: T0) := by
  have hm : (x :: t) ∈ A := by
    have : (x :: t) ∈ A.filter (fun a => !a.isEmpty) := h.mem_iff.2 (by simp)
    exact (List.mem_filter.1 this).1
  obtain ⟨k, hk, e⟩ := List.getElem_of_mem hm
  have e' : A[k]? = some (x :: t) := by rw [List.getElem?_eq_getElem hk, e]
  refine ⟨k, e', ?_⟩
  have h1 : A = A.take k ++ (x :: t) :: A.drop (k + 1) := by
    rw [← e, List.getElem_cons_drop, List.take_append_drop]
  have h2 : A.set k (ps ++ t) = A.take k ++ (ps ++ t) :: A.drop (k + 1) := by
    rw [List.set_eq_take_append_cons_drop, if_pos hk]
  have h3 : ((x :: t) :: (A.take k ++ A.drop (k + 1))).Perm A := by
    conv => rhs; rw [h1]
    exact List.perm_middle.symm
  have h4 : ((A.take k ++ A.drop (k + 1)).filter (fun a => !a.isEmpty)).Perm (T0.filter (fun a => !a.isEmpty)) := by
    have := (h3.filter (fun a : List ι => !a.isEmpty)).trans h
    simpa using this
  unfold Same
  rw [h2]
  refine (List.perm_middle.filter _).trans ?_
  simp only [List.filter_cons]
  split
  · exact h4.cons _
  · exact h4

theorem Same.add {A B : List (List ι)} (h : Same A B) (p : List ι) : Same (A ++ [p]) (p :: B) := by
  unfold Same at *
  refine ((List.perm_append_comm (l₁ := A) (l₂ := [p])).filter _).trans ?_
  simp only [List.singleton_append, List.filter_cons]
  split
  · exact h.cons _
  · exact h

theorem Same.pending {A B : List (List ι)} (h : Same A B) (x : ι) : Pending A x ↔ Pending B x := by
  have key : ∀ A B : List (List ι), Same A B → Pending A x → Pending B x := by
    rintro A B h ⟨a, ha, hx⟩
    have : a ∈ A.filter (fun a => !a.isEmpty) := List.mem_filter.2 ⟨ha, by cases a <;> simp_all⟩
    exact ⟨a, (List.mem_filter.1 (h.mem_iff.1 this)).1, hx⟩
  exact ⟨key _ _ h, key _ _ h.symm⟩

theorem not_pending_iff {A : List (List ι)} : (∀ x, ¬ Pending A x) ↔ ∀ a ∈ A, a = [] := by
  constructor
  · intro h a ha
    cases a with
    | nil => rfl
    | cons x t => exact absurd ⟨_, ha, by simp⟩ (h x)
  · rintro h x ⟨a, ha, hx⟩
    rw [h a ha] at hx; simp at hx

end Verif
