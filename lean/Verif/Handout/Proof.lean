import Verif.Handout.Model

/-! # Lifetimes of what the algorithms hand out: lemmas -/

namespace Verif.Handout

/-- Objects are used only during their lifetime: what is used was constructed before, and was not destroyed before. -/
def Valid (log : List Ev) : Prop :=
  ∀ pre k o post, log = pre ++ .use k o :: post → .ctor o ∈ pre ∧ .dtor o ∉ pre

theorem valid_nil : Valid [] := by
  intro pre k o post h
  simp at h

theorem Valid.prefix {a b : List Ev} (h : Valid (a ++ b)) : Valid a := by
  intro pre k o post he
  exact h pre k o (post ++ b) (by simp [he])

/-- Append uses of objects that are alive. -/
theorem Valid.uses {a b : List Ev} (h : Valid a) (hb : ∀ e ∈ b, ∃ k o, e = .use k o ∧ .ctor o ∈ a ∧ .dtor o ∉ a) :
    Valid (a ++ b) := by
  intro pre k o post he
  rcases List.append_eq_append_iff.1 he with ⟨c, h1, h2⟩ | ⟨c, h1, h2⟩
  · subst h1
    obtain ⟨_, _, e, h3, h4⟩ := hb (.use k o) (by simp [h2])
    cases e
    refine ⟨by simp [h3], fun hm => ?_⟩
    rcases List.mem_append.1 hm with hm | hm
    · exact h4 hm
    · obtain ⟨_, _, e, _⟩ := hb (.dtor o) (by simp [h2, hm])
      cases e
  · cases c with
    | nil =>
      simp at h1 h2
      subst h1
      obtain ⟨_, _, e, h3, h4⟩ := hb (.use k o) (by simp [← h2])
      cases e
      exact ⟨h3, h4⟩
    | cons x c =>
      simp only [List.cons_append, List.cons.injEq] at h2
      obtain ⟨rfl, _⟩ := h2
      exact h pre k o c h1

/-- Append constructions and destructions. -/
theorem Valid.other {a b : List Ev} (h : Valid a) (hb : ∀ k o, .use k o ∉ b) : Valid (a ++ b) := by
  intro pre k o post he
  rcases List.append_eq_append_iff.1 he with ⟨c, h1, h2⟩ | ⟨c, h1, h2⟩
  · exact absurd (show .use k o ∈ b by simp [h2]) (hb k o)
  · cases c with
    | nil =>
      simp at h2
      exact absurd (show .use k o ∈ b by simp [← h2]) (hb k o)
    | cons x c =>
      simp only [List.cons_append, List.cons.injEq] at h2
      obtain ⟨rfl, _⟩ := h2
      exact h pre k o c h1

/-- Use of an object that is constructed later. -/
theorem not_valid_early {a b : List Ev} {k : Nat} {o : Obj} (hu : .use k o ∈ a) (hc : .ctor o ∉ a) : ¬ Valid (a ++ b) := by
  intro h
  obtain ⟨pre, post, rfl⟩ := List.append_of_mem hu
  exact hc (by simp [(h pre k o (post ++ b) (by simp)).1])

/-- Use of an object that was destroyed. -/
theorem not_valid_late {a b : List Ev} {k : Nat} {o : Obj} (hu : .use k o ∈ b) (hd : .dtor o ∈ a) : ¬ Valid (a ++ b) := by
  intro h
  obtain ⟨pre, post, rfl⟩ := List.append_of_mem hu
  exact (h (a ++ pre) k o post (by simp)).2 (by simp [hd])

theorem mem_uses {A : Alg} {B : Beh} {p : Point} {k : Nat} {e : Ev} :
    e ∈ uses A B p k ↔ ∃ o, o ∈ hand A k ∧ B p k o = true ∧ e = .use k o := by
  simp only [uses, List.mem_map, List.mem_filter]
  constructor
  · rintro ⟨o, ⟨h1, h2⟩, rfl⟩; exact ⟨o, h1, h2, rfl⟩
  · rintro ⟨o, h1, h2, rfl⟩; exact ⟨o, ⟨h1, h2⟩, rfl⟩

theorem mem_upto {k n : Nat} : k ∈ upto n ↔ k ≤ n := by simp [upto]; omega

/-- What an operation of algorithm `A` may do after its construction. -/
def Later (A : Alg) (B : Beh) (e : Ev) : Prop :=
  ∃ k o, e = .use k o ∧ o ∈ hand A k ∧
    ((k < width A ∧ B .run k o = true) ∨ (A = .letA ∧ k = 0 ∧ ∃ p, B p k o = true) ∨ (A = .rep ∧ ∃ p, B p k o = true))

/-- The history, stage by stage. -/
def Shape (A : Alg) (B : Beh) (s : St) : Prop :=
  (s.stage = .raw → s.cur = none ∧ s.log = []) ∧
  (s.stage = .conn → s.cur = none ∧ s.log = connectEvs B A) ∧
  (s.stage = .run → ∃ U, s.log = connectEvs B A ++ U ∧ ∀ e ∈ U, Later A B e) ∧
  (s.stage = .gone → s.cur = none ∧
    ∃ U, s.log = connectEvs B A ++ U ++ destroyEvs B A ∧ ∀ e ∈ U, Later A B e) ∧
  (A ≠ .rep → s.cur = none)

theorem later_make {A : Alg} {B : Beh} {k : Nat} (h : (A = .letA ∧ k = 0) ∨ A = .rep) : ∀ e ∈ makeEvs A B k, Later A B e := by
  intro e he
  simp only [makeEvs, List.mem_append, mem_uses] at he
  have : ∃ p o, o ∈ hand A k ∧ B p k o = true ∧ e = .use k o := by
    rcases he with ⟨o, h1⟩ | ⟨o, h1⟩
    · exact ⟨_, o, h1⟩
    · exact ⟨_, o, h1⟩
  obtain ⟨p, o, h1, h2, rfl⟩ := this
  refine ⟨k, o, rfl, h1, ?_⟩
  rcases h with ⟨h, h'⟩ | h
  · exact .inr (.inl ⟨h, h', p, h2⟩)
  · exact .inr (.inr ⟨h, p, h2⟩)

theorem later_del {B : Beh} {k : Nat} : ∀ e ∈ uses .rep B .del k, Later .rep B e := by
  intro e he
  obtain ⟨o, h1, h2, rfl⟩ := mem_uses.1 he
  exact ⟨k, o, rfl, h1, .inr (.inr ⟨rfl, _, h2⟩)⟩

theorem shape_step {A : Alg} {B : Beh} {s s' : St} {a : Act} (h : Shape A B s) (he : step A B s a = some s') : Shape A B s' := by
  obtain ⟨h1, h2, h3, h4, h5⟩ := h
  cases a with
  | connect =>
    simp only [step] at he
    split at he
    · rename_i hs
      cases he
      obtain ⟨c, l⟩ := h1 hs
      exact ⟨by simp, by simp [c, l], by simp, by simp, h5⟩
    · cases he
  | start b =>
    simp only [step] at he
    split at he
    · rename_i hs
      obtain ⟨c, l⟩ := h2 hs
      cases A with
      | letA =>
        simp only at he
        cases he
        exact ⟨by simp, by simp, fun _ => ⟨_, by rw [l], later_make (.inl ⟨rfl, rfl⟩)⟩, by simp, fun _ => c⟩
      | rep =>
        simp only at he
        split at he
        · cases he
          exact ⟨by simp, by simp, fun _ => ⟨_, by rw [l], later_make (.inr rfl)⟩, by simp, fun h => absurd rfl h⟩
        · cases he
          exact ⟨by simp, by simp, fun _ => ⟨[], by simp [l], by simp⟩, by simp, fun h => absurd rfl h⟩
      | lam =>
        simp only at he
        cases he
        exact ⟨by simp, by simp, fun _ => ⟨[], by simp [l], by simp⟩, by simp, fun _ => c⟩
      | race n =>
        simp only at he
        cases he
        exact ⟨by simp, by simp, fun _ => ⟨[], by simp [l], by simp⟩, by simp, fun _ => c⟩
    · cases he
  | touch k o =>
    simp only [step] at he
    split at he
    · rename_i hc
      cases he
      have hr : s.stage = .run ∧ Later A B (.use k o) := by
        have hl := hc.1
        cases A with
        | rep =>
          simp only [live, beq_iff_eq] at hl
          refine ⟨?_, k, o, rfl, hc.2.1, .inr (.inr ⟨rfl, .run, hc.2.2⟩)⟩
          cases hs : s.stage with
          | raw => rw [(h1 hs).1] at hl; cases hl
          | conn => rw [(h2 hs).1] at hl; cases hl
          | run => rfl
          | gone => rw [(h4 hs).1] at hl; cases hl
        | letA | lam | race n =>
          simp only [live, Bool.and_eq_true, beq_iff_eq, decide_eq_true_eq] at hl
          exact ⟨hl.1, k, o, rfl, hc.2.1, .inl ⟨hl.2, hc.2.2⟩⟩
      obtain ⟨hs, hL⟩ := hr
      obtain ⟨U, hU, hU2⟩ := h3 hs
      refine ⟨by simp [hs], by simp [hs], fun _ => ⟨U ++ [.use k o], by simp [hU], ?_⟩, by simp [hs], h5⟩
      intro e he
      rcases List.mem_append.1 he with he | he
      · exact hU2 e he
      · simp at he; subst he; exact hL
    · cases he
  | finish k b =>
    simp only [step] at he
    split at he
    · rename_i hc
      have hs : s.stage = .run := by
        have hl := hc.1
        cases A with
        | rep =>
          simp only [live, beq_iff_eq] at hl
          cases hs : s.stage with
          | raw => rw [(h1 hs).1] at hl; cases hl
          | conn => rw [(h2 hs).1] at hl; cases hl
          | run => rfl
          | gone => rw [(h4 hs).1] at hl; cases hl
        | letA | lam | race n =>
          simp only [live, Bool.and_eq_true, beq_iff_eq, decide_eq_true_eq] at hl
          exact hl.1
      obtain ⟨U, hU, hU2⟩ := h3 hs
      cases A with
      | rep =>
        simp only at he
        split at he
        · cases he
          refine ⟨by simp [hs], by simp [hs], fun _ => ⟨U ++ (uses .rep B .del k ++ makeEvs .rep B (k + 1)), by simp [hU], ?_⟩,
            by simp [hs], fun h => absurd rfl h⟩
          intro e he
          rcases List.mem_append.1 he with he | he
          · exact hU2 e he
          · rcases List.mem_append.1 he with he | he
            · exact later_del e he
            · exact later_make (.inr rfl) e he
        · cases he
          refine ⟨by simp [hs], by simp [hs], fun _ => ⟨U ++ uses .rep B .del k, by simp [hU], ?_⟩,
            by simp [hs], fun h => absurd rfl h⟩
          intro e he
          rcases List.mem_append.1 he with he | he
          · exact hU2 e he
          · exact later_del e he
      | letA | lam | race n =>
        simp only at he
        cases he
        exact ⟨by simp [hs], by simp [hs], fun _ => ⟨U, hU, hU2⟩, by simp [hs], h5⟩
    · cases he
  | destroy =>
    simp only [step] at he
    split at he
    · rename_i hc
      cases he
      have : s.cur = none ∧ ∃ U, s.log = connectEvs B A ++ U ∧ ∀ e ∈ U, Later A B e := by
        rcases hc with ⟨hs, _⟩ | ⟨hs, hi⟩
        · exact ⟨(h2 hs).1, [], by simp [(h2 hs).2], by simp⟩
        · refine ⟨?_, h3 hs⟩
          by_cases hA : A = .rep
          · subst hA; simpa [idle] using hi
          · exact h5 hA
      obtain ⟨hcur, U, hU, hU2⟩ := this
      exact ⟨by simp, by simp, by simp, fun _ => ⟨hcur, U, by simp [hU], hU2⟩, h5⟩
    · cases he

theorem shape_run {A : Alg} {B : Beh} {s s' : St} {l : List Act} (h : Shape A B s) (he : run A B s l = some s') : Shape A B s' := by
  induction l generalizing s with
  | nil => cases he; exact h
  | cons a l ih =>
    simp only [run] at he
    split at he
    · rename_i s1 h1
      exact ih (shape_step h h1) he
    · cases he

theorem shape {A : Alg} {B : Beh} {s : St} {l : List Act} (he : run A B init l = some s) : Shape A B s :=
  shape_run (s := init) ⟨by simp [init], by simp [init], by simp [init], by simp [init], by simp [init]⟩ he

/-- Every history is a part of the one of an object that is destroyed. -/
theorem valid_of {A : Alg} {B : Beh} (h : ∀ U : List Ev, (∀ e ∈ U, Later A B e) → Valid (connectEvs B A ++ U ++ destroyEvs B A))
    {s : St} {l : List Act} (he : run A B init l = some s) : Valid s.log := by
  obtain ⟨h1, h2, h3, h4, _⟩ := shape he
  cases hs : s.stage with
  | raw => rw [(h1 hs).2]; exact valid_nil
  | conn => rw [(h2 hs).2]; have := h [] (by simp); rw [List.append_assoc] at this; exact this.prefix
  | run => obtain ⟨U, hU, hU2⟩ := h3 hs; rw [hU]; exact (h U hU2).prefix
  | gone => obtain ⟨_, U, hU, hU2⟩ := h4 hs; rw [hU]; exact h U hU2

end Verif.Handout
