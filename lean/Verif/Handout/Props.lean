import Verif.Handout.Proof

/-!
# C82: what the algorithms hand to the user's functors outlives what is made from it

The specification is `Valid` (Verif/Handout/Proof.lean): in the history of an operation object, whatever is used was constructed before
the use, and not destroyed before the use. `let` and `repeat_while` have this for all programs. `lambda` has it exactly if nothing
refers to the arguments once the sender is connected. `race_and_cancel` has it exactly if the tokens are used while the operations run
only, and the closures while the functors are called only.
-/

namespace Verif.Handout

/-- `let`: the functor and the variable may be used by the functor, the sender, the operation, and the destructor of the operation. -/
theorem C82_let {B : Beh} {s : St} {l : List Act} (h : run .letA B init l = some s) : Valid s.log := by
  refine valid_of (fun U hU => ?_) h
  have hc : ∀ k o, o ∈ hand .letA k → .ctor o ∈ connectEvs B .letA ∧ .dtor o ∉ connectEvs B .letA := by
    intro k o ho
    simp only [hand, List.mem_cons, List.not_mem_nil, or_false] at ho
    rcases ho with rfl | rfl <;> simp [connectEvs]
  have h0 : Valid (connectEvs B .letA) := by
    have := valid_nil.other (b := connectEvs B .letA) (by simp [connectEvs])
    simpa using this
  have h1 : Valid (connectEvs B .letA ++ (U ++ uses .letA B .del 0)) := by
    refine h0.uses fun e he => ?_
    rcases List.mem_append.1 he with he | he
    · obtain ⟨k, o, rfl, ho, _⟩ := hU e he
      exact ⟨k, o, rfl, hc k o ho⟩
    · obtain ⟨o, ho, _, rfl⟩ := mem_uses.1 he
      exact ⟨0, o, rfl, hc 0 o ho⟩
  have := h1.other (b := [.dtor .imm, .dtor (.fn 0)]) (by simp)
  simpa [destroyEvs] using this

/-- `repeat_while`: the functor may be used by all calls, senders, operations and their destructors. -/
theorem C82_repeat_while {B : Beh} {s : St} {l : List Act} (h : run .rep B init l = some s) : Valid s.log := by
  refine valid_of (fun U hU => ?_) h
  have h0 : Valid (connectEvs B .rep) := by
    have := valid_nil.other (b := connectEvs B .rep) (by simp [connectEvs])
    simpa using this
  have h1 : Valid (connectEvs B .rep ++ U) := by
    refine h0.uses fun e he => ?_
    obtain ⟨k, o, rfl, ho, _⟩ := hU e he
    simp only [hand, List.mem_cons, List.not_mem_nil, or_false] at ho
    subst ho
    exact ⟨k, _, rfl, by simp [connectEvs]⟩
  exact h1.other (by simp [destroyEvs])

/-- `lambda`: valid in all executions, exactly if the arguments are not used after the sender is connected. The functor may be used
at any time. -/
theorem C82_lambda_partial {B : Beh} :
    (∀ l s, run .lam B init l = some s → Valid s.log) ↔ B .run 0 .arg = false ∧ B .del 0 .arg = false := by
  constructor
  · intro h
    constructor
    · cases hb : B .run 0 .arg with
      | false => rfl
      | true =>
        have h1 := h [.connect, .start true, .touch 0 .arg] _ (by simp [run, step, init, live, width, hand, hb]; rfl)
        exact absurd h1 (not_valid_late (k := 0) (o := .arg) (by simp) (by simp [connectEvs]))
    · cases hb : B .del 0 .arg with
      | false => rfl
      | true =>
        have h1 := h [.connect, .destroy] _ (by simp [run, step, init]; rfl)
        exact absurd h1 (not_valid_late (k := 0) (o := .arg)
          (List.mem_append_left _ (mem_uses.2 ⟨.arg, by simp [hand], hb, rfl⟩)) (by simp [connectEvs]))
  · rintro ⟨hr, hd⟩ l s h
    refine valid_of (fun U hU => ?_) h
    have h0 : Valid ([.ctor .arg, .ctor (.fn 0)] : List Ev) := by
      have := valid_nil.other (b := ([.ctor .arg, .ctor (.fn 0)] : List Ev)) (by simp)
      simpa using this
    have h1 : Valid ([.ctor .arg, .ctor (.fn 0)] ++ (uses .lam B .make 0 ++ uses .lam B .conn 0)) := by
      refine h0.uses fun e he => ?_
      have : ∃ o, o ∈ hand .lam 0 ∧ e = .use 0 o := by
        rcases List.mem_append.1 he with he | he
        · obtain ⟨o, ho, _, e⟩ := mem_uses.1 he; exact ⟨o, ho, e⟩
        · obtain ⟨o, ho, _, e⟩ := mem_uses.1 he; exact ⟨o, ho, e⟩
      obtain ⟨o, ho, rfl⟩ := this
      simp only [hand, List.mem_cons, List.not_mem_nil, or_false] at ho
      rcases ho with rfl | rfl <;> exact ⟨0, _, rfl, by simp⟩
    have h2 : Valid (connectEvs B .lam) := by
      have := h1.other (b := [.dtor .arg]) (by simp)
      simpa [connectEvs] using this
    have h3 : Valid (connectEvs B .lam ++ (U ++ uses .lam B .del 0)) := by
      refine h2.uses fun e he => ?_
      have : ∃ k o, e = .use k o ∧ o = .fn 0 := by
        rcases List.mem_append.1 he with he | he
        · obtain ⟨k, o, rfl, ho, hh⟩ := hU e he
          simp only [hand, List.mem_cons, List.not_mem_nil, or_false] at ho
          refine ⟨k, o, rfl, ?_⟩
          rcases ho with rfl | rfl
          · rfl
          · rcases hh with ⟨hk, hb⟩ | ⟨hh, _⟩ | ⟨hh, _⟩
            · have : k = 0 := by simp only [width] at hk; omega
              subst this; rw [hr] at hb; cases hb
            · cases hh
            · cases hh
        · obtain ⟨o, ho, hb, rfl⟩ := mem_uses.1 he
          simp only [hand, List.mem_cons, List.not_mem_nil, or_false] at ho
          rcases ho with rfl | rfl
          · exact ⟨0, _, rfl, rfl⟩
          · rw [hd] at hb; cases hb
      obtain ⟨k, o, rfl, rfl⟩ := this
      refine ⟨k, _, rfl, by simp [connectEvs], ?_⟩
      simp [connectEvs, mem_uses]
    have := h3.other (b := [.dtor (.fn 0)]) (by simp)
    simpa [destroyEvs] using this

/-- `race_and_cancel` with `n + 1` functors: valid in all executions, exactly if no token is used when the functors are called, when
the senders are connected, or when the operations are destroyed, and no closure is used after the functors were called. -/
theorem C82_race_and_cancel_partial {B : Beh} {n : Nat} :
    (∀ l s, run (.race n) B init l = some s → Valid s.log) ↔
      ∀ k, k ≤ n →
        (B .make k (.ev k) = false ∧ B .conn k (.ev k) = false ∧ B .del k (.ev k) = false) ∧
        (B .conn k (.fn k) = false ∧ B .run k (.fn k) = false ∧ B .del k (.fn k) = false) := by
  have noctor : ∀ (p : Point) (o : Obj), (Ev.ctor o) ∉ (upto n).flatMap (uses (.race n) B p) := by
    intro p o hm
    obtain ⟨k, _, hm⟩ := List.mem_flatMap.1 hm
    obtain ⟨_, _, _, e⟩ := mem_uses.1 hm
    cases e
  have nodtor : ∀ (p : Point) (o : Obj), (Ev.dtor o) ∉ (upto n).flatMap (uses (.race n) B p) := by
    intro p o hm
    obtain ⟨k, _, hm⟩ := List.mem_flatMap.1 hm
    obtain ⟨_, _, _, e⟩ := mem_uses.1 hm
    cases e
  constructor
  · intro h k hk
    have hu : ∀ {p : Point} {o : Obj}, o ∈ hand (.race n) k → B p k o = true →
        Ev.use k o ∈ (upto n).flatMap (uses (.race n) B p) := fun ho hb =>
      List.mem_flatMap.2 ⟨k, mem_upto.2 hk, mem_uses.2 ⟨_, ho, hb, rfl⟩⟩
    have hu' : ∀ {p : Point} {o : Obj}, o ∈ hand (.race n) k → B p k o = true →
        Ev.use k o ∈ (upto n).reverse.flatMap (uses (.race n) B p) := fun ho hb =>
      List.mem_flatMap.2 ⟨k, by simp [mem_upto, hk], mem_uses.2 ⟨_, ho, hb, rfl⟩⟩
    have hc : Valid (connectEvs B (.race n)) := by
      have := h [.connect] _ (by simp only [run, step, init, if_true]; rfl)
      simpa using this
    have hd : Valid (connectEvs B (.race n) ++ destroyEvs B (.race n)) := by
      have := h [.connect, .destroy] _ (by simp [run, step, init]; rfl)
      simpa using this
    refine ⟨⟨?_, ?_, ?_⟩, ?_, ?_, ?_⟩
    · cases hb : B .make k (.ev k) with
      | false => rfl
      | true =>
        refine absurd hc ?_
        simp only [connectEvs]
        refine not_valid_early (k := k) (o := .ev k) (by simp [hu (by simp [hand]) hb]) ?_
        simp [noctor]
    · cases hb : B .conn k (.ev k) with
      | false => rfl
      | true =>
        refine absurd hc ?_
        simp only [connectEvs]
        refine not_valid_early (k := k) (o := .ev k) (by simp [hu (by simp [hand]) hb]) ?_
        simp [noctor]
    · cases hb : B .del k (.ev k) with
      | false => rfl
      | true =>
        refine absurd hd ?_
        simp only [destroyEvs, ← List.append_assoc]
        exact not_valid_late (k := k) (o := .ev k) (hu' (by simp [hand]) hb) (by simp [mem_upto, hk])
    · cases hb : B .conn k (.fn k) with
      | false => rfl
      | true =>
        refine absurd hc ?_
        simp only [connectEvs]
        intro hv
        exact not_valid_late (k := k) (o := .fn k) (hu (by simp [hand]) hb) (by simp [mem_upto, hk]) hv.prefix
    · cases hb : B .run k (.fn k) with
      | false => rfl
      | true =>
        have h1 := h [.connect, .start true, .touch k (.fn k)] _
          (by simp [run, step, init, live, width, hand, hb, Nat.lt_succ_of_le hk]; rfl)
        exact absurd h1 (not_valid_late (k := k) (o := .fn k) (by simp) (by simp [connectEvs, mem_upto, hk]))
    · cases hb : B .del k (.fn k) with
      | false => rfl
      | true =>
        refine absurd hd ?_
        refine not_valid_late (k := k) (o := .fn k) ?_ (by simp [connectEvs, mem_upto, hk])
        simp only [destroyEvs]
        exact List.mem_append_right _ (hu' (by simp [hand]) hb)
  · intro hB l s h
    refine valid_of (fun U hU => ?_) h
    have h0 : Valid ((upto n).map (fun k => Ev.ctor (.fn k))) := by
      have := valid_nil.other (b := (upto n).map (fun k => Ev.ctor (.fn k))) (by simp)
      simpa using this
    have h1 := h0.uses (b := (upto n).flatMap (uses (.race n) B .make)) fun e he => by
      obtain ⟨k, hk, he⟩ := List.mem_flatMap.1 he
      obtain ⟨o, ho, hb, rfl⟩ := mem_uses.1 he
      simp only [hand, List.mem_cons, List.not_mem_nil, or_false] at ho
      rcases ho with rfl | rfl
      · rw [(hB k (mem_upto.1 hk)).1.1] at hb; cases hb
      · exact ⟨k, _, rfl, by simp [hk], by simp⟩
    have h2 := h1.other (b := (upto n).map (fun k => Ev.dtor (.fn k))) (by simp)
    have h3 := h2.uses (b := (upto n).flatMap (uses (.race n) B .conn)) fun e he => by
      obtain ⟨k, hk, he⟩ := List.mem_flatMap.1 he
      obtain ⟨o, ho, hb, rfl⟩ := mem_uses.1 he
      simp only [hand, List.mem_cons, List.not_mem_nil, or_false] at ho
      rcases ho with rfl | rfl
      · rw [(hB k (mem_upto.1 hk)).1.2.1] at hb; cases hb
      · rw [(hB k (mem_upto.1 hk)).2.1] at hb; cases hb
    have h4 := h3.other (b := (upto n).map (fun k => Ev.ctor (.ev k))) (by simp)
    have h5 := h4.uses (b := U) fun e he => by
      obtain ⟨k, o, rfl, ho, hh⟩ := hU e he
      rcases hh with ⟨hk, hb⟩ | ⟨hh, _⟩ | ⟨hh, _⟩
      · simp only [width] at hk
        simp only [hand, List.mem_cons, List.not_mem_nil, or_false] at ho
        rcases ho with rfl | rfl
        · exact ⟨k, _, rfl, by simp [mem_upto, Nat.le_of_lt_succ hk], by simp [nodtor]⟩
        · rw [(hB k (Nat.le_of_lt_succ hk)).2.2.1] at hb; cases hb
      · cases hh
      · cases hh
    have h6 := h5.other (b := (upto n).reverse.map (fun k => Ev.dtor (.ev k))) (by simp)
    have h7 : (upto n).reverse.flatMap (uses (.race n) B .del) = [] := by
      refine List.eq_nil_iff_forall_not_mem.2 fun e he => ?_
      obtain ⟨k, hk, he⟩ := List.mem_flatMap.1 he
      obtain ⟨o, ho, hb, rfl⟩ := mem_uses.1 he
      have hk : k ≤ n := mem_upto.1 (List.mem_reverse.1 hk)
      simp only [hand, List.mem_cons, List.not_mem_nil, or_false] at ho
      rcases ho with rfl | rfl
      · rw [(hB k hk).1.2.2] at hb; cases hb
      · rw [(hB k hk).2.2.2] at hb; cases hb
    simpa only [connectEvs, destroyEvs, h7, List.append_nil, List.append_assoc] using h6

/-- The constructions and destructions in a history. -/
def life (log : List Ev) : List Ev := log.filter fun e => match e with | .use _ _ => false | _ => true

theorem life_append (a b : List Ev) : life (a ++ b) = life a ++ life b := List.filter_append ..

theorem life_uses {b : List Ev} (h : ∀ e ∈ b, ∃ k o, e = .use k o) : life b = [] := by
  refine List.filter_eq_nil_iff.2 fun e he => ?_
  obtain ⟨k, o, rfl⟩ := h e he
  simp

theorem life_other {b : List Ev} (h : ∀ k o, .use k o ∉ b) : life b = b := by
  refine List.filter_eq_self.2 fun e he => ?_
  cases e with
  | use k o => exact absurd he (h k o)
  | ctor o | dtor o => rfl

theorem life_uses1 {A : Alg} {B : Beh} {p : Point} {k : Nat} : life (uses A B p k) = [] :=
  life_uses fun e he => by obtain ⟨o, _, _, e⟩ := mem_uses.1 he; exact ⟨_, _, e⟩

theorem life_usesN {A : Alg} {B : Beh} {p : Point} {l : List Nat} : life (l.flatMap (uses A B p)) = [] :=
  life_uses fun e he => by
    obtain ⟨k, _, he⟩ := List.mem_flatMap.1 he
    obtain ⟨o, _, _, e⟩ := mem_uses.1 he
    exact ⟨_, _, e⟩

theorem life_later {A : Alg} {B : Beh} {U : List Ev} (h : ∀ e ∈ U, Later A B e) : life U = [] :=
  life_uses fun e he => by obtain ⟨k, o, e, _⟩ := h e he; exact ⟨_, _, e⟩

/-- The constructions and destructions, in their order. -/
def lives : Alg → List Ev
  | .letA => [.ctor (.fn 0), .ctor .imm, .dtor .imm, .dtor (.fn 0)]
  | .lam => [.ctor .arg, .ctor (.fn 0), .dtor .arg, .dtor (.fn 0)]
  | .rep => [.ctor (.fn 0), .dtor (.fn 0)]
  | .race n => (upto n).map (fun k => .ctor (.fn k)) ++ ((upto n).map (fun k => .dtor (.fn k)) ++
      ((upto n).map (fun k => .ctor (.ev k)) ++ (upto n).reverse.map (fun k => .dtor (.ev k))))

theorem life_all {A : Alg} {B : Beh} {U : List Ev} (h : ∀ e ∈ U, Later A B e) :
    life (connectEvs B A ++ U ++ destroyEvs B A) = lives A := by
  have hN : life [] = [] := rfl
  cases A with
  | letA | lam | rep => simp only [life_append, life_later h, connectEvs, destroyEvs, life_uses1, lives, List.append_nil, List.nil_append]; rfl
  | race n =>
    simp only [life_append, life_later h, connectEvs, destroyEvs, life_usesN, lives, List.append_nil, List.nil_append, List.append_assoc]
    rw [life_other (b := (upto n).map (fun k => Ev.ctor (.fn k))) (by simp), life_other (b := (upto n).map (fun k => Ev.dtor (.fn k))) (by simp),
      life_other (b := (upto n).map (fun k => Ev.ctor (.ev k))) (by simp), life_other (b := (upto n).reverse.map (fun k => Ev.dtor (.ev k))) (by simp)]

theorem upto_nodup (n : Nat) : (upto n).Nodup := List.nodup_range

theorem nodup_map {f : Nat → Ev} (hf : ∀ a b, f a = f b → a = b) {l : List Nat} (h : l.Nodup) : (l.map f).Nodup :=
  List.pairwise_map.2 (h.imp fun hab e => hab (hf _ _ e))

theorem lives_nodup (A : Alg) : (lives A).Nodup := by
  cases A with
  | letA | lam | rep => decide
  | race n =>
    simp only [lives]
    have hr : (upto n).reverse.Nodup := List.pairwise_reverse.2 ((upto_nodup n).imp Ne.symm)
    refine List.nodup_append.2 ⟨nodup_map (by simp) (upto_nodup n), List.nodup_append.2 ⟨nodup_map (by simp) (upto_nodup n),
      List.nodup_append.2 ⟨nodup_map (by simp) (upto_nodup n), nodup_map (by simp) hr, ?_⟩, ?_⟩, ?_⟩
    all_goals
      intro a ha b hb
      simp only [List.mem_append, List.mem_map] at ha hb
      obtain ⟨x, _, rfl⟩ := ha
      first
      | (obtain ⟨y, _, rfl⟩ := hb; simp; done)
      | (rcases hb with ⟨y, _, rfl⟩ | ⟨y, _, rfl⟩ <;> simp <;> done)
      | (rcases hb with ⟨y, _, rfl⟩ | ⟨y, _, rfl⟩ | ⟨y, _, rfl⟩ <;> simp <;> done)

theorem lives_pair {A : Alg} {o : Obj} (h : .ctor o ∈ lives A) : .dtor o ∈ lives A := by
  cases A with
  | letA | lam | rep => simp [lives] at h ⊢; rcases h with rfl | rfl <;> simp
  | race n =>
    simp only [lives, List.mem_append, List.mem_map, List.mem_reverse] at h ⊢
    rcases h with ⟨k, hk, e⟩ | ⟨k, _, e⟩ | ⟨k, hk, e⟩ | ⟨k, _, e⟩
    · cases e; exact .inr (.inl ⟨k, hk, rfl⟩)
    · cases e
    · cases e; exact .inr (.inr (.inr ⟨k, hk, rfl⟩))
    · cases e

theorem mem_life {e : Ev} {log : List Ev} (h : ∀ k o, e ≠ .use k o) : e ∈ life log ↔ e ∈ log := by
  cases e with
  | use k o => exact absurd rfl (h k o)
  | ctor o | dtor o => simp [life]

/-- No object is constructed twice, no object is destroyed twice; when the operation object is destroyed, all are destroyed. -/
theorem C82_once {A : Alg} {B : Beh} {s : St} {l : List Act} (h : run A B init l = some s) :
    (life s.log).Nodup ∧ (s.stage = .gone → ∀ o, .ctor o ∈ s.log → .dtor o ∈ s.log) := by
  obtain ⟨h1, h2, h3, h4, _⟩ := shape h
  have hp : ∀ U : List Ev, (∀ e ∈ U, Later A B e) → (life (connectEvs B A ++ U)).Nodup := by
    intro U hU
    have := lives_nodup A
    rw [← life_all hU, life_append] at this
    exact (List.nodup_append.1 this).1
  refine ⟨?_, fun hs o ho => ?_⟩
  · cases hs : s.stage with
    | raw => rw [(h1 hs).2]; simp [life]
    | conn => rw [(h2 hs).2]; simpa using hp [] (by simp)
    | run => obtain ⟨U, hU, hU2⟩ := h3 hs; rw [hU]; exact hp U hU2
    | gone => obtain ⟨_, U, hU, hU2⟩ := h4 hs; rw [hU, life_all hU2]; exact lives_nodup A
  · obtain ⟨_, U, hU, hU2⟩ := h4 hs
    rw [← mem_life (by simp), hU, life_all hU2] at ho ⊢
    exact lives_pair ho

/-- A coroutine with a parameter by reference, which it reads when it runs. -/
def byRef : Beh := fun p _ o => p == .run && o == .arg

/-- `lambda(f)(args…)`: the arguments that are not lvalues do not live until the operation runs. -/
theorem C82_lambda_false : ∃ B l s, run .lam B init l = some s ∧ ¬ Valid s.log :=
  ⟨byRef, [.connect, .start true, .touch 0 .arg], _, rfl, fun h =>
    absurd (h [.ctor .arg, .ctor (.fn 0), .dtor .arg] 0 .arg [] rfl).2 (by decide)⟩

/-- A functor that asks its token whether cancellation was requested. -/
def askToken : Beh := fun p k o => p == .make && o == .ev k

/-- `race_and_cancel(f, g)`: the events do not exist when the functors are called. -/
theorem C82_race_and_cancel_false : ∃ B l s, run (.race 1) B init l = some s ∧ ¬ Valid s.log :=
  ⟨askToken, [.connect], _, rfl, fun h =>
    absurd (h [.ctor (.fn 0), .ctor (.fn 1)] 0 (.ev 0) [.use 1 (.ev 1), .dtor (.fn 0), .dtor (.fn 1), .ctor (.ev 0), .ctor (.ev 1)] rfl).1
      (by decide)⟩

/-- An operation that uses its token when it is destroyed. -/
def dtorToken : Beh := fun p k o => p == .del && o == .ev k

/-- `race_and_cancel(f, g)`: the events do not exist when the operations are destroyed. -/
theorem C82_race_and_cancel_dtor_false : ∃ B l s, run (.race 1) B init l = some s ∧ ¬ Valid s.log :=
  ⟨dtorToken, [.connect, .start true, .finish 0 true, .finish 1 true, .destroy], _, rfl, fun h =>
    absurd (h [.ctor (.fn 0), .ctor (.fn 1), .dtor (.fn 0), .dtor (.fn 1), .ctor (.ev 0), .ctor (.ev 1), .dtor (.ev 1), .dtor (.ev 0)]
      1 (.ev 1) [.use 0 (.ev 0)] rfl).2 (by decide)⟩

/-! ## Concrete executions -/

/-- Everything is used whenever possible. -/
def greedy : Beh := fun _ _ _ => true

example : ∃ s, run .letA greedy init [.connect, .start true, .touch 0 .imm, .touch 0 (.fn 0), .finish 0 true, .destroy] = some s ∧
    Valid s.log ∧ .use 0 .imm ∈ s.log ∧ s.log.length = 12 :=
  ⟨_, rfl, C82_let (B := greedy) (l := [.connect, .start true, .touch 0 .imm, .touch 0 (.fn 0), .finish 0 true, .destroy]) rfl,
    by decide, rfl⟩

example : ∃ s, run .rep greedy init [.connect, .start true, .finish 0 true, .touch 1 (.fn 0), .finish 1 false, .destroy] = some s ∧
    Valid s.log ∧ .use 1 (.fn 0) ∈ s.log ∧ s.stage = .gone :=
  ⟨_, rfl, C82_repeat_while (B := greedy) (l := [.connect, .start true, .finish 0 true, .touch 1 (.fn 0), .finish 1 false, .destroy]) rfl,
    by decide, rfl⟩

/-- The arguments are used when the functor is called, the closure always. -/
def byVal : Beh := fun p _ o => o == .fn 0 || p == .make

example : ∃ s, run .lam byVal init [.connect, .start true, .touch 0 (.fn 0), .finish 0 true, .destroy] = some s ∧
    Valid s.log ∧ .use 0 .arg ∈ s.log ∧ s.stage = .gone :=
  ⟨_, rfl, (C82_lambda_partial (B := byVal)).2 ⟨rfl, rfl⟩ [.connect, .start true, .touch 0 (.fn 0), .finish 0 true, .destroy] _ rfl, by decide, rfl⟩

/-- The functors are not coroutines, and their operations use the tokens while they run. -/
def tokens : Beh := fun p k o => (p == .make && o == .fn k) || (p == .run && o == .ev k)

theorem tokens_ok (n : Nat) : ∀ k, k ≤ n →
    (tokens .make k (.ev k) = false ∧ tokens .conn k (.ev k) = false ∧ tokens .del k (.ev k) = false) ∧
    (tokens .conn k (.fn k) = false ∧ tokens .run k (.fn k) = false ∧ tokens .del k (.fn k) = false) := by
  intro k _
  refine ⟨⟨?_, rfl, rfl⟩, rfl, ?_, rfl⟩ <;> simp [tokens]

example : ∃ s, run (.race 1) tokens init [.connect, .start true, .touch 1 (.ev 1), .finish 0 true, .finish 1 true, .destroy] = some s ∧
    Valid s.log ∧ .use 1 (.ev 1) ∈ s.log ∧ .use 0 (.fn 0) ∈ s.log ∧ s.stage = .gone :=
  ⟨_, rfl, (C82_race_and_cancel_partial (B := tokens)).2 (tokens_ok 1)
    [.connect, .start true, .touch 1 (.ev 1), .finish 0 true, .finish 1 true, .destroy] _ rfl, by decide, by decide, rfl⟩

example : ∃ s, run (.race 1) tokens init [.connect, .start true, .finish 0 true, .finish 1 true, .destroy] = some s ∧
    (life s.log).Nodup ∧ .ctor (.ev 1) ∈ s.log ∧ .dtor (.ev 1) ∈ s.log :=
  ⟨_, rfl, (C82_once (B := tokens) (A := .race 1) (l := [.connect, .start true, .finish 0 true, .finish 1 true, .destroy]) rfl).1,
    by decide, by decide⟩

end Verif.Handout
