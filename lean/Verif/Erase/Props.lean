import Verif.Erase.Model

/-!
# Properties of `any_receiver` and `callback`

The specification is the same program with variables that hold the objects of the user themselves.
-/

namespace Verif.Erase

variable {α β : Type}

/-! ## Specification -/

/-- A call of an object of the user. -/
def Obj.call (o : Obj α β) (a : α) : Obj α β × β :=
  let r := o.cls.call o.bytes a
  ({ o with bytes := r.1 }, r.2)

/-- `any_receiver` replaced by the receivers. -/
def aspec (s : Nat → Option (Obj α β)) : AOp α β → Res (Nat → Option (Obj α β)) β
  | .new h _ o => if o.Fits then .ok (upd s h (some o)) none else .illTyped
  | .copy h g => match s g with
    | some o => .ok (upd s h (some o)) none
    | none => .illTyped
  | .set h a => match s h with
    | some o => .ok (upd s h (some (o.call a).1)) (some (o.call a).2)
    | none => .illTyped

/-- `callback` replaced by the functors (`some none`: an empty callback). If `keep` is false, changes that a call makes to its
functor are lost. -/
def cspec (keep : Bool) (s : Nat → Option (Option (Obj α β))) : COp α β → Res (Nat → Option (Option (Obj α β))) (β ⊕ Bool)
  | .empty h _ => .ok (upd s h (some none)) none
  | .new h _ o => if o.Fits then .ok (upd s h (some (some o))) none else .illTyped
  | .copy h g => match s g with
    | some o => .ok (upd s h (some o)) none
    | none => .illTyped
  | .call h a => match s h with
    | some (some o) => .ok (upd s h (some (some (if keep then (o.call a).1 else o)))) (some (.inl (o.call a).2))
    | some none => .fault
    | none => .illTyped
  | .test h => match s h with
    | some o => .ok s (some (.inr o.isSome))
    | none => .illTyped
  | .arm h g => match s h, s g with
    | some none, some (some o) => .ok (upd s h (some (some o))) none
    | some _, some _ => .fault
    | _, _ => .illTyped

/-- The classes that a program uses. -/
def AOp.obj : AOp α β → Option (Obj α β)
  | .new _ _ o => some o
  | _ => none

def COp.obj : COp α β → Option (Obj α β)
  | .new _ _ o => some o
  | _ => none

/-- Calls do not change the object. -/
def Cls.Const (c : Cls α β) : Prop := ∀ o a, (c.call o a).1 = o

/-! ## Proofs -/

theorem get_put {st st' : Stor} {o : List Byte} (h : put st o = some st') : get st' o.length = some o := by
  unfold put at h
  split at h
  · cases h
    rename_i hl
    simp only [get, hl, if_true, Option.some.injEq]
    apply List.ext_getElem
    · simp
    · intro i h1 h2
      simp only [List.getElem_map, List.getElem_range]
      simp at h1
      simp [h1]
  · cases h

theorem put_ok (st : Stor) {o : List Byte} (h : o.length ≤ word) : ∃ st', put st o = some st' := by
  simp [put, h]

/-- The storage holds the object. -/
def Holds (st : Stor) (c : Cls α β) (o : Obj α β) : Prop :=
  c = o.cls ∧ o.Fits = true ∧ o.cls.Ok ∧ get st o.cls.size = some o.bytes

theorem fits {o : Obj α β} (h : o.Fits = true) : o.cls.size ≤ word ∧ o.bytes.length = o.cls.size := by
  simpa [Obj.Fits] using h

theorem holds_put {o : Obj α β} (hf : o.Fits = true) (hk : o.cls.Ok) (st : Stor) :
    ∃ st', put st o.bytes = some st' ∧ Holds st' o.cls o := by
  obtain ⟨h1, h2⟩ := fits hf
  obtain ⟨st', h3⟩ := put_ok st (o := o.bytes) (by omega)
  refine ⟨st', h3, rfl, hf, hk, ?_⟩
  rw [← h2]
  exact get_put h3

theorem holds_call {st : Stor} {c : Cls α β} {o : Obj α β} (h : Holds st c o) (a : α) :
    get st c.size = some o.bytes ∧ c.call o.bytes a = (((o.call a).1).bytes, (o.call a).2) ∧ (o.call a).1.cls = c ∧
    ∃ st', put st (o.call a).1.bytes = some st' ∧ Holds st' c (o.call a).1 := by
  obtain ⟨rfl, hf, hk, hg⟩ := h
  refine ⟨hg, rfl, rfl, ?_⟩
  obtain ⟨h1, h2⟩ := fits hf
  have := hk o.bytes a
  exact holds_put (o := (o.call a).1) (by simp [Obj.Fits, Obj.call, h1, this, h2]) hk st

/-- C74. Programs with `any_receiver` behave like programs with the receivers themselves: every `set_value` reaches the receiver that
was wrapped, in the state in which the previous one left it. In particular nothing is accessed out of bounds. -/
theorem C74_any_receiver {ps : List (AOp α β)} (hc : ∀ p ∈ ps, ∀ o, p.obj = some o → o.cls.Ok) :
    observe astep (fun _ => none) ps = observe aspec (fun _ => none) ps := by
  have key : ∀ (s : Nat → Option (Any α β)) (t : Nat → Option (Obj α β)),
      (∀ h, (s h = none ∧ t h = none) ∨ ∃ x o, s h = some x ∧ t h = some o ∧ Holds x.stor x.fptr o) →
      observe astep s ps = observe aspec t ps := by
    induction ps with
    | nil => intros; rfl
    | cons p ps ih =>
      intro s t hr
      have ih := ih (fun q hq => hc q (List.mem_cons_of_mem _ hq))
      have ext : ∀ h x o, Holds x.stor x.fptr o → ∀ k, ((upd s h (some x)) k = none ∧ (upd t h (some o)) k = none) ∨
          ∃ y u, (upd s h (some x)) k = some y ∧ (upd t h (some o)) k = some u ∧ Holds y.stor y.fptr u := by
        intro h x o hx k
        by_cases e : k = h
        · subst e; simp only [upd, if_true]; exact .inr ⟨x, o, rfl, rfl, hx⟩
        · simp only [upd, e, if_false]; exact hr k
      cases p with
      | new h junk o =>
        by_cases hf : o.Fits = true
        · obtain ⟨st, h1, h2⟩ := holds_put hf (hc _ List.mem_cons_self o rfl) junk
          simp only [observe, astep, aspec, hf, if_true, Any.new, h1, Option.map_some]
          rw [ih _ _ (ext h ⟨st, o.cls⟩ o h2)]
        · simp only [observe, astep, aspec, hf, Bool.false_eq_true, if_false]
      | copy h g =>
        rcases hr g with ⟨h1, h2⟩ | ⟨x, o, h1, h2, h3⟩
        · simp only [observe, astep, aspec, h1, h2]
        · simp only [observe, astep, aspec, h1, h2]
          rw [ih _ _ (ext h x o h3)]
      | set h a =>
        rcases hr h with ⟨h1, h2⟩ | ⟨x, o, h1, h2, h3⟩
        · simp only [observe, astep, aspec, h1, h2]
        · obtain ⟨g1, g2, g3, st', g4, g5⟩ := holds_call h3 a
          simp only [observe, astep, aspec, h1, h2, Any.setValue, g1, g2, g4, Option.map_some]
          rw [ih _ _ (ext h ⟨st', x.fptr⟩ _ g5)]
  exact key _ _ (fun h => .inl ⟨rfl, rfl⟩)

/-- C74. Programs with `callback` behave like programs with functors, where every call works on a copy of the functor: results are
those of the functor as it was when the callback was constructed. Empty callbacks convert to false and fault when called; `arm`
asserts that the item is empty and the argument is not. -/
theorem C74_callback_partial {ps : List (COp α β)} (hc : ∀ p ∈ ps, ∀ o, p.obj = some o → o.cls.Ok) :
    observe cstep (fun _ => none) ps = observe (cspec false) (fun _ => none) ps := by
  have key : ∀ (s : Nat → Option (Cb α β)) (t : Nat → Option (Option (Obj α β))),
      (∀ h, (s h = none ∧ t h = none) ∨ (∃ x, s h = some x ∧ t h = some none ∧ x.fn = none) ∨
        ∃ x o c, s h = some x ∧ t h = some (some o) ∧ x.fn = some c ∧ Holds x.stor c o) →
      observe cstep s ps = observe (cspec false) t ps := by
    induction ps with
    | nil => intros; rfl
    | cons p ps ih =>
      intro s t hr
      have ih := ih (fun q hq => hc q (List.mem_cons_of_mem _ hq))
      have ext : ∀ h x o c, x.fn = some c → Holds x.stor c o → ∀ k, ((upd s h (some x)) k = none ∧ (upd t h (some (some o))) k = none) ∨
          (∃ y, (upd s h (some x)) k = some y ∧ (upd t h (some (some o))) k = some none ∧ y.fn = none) ∨
          ∃ y u c, (upd s h (some x)) k = some y ∧ (upd t h (some (some o))) k = some (some u) ∧ y.fn = some c ∧ Holds y.stor c u := by
        intro h x o c hf hx k
        by_cases e : k = h
        · subst e; simp only [upd, if_true]; exact .inr (.inr ⟨x, o, c, rfl, rfl, hf, hx⟩)
        · simp only [upd, e, if_false]; exact hr k
      have exte : ∀ h x, x.fn = none → ∀ k, ((upd s h (some x)) k = none ∧ (upd t h (some none)) k = none) ∨
          (∃ y, (upd s h (some x)) k = some y ∧ (upd t h (some none)) k = some none ∧ y.fn = none) ∨
          ∃ y u c, (upd s h (some x)) k = some y ∧ (upd t h (some none)) k = some (some u) ∧ y.fn = some c ∧ Holds y.stor c u := by
        intro h x hf k
        by_cases e : k = h
        · subst e; simp only [upd, if_true]; exact .inr (.inl ⟨x, rfl, trivial, hf⟩)
        · simp only [upd, e, if_false]; exact hr k
      cases p with
      | empty h junk =>
        simp only [observe, cstep, cspec]
        rw [ih _ _ (exte h (Cb.empty junk) rfl)]
      | new h junk o =>
        by_cases hf : o.Fits = true
        · obtain ⟨st, h1, h2⟩ := holds_put hf (hc _ List.mem_cons_self o rfl) junk
          simp only [observe, cstep, cspec, hf, if_true, Cb.new, h1, Option.map_some]
          rw [ih _ _ (ext h ⟨st, some o.cls⟩ o o.cls rfl h2)]
        · simp only [observe, cstep, cspec, hf, Bool.false_eq_true, if_false]
      | copy h g =>
        rcases hr g with ⟨h1, h2⟩ | ⟨x, h1, h2, h3⟩ | ⟨x, o, c, h1, h2, h3, h4⟩
        · simp only [observe, cstep, cspec, h1, h2]
        · simp only [observe, cstep, cspec, h1, h2]
          rw [ih _ _ (exte h x h3)]
        · simp only [observe, cstep, cspec, h1, h2]
          rw [ih _ _ (ext h x o c h3 h4)]
      | call h a =>
        rcases hr h with ⟨h1, h2⟩ | ⟨x, h1, h2, h3⟩ | ⟨x, o, c, h1, h2, h3, h4⟩
        · simp only [observe, cstep, cspec, h1, h2]
        · simp only [observe, cstep, cspec, h1, h2, Cb.call, h3]
        · obtain ⟨g1, g2, g3, st', g4, g5⟩ := holds_call h4 a
          simp only [observe, cstep, cspec, h1, h2, Cb.call, h3, g1, g2, g4, Option.map_some, Bool.false_eq_true, if_false]
          rw [ih _ _ (ext h x o c h3 h4)]
      | test h =>
        rcases hr h with ⟨h1, h2⟩ | ⟨x, h1, h2, h3⟩ | ⟨x, o, c, h1, h2, h3, h4⟩
        · simp only [observe, cstep, cspec, h1, h2]
        · simp only [observe, cstep, cspec, h1, h2, Cb.bool, h3]
          rw [ih _ _ hr]; rfl
        · simp only [observe, cstep, cspec, h1, h2, Cb.bool, h3]
          rw [ih _ _ hr]; rfl
      | arm h g =>
        rcases hr h with ⟨h1, h2⟩ | ⟨x, h1, h2, h3⟩ | ⟨x, o, c, h1, h2, h3, h4⟩ <;>
          rcases hr g with ⟨k1, k2⟩ | ⟨y, k1, k2, k3⟩ | ⟨y, u, d, k1, k2, k3, k4⟩ <;>
          simp only [observe, cstep, cspec, h1, h2, k1, k2, arm, Cb.bool, *, Option.isSome_none, Option.isSome_some,
            Bool.false_eq_true, if_false, if_true, Bool.not_false, Bool.not_true]
        rw [ih _ _ (ext h y u d k3 k4)]
  exact key _ _ (fun h => .inl ⟨rfl, rfl⟩)

/-- C74. If the functors do not change when they are called, then programs with `callback` behave like programs with the functors
themselves. -/
theorem C74_callback_const {ps : List (COp α β)} (hc : ∀ p ∈ ps, ∀ o, p.obj = some o → o.cls.Const) :
    observe cstep (fun _ => none) ps = observe (cspec true) (fun _ => none) ps := by
  rw [C74_callback_partial (fun p hp o ho => fun b a => by rw [hc p hp o ho b a])]
  have key : ∀ (t : Nat → Option (Option (Obj α β))), (∀ h o, t h = some (some o) → o.cls.Const) →
      observe (cspec false) t ps = observe (cspec true) t ps := by
    induction ps with
    | nil => intros; rfl
    | cons p ps ih =>
      intro t ht
      have ih := ih (fun q hq => hc q (List.mem_cons_of_mem _ hq))
      have ext : ∀ h (o : Option (Obj α β)), (∀ x, o = some x → x.cls.Const) →
          ∀ k x, (upd t h (some o)) k = some (some x) → x.cls.Const := by
        intro h o ho k x
        by_cases e : k = h
        · subst e; simp only [upd, if_true]; intro hx; simp at hx; exact ho x hx
        · simp only [upd, e, if_false]; exact ht k x
      cases p with
      | empty h junk => simp only [observe, cspec]; rw [ih _ (ext h none (by simp))]
      | new h junk o =>
        have := hc _ List.mem_cons_self o rfl
        simp only [observe, cspec]
        split <;> rename_i he <;> split at he <;> simp only [Res.ok.injEq, reduceCtorEq] at he
        · obtain ⟨rfl, rfl⟩ := he
          rw [ih _ (ext h (some o) (by simpa using this))]
        all_goals rfl
      | copy h g =>
        cases hg : t g with
        | none => simp only [observe, cspec, hg]
        | some o =>
          simp only [observe, cspec, hg]
          rw [ih _ (ext h o (by rintro x rfl; exact ht g x hg))]
      | call h a =>
        cases hg : t h with
        | none => simp only [observe, cspec, hg]
        | some o =>
          cases o with
          | none => simp only [observe, cspec, hg]
          | some o =>
            have hk := ht h o hg
            have e : (o.call a).1 = o := by
              have := hk o.bytes a
              simp only [Obj.call, this]
            simp only [observe, cspec, hg, e, Bool.false_eq_true, if_false, if_true]
            rw [ih _ (ext h (some o) (by simpa using hk))]
      | test h =>
        cases hg : t h with
        | none => simp only [observe, cspec, hg]
        | some o => simp only [observe, cspec, hg]; rw [ih _ ht]
      | arm h g =>
        simp only [observe, cspec]
        split <;> rename_i he <;> (repeat' split at he) <;> simp only [Res.ok.injEq, reduceCtorEq] at he
        · obtain ⟨rfl, rfl⟩ := he
          rename_i o _ hg
          rw [ih _ (ext h (some o) (by rintro x e; cases e; exact ht g o hg))]
        all_goals rfl
  exact key _ (by simp)

/-- A functor that counts its calls. -/
def counter : Obj Unit Nat := ⟨⟨1, fun o _ => (o.map (· + 1), o.headD 0)⟩, [0]⟩

/-- C74 is false of `callback` with functors that change: changes are lost when the call returns, since `invoke` gets the storage by
value (basic.hpp line 259). A functor that counts its calls stays at zero. -/
theorem C74_callback_state_false :
    ∃ ps : List (COp Unit Nat), (∀ p ∈ ps, ∀ o, p.obj = some o → o.cls.Ok) ∧
      observe cstep (fun _ => none) ps ≠ observe (cspec true) (fun _ => none) ps := by
  refine ⟨[.new 0 (fun _ => 9) counter, .call 0 (), .call 0 ()], ?_, by decide⟩
  intro p hp o ho
  have : o = counter := by
    simp at hp
    rcases hp with rfl | rfl <;> simp [COp.obj] at ho
    exact ho.symm
  subst this
  intro b a; simp [counter]

/-! ## Examples -/

theorem counter_ok : counter.cls.Ok := by intro b a; simp [counter]

/-- A counter is wrapped, called, copied, and both are called. -/
def prog : List (AOp Unit Nat) := [.new 0 (fun _ => 9) counter, .set 0 (), .copy 1 0, .set 0 (), .set 0 (), .set 1 ()]

example : observe astep (fun _ => none) prog =
    [.res none, .res (some 0), .res none, .res (some 1), .res (some 2), .res (some 1)] := by decide

example : observe astep (fun _ => none) prog = observe aspec (fun _ => none) prog := by
  apply C74_any_receiver
  intro p hp o ho
  simp [prog] at hp
  rcases hp with rfl | rfl | rfl | rfl | rfl <;> simp [AOp.obj] at ho
  subst ho; exact counter_ok

/-- A functor that adds a constant. -/
def adder : Obj Nat Nat := ⟨⟨2, fun o a => (o, o.headD 0 + a)⟩, [5, 0]⟩

def cprog : List (COp Nat Nat) :=
  [.new 0 (fun _ => 9) adder, .empty 1 (fun _ => 7), .test 1, .arm 1 0, .test 1, .call 1 3, .copy 2 0, .call 2 4, .arm 1 2]

example : observe cstep (fun _ => none) cprog =
    [.res none, .res none, .res (some (.inr false)), .res none, .res (some (.inr true)), .res (some (.inl 8)), .res none,
     .res (some (.inl 9)), .fault] := by decide

theorem cprog_const : ∀ p ∈ cprog, ∀ o, p.obj = some o → o.cls.Const := by
  intro p hp o ho
  simp [cprog] at hp
  rcases hp with rfl | rfl | rfl | rfl | rfl | rfl | rfl | rfl | rfl <;> simp [COp.obj] at ho
  subst ho; intro b a; rfl

example : observe cstep (fun _ => none) cprog = observe (cspec true) (fun _ => none) cprog := C74_callback_const cprog_const
example : observe cstep (fun _ => none) cprog = observe (cspec false) (fun _ => none) cprog :=
  C74_callback_partial (fun p hp o ho b a => by rw [cprog_const p hp o ho b a])

end Verif.Erase
