import Verif.Promise.HandlesProps

/-!
# The reference count of promises with a fixed width (promise.hpp 23-35, 110)

`ctr_` is an `atomic_size_t`: `fetch_add` and `fetch_sub` are modulo `2 ^ w`. The operations on handles of `Verif.Promise.Handles` again, with a
counter modulo `M`; all other parts are as there.
-/

namespace Verif.Width.Handles

open Verif.Promise.Handles

/-- `ref()`, lines 28-30, modulo `M`. -/
def refW (M : Nat) (s : St) : Option Nat → Res
  | none => .fault
  | some a => if s.alive a then .ok { s with rc := upd s.rc a ((s.rc a + 1) % M) } else .fault

/-- `if (state_) state_->ref()`. -/
def refIfW (M : Nat) (s : St) : Option Nat → Res
  | none => .ok s
  | some a => refW M s (some a)

/-- `if (state_ && !state_->unref()) destruct(state_)`, lines 32-34, modulo `M`. -/
def dropW (M : Nat) (s : St) : Option Nat → Res
  | none => .ok s
  | some a =>
    if s.alive a then
      if (s.rc a + (M - 1)) % M = 0 then destruct { s with rc := upd s.rc a ((s.rc a + (M - 1)) % M) } a
      else .ok { s with rc := upd s.rc a ((s.rc a + (M - 1)) % M) }
    else .fault

/-- One operation, as `Promise.Handles.step`. -/
def stepW (M : Nat) (s : St) : Op → Res
  | .newPromise h =>
    if h ∈ s.live then .illTyped
    else .ok { mk s h true (some s.next) with
      rc := upd s.rc s.next (1 % M), alive := upd s.alive s.next true, has := upd s.has s.next false,
      next := s.next + 1, log := s.log ++ [.alloc s.next] }
  | .moveP h g =>
    if h ∉ s.live ∧ s.P g then .ok (swap (mk s h true none) h g) else .illTyped
  | .assignP h g =>
    if s.P h ∧ s.P g then
      let s1 := setPtr s g none
      dropW M (setPtr s1 h (s.ptr g)) (s1.ptr h)
    else .illTyped
  | .setValue h =>
    if s.P h then
      match s.ptr h with
      | none => .fault
      | some a =>
        if s.alive a && !s.has a then
          (dropW M { s with has := upd s.has a true } (some a)).bind fun s => .ok (setPtr s h none)
        else .fault
    else .illTyped
  | .getFuture h g =>
    if h ∉ s.live ∧ s.P g then refIfW M (mk s h false (s.ptr g)) (s.ptr g) else .illTyped
  | .newFuture h => if h ∈ s.live then .illTyped else .ok (mk s h false none)
  | .copyF h g =>
    if h ∉ s.live ∧ s.F g then refIfW M (mk s h false (s.ptr g)) (s.ptr g) else .illTyped
  | .copyAssignF h g =>
    if s.F h ∧ s.F g then
      (dropW M s (s.ptr h)).bind fun s => refW M (setPtr s h (s.ptr g)) (s.ptr g)
    else .illTyped
  | .moveF h g =>
    if h ∉ s.live ∧ s.F g then .ok (swap (mk s h false none) h g) else .illTyped
  | .moveAssignF h g => if s.F h ∧ s.F g then .ok (swap s h g) else .illTyped
  | .swapF h g => if s.F h ∧ s.F g then .ok (swap s h g) else .illTyped
  | .destroy h =>
    if h ∈ s.live then
      (dropW M s (s.ptr h)).bind fun s =>
        .ok { s with live := s.live.erase h, ptr := upd s.ptr h none }
    else .illTyped

/-- States reachable by programs that respect `Allowed`. -/
inductive WReach (M : Nat) : St → Prop where
  | init : WReach M .init
  | step {s s' : St} {o : Op} : WReach M s → Allowed s o → stepW M s o = .ok s' → WReach M s'

/-- The same, with fewer than `M` handles for any state at any time. -/
inductive FewReach (M : Nat) : St → Prop where
  | init : FewReach M .init
  | step {s s' : St} {o : Op} : FewReach M s → Allowed s o → stepW M s o = .ok s' → (∀ a, refs s' a < M) → FewReach M s'

theorem FewReach.reach {M : Nat} {s : St} (h : FewReach M s) : WReach M s := by
  induction h with
  | init => exact .init
  | step _ ha hs _ ih => exact .step ih ha hs

/-- The counters of existing states are small. -/
def Small (M : Nat) (s : St) : Prop := ∀ a, s.alive a = true → 0 < s.rc a ∧ s.rc a < M

/-- Results agree up to counters that have wrapped around. -/
def Rel (M : Nat) : Res → Res → Prop
  | .ok s, .ok s' => s.live = s'.live ∧ s.ptr = s'.ptr ∧ ((∀ a, s.alive a = true → s.rc a < M) → s = s')
  | .fault, .fault => True
  | .illTyped, .illTyped => True
  | _, _ => False

theorem Rel.refl (M : Nat) (r : Res) : Rel M r r := by
  cases r <;> simp [Rel]

theorem refW_rel {M : Nat} {s : St} (p : Option Nat) : Rel M (ref s p) (refW M s p) := by
  cases p with
  | none => exact Rel.refl ..
  | some a =>
    simp only [refW, ref]
    split
    · rename_i hl
      refine ⟨rfl, rfl, fun h => ?_⟩
      have := h a hl
      simp only [upd, if_true] at this
      rw [Nat.mod_eq_of_lt this]
    · trivial

theorem refIfW_rel {M : Nat} {s : St} (p : Option Nat) : Rel M (refIf s p) (refIfW M s p) := by
  cases p with
  | none => exact Rel.refl ..
  | some a => simp only [refIfW, refIf]; exact refW_rel _

theorem sub_mod {M n : Nat} (h0 : 0 < n) (h : n < M) : (n + (M - 1)) % M = n - 1 := by
  have : n + (M - 1) = (n - 1) + M := by omega
  rw [this, Nat.add_mod_right, Nat.mod_eq_of_lt (by omega)]

theorem dropW_eq {M : Nat} {s : St} {p : Option Nat} (h : Small M s) : dropW M s p = Promise.Handles.drop s p := by
  cases p with
  | none => rfl
  | some a =>
    simp only [dropW, Promise.Handles.drop]
    split
    · rename_i hl; rw [sub_mod (h a hl).1 (h a hl).2]
    · rfl

theorem stepW_rel {M : Nat} {s : St} (hM : 1 < M) (h : Small M s) (o : Op) : Rel M (step s o) (stepW M s o) := by
  cases o with
  | newPromise x => simp only [stepW, step, Nat.mod_eq_of_lt hM]; exact Rel.refl ..
  | assignP x g =>
    simp only [stepW, step]
    rw [dropW_eq (s := setPtr (setPtr s g none) x (s.ptr g)) h]
    exact Rel.refl ..
  | setValue x =>
    simp only [stepW, step]
    cases s.ptr x with
    | none => exact Rel.refl ..
    | some a =>
      simp only
      rw [dropW_eq (s := { s with has := upd s.has a true }) h]
      exact Rel.refl ..
  | getFuture x g =>
    simp only [stepW, step]
    split
    · exact refIfW_rel _
    · trivial
  | copyF x g =>
    simp only [stepW, step]
    split
    · exact refIfW_rel _
    · trivial
  | copyAssignF x g =>
    simp only [stepW, step]
    rw [dropW_eq h]
    split
    · cases Promise.Handles.drop s (s.ptr x) with
      | ok s' => exact refW_rel _
      | fault => trivial
      | illTyped => trivial
    · trivial
  | destroy x => simp only [stepW, step]; rw [dropW_eq h]; exact Rel.refl ..
  | _ => exact Rel.refl ..

theorem small_of {M : Nat} {s : St} (h : HReach s) (hf : ∀ a, refs s a < M) : Small M s := by
  intro a ha
  have h1 := h.inv.rc a ha
  have h2 := (h.inv.alive a).1 ha
  have h3 := hf a
  simp only [List.count_nil] at h1 h2
  omega

theorem FewReach.few {M : Nat} (hM : 1 < M) {s : St} (h : FewReach M s) (a : Nat) : refs s a < M := by
  cases h with
  | init => exact Nat.lt_of_le_of_lt (Nat.zero_le 0) (by omega)
  | step _ _ _ hf => exact hf a

theorem FewReach.sim {M : Nat} (hM : 1 < M) {s : St} (h : FewReach M s) : HReach s := by
  induction h with
  | init => exact .init
  | @step s s' o hr ha hs hf ih =>
    have hR := stepW_rel hM (small_of ih (hr.few hM)) o
    rw [hs] at hR
    cases hd : Promise.Handles.step s o with
    | ok s'' =>
      rw [hd] at hR
      obtain ⟨e1, e2, e3⟩ := hR
      have hr'' : HReach s'' := .step ih ha hd
      have : s'' = s' := e3 fun a ha => by
        have h1 := hr''.inv.rc a ha
        have h2 := hf a
        simp only [refs, List.count_nil, e1, e2] at h1 h2
        omega
      exact this ▸ hr''
    | fault => rw [hd] at hR; exact hR.elim
    | illTyped => rw [hd] at hR; exact hR.elim

/-! ## Too many handles -/

/-- A promise and `n` futures from it. -/
structure Many (M n : Nat) (s : St) : Prop where
  len : s.live.length = n + 1
  live : ∀ h, h ∈ s.live ↔ h ≤ n
  isP : ∀ h, h ≤ n → s.isP h = decide (h = 0)
  ptr : ∀ h, h ≤ n → s.ptr h = some 0
  rc : s.rc 0 = (n + 1) % M
  alive : s.alive 0 = true
  has : s.has 0 = false

theorem Many.refs_eq {M n : Nat} {s : St} (m : Many M n s) : refs s 0 = n + 1 := by
  rw [refs, List.filter_eq_self.2, m.len]
  intro x hx
  simp [m.ptr x ((m.live x).1 hx)]

theorem many (M n : Nat) : ∃ s, WReach M s ∧ Many M n s := by
  induction n with
  | zero =>
    refine ⟨_, .step (o := .newPromise 0) .init trivial (by simp [stepW, St.init]; rfl), ?_⟩
    constructor <;> simp [mk, upd]
  | succ n ih =>
    obtain ⟨s, h, m⟩ := ih
    have h0 : s.ptr 0 = some 0 := m.ptr 0 (by omega)
    have hP : s.P 0 = true := by
      simp [St.P, (m.live 0).2 (by omega), m.isP 0 (by omega)]
    have hn : n + 1 ∉ s.live := fun hc => by have := (m.live _).1 hc; omega
    have hs : stepW M s (.getFuture (n + 1) 0) = .ok { mk s (n + 1) false (some 0) with rc := upd s.rc 0 ((s.rc 0 + 1) % M) } := by
      simp [stepW, hn, hP, h0, refIfW, refW, mk, m.alive]
    refine ⟨_, .step (o := .getFuture (n + 1) 0) h trivial hs, ?_⟩
    constructor
    · simp [mk, m.len]
    · intro x
      simp only [mk, List.mem_cons, m.live x]; omega
    · intro x hx
      by_cases e : x = n + 1
      · subst e; simp [mk, upd]
      · simp only [mk, upd, e, if_false]; exact m.isP x (by omega)
    · intro x hx
      by_cases e : x = n + 1
      · subst e; simp [mk, upd]
      · simp only [mk, upd, e, if_false]; exact m.ptr x (by omega)
    · simp only [upd, if_true, m.rc, Nat.mod_add_mod]
    · exact m.alive
    · exact m.has

end Verif.Width.Handles
