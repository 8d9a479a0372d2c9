import Verif.Width.Handles

/-!
# Properties of the reference count of promises with a fixed width
-/

namespace Verif.Width.Handles

open Verif.Promise.Handles

/-- C100. The reference count of a promise in a `size_t` of `w` bits, with fewer than `2 ^ w` handles for any state at any time: the
same states are reached as with unbounded counters. (Without the restriction: `C100_promise_count_false`.) -/
theorem C100_promise_count_partial {w : Nat} (hw : 1 ≤ w) {s : St} (h : FewReach (2 ^ w) s) : HReach s :=
  h.sim (Nat.one_lt_two_pow (by omega))

/-- C100. With fewer than `2 ^ w` handles for any state at any time: no operation faults, a state is not freed while a handle refers
to it, and has been freed exactly once when no handle does. -/
theorem C100_promise_lifetime_partial {w : Nat} (hw : 1 ≤ w) {s : St} (h : FewReach (2 ^ w) s) :
    (∀ o, Allowed s o → stepW (2 ^ w) s o ≠ .fault) ∧
    (∀ a, .alloc a ∈ s.log → (∃ g ∈ s.live, s.ptr g = some a) → .free a ∉ s.log) ∧
    (∀ a, .alloc a ∈ s.log → (∀ g ∈ s.live, s.ptr g ≠ some a) → s.log.count (.free a) = 1) := by
  have hM : 1 < 2 ^ w := Nat.one_lt_two_pow (by omega)
  have hr := h.sim hM
  obtain ⟨h1, h2, h3, _⟩ := C36_state_lifetime_partial hr
  refine ⟨fun o ha hf => ?_, h2, h3⟩
  have hR := stepW_rel hM (small_of hr (h.few hM)) o
  have := h1 o ha
  rw [hf] at hR
  cases hd : step s o with
  | ok s'' => rw [hd] at hR; exact hR.elim
  | fault => exact this hd
  | illTyped => rw [hd] at hR; exact hR.elim

/-- C100 is false of the code without the restriction, for every width. A promise has `2 ^ w` futures; the count is one. One future is destroyed, and
the state is freed although the promise and the other futures refer to it; `set_value` then accesses freed memory. -/
theorem C100_promise_count_false (w : Nat) : ∃ s s' : St, WReach (2 ^ w) s ∧ s.rc 0 = 1 % 2 ^ w ∧ refs s 0 = 2 ^ w + 1 ∧
    stepW (2 ^ w) s (.destroy (2 ^ w)) = .ok s' ∧ WReach (2 ^ w) s' ∧ .free 0 ∈ s'.log ∧
    (∀ h, h < 2 ^ w → h ∈ s'.live ∧ s'.ptr h = some 0) ∧ Allowed s' (.setValue 0) ∧ stepW (2 ^ w) s' (.setValue 0) = .fault := by
  obtain ⟨s, h, m⟩ := many (2 ^ w) (2 ^ w)
  have hp : 0 < 2 ^ w := Nat.two_pow_pos w
  have hrc : s.rc 0 = 1 % 2 ^ w := by rw [m.rc, Nat.add_mod_left]
  have hz : (s.rc 0 + (2 ^ w - 1)) % 2 ^ w = 0 := by
    rw [hrc, Nat.mod_add_mod, show 1 + (2 ^ w - 1) = 2 ^ w by omega, Nat.mod_self]
  have hl : 2 ^ w ∈ s.live := (m.live _).2 (Nat.le_refl _)
  have hpt : s.ptr (2 ^ w) = some 0 := m.ptr _ (Nat.le_refl _)
  have hs : stepW (2 ^ w) s (.destroy (2 ^ w)) = .ok { s with
      rc := upd s.rc 0 0, alive := upd s.alive 0 false, log := s.log ++ [.free 0],
      live := s.live.erase (2 ^ w), ptr := upd s.ptr (2 ^ w) none } := by
    simp [stepW, hl, hpt, dropW, m.alive, hz, destruct, Res.bind]
  have hlt : ∀ x, x < 2 ^ w → x ∈ s.live.erase (2 ^ w) ∧ upd s.ptr (2 ^ w) none x = some 0 := by
    intro x hx
    have hne : x ≠ 2 ^ w := by omega
    refine ⟨(List.mem_erase_of_ne hne).2 ((m.live x).2 (by omega)), ?_⟩
    simp only [upd, hne, if_false]; exact m.ptr x (by omega)
  have hne0 : (0 : Nat) ≠ 2 ^ w := by omega
  refine ⟨s, _, h, hrc, ?_, hs, .step (o := .destroy (2 ^ w)) h trivial hs, by simp, hlt, ?_, ?_⟩
  · exact m.refs_eq
  · simp only [Allowed]; rw [(hlt 0 hp).2]; simp
  · have hP : s.isP 0 = true := by simp [m.isP 0 (by omega)]
    simp only [stepW, St.P, (hlt 0 hp).1, (hlt 0 hp).2, hP]
    simp [upd]

/-! ## The hypotheses are met -/

theorem few_of_live {M n : Nat} {s : St} (h : s.live.length = n) (hn : n < M) (a : Nat) : refs s a < M := by
  have : refs s a ≤ s.live.length := List.length_filter_le _ _
  omega

/-- A promise and a future, with 64 bits. -/
example : ∃ s, FewReach (2 ^ 64) s ∧ refs s 0 = 2 ∧ HReach s := by
  have h1 : FewReach (2 ^ 64) _ := .step (o := .newPromise 0) .init trivial rfl (few_of_live (n := 1) rfl (by decide))
  have h2 := FewReach.step (o := .getFuture 1 0) h1 trivial rfl (few_of_live (n := 2) rfl (by decide))
  exact ⟨_, h2, rfl, C100_promise_count_partial (by decide) h2⟩

end Verif.Width.Handles
