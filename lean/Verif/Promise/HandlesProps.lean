import Verif.Promise.Handles

/-!
# Properties of the handles `promise` and `future`
-/

namespace Verif.Promise.Handles

/-- States reachable by programs that respect `Allowed`. -/
inductive HReach : St → Prop where
  | init : HReach .init
  | step {s s' : St} {o : Op} : HReach s → Allowed s o → step s o = .ok s' → HReach s'

theorem HReach.inv {s : St} (h : HReach s) : Inv s [] := by
  induction h with
  | init => exact Inv.init
  | @step s s' o _ ha hs ih =>
    obtain ⟨s'', e, h'⟩ := ih.step ha (by rw [hs]; simp)
    rw [hs] at e; cases e; exact h'

theorem refs_pos_iff (s : St) (a : Nat) : 0 < refs s a ↔ ∃ h ∈ s.live, s.ptr h = some a := by
  constructor
  · intro h
    obtain ⟨x, hx⟩ := List.exists_mem_of_length_pos h
    rw [List.mem_filter] at hx
    exact ⟨x, hx.1, by simpa using hx.2⟩
  · rintro ⟨h, hl, hp⟩; exact refs_pos hl hp

/-- C36, partial: for all programs over any number of handles that respect `Allowed` (copy
assignment from an empty future and self-assignment of the last handle are excluded). No operation
faults. At any time a state that was allocated has been freed exactly once if no handle refers to it,
and has not been freed if some handle refers to it. -/
theorem C36_state_lifetime_partial {s : St} (h : HReach s) :
    (∀ o, Allowed s o → step s o ≠ .fault) ∧
    (∀ a, .alloc a ∈ s.log → (∃ g ∈ s.live, s.ptr g = some a) → .free a ∉ s.log) ∧
    (∀ a, .alloc a ∈ s.log → (∀ g ∈ s.live, s.ptr g ≠ some a) → s.log.count (.free a) = 1) ∧
    (∀ a, (∃ g ∈ s.live, s.ptr g = some a) → .alloc a ∈ s.log) := by
  have hI := h.inv
  have hal : ∀ a, s.alive a = true ↔ ∃ g ∈ s.live, s.ptr g = some a := by
    intro a; rw [hI.alive, ← refs_pos_iff]; simp
  refine ⟨?_, ?_, ?_, ?_⟩
  · intro o ha hf
    obtain ⟨s', e, _⟩ := hI.step ha (by rw [hf]; simp)
    rw [hf] at e; cases e
  · intro a _ hg hm
    have := List.count_pos_iff.2 hm
    rw [hI.free, (hal a).2 hg] at this
    simp at this
  · intro a hm hg
    have h1 := List.count_pos_iff.2 hm
    rw [hI.alloc] at h1
    rw [hI.free]
    have h2 : s.alive a = false := by
      rw [Bool.eq_false_iff]; intro hc
      obtain ⟨g, hl, hp⟩ := (hal a).1 hc
      exact hg g hl hp
    by_cases h3 : a < s.next
    · simp [h3, h2]
    · simp [h3] at h1
  · intro a hg
    have := hI.lt a ((hal a).2 hg)
    apply List.count_pos_iff.1
    rw [hI.alloc]; simp [this]

/-- C36. When the last handle is gone, every state has been freed exactly once. -/
theorem C36_no_leak {s : St} (h : HReach s) (hl : s.live = []) {a : Nat} (ha : .alloc a ∈ s.log) :
    s.log.count (.free a) = 1 :=
  (C36_state_lifetime_partial h).2.2.1 a ha (by simp [hl])

/-- C36, exactly when copy assignment misbehaves: the argument is empty, or a future that is the
only handle of its state is assigned to itself. -/
theorem C36_copy_assign_faults_iff {s : St} (h : HReach s) {x y : Nat} (hx : s.F x = true)
    (hy : s.F y = true) :
    step s (.copyAssignF x y) = .fault ↔
      s.ptr y = none ∨ (x = y ∧ ∀ g ∈ s.live, s.ptr g = s.ptr x → g = x) := by
  have hI := h.inv
  have hxl : x ∈ s.live := by simp [St.F] at hx; exact hx.1
  constructor
  · intro hf
    rcases hp : s.ptr y with _ | a
    · exact .inl rfl
    · right
      have hna : ¬ Allowed s (.copyAssignF x y) := by
        intro ha; exact (C36_state_lifetime_partial h).1 _ ha hf
      simp only [Allowed, hp] at hna
      have hxy : x = y := by
        by_cases e : x = y
        · exact e
        · exact absurd ⟨by simp, fun h => absurd h e⟩ hna
      subst hxy
      refine ⟨rfl, ?_⟩
      have h1 : refs s a < 2 := by
        rcases Nat.lt_or_ge (refs s a) 2 with h | h
        · exact h
        · exact absurd ⟨by simp, fun _ b hb => by rw [hp] at hb; cases hb; exact h⟩ hna
      intro g hg he
      have m1 : x ∈ s.live.filter fun h => s.ptr h == some a := by simp [hxl, hp]
      have m2 : g ∈ s.live.filter fun h => s.ptr h == some a := by simp [hg, he, hp]
      simp only [refs] at h1
      match hf : s.live.filter (fun h => s.ptr h == some a) with
      | [] => rw [hf] at m1; simp at m1
      | [z] => rw [hf] at m1 m2; simp at m1 m2; rw [m1, m2]
      | z :: w :: l => rw [hf] at h1; simp at h1; omega
  · intro hc
    have hd : ∃ s1, drop s (s.ptr x) = .ok s1 ∧ s1.ptr = s.ptr ∧
        (∀ a, s.ptr x = some a → (∀ g ∈ s.live, s.ptr g = some a → g = x) → s1.alive a = false) := by
      rcases hp : s.ptr x with _ | a
      · exact ⟨s, rfl, rfl, by simp⟩
      · have hal := hI.ptr_alive hxl hp
        have hrc := hI.rc a hal
        by_cases hz : s.rc a - 1 = 0
        · refine ⟨_, by simp only [drop, destruct, upd_same, hal, hz, if_true]; rfl, by rfl, ?_⟩
          intro b hb; cases hb; simp
        · refine ⟨_, by simp only [drop, hal, hz, if_true, if_false]; rfl, by rfl, ?_⟩
          intro b hb hu; cases hb
          exfalso; apply hz
          simp only [List.count_nil, Nat.add_zero] at hrc
          have hn : (s.live.filter fun h => s.ptr h == some a).Nodup := hI.nodup.filter _
          have hs : ∀ z ∈ (s.live.filter fun h => s.ptr h == some a), z = x := by
            intro z hz; rw [List.mem_filter] at hz; exact hu z hz.1 (by simpa using hz.2)
          simp only [refs] at hrc
          match hf : s.live.filter (fun h => s.ptr h == some a) with
          | [] => rw [hf] at hrc; simp at hrc; omega
          | [z] => rw [hf] at hrc; simp at hrc; omega
          | z :: w :: l =>
            rw [hf] at hn hs
            have e1 := hs z (by simp); have e2 := hs w (by simp)
            subst e1; subst e2; simp at hn
    obtain ⟨s1, e1, e2, e3⟩ := hd
    simp only [step, hx, hy, and_self, if_true, e1, Res.bind, e2]
    rcases hc with hc | ⟨rfl, hc⟩
    · simp [hc, ref]
    · rcases hp : s.ptr x with _ | a
      · simp [ref]
      · have := e3 a hp (by rw [hp] at hc; exact hc)
        simp [ref, setPtr, this]

/-- C36 is false of the code: copy assignment of an empty future dereferences a null pointer
(promise.hpp line 230). -/
theorem C36_assign_empty_false :
    run .init [.newPromise 0, .getFuture 1 0, .newFuture 2, .copyAssignF 1 2] = .fault := rfl

/-- C36 is false of the code: self-assignment of the last handle frees the state and then uses it
(promise.hpp lines 223-230). -/
theorem C36_self_assign_false :
    run .init [.newPromise 0, .getFuture 1 0, .destroy 0, .copyAssignF 1 1] = .fault := rfl

/-! ## Concrete programs -/

theorem HReach.run {s s' : St} (h : HReach s) {os : List Op}
    (ha : ∀ pre o post t, os = pre ++ o :: post → Handles.run s pre = .ok t → Allowed t o)
    (e : Handles.run s os = .ok s') : HReach s' := by
  induction os generalizing s with
  | nil => simp only [Handles.run, Res.ok.injEq] at e; exact e ▸ h
  | cons o os ih =>
    simp only [Handles.run] at e
    obtain ⟨s1, e1, e2⟩ := Res.bind_ok e
    refine ih (.step h (ha [] o os s rfl rfl) e1) ?_ e2
    intro pre p post t hs ht
    exact ha (o :: pre) p post t (by rw [hs]; rfl) (by simp only [Handles.run, e1, Res.bind]; exact ht)

/-- Two promises and several futures; a future is copy-assigned from one state to the other, which
frees the first state; self-assignment of a future that is not the last handle. -/
example : ∃ s, HReach s ∧ Ev.alloc 0 ∈ s.log ∧ (∃ g ∈ s.live, s.ptr g = some 1) ∧
    (∀ g ∈ s.live, s.ptr g ≠ some 0) ∧ s.log = [.alloc 0, .alloc 1, .free 0] := by
  have h0 := HReach.init
  have h1 := h0.step (o := .newPromise 0) trivial rfl
  have h2 := h1.step (o := .getFuture 1 0) trivial rfl
  have h3 := h2.step (o := .newPromise 2) trivial rfl
  have h4 := h3.step (o := .getFuture 3 2) trivial rfl
  have h5 := h4.step (o := .copyAssignF 3 3) ⟨by decide, by
    intro _ a ha; have : a = 1 := by simpa [mk, upd, St.init] using ha.symm
    subst this; decide⟩ rfl
  have h6 := h5.step (o := .setValue 0) (by show some 0 ≠ none; simp) rfl
  have h7 := h6.step (o := .copyAssignF 1 3) ⟨by decide, by intro h; cases h⟩ rfl
  have h8 := h7.step (o := .destroy 2) trivial rfl
  refine ⟨_, h8, by decide, by decide, by decide, rfl⟩

example : ∃ s, HReach s ∧ s.F 1 = true ∧ s.F 2 = true ∧ s.ptr 2 = none := by
  have h1 := HReach.init.step (o := .newPromise 0) trivial rfl
  have h2 := h1.step (o := .getFuture 1 0) trivial rfl
  have h3 := h2.step (o := .newFuture 2) trivial rfl
  exact ⟨_, h3, by decide, by decide, rfl⟩

example : ∃ s, HReach s ∧ s.live = [] ∧ Ev.alloc 0 ∈ s.log := by
  have h1 := HReach.init.step (o := .newPromise 0) trivial rfl
  have h2 := h1.step (o := .getFuture 1 0) trivial rfl
  have h3 := h2.step (o := .destroy 0) trivial rfl
  have h4 := h3.step (o := .destroy 1) trivial rfl
  exact ⟨_, h4, by decide, by decide⟩

/-- The theorems applied to a promise with a future, before and after the future is destroyed. -/
example : ∃ s, HReach s ∧ .free 0 ∉ s.log ∧ (step s (.copyAssignF 1 1) = .fault ↔ s.ptr 1 = none ∨
    (1 = 1 ∧ ∀ g ∈ s.live, s.ptr g = s.ptr 1 → g = 1)) := by
  have h1 := HReach.init.step (o := .newPromise 0) trivial rfl
  have h2 := h1.step (o := .getFuture 1 0) trivial rfl
  exact ⟨_, h2, (C36_state_lifetime_partial h2).2.1 0 (by decide) (by decide),
    C36_copy_assign_faults_iff h2 (by decide) (by decide)⟩
example : ∃ s, HReach s ∧ s.log.count (.free 0) = 1 := by
  have h1 := HReach.init.step (o := .newPromise 0) trivial rfl
  have h2 := h1.step (o := .getFuture 1 0) trivial rfl
  have h3 := h2.step (o := .destroy 0) trivial rfl
  have h4 := h3.step (o := .destroy 1) trivial rfl
  exact ⟨_, h4, C36_no_leak h4 (by decide) (by decide)⟩

end Verif.Promise.Handles
