import Verif.Hb.Baton

/-!
# Happens-before between all steps

The histories of the machines contain the events that can be observed. Here every step is recorded: every instruction that is
executed and every call. If two steps access the same memory, one of them writing, and no atomic access, there is no data race if
one of them happens before the other. This file does not model code of `/repo`.
-/

namespace Verif

variable {M : Mach}

/-- An instruction that was executed, or a call. -/
abbrev Step (M : Mach) := M.ι ⊕ M.α

/-- The machine together with a record of its steps. -/
abbrev traced (M : Mach) : Mach where
  σ := M.σ × List (Step M)
  ι := M.ι
  α := M.α
  exec s x b := match M.exec s.1 x b with
    | .ok s' p => .ok (s', s.2 ++ [.inl x]) p
    | .block => .block
    | .fault => .fault
  env s acts a := match M.env s.1 acts a with
    | some (s', p) => some ((s', s.2 ++ [.inr a]), p)
    | none => none

theorem traced_exec {s s' : (traced M).σ} {x : M.ι} {b : Bool} {p : List M.ι} (h : (traced M).exec s x b = .ok s' p) :
    M.exec s.1 x b = .ok s'.1 p ∧ s'.2 = s.2 ++ [.inl x] := by
  simp only [traced] at h
  split at h <;> simp at h
  obtain ⟨rfl, rfl⟩ := h
  exact ⟨by assumption, rfl⟩

theorem traced_env {s s' : (traced M).σ} {acts : List (List M.ι)} {a : M.α} {p : List M.ι}
    (h : (traced M).env s acts a = some (s', p)) : M.env s.1 acts a = some (s'.1, p) ∧ s'.2 = s.2 ++ [.inr a] := by
  simp only [traced] at h
  split at h <;> simp at h
  obtain ⟨rfl, rfl⟩ := h
  exact ⟨by assumption, rfl⟩

/-- Recording the steps does not change what the machine does. -/
theorem traced_reach {s0 : M.σ} {c : Conf (traced M)} (h : Reach (traced M) (s0, []) c) :
    Reach M s0 (⟨c.sh.1, c.acts, c.bad⟩ : Conf M) := by
  induction h with
  | init => exact .init
  | @step c c' l hr hs ih =>
    cases l with
    | env a =>
      simp only [Mach.step] at hs
      split at hs
      · simp at hs
      · rename_i hb
        split at hs
        · rename_i s' p he
          simp at hs; subst hs
          refine .step (l := .env a) ih ?_
          simp [Mach.step, hb, (traced_env he).1]
        · simp at hs
    | run k b =>
      simp only [Mach.step] at hs
      split at hs
      · simp at hs
      · rename_i hb
        split at hs
        · rename_i x r hk
          split at hs
          · rename_i s' p he
            simp at hs; subst hs
            refine .step (l := .run k b) ih ?_
            simp [Mach.step, hb, hk, (traced_exec he).1]
          · simp at hs
          · rename_i he
            simp at hs; subst hs
            refine .step (l := .run k b) ih ?_
            have he' : M.exec c.sh.1 x b = .fault := by
              simp only [traced] at he
              split at he <;> simp_all
            simp [Mach.step, hb, hk, he']
        · simp at hs

/-- Atomic accesses as in `A`; `entry` is what the caller knows, in terms of the steps. -/
abbrev Ann.traced (A : Ann M) (entry : M.σ → List (Step M) → M.α → Nat → Bool) : Ann (traced M) where
  L := A.L
  dec := A.dec
  len s := s.2.length
  entry s a n := entry s.1 s.2 a n
  eff s x b := A.eff s.1 x b

/-- The steps that concern coroutine `i`. -/
def concerns (w : Nat → M.ι → Nat) (ca : Nat → M.α → Bool) (i : Nat) : Step M → Bool
  | .inl x => decide (0 < w i x)
  | .inr a => ca i a

/-- How a coroutine passes from activity to activity. `w i x` is positive if instruction `x` runs coroutine `i`; `ca i a` means that
call `a` concerns it. `fresh s i`: nothing was done with it. `idle s i q`: it waits for a call of kind `q`, which knows of the
step after which it waits (`hand i q`). `parked s i`: whoever acquires `slot i` may go on with it. -/
structure Relay (A : Ann M) (s0 : M.σ) (entry : M.σ → List (Step M) → M.α → Nat → Bool) (w : Nat → M.ι → Nat)
    (ca : Nat → M.α → Bool) (fresh : M.σ → Nat → Prop) (idle : M.σ → Nat → Bool → Prop) (hand : Nat → Bool → Step M → Prop)
    (parked : M.σ → Nat → Prop) (slot : Nat → A.L) : Prop where
  start : ∀ i q, ¬ idle s0 i q
  rest : ∀ i, ¬ parked s0 i
  one : ∀ (c : Conf M) i, Reach M s0 c → ws (w i) c.acts ≤ 1
  stores : ∀ s x b i, ∀ a ∈ A.eff s x b, letI := A.dec; a.stores (slot i) = false
  env : ∀ (c : Conf M) a s' p, Reach M s0 c → M.env c.sh c.acts a = some (s', p) → ∀ i,
    (∀ y ∈ p, 0 < w i y → ca i a = true) ∧
    (fresh s' i → fresh c.sh i ∧ ca i a = false) ∧
    (∀ q, idle s' i q → (idle c.sh i q ∧ ca i a = false) ∨ (ca i a = true ∧ hand i q (.inr a))) ∧
    (parked s' i → parked c.sh i ∧ ca i a = false) ∧
    (ca i a = true → ws (w i) c.acts = 0 ∧
      (fresh c.sh i ∨ ∃ q, idle c.sh i q ∧ ∀ tr (n : Nat) t, tr[n]? = some t → hand i q t → entry c.sh tr a n = true))
  run : ∀ (c : Conf M) (k : Nat) x r b s' p, Reach M s0 c → c.acts[k]? = some (x :: r) → M.exec c.sh x b = .ok s' p → ∀ i,
    (∀ y ∈ p, 0 < w i y → 0 < w i x ∨ (parked c.sh i ∧ ∃ a ∈ A.eff c.sh x b, letI := A.dec; a.acquires (slot i) = true)) ∧
    (fresh s' i → fresh c.sh i ∧ w i x = 0) ∧
    (∀ q, idle s' i q → (idle c.sh i q ∧ w i x = 0) ∨ (0 < w i x ∧ hand i q (.inl x))) ∧
    (parked s' i → (parked c.sh i ∧ w i x = 0) ∨
      (0 < w i x ∧ ∃ a ∈ A.eff c.sh x b, letI := A.dec; a.releases (slot i) = true))

variable {A : Ann M} {s0 : M.σ} {entry : M.σ → List (Step M) → M.α → Nat → Bool} {w : Nat → M.ι → Nat}
  {ca : Nat → M.α → Bool} {fresh : M.σ → Nat → Prop} {idle : M.σ → Nat → Bool → Prop} {hand : Nat → Bool → Step M → Prop}
  {parked : M.σ → Nat → Prop} {slot : Nat → A.L}

/-- The last step of a coroutine that waits for a call is the one after which it waits. -/
theorem Relay.last (R : Relay A s0 entry w ca fresh idle hand parked slot) {c : Conf (traced M)}
    (h : Reach (traced M) (s0, []) c) : ∀ i,
    (fresh c.sh.1 i → ∀ t ∈ c.sh.2, concerns w ca i t = false) ∧
    ∀ q, idle c.sh.1 i q → ∃ t, lastOf (concerns w ca i) c.sh.2 = some t ∧ hand i q t := by
  refine Reach.inv_with (M := traced M) (P := fun s acts => ∃ bad, Reach M s0 ⟨s.1, acts, bad⟩)
    (Q := fun s _ => ∀ i, (fresh s.1 i → ∀ t ∈ s.2, concerns w ca i t = false) ∧
      ∀ q, idle s.1 i q → ∃ t, lastOf (concerns w ca i) s.2 = some t ∧ hand i q t)
    (fun c hc => ⟨c.bad, traced_reach hc⟩) ?_ ?_ ?_ h
  · exact fun i => ⟨by simp, fun q hq => absurd hq (R.start i q)⟩
  · rintro s acts a s' p ⟨bad, hr⟩ - hQ he i
    obtain ⟨he, ht⟩ := traced_env he
    obtain ⟨-, f1, f2, -, -⟩ := R.env _ a s'.1 p hr he i
    rw [ht]
    refine ⟨fun hf t hm => ?_, fun q hq => ?_⟩
    · rcases List.mem_append.1 hm with hm | hm
      · exact (hQ i).1 (f1 hf).1 t hm
      · simp at hm; subst hm; exact (f1 hf).2
    · rw [lastOf_snoc]
      rcases f2 q hq with ⟨h1, h2⟩ | ⟨h1, h2⟩
      · simp only [concerns, h2]; exact (hQ i).2 q h1
      · exact ⟨_, by simp [concerns, h1], h2⟩
  · rintro s acts k x r b s' p ⟨bad, hr⟩ - hQ hk he i
    obtain ⟨he, ht⟩ := traced_exec he
    obtain ⟨-, f1, f2, -⟩ := R.run _ k x r b s'.1 p hr hk he i
    rw [ht]
    refine ⟨fun hf t hm => ?_, fun q hq => ?_⟩
    · rcases List.mem_append.1 hm with hm | hm
      · exact (hQ i).1 (f1 hf).1 t hm
      · simp at hm; subst hm; simp [concerns, (f1 hf).2]
    · rw [lastOf_snoc]
      rcases f2 q hq with ⟨h1, h2⟩ | ⟨h1, h2⟩
      · simp only [concerns, h2]; exact (hQ i).2 q h1
      · exact ⟨_, by simp [concerns, h1], h2⟩

/-- All steps that concern one coroutine are ordered. -/
theorem Relay.ordered (R : Relay A s0 entry w ca fresh idle hand parked slot) {c : Conf (traced M)} {m : Mem A.L}
    (h : HReach (A.traced entry) (s0, []) c m) {i : Nat} {e f : Nat} {u v : Step M} (he : c.sh.2[e]? = some u)
    (hf : c.sh.2[f]? = some v) (hu : concerns w ca i u = true) (hv : concerns w ca i v = true) (hef : e < f) : m.hb e f := by
  let _ := A.dec
  have key : ∀ (e : Nat) v i, c.sh.2[e]? = some v → concerns w ca i v = true →
      AllKnow (fun x => 0 < w i x) c.acts m e ∧ (parked c.sh.1 i → m.msg (slot i) e = true) ∧
      Done (fun v => concerns w ca i v = true) c.sh.2 m e := by
    refine HReach.inv (A := A.traced entry) (s0 := (s0, [])) (P := fun c => Reach (traced M) (s0, []) c)
      (Q := fun s acts m => ∀ (e : Nat) v i, s.2[e]? = some v → concerns w ca i v = true →
        AllKnow (fun x => 0 < w i x) acts m e ∧ (parked s.1 i → m.msg (slot i) e = true) ∧
        Done (fun v => concerns w ca i v = true) s.2 m e) (fun _ h => h) ?_ ?_ ?_ h
    · simp
    · intro c m a s' p hP _ hQ he
      have hr := traced_reach hP
      have hL := R.last hP
      obtain ⟨he, hl⟩ := traced_env he
      have F := R.env _ a s'.1 p hr he
      have hlen : s'.2.length = c.sh.2.length + 1 := by rw [hl]; simp
      have hknow : ∀ i, ca i a = true → ∀ (e : Nat) u, c.sh.2[e]? = some u → concerns w ca i u = true →
          m.known c.sh.2.length (fun n => entry c.sh.1 c.sh.2 a n) e = true := by
        intro i hi e u heu hui
        rcases ((F i).2.2.2.2 hi).2 with h3 | ⟨q, h3, h4⟩
        · rw [(hL i).1 h3 u (List.mem_of_getElem? heu)] at hui; cases hui
        · obtain ⟨t, h5, h6⟩ := (hL i).2 q h3
          obtain ⟨n, h7, h8, h9⟩ := lastOf_index h5
          refine Mem.known_of (List.getElem?_eq_some_iff.1 h7).1 (h4 _ _ _ h7 h6) ?_
          by_cases hn : n = e
          · exact .inl hn
          · have := h9 e u heu hui
            exact .inr ((hQ e u i heu hui).2.2 n t h7 h8 (by omega))
      intro e v i hev hv
      obtain ⟨f1, -, -, f2, f3⟩ := F i
      by_cases hel : e < c.sh.2.length
      · rw [hl, List.getElem?_append_left hel] at hev
        have hK := hQ e v i hev hv
        refine ⟨hK.1.env ?_, fun hp => Mem.keep (by simp) (hK.2.1 (f2 hp).1), hK.2.2.step hl ?_⟩
        · rintro ⟨y, hy, ht⟩
          exact .inl (hknow i (f1 y hy ht) e v hev hv)
        · rintro ⟨t, ht, hti⟩
          simp at ht; subst ht
          exact hknow i hti e v hev hv
      · have hlt := (List.getElem?_eq_some_iff.1 hev).1
        have hee : e = c.sh.2.length := by omega
        subst hee
        have hva : v = .inr a := by rw [hl] at hev; simpa using hev.symm
        subst hva
        simp only [concerns] at hv
        refine ⟨?_, fun hp => ?_, ?_⟩
        · intro j b hj y hy hty
          by_cases hjl : j < c.acts.length
          · rw [List.getElem?_append_left hjl] at hj
            have := floor_pos hj hy hty
            have := (f3 hv).1
            simp only at this
            omega
          · have : j = c.acts.length := by have := (List.getElem?_eq_some_iff.1 hj).1; simp at this; omega
            subst this
            exact Mem.act_view_self (.inr ⟨by simp, by simpa using hlt⟩)
        · have := (f2 hp).2; simp [hv] at this
        · intro n u hn _ hlt
          have := (List.getElem?_eq_some_iff.1 hn).1
          omega
    · intro c m k x r b s' p hP _ hQ hk he
      have hr := traced_reach hP
      obtain ⟨he, hl⟩ := traced_exec he
      have F := R.run _ k x r b s'.1 p hr hk he
      have hlen : s'.2.length = c.sh.2.length + 1 := by rw [hl]; simp
      have hst := fun i => R.stores c.sh.1 x b i
      have hx : ∀ (e : Nat) v i, c.sh.2[e]? = some v → concerns w ca i v = true → 0 < w i x → m.view k e = true :=
        fun e v i hev hv ht => (hQ e v i hev hv).1 k _ hk x (by simp) ht
      intro e v i hev hv
      obtain ⟨f1, -, -, f2⟩ := F i
      by_cases hel : e < c.sh.2.length
      · rw [hl, List.getElem?_append_left hel] at hev
        have hK := hQ e v i hev hv
        refine ⟨hK.1.run hk ?_, fun hp => ?_, hK.2.2.step hl ?_⟩
        · rintro ⟨y, hy, ht⟩
          rcases f1 y hy ht with h3 | ⟨h3, a, h4, h5⟩
          · exact m.acquire_mono _ (hx e v i hev hv h3)
          · exact m.acquire_msg h4 h5 (hK.2.1 h3)
        · rcases f2 hp with ⟨h3, -⟩ | ⟨h3, a, h4, h5⟩
          · exact Mem.keep (hst i) (hK.2.1 h3)
          · exact Mem.publish (hst i) h4 h5 (.inl (m.acquire_mono _ (hx e v i hev hv h3)))
        · rintro ⟨u, hu, ht⟩
          simp at hu; subst hu
          simp only [concerns, decide_eq_true_eq] at ht
          exact m.acquire_mono _ (hx e v i hev hv ht)
      · have hlt := (List.getElem?_eq_some_iff.1 hev).1
        have hee : e = c.sh.2.length := by omega
        subst hee
        have hva : v = .inl x := by rw [hl] at hev; simpa using hev.symm
        subst hva
        simp only [concerns, decide_eq_true_eq] at hv
        refine ⟨?_, fun hp => ?_, ?_⟩
        · intro j d hj y hy hty
          rw [List.getElem?_set] at hj
          split at hj
          · rename_i hjk; subst hjk
            exact Mem.act_view_self (.inr ⟨by simp, by simpa using hlt⟩)
          · rename_i hjk
            have := floor_two (u := w i) hk hj (Ne.symm hjk) hy hv hty
            have := R.one _ i hr
            simp only at this
            omega
        · rcases f2 hp with ⟨-, h3⟩ | ⟨-, a, h4, h5⟩
          · omega
          · exact Mem.publish (hst i) h4 h5 (.inr ⟨by simp, by simpa using hlt⟩)
        · intro n u hn _ hlt
          have := (List.getElem?_eq_some_iff.1 hn).1
          omega
  exact (key e u i he hu).2.2 f v hf hv hef

end Verif
