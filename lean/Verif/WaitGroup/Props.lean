import Verif.WaitGroup.Proof
import Verif.Resolver.Props
import Mathlib.Data.List.Induction

/-!
# Properties of `wait_group`, `wait_in_group` and `oneshot_event`

`count n log` is the work count after a history of a group that was constructed with count `n`.
-/

namespace Verif.WaitGroup

open Resolver

variable {T : Type} {c : Cfg} {n : Nat}

/-- Reachable configurations of a group constructed with count `n`. -/
abbrev WReach (n : Nat) (k : Conf (mach (ds T c))) : Prop :=
  Reach (mach (ds T c)) (RSt.init (init n)) k

/-- C19. A wait completes with true only if the work count was zero at some moment after it was
started. -/
theorem C19_true_only_if_zero (h1 : c.safeAdd = true) (h2 : c.safeDone = true)
    {k : Conf (mach (ds T c))} (h : WReach n k) :
    Hist (fun before v => ∀ i, v = .done i true → ZeroSince n i before) k.sh.log := by
  obtain ⟨ph, ⟨hA, _⟩, _⟩ := reach_inv (lawful n h1 h2) h
  rintro l1 v l2 e i rfl
  exact hA.hist l1 _ l2 e

/-- C19. A wait suspends only if the count is positive, otherwise it completes right away; `done()`
wakes waiters only when it reaches zero. -/
theorem C19_zero_iff_wake (h1 : c.safeAdd = true) (h2 : c.safeDone = true)
    {k : Conf (mach (ds T c))} (h : WReach n k) :
    Hist (fun before v =>
      (∀ i, v = .ds (.enq i) → 0 < count n before) ∧
      (∀ i, v = .ds (.skip i) → count n before = 0) ∧
      (∀ w, v = .ds (.dec w) → 1 < count n before) ∧
      (∀ w l, v = .ds (.zero w l) → count n before = 1)) k.sh.log := by
  obtain ⟨ph, ⟨hA, _⟩, _⟩ := reach_inv (lawful n h1 h2) h
  intro l1 v l2 e
  have := hA.hist l1 v l2 e
  refine ⟨?_, ?_, ?_, ?_⟩
  · rintro i rfl; exact this
  · rintro i rfl; exact this
  · rintro w rfl; exact this
  · rintro w l rfl; exact this.2

/-- C20. The `done()` that reaches zero wakes all suspended waits, in order; when all calls have
returned, each of them has completed once, with true. -/
theorem C20_zero_wakes_all (h1 : c.safeAdd = true) (h2 : c.safeDone = true)
    {k : Conf (mach (ds T c))} (h : WReach n k) :
    Hist (fun before v => ∀ w l, v = .ds (.zero w l) → l = waiters before) k.sh.log ∧
    (Quiescent k → ∀ w l i, (.ds (.zero w l) : Event T c) ∈ k.sh.log → i ∈ l →
      (.done i true : Event T c) ∈ k.sh.log ∧ completions i k.sh.log = 1) := by
  obtain ⟨ph, ⟨hA, _⟩, hC⟩ := reach_inv (lawful n h1 h2) h
  refine ⟨?_, ?_⟩
  · rintro l1 v l2 e w l rfl
    exact (hA.hist l1 _ l2 e).1
  · intro hq w l i hl hi
    rcases hA.mark i w l hl hi with h1 | ⟨h1, h2⟩
    · exfalso
      have hs : k.sh.started i = true := by
        cases hs : k.sh.started i with
        | true => rfl
        | false =>
          have hp := ((hC.op i).a3 (by simp [view, hs])).1
          rw [view_ph, h1] at hp; simp [Phase.code] at hp
      rcases hC.rest hq hs with h2 | ⟨h2, _⟩
      · rw [hC.done_iff, h1] at h2; simp [Phase.code] at h2
      · rw [h1] at h2; simp at h2
    · exact ⟨h2, (hC.done_iff i).2 (.inr (by rw [h1]; rfl))⟩

/-- C20. When all calls have returned and the count is zero, no wait is suspended. -/
theorem C20_nobody_waits_at_zero (h1 : c.safeAdd = true) (h2 : c.safeDone = true)
    {k : Conf (mach (ds T c))} (h : WReach n k) (hq : Quiescent k) (hz : count n k.sh.log = 0)
    {i : OpId} {ct : Option EvId} {p : Unit} (hb : Ev.begin i ct p ∈ k.sh.log) :
    completions i k.sh.log = 1 := by
  obtain ⟨ph, ⟨hA, _⟩, hC⟩ := reach_inv (lawful n h1 h2) h
  rcases hC.rest hq (hC.begin_started hb) with h1 | ⟨h1, _⟩
  · exact h1
  · have hm := (hA.mem i).2 h1
    have := hA.qz (List.ne_nil_of_mem hm)
    rw [hA.cnt] at hz; omega

/-- C23. A `wait_in_group` operation increases the count by one, then starts the wrapped sender,
then the wrapped sender completes, then the count is decreased once, then exactly the value of the
wrapped sender is forwarded; nothing of this happens twice. -/
theorem C23_brackets (h1 : c.safeAdd = true) (h2 : c.safeDone = true)
    {k : Conf (mach (ds T c))} (h : WReach n k) (j : Nat) :
    wsteps j k.sh.log <+: [.add 1, .start] ∨
    ∃ v, wsteps j k.sh.log <+: [.add 1, .start, .done v, .dec, .forward v] := by
  obtain ⟨ph, ⟨_, hB⟩, _⟩ := reach_inv (lawful n h1 h2) h
  rw [hB.tr j]
  cases hs : k.sh.d.wst j with
  | none => exact .inl (by simp [trOf])
  | called => exact .inl (by simp [trOf])
  | added => exact .inl (by simp [trOf])
  | running => exact .inl (by simp [trOf])
  | told v => exact .inr ⟨v, by simp [trOf]⟩
  | decing v => exact .inr ⟨v, by simp [trOf]⟩
  | dropped v => exact .inr ⟨v, by simp [trOf]⟩
  | fin v => exact .inr ⟨v, by simp [trOf]⟩

/-- C23. When all calls have returned, a `wait_in_group` operation has not been started, or its
wrapped sender is still running, or it has completed. -/
theorem C23_at_rest (h1 : c.safeAdd = true) (h2 : c.safeDone = true)
    {k : Conf (mach (ds T c))} (h : WReach n k) (hq : Quiescent k) (j : Nat) :
    wsteps j k.sh.log = [] ∨ wsteps j k.sh.log = [.add 1, .start] ∨
    ∃ v, wsteps j k.sh.log = [.add 1, .start, .done v, .dec, .forward v] := by
  obtain ⟨ph, ⟨_, hB⟩, _⟩ := reach_inv (lawful n h1 h2) h
  rw [hB.tr j]
  have hz : dsPend k.acts = [] := by
    simp only [dsPend, List.flatten_eq_nil_iff, List.mem_map]
    rintro l ⟨a, ha, rfl⟩
    rw [hq a ha]; rfl
  have hj := hB.js j
  rw [hz] at hj
  cases hs : k.sh.d.wst j <;> rw [hs] at hj <;> simp [jsOk, js] at hj <;> simp [trOf]

/-- C23. While a wrapped sender runs the work count is positive, and the waiters of the group are
not woken. -/
theorem C23_waiters_not_woken (h1 : c.safeAdd = true) (h2 : c.safeDone = true)
    {k : Conf (mach (ds T c))} (h : WReach n k) :
    (∀ j, (.ds (.cstart j) : Event T c) ∈ k.sh.log →
      (∀ v, (.ds (.cdone j v) : Event T c) ∉ k.sh.log) → 0 < count n k.sh.log) ∧
    Hist (fun before v => ∀ w l, v = .ds (.zero w l) →
      ∀ j, (.ds (.cstart j) : Event T c) ∈ before →
        ∃ v, (.ds (.cdone j v) : Event T c) ∈ before) k.sh.log := by
  obtain ⟨ph, ⟨hA, hB⟩, _⟩ := reach_inv (lawful n h1 h2) h
  refine ⟨?_, ?_⟩
  · intro j hj hn
    have hm : WStep.start ∈ trOf (k.sh.d.wst j) := by
      rw [← hB.tr]
      exact List.mem_filterMap.2 ⟨_, hj, by simp [wstep]⟩
    have hd : ∀ val, WStep.done val ∉ trOf (k.sh.d.wst j) := by
      intro val hd
      rw [← hB.tr] at hd
      obtain ⟨ev, hev, he⟩ := List.mem_filterMap.1 hd
      cases ev with
      | ds y =>
        cases y with
        | cdone k val' =>
          simp only [wstep] at he
          split at he
          · rename_i hk; subst hk; exact hn val' hev
          · simp at he
        | add n w => cases w <;> simp [wstep] at he
        | dec w => cases w <;> simp [wstep] at he
        | zero w l => cases w <;> simp [wstep] at he
        | cstart k => simp [wstep] at he
        | wdone k v => simp [wstep] at he
        | _ => simp [wstep] at he
      | _ => simp [wstep] at he
    have hu := hB.units
    rw [hA.cnt]
    cases hs : k.sh.d.wst j with
    | none => rw [hs] at hm; simp [trOf] at hm
    | called => rw [hs] at hm; simp [trOf] at hm
    | added => rw [hs] at hm; simp [trOf] at hm
    | running =>
      have := List.length_pos_of_mem ((hB.hmem j).2 (.inr hs))
      omega
    | told v =>
      have hj := hB.js j
      rw [hs] at hj
      simp only [jsOk] at hj
      have hmem : I.cdone j v ∈ js j (dsPend k.acts) := by rw [hj]; simp
      have hmem : I.cdone j v ∈ dsPend k.acts := (List.mem_filter.1 hmem).1
      have : 0 < (dsPend k.acts).countP isDone := List.countP_pos_iff.2 ⟨_, hmem, rfl⟩
      have := hB.pd
      omega
    | decing v => exact absurd (by rw [hs]; simp [trOf]) (hd v)
    | dropped v => exact absurd (by rw [hs]; simp [trOf]) (hd v)
    | fin v => exact absurd (by rw [hs]; simp [trOf]) (hd v)
  · rintro l1 v l2 e w l rfl
    exact hB.histB l1 _ l2 e

/-- C04 for `wait_group`. -/
theorem C04_wait_group (h1 : c.safeAdd = true) (h2 : c.safeDone = true)
    {k : Conf (mach (ds T c))} (h : WReach n k) :
    k.bad = false ∧ (∀ i, completions i k.sh.log ≤ 1) ∧
    (∀ i, 0 < completions i k.sh.log → ∃ ct p, Ev.begin i ct p ∈ k.sh.log) ∧
    (∀ i, completions i k.sh.log = 1 → ∀ x, Pending k.acts x → x.op = some i →
      x = .unregister i) := C04_exactly_once (lawful n h1 h2) h

/-- C05 for `wait_group`, partial: schedules without preemption between the `fetch_or` in
`transition_` and the access that follows it. -/
theorem C05_wait_group_partial (h1 : c.safeAdd = true) (h2 : c.safeDone = true)
    {k : Conf (mach (ds T c))} (h : CoopReach (ds T c) (init n) k) {i : OpId}
    (hd : completions i k.sh.log = 1) {x : Instr (ds T c)} (hx : Pending k.acts x) :
    x.op ≠ some i := C05_not_touched_after_completion_partial (lawful n h1 h2) h hd hx

/-- C06 for `wait_group`. -/
theorem C06_wait_group (h1 : c.safeAdd = true) (h2 : c.safeDone = true)
    {k : Conf (mach (ds T c))} (h : WReach n k) (hq : Quiescent k) {i : OpId} {e : EvId} {p : Unit}
    (hb : Ev.begin i (some e) p ∈ k.sh.log) (hc : cancelled e k.sh.log = true) :
    completions i k.sh.log = 1 := C06_cancellation_prompt (lawful n h1 h2) h hq hb hc

/-- C07 for `wait_group`. A wait reports false only after `cancel()` on the event of its own token.
In particular a wait without token reports true (the assertion in `wait()`, wait-group.hpp lines
164-168). -/
theorem C07_wait_group (h1 : c.safeAdd = true) (h2 : c.safeDone = true)
    {k : Conf (mach (ds T c))} (h : WReach n k) :
    Hist (fun before v => ∀ i, v = .done i false →
      ∃ e p, Ev.begin i (some e) p ∈ before ∧ Ev.cancel e ∈ before) k.sh.log := by
  obtain ⟨ph, ⟨hA, _⟩, _⟩ := reach_inv (lawful n h1 h2) h
  rintro l1 v l2 e i rfl
  exact (hA.hist l1 _ l2 e).2

/-- C21, partial. A group may be reused if `add()` does not take effect on a zero count while woken
waits are still being resumed: nothing fails, and a woken wait completes once, with true. Missing:
`add()` in this window, see `C21_reuse_false`. -/
theorem C21_reuse_partial (h1 : c.safeAdd = true) (h2 : c.safeDone = true)
    {k : Conf (mach (ds T c))} (h : WReach n k) :
    k.bad = false ∧ (∀ i, completions i k.sh.log ≤ 1) ∧
    (Quiescent k → ∀ w l i, (.ds (.zero w l) : Event T c) ∈ k.sh.log → i ∈ l →
      (.done i true : Event T c) ∈ k.sh.log) :=
  ⟨(C04_wait_group h1 h2 h).1, (C04_wait_group h1 h2 h).2.1,
    fun hq w l i hl hi => ((C20_zero_wakes_all h1 h2 h).2 hq w l i hl hi).1⟩

/-! ## `oneshot_event` -/

/-- `oneshot_event`: no `add()`, and `raise()` is called once. -/
abbrev oneshot : Cfg := ⟨false, true, true⟩

/-- Some `raise()` has taken effect. -/
def raised (log : List (Event T oneshot)) : Prop := ∃ w l, (.ds (.zero w l) : Event T oneshot) ∈ log

theorem no_add {k : Conf (mach (ds T oneshot))} (h : WReach 1 k) :
    ∀ v ∈ k.sh.log, ∀ a w, v ≠ .ds (.add a w) := by
  have := Reach.inv (M := mach (ds T oneshot))
    (P := fun s acts => (∀ v ∈ s.log, ∀ a w, v ≠ .ds (.add a w)) ∧
      (∀ a w, ¬ Pending acts (.ds (.add a w))))
    ⟨by simp [RSt.init], by rintro a w ⟨l, hl, _⟩; simp at hl⟩ ?_ ?_ h
  · exact this.1
  · intro s acts x s' q hP he
    have he' : env s acts x = some (s', q) := he
    cases x with
    | newOp i ct p =>
      simp only [env] at he'
      split at he'
      · simp at he'
      · simp at he'; obtain ⟨rfl, rfl⟩ := he'
        refine ⟨?_, ?_⟩
        · intro v hv a w; simp at hv; rcases hv with hv | rfl
          · exact hP.1 v hv a w
          · simp
        · intro a w hp; rcases pending_append hp with hp | hp
          · simp at hp
          · exact hP.2 a w hp
    | cancel e =>
      simp only [env] at he'
      simp at he'; obtain ⟨rfl, rfl⟩ := he'
      refine ⟨hP.1, ?_⟩
      intro a w hp; rcases pending_append hp with hp | hp
      · simp at hp
      · exact hP.2 a w hp
    | call x =>
      simp only [env] at he'
      split at he'
      · rename_i d' hc
        simp at he'; obtain ⟨rfl, rfl⟩ := he'
        refine ⟨hP.1, ?_⟩
        intro a w hp; rcases pending_append hp with hp | hp
        · simp at hp; subst hp
          cases w with
          | none => simp [call] at hc
          | some j => simp only [call] at hc; split at hc <;> simp at hc
        · exact hP.2 a w hp
      · simp at he'
    | reset e =>
      simp only [env] at he'
      split at he'
      · simp at he'; obtain ⟨rfl, rfl⟩ := he'
        refine ⟨?_, ?_⟩
        · intro v hv a w; simp at hv; rcases hv with hv | rfl
          · exact hP.1 v hv a w
          · simp
        · intro a w hp; rcases pending_append hp with hp | hp
          · simp at hp
          · exact hP.2 a w hp
      · simp at he'
  · intro s acts k x r b s' q hP hk he
    have he' : Resolver.exec s x b = .ok s' q := he
    have hnx : ∀ a w, x ≠ .ds (.add a w) := by
      rintro a w rfl; exact hP.2 a w (pending_top hk)
    suffices hs : (∀ v ∈ s'.log, ∀ a w, v ≠ .ds (.add a w)) ∧ (∀ a w, .ds (.add a w) ∉ q) by
      refine ⟨hs.1, ?_⟩
      intro a w hp
      rcases pending_set hk hp with hp | hp
      · exact hs.2 a w hp
      · exact hP.2 a w hp
    have app : ∀ es : List (E T), (∀ a w, E.add a w ∉ es) →
        ∀ v ∈ s.log ++ es.map (Ev.ds (S := ds T oneshot)), ∀ a w, v ≠ .ds (.add a w) := by
      intro es hes v hv a w
      rcases List.mem_append.1 hv with hv | hv
      · exact hP.1 v hv a w
      · rintro rfl; simp at hv; exact hes a w hv
    have app1 : ∀ v : Event T oneshot, (∀ x, v ≠ .ds x) →
        ∀ v' ∈ s.log ++ [v], ∀ a w, v' ≠ .ds (.add a w) := by
      intro v hv v' hv' a w
      rcases List.mem_append.1 hv' with h | h
      · exact hP.1 v' h a w
      · simp at h; subst h; exact hv _
    cases x with
    | start i =>
      simp only [Resolver.exec, start] at he'
      split at he'
      · simp at he'
      · rename_i heq
        split at heq <;> simp at heq
        obtain ⟨rfl, rfl, rfl⟩ := heq
        simp at he'; obtain ⟨rfl, rfl⟩ := he'
        exact ⟨app [.skip i] (by simp), by simp⟩
      · rename_i heq
        split at heq <;> simp at heq
        obtain ⟨rfl, rfl⟩ := heq
        simp at he'; obtain ⟨rfl, rfl⟩ := he'
        exact ⟨app [.enq i] (by simp), by simp⟩
    | tryCancel i l =>
      simp only [Resolver.exec, tryCancel] at he'
      split at he'
      · simp at he'
      · rename_i heq
        split at heq
        · split at heq <;> simp at heq
          obtain ⟨rfl, rfl, rfl⟩ := heq
          simp at he'; obtain ⟨rfl, rfl⟩ := he'
          exact ⟨app [.unq i] (by simp), by simp⟩
        · simp at heq
          obtain ⟨rfl, rfl, rfl⟩ := heq
          simp at he'; obtain ⟨rfl, rfl⟩ := he'
          exact ⟨by simpa using app [] (by simp), by simp⟩
    | ds y =>
      simp only [Resolver.exec] at he'
      split at he'
      · simp at he'
      · rename_i d' ps es heq
        simp at he'; obtain ⟨rfl, rfl⟩ := he'
        have hy : (∀ a w, E.add a w ∉ es) ∧ ∀ a w, Sum.inr (I.add a w) ∉ ps := by
          have hdec : ∀ (m : Nat) (w : Option (Nat × T)) (l : List (OpId ⊕ I T)),
              decide_ m w = some l → ∀ a w', Sum.inr (I.add a w') ∉ l := by
            intro m w l hl a w'
            simp only [decide_] at hl
            split at hl
            · simp at hl; subst hl; simp
            · split at hl <;> simp at hl
              subst hl; simp
          have hcont : ∀ w : Option (Nat × T), ∀ a w', Sum.inr (I.add a w') ∉ cont w := by
            intro w a w'; rcases w with _ | ⟨j, v⟩ <;> simp [cont]
          cases y with
          | add a w => exact absurd rfl (hnx a w)
          | ld w =>
            simp only [exec, Option.map_eq_some_iff] at heq
            obtain ⟨l, hl, heq⟩ := heq
            simp at heq; obtain ⟨rfl, rfl, rfl⟩ := heq
            exact ⟨by simp, hdec _ _ _ hl⟩
          | cas v w =>
            simp only [exec] at heq
            split at heq
            · simp at heq; obtain ⟨rfl, rfl, rfl⟩ := heq
              exact ⟨by simp, hcont w⟩
            · simp only [Option.map_eq_some_iff] at heq
              obtain ⟨l, hl, heq⟩ := heq
              simp at heq; obtain ⟨rfl, rfl, rfl⟩ := heq
              exact ⟨by simp, hdec _ _ _ hl⟩
          | lock w =>
            simp only [exec] at heq
            split at heq
            · simp at heq
            · split at heq
              · simp at heq; obtain ⟨rfl, rfl, rfl⟩ := heq
                exact ⟨by simp, hcont w⟩
              · simp at heq; obtain ⟨rfl, rfl, rfl⟩ := heq
                exact ⟨by simp, by intro a w'; simp [hcont]⟩
          | cstart j =>
            simp [exec] at heq; obtain ⟨rfl, rfl, rfl⟩ := heq; simp
          | cdone j v =>
            simp [exec] at heq; obtain ⟨rfl, rfl, rfl⟩ := heq; simp
          | wset j v =>
            simp [exec] at heq; obtain ⟨rfl, rfl, rfl⟩ := heq; simp
        refine ⟨app es hy.1, ?_⟩
        intro a w hm
        obtain ⟨z, hz, he⟩ := List.mem_map.1 hm
        cases z with
        | inl i => simp [follow] at he
        | inr z => simp [follow] at he; subst he; exact hy.2 a w hz
    | setFast i v =>
      simp [Resolver.exec] at he'; obtain ⟨rfl, rfl⟩ := he'
      exact ⟨app1 _ (by simp), by simp⟩
    | resume i =>
      simp [Resolver.exec] at he'; obtain ⟨rfl, rfl⟩ := he'
      exact ⟨app1 _ (by simp), by simp⟩
    | cancel e =>
      simp [Resolver.exec] at he'; obtain ⟨rfl, rfl⟩ := he'
      exact ⟨app1 _ (by simp), by simp⟩
    | complete i =>
      simp [Resolver.exec] at he'; obtain ⟨rfl, rfl⟩ := he'
      exact ⟨hP.1, by simp⟩
    | listen i =>
      simp only [Resolver.exec] at he'
      split at he' <;> simp at he' <;> obtain ⟨rfl, rfl⟩ := he' <;> exact ⟨hP.1, by simp⟩
    | register i =>
      simp only [Resolver.exec] at he'
      split at he'
      · simp at he'
      · split at he' <;> simp at he' <;> obtain ⟨rfl, rfl⟩ := he' <;> exact ⟨hP.1, by simp⟩
    | transition i nb =>
      simp only [Resolver.exec] at he'
      repeat' split at he'
      all_goals simp at he'
      all_goals obtain ⟨rfl, rfl⟩ := he'
      all_goals exact ⟨hP.1, by simp⟩
    | unregister i =>
      simp only [Resolver.exec] at he'
      repeat' split at he'
      all_goals simp at he'
      all_goals obtain ⟨rfl, rfl⟩ := he'
      all_goals exact ⟨hP.1, by simp⟩

/-- Without `add()`, the count of a oneshot event is zero exactly if it was raised. -/
theorem count_oneshot {log : List (Event T oneshot)} (hh : Hist (hist 1) log)
    (hn : ∀ v ∈ log, ∀ a w, v ≠ .ds (.add a w)) :
    (count 1 log = 0 ∧ raised log) ∨ (count 1 log = 1 ∧ ¬ raised log) := by
  induction log using List.reverseRecOn with
  | nil => right; simp [raised]
  | append_singleton l v ih =>
    rw [Hist.snoc] at hh
    have ih := ih hh.1 (fun v hv => hn v (by simp [hv]))
    have hv := hh.2
    have hna := hn v (by simp)
    rw [count_append]
    have key : (∀ w l, v ≠ .ds (.zero w l)) → countStep (count 1 l) v = count 1 l →
        (countStep (count 1 l) v = 0 ∧ raised (l ++ [v])) ∨
        (countStep (count 1 l) v = 1 ∧ ¬ raised (l ++ [v])) := by
      intro hz he
      rw [he]
      have : raised (l ++ [v]) ↔ raised l := by
        constructor
        · rintro ⟨w, l', hm⟩
          rcases List.mem_append.1 hm with hm | hm
          · exact ⟨w, l', hm⟩
          · simp at hm; exact absurd hm.symm (hz _ _)
        · rintro ⟨w, l', hm⟩; exact ⟨w, l', by simp [hm]⟩
      rw [this]; exact ih
    cases v with
    | ds x =>
      cases x with
      | zero w l' =>
        left
        simp only [hist] at hv
        exact ⟨by simp [countStep, hv.2], w, l', by simp⟩
      | dec w => simp only [hist] at hv; omega
      | add a w => exact absurd rfl (hna a w)
      | _ => exact key (by simp) rfl
    | _ => exact key (by simp) rfl

theorem hist_prefix {k : Conf (mach (ds T oneshot))} (h : WReach 1 k)
    {l1 l2 : List (Event T oneshot)} (e : k.sh.log = l1 ++ l2) :
    (count 1 l1 = 0 ∧ raised l1) ∨ (count 1 l1 = 1 ∧ ¬ raised l1) := by
  obtain ⟨ph, ⟨hA, _⟩, _⟩ := reach_inv (lawful 1 rfl rfl) h
  refine count_oneshot ?_ (fun v hv => no_add h v (by rw [e]; simp [hv]))
  intro m1 v m2 hm
  exact hA.hist m1 v (m2 ++ l2) (by rw [e, hm]; simp)

/-- C22. A wait on a oneshot event completes with true only if the event was raised before, and a
wait started after the event was raised does not suspend. -/
theorem C22_only_if_raised {k : Conf (mach (ds T oneshot))} (h : WReach 1 k) :
    Hist (fun before v =>
      (∀ i, v = .done i true → raised before) ∧ (∀ i, v = .ds (.enq i) → ¬ raised before) ∧
      (∀ i, v = .done i false → ∃ e p, Ev.begin i (some e) p ∈ before ∧ Ev.cancel e ∈ before))
      k.sh.log := by
  intro l1 v l2 e
  refine ⟨?_, ?_, ?_⟩
  · rintro i rfl
    obtain ⟨a, b, rfl, _, hz⟩ := C19_true_only_if_zero rfl rfl h l1 _ l2 e i rfl
    rcases hist_prefix h (l1 := a) (l2 := b ++ Ev.done i true :: l2) (by rw [e]; simp) with
      ⟨_, w, l, hm⟩ | h1
    · exact ⟨w, l, by simp [hm]⟩
    · omega
  · rintro i rfl hr
    have := (C19_zero_iff_wake rfl rfl h l1 _ l2 e).1 i rfl
    rcases hist_prefix h e with h1 | h1
    · omega
    · exact h1.2 hr
  · rintro i rfl
    exact C07_wait_group rfl rfl h l1 _ l2 e i rfl

/-- C22. When all calls have returned and the event was raised, every wait has completed. -/
theorem C22_raised_completes {k : Conf (mach (ds T oneshot))} (h : WReach 1 k) (hq : Quiescent k)
    (hr : raised k.sh.log) {i : OpId} {ct : Option EvId} {p : Unit}
    (hb : Ev.begin i ct p ∈ k.sh.log) : completions i k.sh.log = 1 := by
  refine C20_nobody_waits_at_zero rfl rfl h hq ?_ hb
  rcases hist_prefix h (l1 := k.sh.log) (l2 := []) (by simp) with h1 | h1
  · exact h1.1
  · exact absurd hr h1.2

/-! ## Concrete executions -/

/-- All functions, contracts kept. -/
abbrev full : Cfg := ⟨true, true, true⟩

abbrev M := mach (ds Nat full)

/-- A `wait_in_group` operation, a wait that is woken by it, a cancelled wait, reuse of the group,
a wait at zero. -/
def run1 : List (Lbl M) :=
  [.env (.call (.add 1 (some 5))), .run 0 true, .run 0 true,
   .env (.newOp 0 none ()), .run 1 true, .run 1 true, .run 1 true,
   .env (.newOp 1 (some 7) ()), .run 2 true, .run 2 true, .run 2 true, .run 2 true,
   .env (.cancel 7), .run 3 true, .run 3 true, .run 3 true, .run 3 true,
   .env (.call (.cdone 5 42)), .run 4 true, .run 4 true, .run 4 true, .run 4 true, .run 4 true,
   .run 4 true, .run 4 true,
   .env (.call (.add 1 none)), .run 5 true,
   .env (.call (.ld none)), .run 6 true, .run 6 true,
   .env (.newOp 2 none ()), .run 7 true, .run 7 true]

theorem run1_log : (M.after (RSt.init (init 0)) run1).sh.log =
    [.ds (.add 1 (some 5)), .ds (.cstart 5), .begin 0 none (), .ds (.enq 0),
     .begin 1 (some 7) (), .ds (.enq 1), .cancel 7, .ds (.unq 1), .done 1 false,
     .ds (.cdone 5 42), .ds (.zero (some 5) [0]), .done 0 true, .ds (.wdone 5 42),
     .ds (.add 1 none), .ds (.zero none []), .begin 2 none (), .ds (.skip 2), .done 2 true] := rfl

theorem run1_acts : (M.after (RSt.init (init 0)) run1).acts =
    [[], [], [], [], [], [], [], []] := rfl

example : ∃ k : Conf M, WReach 0 k ∧ Quiescent k ∧ count 0 k.sh.log = 0 ∧
    (.begin 0 none () : Event Nat full) ∈ k.sh.log ∧
    (.ds (.zero (some 5) [0]) : Event Nat full) ∈ k.sh.log ∧
    (.ds (.cstart 5) : Event Nat full) ∈ k.sh.log ∧
    (.begin 1 (some 7) () : Event Nat full) ∈ k.sh.log ∧ cancelled 7 k.sh.log = true := by
  refine ⟨M.after (RSt.init (init 0)) run1, Reach.after _ _ _, ?_, ?_, ?_, ?_, ?_, ?_, ?_⟩
  · intro a ha; rw [run1_acts] at ha; simpa using ha
  all_goals rw [run1_log]
  · rfl
  · simp
  · simp
  · simp
  · simp
  · rfl

example : ∃ k : Conf M, CoopReach (ds Nat full) (init 0) k ∧ completions 0 k.sh.log = 1 ∧
    Pending k.acts (.start 3) :=
  ⟨coopAfter (init 0) (run1 ++ [.env (.newOp 3 none ())]), coopAfter_reach _ _, rfl,
    [.start 3], List.mem_of_getElem? (i := 8) rfl, by simp⟩

/-- A wait, a raise, a late wait. -/
def run2 : List (Lbl (mach (ds Nat oneshot))) :=
  [.env (.newOp 0 none ()), .run 0 true, .run 0 true, .run 0 true,
   .env (.call (.ld none)), .run 1 true, .run 1 true, .run 1 true, .run 1 true, .run 1 true,
   .env (.newOp 1 none ()), .run 2 true, .run 2 true]

theorem run2_log : ((mach (ds Nat oneshot)).after (RSt.init (init 1)) run2).sh.log =
    [.begin 0 none (), .ds (.enq 0), .ds (.zero none [0]), .done 0 true, .begin 1 none (),
     .ds (.skip 1), .done 1 true] := rfl

theorem run2_acts : ((mach (ds Nat oneshot)).after (RSt.init (init 1)) run2).acts =
    [[], [], []] := rfl

example : ∃ k : Conf (mach (ds Nat oneshot)), WReach 1 k ∧ Quiescent k ∧ raised k.sh.log ∧
    (.begin 0 none () : Event Nat oneshot) ∈ k.sh.log := by
  refine ⟨(mach (ds Nat oneshot)).after (RSt.init (init 1)) run2, Reach.after _ _ _, ?_, ?_, ?_⟩
  · intro a ha; rw [run2_acts] at ha; simpa using ha
  all_goals rw [run2_log]
  · exact ⟨none, [0], by simp⟩
  · simp

/-- `oneshot_event` without a contract for `raise()`. -/
abbrev oneshotWild : Cfg := ⟨false, true, false⟩

/-- C22 is false: the second `raise()` is not a no-op, it fails an assertion (wait-group.hpp line
58; without assertions the count wraps around). -/
theorem C22_second_raise_false : ∃ k : Conf (mach (ds Nat oneshotWild)), WReach 1 k ∧
    k.bad = true ∧ k.sh.log = [.ds (.zero none [])] :=
  ⟨(mach (ds Nat oneshotWild)).after (RSt.init (init 1))
    [.env (.call (.ld none)), .run 0 true, .run 0 true, .env (.call (.ld none)), .run 1 true],
    Reach.after _ _ _, rfl, rfl⟩

/-- A group whose user calls `add()` at any time. -/
abbrev loose : Cfg := ⟨true, false, true⟩

/-- Two waits. `done()` reaches zero and resumes the first one; its continuation calls `add(1)` to
reuse the group; then the token of the second one is cancelled, and `try_cancel` erases it from a
queue in which it is not. -/
def reuse : List (Lbl (mach (ds Nat loose))) :=
  [.env (.newOp 0 none ()), .run 0 true, .run 0 true, .run 0 true,
   .env (.newOp 1 (some 7) ()), .run 1 true, .run 1 true, .run 1 true, .run 1 true,
   .env (.call (.ld none)), .run 2 true, .run 2 true, .run 2 true, .run 2 true, .run 2 true,
   .env (.call (.add 1 none)), .run 3 true,
   .env (.cancel 7), .run 4 true, .run 4 true]

/-- C21 is false: `add()` after zero while woken waits are being resumed leads to an erase of an
element that is not in the list. -/
theorem C21_reuse_false : ∃ k : Conf (mach (ds Nat loose)), WReach 1 k ∧ k.bad = true ∧
    k.sh.log = [.begin 0 none (), .ds (.enq 0), .begin 1 (some 7) (), .ds (.enq 1),
      .ds (.zero none [0, 1]), .done 0 true, .ds (.add 1 none), .cancel 7] :=
  ⟨(mach (ds Nat loose)).after (RSt.init (init 1)) reuse, Reach.after _ _ _, rfl, rfl⟩

/-! Applications of the theorems to `run1` and `run2`. -/

abbrev demo : Conf M := M.after (RSt.init (init 0)) run1
abbrev demo2 : Conf (mach (ds Nat oneshot)) := (mach (ds Nat oneshot)).after (RSt.init (init 1)) run2

theorem demo_reach : WReach 0 demo := Reach.after _ _ _
theorem demo_rest : Quiescent demo := by
  intro a ha; rw [show demo.acts = _ from run1_acts] at ha; simpa using ha
theorem demo2_reach : WReach 1 demo2 := Reach.after _ _ _
theorem demo2_rest : Quiescent demo2 := by
  intro a ha; rw [show demo2.acts = _ from run2_acts] at ha; simpa using ha

example : ZeroSince 0 0 (demo.sh.log.take 11) :=
  C19_true_only_if_zero rfl rfl demo_reach _ _ (demo.sh.log.drop 12) rfl 0 rfl
example : 0 < count 0 (demo.sh.log.take 5) :=
  (C19_zero_iff_wake rfl rfl demo_reach _ _ (demo.sh.log.drop 6) rfl).1 1 rfl
example : count 0 (demo.sh.log.take 10) = 1 :=
  (C19_zero_iff_wake rfl rfl demo_reach _ _ (demo.sh.log.drop 11) rfl).2.2.2 (some 5) [0] rfl
example : [0] = waiters (demo.sh.log.take 10) :=
  (C20_zero_wakes_all rfl rfl demo_reach).1 _ _ (demo.sh.log.drop 11) rfl (some 5) [0] rfl
example : completions 0 demo.sh.log = 1 :=
  ((C20_zero_wakes_all rfl rfl demo_reach).2 demo_rest (some 5) [0] 0
    (by rw [show demo.sh.log = _ from run1_log]; simp) (by simp)).2
example : completions 2 demo.sh.log = 1 :=
  C20_nobody_waits_at_zero rfl rfl demo_reach demo_rest rfl (ct := none) (p := ())
    (by rw [show demo.sh.log = _ from run1_log]; simp)
example : wsteps 5 demo.sh.log = [.add 1, .start, .done 42, .dec, .forward 42] := by rfl
example : wsteps 5 demo.sh.log <+: [.add 1, .start] ∨
    ∃ v, wsteps 5 demo.sh.log <+: [.add 1, .start, .done v, .dec, .forward v] := C23_brackets rfl rfl demo_reach 5
example : wsteps 5 demo.sh.log = [] ∨ wsteps 5 demo.sh.log = [.add 1, .start] ∨
    ∃ v, wsteps 5 demo.sh.log = [.add 1, .start, .done v, .dec, .forward v] := C23_at_rest rfl rfl demo_reach demo_rest 5
example : ∃ v, (.ds (.cdone 5 v) : Event Nat full) ∈ demo.sh.log.take 10 :=
  (C23_waiters_not_woken rfl rfl demo_reach).2 _ _ (demo.sh.log.drop 11) rfl (some 5) [0] rfl 5
    (by rw [show demo.sh.log = _ from run1_log]; simp)
example : demo.bad = false := (C04_wait_group rfl rfl demo_reach).1
example : (Instr.start (S := ds Nat full) 3).op ≠ some 0 :=
  C05_wait_group_partial rfl rfl (k := coopAfter (init 0) (run1 ++ [.env (.newOp 3 none ())])) (coopAfter_reach _ _) rfl
    ⟨[.start 3], List.mem_of_getElem? (i := 8) rfl, by simp⟩
example : completions 1 demo.sh.log = 1 :=
  C06_wait_group rfl rfl demo_reach demo_rest (e := 7) (p := ()) (by rw [show demo.sh.log = _ from run1_log]; simp) rfl
example : ∃ e p, Ev.begin 1 (some e) p ∈ demo.sh.log.take 8 ∧ Ev.cancel e ∈ demo.sh.log.take 8 :=
  C07_wait_group rfl rfl demo_reach _ _ (demo.sh.log.drop 9) rfl 1 rfl
example : (.done 0 true : Event Nat full) ∈ demo.sh.log :=
  (C21_reuse_partial rfl rfl demo_reach).2.2 demo_rest (some 5) [0] 0
    (by rw [show demo.sh.log = _ from run1_log]; simp) (by simp)
example : raised (demo2.sh.log.take 6) := (C22_only_if_raised demo2_reach _ _ [] rfl).1 1 rfl
example : ¬ raised (demo2.sh.log.take 1) := (C22_only_if_raised demo2_reach _ _ (demo2.sh.log.drop 2) rfl).2.1 0 rfl
example : completions 1 demo2.sh.log = 1 :=
  C22_raised_completes demo2_reach demo2_rest ⟨none, [0], by rw [show demo2.sh.log = _ from run2_log]; simp⟩
    (ct := none) (p := ()) (by rw [show demo2.sh.log = _ from run2_log]; simp)

end Verif.WaitGroup
