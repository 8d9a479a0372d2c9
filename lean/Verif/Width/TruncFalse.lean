import Verif.Width.Trunc

/-!
# What happens when a sequence number wraps around

Helper lemmas: `m` calls of `raise()`, and `m` phases of a barrier for one participant.
-/

namespace Verif.Width

open Resolver

theorem replicate_last {α : Type} (m : Nat) : List.replicate m ([] : List α) ++ [[]] = List.replicate (m + 1) [] := by
  rw [← List.replicate_succ']

/-- The history of `m` calls of `raise()`, one after the other. -/
def raises (m : Nat) : List (Recurring.Event Sequenced.prog) :=
  (List.replicate m [.ds (.act () true ()), .ds (.raise [])]).flatten

theorem raises_succ (m : Nat) : raises (m + 1) = raises m ++ [.ds (.act () true ()), .ds (.raise [])] := by
  simp only [raises, List.replicate_succ', List.flatten_append]; rfl

theorem seqOf_raises (m : Nat) (l : List (Recurring.Event Sequenced.prog)) : Sequenced.seqOf (raises m ++ l) = m + Sequenced.seqOf l := by
  induction m generalizing l with
  | zero => simp [raises]
  | succ m ih =>
    rw [raises_succ, List.append_assoc, ih]
    simp [Sequenced.seqOf]; omega

/-- The state after `m` calls of `raise()`. -/
def seqSt (M m : Nat) : RSt (Recurring.ds Sequenced.prog) :=
  { RSt.init (Recurring.init (X := Sequenced.prog) (m % M : Nat)) with log := raises m }

theorem many_raises (M m : Nat) :
    Reach (seqMach M) (RSt.init (Recurring.init (X := Sequenced.prog) (0 : Nat))) ⟨seqSt M m, List.replicate m [], false⟩ := by
  induction m with
  | zero =>
    have e : seqSt M 0 = RSt.init (Recurring.init (X := Sequenced.prog) (0 : Nat)) := by
      simp only [seqSt, raises, Nat.zero_mod]; rfl
    rw [e]; exact .init
  | succ m ih =>
    have h1 : (seqMach M).step ⟨seqSt M m, List.replicate m [], false⟩ (.env (.call (.act ()))) =
        some ⟨{ seqSt M m with d := { (seqSt M m).d with pendA := [()] } }, List.replicate m [] ++ [[.ds (.act ())]], false⟩ := rfl
    have h2 := (ih.step h1).step (l := .run m true)
      (c' := ⟨{ seqSt M m with d := { (seqSt M m).d with u := ((m + 1) % M : Nat), pendA := [], pendR := 1 },
                               log := raises m ++ [.ds (.act () true ())] }, List.replicate m [] ++ [[.ds .raise]], false⟩) (by
      simp [wrap, Mach.step, exec, Recurring.exec, seqSt, RSt.init, Recurring.init, follow])
    have h3 := h2.step (l := .run m true)
      (c' := ⟨seqSt M (m + 1), List.replicate m [] ++ [[]], false⟩) (by
      simp [wrap, Mach.step, exec, Recurring.exec, seqSt, RSt.init, Recurring.init, raises_succ])
    rw [replicate_last] at h3
    exact h3

/-- A wait for the number `M - 1` has been started when the number becomes zero: the assertion in the condition fails. -/
theorem seq_fault (M : Nat) (hM : 1 < M) : ∃ c : Conf (seqMach M),
    Reach (seqMach M) (RSt.init (Recurring.init (X := Sequenced.prog) (0 : Nat))) c ∧ c.bad = true ∧
    c.sh.log = raises (M - 1) ++ [.begin 0 none (M - 1), .ds (.act () true ())] := by
  obtain ⟨m, rfl⟩ : ∃ m, M = m + 1 := ⟨M - 1, by omega⟩
  have hm : m ≠ 0 := by omega
  have h0 := many_raises (m + 1) m
  generalize hs : seqSt (m + 1) m = s at h0
  have hu : s.d.u = (m : Nat) := by rw [← hs]; exact Nat.mod_eq_of_lt (Nat.lt_succ_self m)
  have hl : s.log = raises m := by rw [← hs]; rfl
  have hst : s.started 0 = false := by rw [← hs]; rfl
  have hn : s.d.st 0 = .none := by rw [← hs]; rfl
  have h1 := h0.step (l := (.env (.newOp 0 none m) : Lbl (seqMach (m + 1))))
    (c' := ⟨{ s with d := { s.d with key := upd s.d.key 0 (some m) }, ct := upd s.ct 0 none, started := upd s.started 0 true,
                     log := raises m ++ [.begin 0 none m] }, List.replicate m [] ++ [[.start 0]], false⟩) (by
    simp [Mach.step, env, hst, hu, hl])
  have h2 := h1.step (l := (.env (.call (.act ())) : Lbl (seqMach (m + 1))))
    (c' := ⟨{ s with d := { s.d with key := upd s.d.key 0 (some m), pendA := () :: s.d.pendA }, ct := upd s.ct 0 none,
                     started := upd s.started 0 true, log := raises m ++ [.begin 0 none m] },
      List.replicate m [] ++ [[.start 0], [.ds (.act ())]], false⟩) (by
    simp [Mach.step, env, Recurring.call])
  have h3 := h2.step (l := .run (m + 1) true)
    (c' := ⟨{ s with d := { s.d with u := (0 : Nat), key := upd s.d.key 0 (some m), pendR := s.d.pendR + 1 }, ct := upd s.ct 0 none,
                     started := upd s.started 0 true, log := raises m ++ [.begin 0 none m] ++ [.ds (.act () true ())] },
      List.replicate m [] ++ [[.start 0], [.ds .raise]], false⟩) (by
    simp [wrap, Mach.step, exec, Recurring.exec, hu, follow, List.set_append_right])
  have h4 := h3.step (l := .run m true)
    (c' := ⟨{ s with d := { s.d with u := (0 : Nat), key := upd s.d.key 0 (some m), pendR := s.d.pendR + 1 }, ct := upd s.ct 0 none,
                     started := upd s.started 0 true, log := raises m ++ [.begin 0 none m] ++ [.ds (.act () true ())] },
      List.replicate m [] ++ [[.start 0], [.ds .raise]], true⟩) (by
    simp [Mach.step, exec, Recurring.start, hn, hm])
  exact ⟨_, h4, rfl, by simp⟩

/-- After `M` calls of `raise()`, a wait for the number zero suspends. -/
theorem seq_missed (M : Nat) : ∃ c : Conf (seqMach M),
    Reach (seqMach M) (RSt.init (Recurring.init (X := Sequenced.prog) (0 : Nat))) c ∧ Quiescent c ∧
    c.sh.log = raises M ++ [.begin 0 none 0, .ds (.enq 0 false)] := by
  have h0 := many_raises M M
  generalize hs : seqSt M M = s at h0
  have hu : s.d.u = (0 : Nat) := by rw [← hs]; exact Nat.mod_self M
  have hl : s.log = raises M := by rw [← hs]; rfl
  have hst : s.started 0 = false := by rw [← hs]; rfl
  have hb : s.bits 0 = {} := by rw [← hs]; rfl
  have hn : s.d.st 0 = .none := by rw [← hs]; rfl
  have hr : s.d.pendR = 0 := by rw [← hs]; rfl
  have h1 := h0.step (l := (.env (.newOp 0 none 0) : Lbl (seqMach M)))
    (c' := ⟨{ s with d := { s.d with key := upd s.d.key 0 (some (0 : Nat)) }, ct := upd s.ct 0 none, started := upd s.started 0 true,
                     log := raises M ++ [.begin 0 none 0] }, List.replicate M [] ++ [[.start 0]], false⟩) (by
    simp [Mach.step, env, hst, hl])
  have h2 := h1.step (l := .run M true)
    (c' := ⟨{ s with d := { s.d with key := upd s.d.key 0 (some (0 : Nat)), u := (0 : Nat), st := upd s.d.st 0 .submitted,
                                     queue := s.d.queue ++ [0] }, ct := upd s.ct 0 none, started := upd s.started 0 true,
                     log := raises M ++ [.begin 0 none 0] ++ [.ds (.enq 0 false)] }, List.replicate M [] ++ [[.listen 0]], false⟩) (by
    simp [wrap, Mach.step, exec, Recurring.start, hn, hu, hr])
  have h3 := h2.step (l := .run M true)
    (c' := ⟨{ s with d := { s.d with key := upd s.d.key 0 (some (0 : Nat)), u := (0 : Nat), st := upd s.d.st 0 .submitted,
                                     queue := s.d.queue ++ [0] }, ct := upd s.ct 0 none, started := upd s.started 0 true,
                     evt := upd s.evt 0 none,
                     log := raises M ++ [.begin 0 none 0] ++ [.ds (.enq 0 false)] },
      List.replicate M [] ++ [[.transition 0 { listen := true, canc := true }]], false⟩) (by
    simp [wrap, Mach.step, exec])
  have h4 := h3.step (l := .run M true)
    (c' := ⟨{ s with d := { s.d with key := upd s.d.key 0 (some (0 : Nat)), u := (0 : Nat), st := upd s.d.st 0 .submitted,
                                     queue := s.d.queue ++ [0] }, ct := upd s.ct 0 none, started := upd s.started 0 true,
                     evt := upd s.evt 0 none, bits := upd s.bits 0 { listen := true, canc := true },
                     log := raises M ++ [.begin 0 none 0] ++ [.ds (.enq 0 false)] }, List.replicate M [] ++ [[]], false⟩) (by
    simp [wrap, Mach.step, exec, hb, Bits.meets, Bits.or])
  refine ⟨_, h4, ?_, by simp⟩
  intro a ha
  rw [replicate_last] at ha
  exact (List.mem_replicate.1 ha).2

/-- The history of `m` phases of a barrier for one participant. -/
def arrivals (M : Nat) : Nat → List (Recurring.Event Barrier.prog)
  | 0 => []
  | m + 1 => arrivals M m ++ [.ds (.act (.arrive 1) true (m % M)), .ds (.raise [])]

theorem phases_arrivals (M m : Nat) (l : List (Recurring.Event Barrier.prog)) :
    Barrier.phases (arrivals M m ++ l) = l.foldl Barrier.phaseStep m := by
  induction m generalizing l with
  | zero => rfl
  | succ m ih => rw [arrivals, List.append_assoc, ih]; rfl

/-- The state after `m` phases. -/
def barSt (M m : Nat) : RSt (Recurring.ds Barrier.prog) :=
  { RSt.init (Recurring.init (X := Barrier.prog) ⟨m % M, 0, 1⟩) with log := arrivals M m }

theorem many_phases (M m : Nat) :
    Reach (barMach M) (RSt.init (Recurring.init (X := Barrier.prog) (Barrier.start 1))) ⟨barSt M m, List.replicate m [], false⟩ := by
  induction m with
  | zero =>
    have e : barSt M 0 = RSt.init (Recurring.init (X := Barrier.prog) (Barrier.start 1)) := by
      simp only [barSt, arrivals, Nat.zero_mod]; rfl
    rw [e]; exact .init
  | succ m ih =>
    have h1 : (barMach M).step ⟨barSt M m, List.replicate m [], false⟩ (.env (.call (.act (.arrive 1)))) =
        some ⟨{ barSt M m with d := { (barSt M m).d with pendA := [.arrive 1] } },
          List.replicate m [] ++ [[.ds (.act (.arrive 1))]], false⟩ := rfl
    have h2 := (ih.step h1).step (l := .run m true)
      (c' := ⟨{ barSt M m with d := { (barSt M m).d with u := (⟨(m + 1) % M, 0, 1⟩ : Barrier.S), pendA := [], pendR := 1 },
                               log := arrivals M m ++ [.ds (.act (.arrive 1) true (m % M))] },
        List.replicate m [] ++ [[.ds .raise]], false⟩) (by
      simp [wrap, Mach.step, exec, Recurring.exec, barSt, RSt.init, Recurring.init, follow, Barrier.doArrive, Barrier.Call.n, Barrier.Call.delta])
    have h3 := h2.step (l := .run m true)
      (c' := ⟨barSt M (m + 1), List.replicate m [] ++ [[]], false⟩) (by
      simp [wrap, Mach.step, exec, Recurring.exec, barSt, RSt.init, Recurring.init, arrivals])
    rw [replicate_last] at h3
    exact h3

/-- After `M` phases, a wait with the token of the first phase suspends. -/
theorem bar_stays (M : Nat) : ∃ c : Conf (barMach M),
    Reach (barMach M) (RSt.init (Recurring.init (X := Barrier.prog) (Barrier.start 1))) c ∧ Quiescent c ∧
    c.sh.log = arrivals M M ++ [.begin 0 none 0, .ds (.enq 0 false)] := by
  have h0 := many_phases M M
  generalize hs : barSt M M = s at h0
  have hu : s.d.u = ⟨0, 0, 1⟩ := by rw [← hs]; simp [barSt, RSt.init, Recurring.init]
  have hl : s.log = arrivals M M := by rw [← hs]; rfl
  have hst : s.started 0 = false := by rw [← hs]; rfl
  have hb : s.bits 0 = {} := by rw [← hs]; rfl
  have hn : s.d.st 0 = .none := by rw [← hs]; rfl
  have hr : s.d.pendR = 0 := by rw [← hs]; rfl
  have h1 := h0.step (l := (.env (.newOp 0 none 0) : Lbl (barMach M)))
    (c' := ⟨{ s with d := { s.d with key := upd s.d.key 0 (some (0 : Nat)) }, ct := upd s.ct 0 none, started := upd s.started 0 true,
                     log := arrivals M M ++ [.begin 0 none 0] }, List.replicate M [] ++ [[.start 0]], false⟩) (by
    simp [Mach.step, env, hst, hl])
  have h2 := h1.step (l := .run M true)
    (c' := ⟨{ s with d := { s.d with key := upd s.d.key 0 (some (0 : Nat)), u := (⟨0, 0, 1⟩ : Barrier.S), st := upd s.d.st 0 .submitted,
                                     queue := s.d.queue ++ [0] }, ct := upd s.ct 0 none, started := upd s.started 0 true,
                     log := arrivals M M ++ [.begin 0 none 0] ++ [.ds (.enq 0 false)] }, List.replicate M [] ++ [[.listen 0]], false⟩) (by
    simp [wrap, Mach.step, exec, Recurring.start, hn, hu, hr])
  have h3 := h2.step (l := .run M true)
    (c' := ⟨{ s with d := { s.d with key := upd s.d.key 0 (some (0 : Nat)), u := (⟨0, 0, 1⟩ : Barrier.S), st := upd s.d.st 0 .submitted,
                                     queue := s.d.queue ++ [0] }, ct := upd s.ct 0 none, started := upd s.started 0 true,
                     evt := upd s.evt 0 none,
                     log := arrivals M M ++ [.begin 0 none 0] ++ [.ds (.enq 0 false)] },
      List.replicate M [] ++ [[.transition 0 { listen := true, canc := true }]], false⟩) (by
    simp [wrap, Mach.step, exec])
  have h4 := h3.step (l := .run M true)
    (c' := ⟨{ s with d := { s.d with key := upd s.d.key 0 (some (0 : Nat)), u := (⟨0, 0, 1⟩ : Barrier.S), st := upd s.d.st 0 .submitted,
                                     queue := s.d.queue ++ [0] }, ct := upd s.ct 0 none, started := upd s.started 0 true,
                     evt := upd s.evt 0 none, bits := upd s.bits 0 { listen := true, canc := true },
                     log := arrivals M M ++ [.begin 0 none 0] ++ [.ds (.enq 0 false)] }, List.replicate M [] ++ [[]], false⟩) (by
    simp [wrap, Mach.step, exec, hb, Bits.meets, Bits.or])
  refine ⟨_, h4, ?_, by simp⟩
  intro a ha
  rw [replicate_last] at ha
  exact (List.mem_replicate.1 ha).2

/-- `add(1)` to a group with count `M - 1`: the counter is zero, and a wait completes right away. -/
theorem wg_early (M : Nat) (hM : 1 < M) : ∃ c : Conf (wgMach Nat WaitGroup.full M),
    Reach (wgMach Nat WaitGroup.full M) (RSt.init (WaitGroup.init (M - 1))) c ∧
    c.sh.log = [.ds (.add 1 none), .begin 0 none (), .ds (.skip 0), .done 0 true] := by
  let s : RSt (WaitGroup.ds Nat WaitGroup.full) := RSt.init (WaitGroup.init (M - 1))
  have h0 : Reach (wgMach Nat WaitGroup.full M) s ⟨s, [], false⟩ := .init
  have h1 := h0.step (l := (.env (.call (.add 1 none)) : Lbl (wgMach Nat WaitGroup.full M)))
    (c' := (⟨{ s with d := { s.d with pendA := 1 } }, [[.ds (.add 1 none)]], false⟩ : Conf (wgMach Nat WaitGroup.full M))) (by
    have : 0 < M - 1 := by omega
    simp [s, Mach.step, env, WaitGroup.call, WaitGroup.okAdd, WaitGroup.init, RSt.init, this])
  have h2 := h1.step (l := .run 0 true)
    (c' := (⟨{ s with d := { s.d with ctr := 0 }, log := ([.ds (.add 1 none)] : List (WaitGroup.Event Nat WaitGroup.full)) }, [[]], false⟩ : Conf (wgMach Nat WaitGroup.full M))) (by
    have : M - 1 + 1 = M := by omega
    simp [s, wrap, Mach.step, exec, WaitGroup.exec, WaitGroup.init, RSt.init, this])
  have h3 := h2.step (l := (.env (.newOp 0 none ()) : Lbl (wgMach Nat WaitGroup.full M)))
    (c' := (⟨{ s with d := { s.d with ctr := 0 }, ct := upd s.ct 0 none, started := upd s.started 0 true,
                      log := ([.ds (.add 1 none), .begin 0 none ()] : List (WaitGroup.Event Nat WaitGroup.full)) }, [[], [.start 0]], false⟩ : Conf (wgMach Nat WaitGroup.full M))) (by
    simp [s, Mach.step, env, WaitGroup.init, RSt.init])
  have h4 := h3.step (l := .run 1 true)
    (c' := (⟨{ s with d := { s.d with ctr := 0 }, ct := upd s.ct 0 none, started := upd s.started 0 true,
                      log := ([.ds (.add 1 none), .begin 0 none (), .ds (.skip 0)] : List (WaitGroup.Event Nat WaitGroup.full)) }, [[], [.setFast 0 true]], false⟩ : Conf (wgMach Nat WaitGroup.full M))) (by
    simp [s, wrap, Mach.step, exec, WaitGroup.start, WaitGroup.init, RSt.init])
  have h5 := h4.step (l := .run 1 true)
    (c' := (⟨{ s with d := { s.d with ctr := 0 }, ct := upd s.ct 0 none, started := upd s.started 0 true,
                      log := ([.ds (.add 1 none), .begin 0 none (), .ds (.skip 0), .done 0 true] : List (WaitGroup.Event Nat WaitGroup.full)) }, [[], []], false⟩ : Conf (wgMach Nat WaitGroup.full M))) (by
    simp [s, wrap, Mach.step, exec, WaitGroup.init, RSt.init])
  exact ⟨_, h5, rfl⟩

/-! The same for the statements of the properties, still for every `M`. -/

theorem wg_false (M : Nat) (hM : 1 < M) : ∃ k : Conf (wgMach Nat WaitGroup.full M),
    Reach (wgMach Nat WaitGroup.full M) (RSt.init (WaitGroup.init (M - 1))) k ∧
    (.done 0 true : WaitGroup.Event Nat WaitGroup.full) ∈ k.sh.log ∧
    ∀ l, l <+: k.sh.log → 0 < WaitGroup.count (M - 1) l := by
  obtain ⟨k, hk, hl⟩ := wg_early M hM
  refine ⟨k, hk, by rw [hl]; simp, ?_⟩
  intro l ⟨t, ht⟩
  have key : ∀ l : List (WaitGroup.Event Nat WaitGroup.full), (∀ v ∈ l, v = .ds (.add 1 none) ∨ v = .begin 0 none () ∨ v = .ds (.skip 0) ∨
      v = .done 0 true) → ∀ m, m ≤ l.foldl WaitGroup.countStep m := by
    intro l
    induction l with
    | nil => intro _ m; exact Nat.le_refl m
    | cons v l ih =>
      intro hv m
      refine Nat.le_trans ?_ (ih (fun w hw => hv w (List.mem_cons_of_mem _ hw)) _)
      rcases hv v List.mem_cons_self with rfl | rfl | rfl | rfl <;> simp [WaitGroup.countStep]
  have : M - 1 ≤ WaitGroup.count (M - 1) l := by
    refine key l ?_ _
    intro v hv
    have : v ∈ k.sh.log := by rw [← ht]; exact List.mem_append_left _ hv
    rw [hl] at this
    simpa using this
  omega

theorem seq_assert_false (M : Nat) (hM : 1 < M) : ∃ c : Conf (seqMach M),
    Reach (seqMach M) (RSt.init (Recurring.init (X := Sequenced.prog) (0 : Nat))) c ∧ c.bad = true ∧
    Sequenced.seqOf c.sh.log = M ∧ (.begin 0 none (M - 1 : Nat) : Recurring.Event Sequenced.prog) ∈ c.sh.log := by
  obtain ⟨c, hc, hb, hl⟩ := seq_fault M hM
  refine ⟨c, hc, hb, ?_, by rw [hl]; simp⟩
  rw [hl, seqOf_raises]
  simp [Sequenced.seqOf]; omega

theorem not_done_raises (m : Nat) (r : Recurring.Res) : (.done 0 r : Recurring.Event Sequenced.prog) ∉ raises m := by
  induction m with
  | zero => simp [raises]
  | succ m ih => rw [raises_succ]; simp [ih]

theorem seq_missed_false (M : Nat) : ∃ c : Conf (seqMach M),
    Reach (seqMach M) (RSt.init (Recurring.init (X := Sequenced.prog) (0 : Nat))) c ∧ Quiescent c ∧ Sequenced.seqOf c.sh.log = M ∧
    (.begin 0 none (0 : Nat) : Recurring.Event Sequenced.prog) ∈ c.sh.log ∧ (.ds (.enq 0 false) : Recurring.Event Sequenced.prog) ∈ c.sh.log ∧
    ∀ r, (.done 0 r : Recurring.Event Sequenced.prog) ∉ c.sh.log := by
  obtain ⟨c, hc, hq, hl⟩ := seq_missed M
  refine ⟨c, hc, hq, ?_, by rw [hl]; simp, by rw [hl]; simp, ?_⟩
  · rw [hl, seqOf_raises]; simp [Sequenced.seqOf]
  · intro r hr
    rw [hl] at hr
    simp [not_done_raises] at hr

theorem not_done_arrivals (M m : Nat) (r : Recurring.Res) : (.done 0 r : Recurring.Event Barrier.prog) ∉ arrivals M m := by
  induction m with
  | zero => simp [arrivals]
  | succ m ih => simp [arrivals, ih]

theorem bar_false (M : Nat) : ∃ c : Conf (barMach M),
    Reach (barMach M) (RSt.init (Recurring.init (X := Barrier.prog) (Barrier.start 1))) c ∧ Quiescent c ∧ Barrier.phases c.sh.log = M ∧
    (.begin 0 none (0 : Nat) : Recurring.Event Barrier.prog) ∈ c.sh.log ∧ (.ds (.enq 0 false) : Recurring.Event Barrier.prog) ∈ c.sh.log ∧
    ∀ r, (.done 0 r : Recurring.Event Barrier.prog) ∉ c.sh.log := by
  obtain ⟨c, hc, hq, hl⟩ := bar_stays M
  refine ⟨c, hc, hq, ?_, by rw [hl]; simp, by rw [hl]; simp, ?_⟩
  · rw [hl, phases_arrivals]; rfl
  · intro r hr
    rw [hl] at hr
    simp [not_done_arrivals] at hr

end Verif.Width
