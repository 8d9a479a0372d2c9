import Verif.Barrier.Model

/-!
# Properties of `barrier`
-/

namespace Verif.Barrier

open Resolver Recurring

/-! ## Auxiliary facts -/

theorem cond_true {s : S} {p : Nat} (h : prog.cond s p = some true) : p = s.seq := by
  simp at h; omega

theorem cond_false {s : S} {p : Nat} (h : prog.cond s p = some false) : p < s.seq := by
  simp at h; omega

theorem act_cases {s s' : S} {n delta : Int} {f : Bool} {r : Nat}
    (h : doArrive s n delta = some (s', f, r)) :
    0 ≤ s.expected + delta ∧ r = s.seq ∧ s'.expected = s.expected + delta ∧
    ((f = true ∧ s.counter + n = s.expected + delta ∧ s'.seq = s.seq + 1 ∧ s'.counter = 0) ∨
     (f = false ∧ s.counter + n < s.expected + delta ∧ s'.seq = s.seq ∧
       s'.counter = s.counter + n)) := by
  simp only [doArrive] at h
  split at h
  · simp at h
  · split at h
    · simp at h; obtain ⟨rfl, rfl, rfl⟩ := h
      exact ⟨by omega, rfl, rfl, .inl ⟨rfl, by omega, rfl, rfl⟩⟩
    · split at h
      · simp at h; obtain ⟨rfl, rfl, rfl⟩ := h
        exact ⟨by omega, rfl, rfl, .inr ⟨rfl, by omega, rfl, rfl⟩⟩
      · simp at h

theorem sum_perm {l l' : List Int} (h : l.Perm l') : l.sum = l'.sum := by
  induction h with
  | nil => rfl
  | cons x _ ih => simp [ih]
  | swap x y l => simp; omega
  | trans _ _ h1 h2 => exact h1.trans h2

theorem use_nonneg (a : Call) : 0 ≤ a.use ∧ 0 ≤ a.n ∧ a.use = a.n - a.delta := by
  cases a <;> simp [Call.use, Call.n, Call.delta]

theorem uses_nonneg (l : List Call) : 0 ≤ (l.map Call.use).sum := by
  induction l with
  | nil => simp
  | cons a l ih => have := use_nonneg a; simp; omega

def progOk (e : Nat) : UserOk prog (start e) where
  Inv s l := 0 ≤ s.counter ∧ (l.map Call.use).sum ≤ s.expected - s.counter
  init := by simp [start]
  perm := by
    intro u l l' h hp
    rw [← sum_perm (hp.map Call.use)]; exact h
  call := by
    intro u l a h hok
    simp at hok
    simp only [List.map_cons, List.sum_cons]
    exact ⟨h.1, by omega⟩
  act := by
    intro u l a h
    have h1 := use_nonneg a
    have h2 := uses_nonneg l
    simp only [List.map_cons, List.sum_cons] at h
    have h3 : 0 ≤ u.expected + a.delta := by omega
    by_cases heq : u.counter + a.n = u.expected + a.delta
    · refine ⟨⟨u.seq + 1, 0, u.expected + a.delta⟩, true, u.seq, ?_, ?_, ?_⟩
      · simp [doArrive, heq]; omega
      · simp
      · show _ ≤ u.expected + a.delta - 0; omega
    · have hlt : u.counter + a.n < u.expected + a.delta := by omega
      refine ⟨⟨u.seq, u.counter + a.n, u.expected + a.delta⟩, false, u.seq, ?_, ?_, ?_⟩
      · simp [doArrive, heq, hlt]; omega
      · show 0 ≤ u.counter + a.n; omega
      · show _ ≤ u.expected + a.delta - (u.counter + a.n); omega
  admit := by intro u p h; simp at h; simp [h]
  stable := by
    intro u a u' f r p h hs
    obtain ⟨_, _, _, h | h⟩ := act_cases h <;> simp at hs ⊢ <;> omega

theorem flushing : Flushing prog := by
  refine ⟨rfl, ?_, ?_⟩
  · intro u a u' f r p h hc
    have := cond_false hc
    obtain ⟨_, _, _, h | h⟩ := act_cases h <;> simp <;> omega
  · intro u a u' r p h hc
    have := cond_true hc
    obtain ⟨_, _, _, h | h⟩ := act_cases h
    · simp; omega
    · simp at h

theorem disciplined : Disciplined prog := by
  intro u a u' r p h hc
  have := cond_true hc
  obtain ⟨_, _, _, h | h⟩ := act_cases h
  · simp at h
  · simp; omega

/-- Reachable configurations of a barrier for `e` participants. -/
abbrev BReach (e : Nat) (c : Conf (mach (ds prog))) : Prop := RReach (X := prog) (start e) c

/-- The state of the barrier is determined by the history. -/
theorem state_eq (e : Nat) {log : List (Event prog)} (h : Hist (hist (X := prog) (start e)) log) :
    (uOf (X := prog) (start e) log).seq = phases log ∧
    (uOf (X := prog) (start e) log).counter = arrived log ∧
    (uOf (X := prog) (start e) log).expected = expect e log := by
  induction log using List.reverseRecOn with
  | nil => simp [uOf, phases, arrived, expect, start]
  | append_singleton l v ih =>
    rw [Hist.snoc] at h
    obtain ⟨h, hv⟩ := h
    obtain ⟨h1, h2, h3⟩ := ih h
    rw [uOf_append]
    simp only [phases, arrived, expect, List.foldl_append, List.foldl_cons, List.foldl_nil]
    rw [show l.foldl phaseStep 0 = phases l from rfl, show l.foldl arrivedStep 0 = arrived l from rfl,
      show l.foldl expectStep (e : Int) = expect e l from rfl, ← h1, ← h2, ← h3]
    cases v with
    | ds x =>
      cases x with
      | act a f r =>
        obtain ⟨u', hu⟩ := hv
        have hu' : doArrive (uOf (X := prog) (start e) l) a.n a.delta = some (u', f, r) := hu
        simp only [uStep, hu']
        obtain ⟨_, _, h5, ⟨rfl, h⟩ | ⟨rfl, h⟩⟩ := act_cases hu'
        · exact ⟨h.2.1, h.2.2, h5⟩
        · exact ⟨h.2.1, h.2.2, h5⟩
      | _ => exact ⟨rfl, rfl, rfl⟩
    | _ => exact ⟨rfl, rfl, rfl⟩

theorem hist_prefix {e : Nat} {c : Conf (mach (ds prog))} (h : BReach e c)
    {l1 l2 : List (Event prog)} (hl : c.sh.log = l1 ++ l2) : Hist (hist (X := prog) (start e)) l1 := by
  obtain ⟨ph, hI, _⟩ := reach_inv (lawful (progOk e)) h
  intro m1 v m2 hm
  exact hI.hist m1 v (m2 ++ l2) (by rw [hl, hm]; simp)

/-! ## Properties -/

/-- C30. An arrival returns the number of phases completed before it, and it completes a phase
exactly if the arrivals of the phase, including itself, are as many as expected. Before that they
are fewer, and the expected number is never negative. -/
theorem C30_accounting {e : Nat} {c : Conf (mach (ds prog))} (h : BReach e c) :
    Hist (fun before v => ∀ a f r, v = .ds (.act a f r) →
      r = phases before ∧
      (f = true ↔ arrived before + a.n = expect e before + a.delta) ∧
      arrived before + a.n ≤ expect e before + a.delta ∧
      0 ≤ expect e before + a.delta) c.sh.log := by
  rintro l1 v l2 hl a f r rfl
  obtain ⟨h1, h2, h3⟩ := state_eq e (hist_prefix h hl)
  obtain ⟨ph, hI, _⟩ := reach_inv (lawful (progOk e)) h
  have hv : hist (X := prog) (start e) l1 (.ds (.act a f r)) := hI.hist l1 _ l2 hl
  obtain ⟨u', hu⟩ := hv
  have hu' : doArrive (uOf (X := prog) (start e) l1) a.n a.delta = some (u', f, r) := hu
  obtain ⟨h4, h5, h6, h7⟩ := act_cases hu'
  rw [← h1, ← h2, ← h3]
  refine ⟨h5, ?_, ?_, h4⟩
  · rcases h7 with ⟨rfl, h⟩ | ⟨rfl, h⟩ <;> simp <;> omega
  · omega

/-- C29. Once all calls have returned, a wait with a token of a completed phase has completed. -/
theorem C29_nobody_stays_behind {e : Nat} {c : Conf (mach (ds prog))} (h : BReach e c)
    (hq : Quiescent c) {i : OpId} {ct : Option EvId} {p : Nat}
    (hb : Ev.begin i ct p ∈ c.sh.log) (hp : p < phases c.sh.log) : completions i c.sh.log = 1 := by
  rcases C26_no_missed_wakeup (progOk e) disciplined h hq hb with h1 | h1
  · exact h1
  · have := cond_true h1
    rw [(state_eq e (hist_prefix h (l2 := []) (by simp))).1] at this
    omega

/-- C28, partial. A wait completes only after the phase of its token is complete, provided that it
did not suspend while another thread was inside an arrival, between the update and the wakeup (and
was not cancelled). Missing: such waits, see `C28_nobody_early_false`. -/
theorem C28_nobody_early_partial {e : Nat} {c : Conf (mach (ds prog))} (h : BReach e c) {i : OpId}
    (hn : (.ds (.enq i true) : Event prog) ∉ c.sh.log) {ct : Option EvId} {p : Nat}
    (hb : Ev.begin i ct p ∈ c.sh.log) :
    Hist (fun before v => ∀ r, v = .done i r → r ≠ .cancelled → p < phases before) c.sh.log := by
  rintro l1 v l2 hl r rfl hr
  have h0 := (state_eq e (hist_prefix h hl)).1
  obtain ⟨ph, hI, _⟩ := reach_inv (lawful (progOk e)) h
  have := cond_false (cond_false_of_done flushing hI hl hr hb hn)
  rwa [h0] at this

/-! ## Concrete executions -/

abbrev M := mach (ds prog)

/-- Two participants: the first arrives and waits, the second arrives; then one of them drops. -/
def run1 : List (Lbl M) :=
  [.env (.call (.act (.arrive 1))), .run 0 true,
   .env (.newOp 0 none 0), .run 1 true, .run 1 true, .run 1 true,
   .env (.call (.act (.arrive 1))), .run 2 true, .run 2 true, .run 2 true, .run 2 true, .run 2 true,
   .env (.call (.act (.drop 1))), .run 3 true,
   .env (.call (.act (.arrive 1))), .run 4 true, .run 4 true]

theorem run1_log : (M.after (RSt.init (init (X := prog) (start 2))) run1).sh.log =
    [.ds (.act (.arrive 1) false 0), .begin 0 none 0, .ds (.enq 0 false),
     .ds (.act (.arrive 1) true 0), .ds (.raise [0]), .done 0 .awaited,
     .ds (.act (.drop 1) false 1), .ds (.act (.arrive 1) true 1), .ds (.raise [])] := rfl

theorem run1_acts : (M.after (RSt.init (init (X := prog) (start 2))) run1).acts =
    [[], [], [], [], []] := rfl

example : ∃ c : Conf M, BReach 2 c ∧ Quiescent c ∧ (.begin 0 none 0 : Event prog) ∈ c.sh.log ∧
    0 < phases c.sh.log ∧ (.ds (.enq 0 true) : Event prog) ∉ c.sh.log ∧
    (.done 0 .awaited : Event prog) ∈ c.sh.log ∧ phases c.sh.log = 2 := by
  refine ⟨M.after (RSt.init (init (X := prog) (start 2))) run1, Reach.after _ _ _,
    ?_, ?_, ?_, ?_, ?_, ?_⟩
  · intro a ha; rw [run1_acts] at ha; simpa using ha
  all_goals rw [run1_log]
  · simp
  · decide
  · simp
  · simp
  · rfl

/-- Two participants. A arrives. B completes phase 0 but is delayed before the wakeup. A passes
phase 0, arrives in phase 1 and waits. Now the delayed wakeup of B lets A pass phase 1, although B
has not arrived. -/
def race : List (Lbl M) :=
  [.env (.call (.act (.arrive 1))), .run 0 true,
   .env (.call (.act (.arrive 1))), .run 1 true,
   .env (.newOp 0 none 0), .run 2 true, .run 2 true,
   .env (.call (.act (.arrive 1))), .run 3 true,
   .env (.newOp 1 none 1), .run 4 true, .run 4 true, .run 4 true,
   .run 1 true, .run 1 true, .run 1 true, .run 1 true]

theorem race_log : (M.after (RSt.init (init (X := prog) (start 2))) race).sh.log =
    [.ds (.act (.arrive 1) false 0), .ds (.act (.arrive 1) true 0), .begin 0 none 0, .ds (.skip 0),
     .done 0 .conditionFailed, .ds (.act (.arrive 1) false 1), .begin 1 none 1,
     .ds (.enq 1 true), .ds (.raise [1]), .done 1 .awaited] := rfl

/-- C28 is false: a wait completes with a token of a phase that is not complete. -/
theorem C28_nobody_early_false : ∃ c : Conf M, BReach 2 c ∧ ∃ before i ct p,
    c.sh.log = before ++ [.done i .awaited] ∧ Ev.begin i ct p ∈ before ∧ phases before = p ∧
    arrived before < expect 2 before := by
  refine ⟨M.after (RSt.init (init (X := prog) (start 2))) race, Reach.after _ _ _,
    [.ds (.act (.arrive 1) false 0), .ds (.act (.arrive 1) true 0), .begin 0 none 0, .ds (.skip 0),
     .done 0 .conditionFailed, .ds (.act (.arrive 1) false 1), .begin 1 none 1,
     .ds (.enq 1 true), .ds (.raise [1])], 1, none, 1, race_log, ?_, rfl, by decide⟩
  simp

/-! Applications of the theorems to `run1`. -/

abbrev demo : Conf M := M.after (RSt.init (init (X := prog) (start 2))) run1

theorem demo_reach : BReach 2 demo := Reach.after _ _ _
theorem demo_log : demo.sh.log =
    [.ds (.act (.arrive 1) false 0), .begin 0 none 0, .ds (.enq 0 false),
     .ds (.act (.arrive 1) true 0), .ds (.raise [0]), .done 0 .awaited,
     .ds (.act (.drop 1) false 1), .ds (.act (.arrive 1) true 1), .ds (.raise [])] := run1_log
theorem demo_rest : Quiescent demo := by
  intro a ha; rw [show demo.acts = _ from run1_acts] at ha; simpa using ha

/-- The arrival in phase 1, after one participant has dropped out. -/
example : 1 = phases (demo.sh.log.take 7) ∧
    (true = true ↔ arrived (demo.sh.log.take 7) + 1 = expect 2 (demo.sh.log.take 7) + 0) :=
  have h := C30_accounting demo_reach _ _ (demo.sh.log.drop 8) rfl (.arrive 1) true 1 rfl
  ⟨h.1, h.2.1⟩
example : completions 0 demo.sh.log = 1 :=
  C29_nobody_stays_behind demo_reach demo_rest (ct := none) (p := 0) (by rw [demo_log]; simp) (by rw [demo_log]; decide)
example : 0 < phases (demo.sh.log.take 5) :=
  C28_nobody_early_partial demo_reach (i := 0) (ct := none) (p := 0) (by rw [demo_log]; simp) (by rw [demo_log]; simp)
    _ _ (demo.sh.log.drop 6) rfl .awaited rfl (by simp)

end Verif.Barrier
