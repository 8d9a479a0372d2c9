import Verif.Sequenced.Model

/-!
# Properties of `sequenced_event`

A wait that completes after a history `before` returns `seqOf before`.
-/

namespace Verif.Sequenced

open Resolver Recurring

theorem uOf_eq (log : List (Event prog)) : uOf (X := prog) 0 log = seqOf log := by
  induction log using List.reverseRecOn with
  | nil => rfl
  | append_singleton l v ih =>
    rw [uOf_append, ih]
    simp only [seqOf, List.countP_append]
    cases v with
    | ds x => cases x <;> simp [uStep]
    | _ => simp [uStep]

theorem cond_true {s p : Nat} (h : prog.cond s p = some true) : p = s := by
  simp at h; omega

theorem cond_false {s p : Nat} (h : prog.cond s p = some false) : p < s := by
  simp at h; omega

def progOk : UserOk prog (0 : Nat) where
  Inv _ _ := True
  init := trivial
  perm := by intros; trivial
  call := by intros; trivial
  act := by intro u l a _; exact ⟨u + 1, true, (), rfl, trivial⟩
  admit := by intro u p h; simp at h; simp [h]
  stable := by
    intro u a u' f r p h hs
    simp at h; obtain ⟨rfl, _⟩ := h
    simp at hs ⊢; omega

theorem flushing : Flushing prog := by
  refine ⟨rfl, ?_, ?_⟩
  · intro u a u' f r p h hc
    simp at h; obtain ⟨rfl, _⟩ := h
    simp at hc ⊢; omega
  · intro u a u' r p h hc
    simp at h; subst h
    simp at hc ⊢; omega

theorem disciplined : Disciplined prog := by
  intro u a u' r p h hc; simp at h

/-- Reachable configurations of a `sequenced_event`. -/
abbrev SReach (c : Conf (mach (ds prog))) : Prop := RReach (X := prog) (0 : Nat) c

/-- C27. A wait suspends only if its argument is the current sequence number; with an outdated
argument it completes right away. -/
theorem C27_outdated_completes {c : Conf (mach (ds prog))} (h : SReach c) :
    Hist (fun before v => ∀ i b, v = .ds (.enq i b) → ∀ ct p, Ev.begin i ct p ∈ c.sh.log →
      p = seqOf before) c.sh.log := by
  rintro l1 v l2 e i b rfl ct p hb
  obtain ⟨ct', p', hb', hc⟩ := (C26_condition_checked progOk h l1 _ l2 e).1 i b rfl
  obtain ⟨ph, hI, _⟩ := reach_inv (lawful progOk) h
  have h1 := hI.key _ _ _ hb
  have h2 := hI.key i ct' p' (by rw [e]; simp [hb'])
  rw [h1] at h2
  simp only [Option.some.injEq] at h2
  subst h2
  rw [uOf_eq] at hc
  exact cond_true hc

/-- C27. Once all calls have returned, a wait has completed if the sequence number is larger than
its argument: no raise is missed. -/
theorem C27_no_missed_raise {c : Conf (mach (ds prog))} (h : SReach c) (hq : Quiescent c)
    {i : OpId} {ct : Option EvId} {p : Nat} (hb : Ev.begin i ct p ∈ c.sh.log)
    (hp : p < seqOf c.sh.log) : completions i c.sh.log = 1 := by
  rcases C26_no_missed_wakeup progOk disciplined h hq hb with h1 | h1
  · exact h1
  · rw [uOf_eq] at h1
    have := cond_true h1
    omega

/-- C27. The argument of a wait is never larger than what it returns. -/
theorem C27_result_not_smaller {c : Conf (mach (ds prog))} (h : SReach c) :
    Hist (fun before v => ∀ i r, v = .done i r → ∀ ct p, Ev.begin i ct p ∈ before →
      p ≤ seqOf before) c.sh.log := by
  rintro l1 v l2 e i r rfl ct p hb
  obtain ⟨m1, m2, rfl⟩ := List.append_of_mem hb
  have hle : ∀ a b : List (Event prog), seqOf a ≤ seqOf (a ++ b) := by
    intro a b; simp [seqOf]
  have : p ≤ seqOf m1 := by
    have := begin_admitted progOk h m1 _ (m2 ++ Ev.done i r :: l2) (by rw [e]; simp) i ct p rfl
    rw [uOf_eq] at this
    simpa using this
  calc p ≤ seqOf m1 := this
    _ ≤ _ := hle _ _

/-- C27, partial. An uncancelled wait returns a number strictly greater than its argument, provided
that it did not suspend while another thread was inside `raise()`, between the increment and the
wakeup. Missing: such waits, see `C27_strictly_greater_false`. -/
theorem C27_strictly_greater_partial {c : Conf (mach (ds prog))} (h : SReach c) {i : OpId}
    (hn : (.ds (.enq i true) : Event prog) ∉ c.sh.log) {ct : Option EvId} {p : Nat}
    (hb : Ev.begin i ct p ∈ c.sh.log) :
    Hist (fun before v => ∀ r, v = .done i r → r ≠ .cancelled → p < seqOf before) c.sh.log := by
  rintro l1 v l2 e r rfl hr
  obtain ⟨ph, hI, _⟩ := reach_inv (lawful progOk) h
  have := cond_false_of_done flushing hI e hr hb hn
  rw [uOf_eq] at this
  exact cond_false this

/-! ## Concrete executions -/

abbrev M := mach (ds prog)

/-- A raise, a wait with the old number, a wait with the current number, a raise. -/
def run1 : List (Lbl M) :=
  [.env (.call (.act ())), .run 0 true, .run 0 true,
   .env (.newOp 0 none 0), .run 1 true, .run 1 true,
   .env (.newOp 1 none 1), .run 2 true, .run 2 true, .run 2 true,
   .env (.call (.act ())), .run 3 true, .run 3 true, .run 3 true, .run 3 true, .run 3 true]

theorem run1_log : (M.after (RSt.init (init (X := prog) (0 : Nat))) run1).sh.log =
    [.ds (.act () true ()), .ds (.raise []), .begin 0 none 0, .ds (.skip 0),
     .done 0 .conditionFailed, .begin 1 none 1, .ds (.enq 1 false), .ds (.act () true ()),
     .ds (.raise [1]), .done 1 .awaited] := rfl

theorem run1_acts : (M.after (RSt.init (init (X := prog) (0 : Nat))) run1).acts =
    [[], [], [], []] := rfl

example : ∃ c : Conf M, SReach c ∧ Quiescent c ∧ (.begin 1 none 1 : Event prog) ∈ c.sh.log ∧
    1 < seqOf c.sh.log ∧ (.ds (.enq 1 true) : Event prog) ∉ c.sh.log ∧
    (.done 1 .awaited : Event prog) ∈ c.sh.log := by
  refine ⟨M.after (RSt.init (init (X := prog) (0 : Nat))) run1, Reach.after _ _ _, ?_, ?_, ?_, ?_, ?_⟩
  · intro a ha; rw [run1_acts] at ha; simpa using ha
  all_goals rw [run1_log]
  · simp
  · decide
  · simp
  · simp

/-- Thread A increments in `raise()`, thread B waits with the new number, then thread A wakes it. -/
def race : List (Lbl M) :=
  [.env (.call (.act ())), .run 0 true,
   .env (.newOp 0 none 1), .run 1 true, .run 1 true, .run 1 true,
   .run 0 true, .run 0 true, .run 0 true, .run 0 true]

theorem race_log : (M.after (RSt.init (init (X := prog) (0 : Nat))) race).sh.log =
    [.ds (.act () true ()), .begin 0 none 1, .ds (.enq 0 true), .ds (.raise [0]),
     .done 0 .awaited] := rfl

/-- C27 is false: a wait for something newer than 1 returns 1. -/
theorem C27_strictly_greater_false : ∃ c : Conf M, SReach c ∧ ∃ before i ct p,
    c.sh.log = before ++ [.done i .awaited] ∧ Ev.begin i ct p ∈ before ∧ seqOf before = p := by
  refine ⟨M.after (RSt.init (init (X := prog) (0 : Nat))) race, Reach.after _ _ _,
    [.ds (.act () true ()), .begin 0 none 1, .ds (.enq 0 true), .ds (.raise [0])], 0, none, 1,
    race_log, ?_, rfl⟩
  simp

/-! Applications of the theorems to `run1`. -/

abbrev demo : Conf M := M.after (RSt.init (init (X := prog) (0 : Nat))) run1

theorem demo_reach : SReach demo := Reach.after _ _ _
theorem demo_log : demo.sh.log =
    [.ds (.act () true ()), .ds (.raise []), .begin 0 none 0, .ds (.skip 0),
     .done 0 .conditionFailed, .begin 1 none 1, .ds (.enq 1 false), .ds (.act () true ()),
     .ds (.raise [1]), .done 1 .awaited] := run1_log
theorem demo_rest : Quiescent demo := by
  intro a ha; rw [show demo.acts = _ from run1_acts] at ha; simpa using ha

example : 1 = seqOf (demo.sh.log.take 6) :=
  C27_outdated_completes demo_reach _ _ (demo.sh.log.drop 7) rfl 1 false rfl none 1 (by rw [demo_log]; simp)
example : completions 1 demo.sh.log = 1 :=
  C27_no_missed_raise demo_reach demo_rest (ct := none) (p := 1) (by rw [demo_log]; simp) (by rw [demo_log]; decide)
example : 1 ≤ seqOf (demo.sh.log.take 9) :=
  C27_result_not_smaller demo_reach (demo.sh.log.take 9) (.done 1 .awaited) [] rfl 1 .awaited rfl none 1
    (by rw [demo_log]; simp)
example : 1 < seqOf (demo.sh.log.take 9) :=
  C27_strictly_greater_partial demo_reach (i := 1) (ct := none) (by rw [demo_log]; simp) (by rw [demo_log]; simp)
    (demo.sh.log.take 9) (.done 1 .awaited) [] rfl .awaited rfl (by simp)

end Verif.Sequenced
