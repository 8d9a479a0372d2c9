import Verif.Hb.Recurring
import Verif.Barrier.Props

/-!
# Happens-before for `barrier`

Accesses of barrier.hpp: `do_arrive` is a critical section of `mutex_` (lines 35-51) that reads and writes `seq_` with
`relaxed` (lines 38, 46). The condition of `async_wait` reads `seq_` with `relaxed` and without `mutex_` (line 27).
-/

namespace Verif.Barrier

open Resolver Recurring

/-- Locations of `barrier`. -/
inductive At where
  | mutex
  | seq
deriving DecidableEq

/-- Memory accesses of `barrier`. The store of line 46 is left out where it does not happen. -/
abbrev W : UOrds prog where
  A := At
  dec := inferInstance
  cond _ _ := [.load .rlx .seq]
  act s a := [.lock .mutex, .load .rlx .seq] ++
    (if s.counter + a.n = s.expected + a.delta then [.store .rlx .seq] else []) ++ [.unlock .mutex]
  res _ := []

/-- Arrivals are critical sections of `mutex_`. -/
theorem sync : Sync (Recurring.ords W) (fun v => ∃ a f r, v = .act a f r)
    (fun v => ∃ a f r, v = .ds (.act a f r)) .mutex where
  srcStart h hv hS := by
    obtain ⟨a, f, r, rfl⟩ := hS
    rcases start_cases h with ⟨rfl, b, rfl, _⟩ | ⟨rfl, rfl⟩ <;> simp at hv
  srcCancel h hv hS := by
    obtain ⟨a, f, r, rfl⟩ := hS
    rcases tryCancel_cases h with ⟨rfl, rfl⟩ | ⟨rfl, rfl⟩ <;> simp at hv
  srcExec h hv hS := by
    obtain ⟨a, f, r, rfl⟩ := hS
    rcases exec_cases h with ⟨rfl, rfl, _⟩ | ⟨a, f, r, rfl, rfl, _⟩ <;> simp at hv
    exact ⟨.unlock .mutex, by simp, rfl⟩
  tgtStart h hv hS := by
    obtain ⟨a, f, r, hS⟩ := hS
    simp at hS; subst hS
    rcases start_cases h with ⟨rfl, b, rfl, _⟩ | ⟨rfl, rfl⟩ <;> simp at hv
  tgtCancel h hv hS := by
    obtain ⟨a, f, r, hS⟩ := hS
    simp at hS; subst hS
    rcases tryCancel_cases h with ⟨rfl, rfl⟩ | ⟨rfl, rfl⟩ <;> simp at hv
  tgtExec h hv hS := by
    obtain ⟨a, f, r, hS⟩ := hS
    simp at hS; subst hS
    rcases exec_cases h with ⟨rfl, rfl, _⟩ | ⟨a, f, r, rfl, rfl, _⟩ <;> simp at hv
    exact ⟨.lock .mutex, by simp, rfl⟩
  tgtDone _ _ _ h := by obtain ⟨_, _, _, h⟩ := h; simp at h
  other v h := by obtain ⟨_, _, _, rfl⟩ := h; exact .inl ⟨_, rfl⟩
  noStart d i b a h := by
    simp only at h
    split at h
    · rw [List.mem_singleton.1 h]; rfl
    · simp at h
  noCancel _ _ _ h := by simp at h
  noExec d x b a h := by
    cases x with
    | raise => simp at h
    | act y =>
      simp only [List.mem_append] at h
      rcases h with (h | h) | h
      · simp at h; rcases h with rfl | rfl <;> rfl
      · split at h <;> simp at h
        subst h; rfl
      · simp at h; subst h; rfl
  noVal d i a h := by simp at h

variable {e : Nat} {entry : RSt (ds prog) → Resolver.Act (ds prog) → Nat → Bool} {c : Conf (mach (ds prog))}
  {m : Mem (Loc (Recurring.ords W).A)}

/-- C58. Arrivals at the barrier are totally ordered by happens-before. -/
theorem C58_arrivals_ordered (h : HReach (ann (Recurring.ords W) entry) (RSt.init (init (X := prog) (start e))) c m)
    {a b : Nat} {v w : Call} {f g : Bool} {r q : Nat} (ha : c.sh.log[a]? = some (.ds (.act v f r)))
    (hb : c.sh.log[b]? = some (.ds (.act w g q))) (hab : a < b) : m.hb a b :=
  sync.ordered h ha ⟨_, _, _, rfl⟩ hb ⟨_, _, _, rfl⟩ hab

theorem mem_waiters {log : List (Event prog)} {i : OpId} (h : i ∈ waiters log) :
    ∃ b, (.ds (.enq i b) : Event prog) ∈ log := by
  induction log using List.reverseRecOn with
  | nil => simp [waiters] at h
  | append_singleton l v ih =>
    simp only [waiters, List.foldl_append, List.foldl_cons, List.foldl_nil] at h
    have key : i ∈ waiters l ∨ ∃ b, v = .ds (.enq i b) := by
      revert h
      cases v with
      | ds x =>
        cases x with
        | enq j b =>
          intro h
          rcases List.mem_append.1 h with h | h
          · exact .inl h
          · simp at h; subst h; exact .inr ⟨b, rfl⟩
        | unq j => exact fun h => .inl (List.mem_of_mem_erase h)
        | raise l => intro h; simp [waitStep] at h
        | _ => exact fun h => .inl h
      | _ => exact fun h => .inl h
    rcases key with h | ⟨b, rfl⟩
    · obtain ⟨b, hb⟩ := ih h
      exact ⟨b, by simp [hb]⟩
    · exact ⟨b, by simp⟩

theorem phases_mono (l l' : List (Event prog)) : phases l ≤ phases (l ++ l') := by
  induction l' using List.reverseRecOn with
  | nil => simp
  | append_singleton l' v ih =>
    rw [← List.append_assoc]
    simp only [phases, List.foldl_append, List.foldl_cons, List.foldl_nil] at ih ⊢
    refine Nat.le_trans ih ?_
    unfold phaseStep
    split <;> omega

theorem phases_take (l : List (Event prog)) {a b : Nat} (h : a ≤ b) : phases (l.take a) ≤ phases (l.take b) := by
  have : l.take a = (l.take b).take a := by rw [List.take_take, Nat.min_eq_left h]
  rw [this]
  conv => rhs; rw [← List.take_append_drop a (l.take b)]
  exact phases_mono _ _

theorem phases_act {l : List (Event prog)} {z : Nat} {w : Call} {r : Nat} (h : l[z]? = some (.ds (.act w true r))) :
    phases (l.take (z + 1)) = phases (l.take z) + 1 := by
  rw [List.take_add_one, h]
  simp [phases, phaseStep]

/-- C58, partial. Every arrival of the phase of its token and of earlier phases (the arrivals that return at most the
token `p` of the wait) happens before the completion of a wait that suspended, unless it suspended while another thread
was inside of an arrival, between the update and the wakeup. Missing: waits that suspended at such a moment (they do not
even wait for the arrivals, see `C28_nobody_early_false`), and waits that find the phase complete when they start: see
`C58_arrivals_before_wait_false`. -/
theorem C58_arrivals_before_wait_partial
    (h : HReach (ann (Recurring.ords W) entry) (RSt.init (init (X := prog) (start e))) c m) {n : Nat} {i : OpId}
    (hn : c.sh.log[n]? = some (.done i .awaited)) {ct : Option EvId} {p : Nat} (hp : Ev.begin i ct p ∈ c.sh.log)
    (hq : (.ds (.enq i true) : Event prog) ∉ c.sh.log) {a : Nat} {w : Call} {f : Bool} {r : Nat}
    (ha : c.sh.log[a]? = some (.ds (.act w f r))) (hr : r ≤ p) : m.hb a n := by
  have hR : BReach e c := h.reach
  obtain ⟨ph, hI, _⟩ := reach_inv (lawful (progOk e)) h.reach
  obtain ⟨b, l, hb, hi, h1⟩ := C56_raise_before_wait (progOk e) h hn
  obtain ⟨z, w', r', hz, h2, h3, h4⟩ := C56_action_before_raise (progOk e) rfl h hb
  have hw := (hI.hist _ _ _ (split_at hb)).1
  rw [hw] at hi
  obtain ⟨g, hg⟩ := mem_waiters hi
  obtain ⟨q, hqb, hg⟩ := pos_of_take hg
  cases g with
  | true => exact absurd (List.mem_of_getElem? hg) hq
  | false =>
    have hqz : q < z := by
      apply Classical.byContradiction
      intro hn
      by_cases hzq : z = q
      · subst hzq; rw [h2] at hg; simp at hg
      · exact h4 q i (by omega) hqb hg
    obtain ⟨ct', p', h5, h6⟩ := hI.hist _ _ _ (split_at hg)
    have hpp : p' = p := by
      have h7 := hI.key i ct' p' (List.mem_of_mem_take h5)
      rw [hI.key i ct p hp] at h7
      simpa using h7.symm
    rw [hpp] at h6
    have h8 := cond_true h6
    rw [(state_eq e (hist_prefix hR (split_at hg))).1] at h8
    have h9 : p < phases (c.sh.log.take (z + 1)) := by
      rw [phases_act h2, h8]
      have := phases_take c.sh.log (Nat.le_of_lt hqz)
      omega
    have h10 := (C30_accounting hR _ _ _ (split_at ha) w f r rfl).1
    have haz : a ≤ z := by
      apply Classical.byContradiction
      intro hn
      have := phases_take c.sh.log (a := z + 1) (b := a) (by omega)
      omega
    have hzn := h.hb_trans (grows _ _ entry) h3 h1
    by_cases haz' : a = z
    · subst haz'; exact hzn
    · exact h.hb_trans (grows _ _ entry) (C58_arrivals_ordered h ha h2 (by omega)) hzn

/-- C58. Creating and starting a wait happens before its completion. -/
theorem C58_created_before_completion
    (h : HReach (ann (Recurring.ords W) entry) (RSt.init (init (X := prog) (start e))) c m) {a n : Nat} {i : OpId}
    {ct : Option EvId} {p : Nat} {x : Res} (ha : c.sh.log[a]? = some (.begin i ct p))
    (hn : c.sh.log[n]? = some (.done i x)) (han : a < n) : m.hb a n :=
  C56_created_before_completion (progOk e) h ha hn han

/-! ## Examples -/

/-- Two participants: the first arrives and waits, the second arrives. -/
def hdemo : Conf (mach (ds prog)) × Mem (Loc (Recurring.ords W).A) :=
  (ann (Recurring.ords W) (fun _ _ _ => false)).go (RSt.init (init (X := prog) (start 2))) run1

example : hdemo.1.sh.log[0]? = some (.ds (.act (.arrive 1) false 0)) := rfl
example : hdemo.1.sh.log[3]? = some (.ds (.act (.arrive 1) true 0)) := rfl
example : hdemo.1.sh.log[5]? = some (.done 0 .awaited) := rfl
example : hdemo.1.sh.log[1]? = some (.begin 0 none 0) := rfl
example : hdemo.2.hb 0 5 ∧ hdemo.2.hb 3 5 ∧ hdemo.2.hb 1 5 ∧ hdemo.2.hb 0 3 := by decide
theorem hdemo_noEnq : (.ds (.enq 0 true) : Event prog) ∉ hdemo.1.sh.log := by
  rw [show hdemo.1.sh.log = _ from run1_log]; simp

/-- Two participants. A arrives. B completes phase 0 but is delayed before the wakeup. A waits and passes, knowing of
its own arrival. -/
def late : Conf (mach (ds prog)) × Mem (Loc (Recurring.ords W).A) :=
  (ann (Recurring.ords W) (fun _ a n => match a with
    | .newOp _ _ _ => decide (n = 0)
    | _ => false)).go (RSt.init (init (X := prog) (start 2)))
    [.env (.call (.act (.arrive 1))), .run 0 true,
     .env (.call (.act (.arrive 1))), .run 1 true,
     .env (.newOp 0 none 0), .run 2 true, .run 2 true]

/-- C58 is false: an arrival of the phase of the token does not happen before the completion of the wait. The wait reads
the new value of `seq_` with `relaxed` before the last participant has called `raise()`. -/
theorem C58_arrivals_before_wait_false : ∃ (entry : _) (c : Conf M) (m : Mem (Loc (Recurring.ords W).A)),
    HReach (ann (Recurring.ords W) entry) (RSt.init (init (X := prog) (start 2))) c m ∧ ∃ n a i ct p w f r x,
      c.sh.log[n]? = some (.done i x) ∧ x ≠ .cancelled ∧ Ev.begin i ct p ∈ c.sh.log ∧
      c.sh.log[a]? = some (.ds (.act w f r)) ∧ r ≤ p ∧ a < n ∧ ¬ m.hb a n := by
  refine ⟨_, late.1, late.2, HReach.go _ _ _, 4, 1, 0, none, 0, .arrive 1, true, 0, .conditionFailed, rfl, by simp, ?_,
    rfl, Nat.le_refl 0, by omega, by decide⟩
  exact List.mem_of_getElem? (i := 2) rfl

example : hdemo.2.hb 0 5 :=
  C58_arrivals_before_wait_partial (HReach.go _ _ _) (n := 5) (i := 0) (ct := none) (p := 0) rfl
    (List.mem_of_getElem? (i := 1) rfl) hdemo_noEnq (a := 0) (w := .arrive 1)
    (f := false) (r := 0) rfl (by omega)
example : hdemo.2.hb 0 3 :=
  C58_arrivals_ordered (HReach.go _ _ _) (a := 0) (b := 3) (v := .arrive 1) (w := .arrive 1) rfl rfl (by omega)
example : hdemo.2.hb 1 5 :=
  C58_created_before_completion (HReach.go _ _ _) (a := 1) (n := 5) (i := 0) rfl rfl (by omega)

end Verif.Barrier
