import Verif.WakeOrder.Proof
import Verif.Recurring.Proof
import Verif.WaitGroup.Proof
import Verif.Promise.Proof
import Verif.PostAck.Proof
import Verif.Queue.Proof

/-!
# The structures whose waiting operations form a line
-/

namespace Verif

open Resolver

theorem Resolver.ops_inl {I : Type} (l : List OpId) : ops (l.map (.inl : OpId → OpId ⊕ I)) = l := by
  induction l with
  | nil => rfl
  | cons i l ih => simp [ops, ih]

theorem Resolver.ops_append {I : Type} (a b : List (OpId ⊕ I)) : ops (a ++ b) = ops a ++ ops b := by
  induction a with
  | nil => rfl
  | cons y a ih => cases y <;> simp [ops, ih]

namespace Recurring

variable {X : User} {u0 : X.U}

/-- `recurring_event`: `queue_`. -/
def line (O : UserOk X u0) : Line (lawful O) where
  q d := d.queue
  mem h := h.mem
  nodup h := h.nodup
  admit := by
    intro d i p d' h
    simp only at h
    split at h
    · simp at h; subst h; rfl
    · simp at h
  start := by
    intro d i b d' r es h
    simp only [start] at h
    repeat' split at h
    all_goals simp at h
    all_goals obtain ⟨rfl, rfl, _⟩ := h; rfl
  tryCancel := by
    intro d ph log pi i d' r es _ h
    simp only [tryCancel] at h
    repeat' split at h
    all_goals simp at h
    all_goals obtain ⟨rfl, _⟩ := h
    · exact .inl rfl
    · exact .inr rfl
  fin _ _ := rfl
  call := by
    intro d x d' h
    cases x <;> simp only [call] at h <;> split at h <;> simp at h <;> subst h <;> rfl
  exec := by
    intro d x b d' ps es h
    cases x <;> simp only [exec] at h
    · split at h
      · simp at h
      · simp at h; obtain ⟨rfl, rfl, _⟩ := h; split <;> simp [ops]
    · split at h
      · simp at h; obtain ⟨rfl, rfl, _⟩ := h; simp [ops_inl]
      · simp at h

theorem line_whole (O : UserOk X u0) : (line O).Whole := by
  intro d x b d' ps es h
  cases x <;> simp only [exec] at h
  · split at h
    · simp at h
    · simp at h; obtain ⟨rfl, rfl, _⟩ := h; left; split <;> simp [ops]
  · split at h
    · simp at h; obtain ⟨rfl, rfl, _⟩ := h; exact .inr rfl
    · simp at h

end Recurring

namespace WaitGroup

variable {T : Type} {c : Cfg}

theorem ops_decide {v : Nat} {w : Option (Nat × T)} {l : List (OpId ⊕ I T)} (h : decide_ v w = some l) :
    ops l = [] := by
  simp only [decide_] at h
  repeat' split at h
  all_goals simp at h
  all_goals subst h; rfl

/-- `wait_group` and `oneshot_event`: `queue_`. -/
def line (n : Nat) (h1 : c.safeAdd = true) (h2 : c.safeDone = true) : Line (lawful (T := T) n h1 h2) where
  q d := d.queue
  mem h := h.1.mem
  nodup h := h.1.nodup
  admit := by intro d i p d' h; simp at h; subst h; rfl
  start := by
    intro d i b d' r es h
    simp only [start] at h
    split at h <;> simp at h <;> obtain ⟨rfl, rfl, _⟩ := h <;> rfl
  tryCancel := by
    intro d ph log pi i d' r es _ h
    simp only [tryCancel] at h
    repeat' split at h
    all_goals simp at h
    all_goals obtain ⟨rfl, _⟩ := h
    · exact .inl rfl
    · exact .inr rfl
  fin _ _ := rfl
  call := by
    intro d x d' h
    cases x with
    | add n w =>
      cases w <;> simp only [call] at h
      · split at h <;> simp at h <;> subst h <;> rfl
      · split at h
        · split at h <;> simp at h <;> subst h <;> rfl
        · simp at h
    | ld w =>
      cases w <;> simp only [call] at h
      · split at h <;> simp at h <;> subst h <;> rfl
      · simp at h
    | cdone j v =>
      simp only [call] at h
      split at h
      · split at h <;> simp at h <;> subst h <;> rfl
      · simp at h
    | _ => simp [call] at h
  exec := by
    intro d x b d' ps es h
    cases x with
    | add n w => cases w <;> simp [exec] at h <;> obtain ⟨rfl, rfl, _⟩ := h <;> rfl
    | ld w =>
      simp only [exec, Option.map_eq_some_iff] at h
      obtain ⟨l, h, e⟩ := h
      simp at e; obtain ⟨rfl, rfl, _⟩ := e
      rw [ops_decide h]; rfl
    | cas v w =>
      simp only [exec] at h
      split at h
      · simp at h; obtain ⟨rfl, rfl, _⟩ := h; rw [ops_cont]; rfl
      · simp only [Option.map_eq_some_iff] at h
        obtain ⟨l, h, e⟩ := h
        simp at e; obtain ⟨rfl, rfl, _⟩ := e
        rw [ops_decide h]; rfl
    | lock w =>
      simp only [exec] at h
      repeat' split at h
      all_goals simp at h
      all_goals obtain ⟨rfl, rfl, _⟩ := h
      · rw [ops_cont]; rfl
      · simp [ops_append, ops_inl, ops_cont]
    | _ => simp [exec] at h; obtain ⟨rfl, rfl, _⟩ := h; rfl

theorem line_whole (n : Nat) (h1 : c.safeAdd = true) (h2 : c.safeDone = true) :
    (line (T := T) n h1 h2).Whole := by
  intro d x b d' ps es h
  cases x with
  | add n w => cases w <;> simp [exec] at h <;> obtain ⟨rfl, rfl, _⟩ := h <;> exact .inl rfl
  | ld w =>
    simp only [exec, Option.map_eq_some_iff] at h
    obtain ⟨l, h, e⟩ := h
    simp at e; obtain ⟨rfl, rfl, _⟩ := e
    exact .inl (ops_decide h)
  | cas v w =>
    simp only [exec] at h
    split at h
    · simp at h; obtain ⟨rfl, rfl, _⟩ := h; exact .inl (ops_cont w)
    · simp only [Option.map_eq_some_iff] at h
      obtain ⟨l, h, e⟩ := h
      simp at e; obtain ⟨rfl, rfl, _⟩ := e
      exact .inl (ops_decide h)
  | lock w =>
    simp only [exec] at h
    repeat' split at h
    all_goals simp at h
    all_goals obtain ⟨rfl, rfl, _⟩ := h
    · exact .inl (ops_cont w)
    · exact .inr rfl
  | _ => simp [exec] at h; obtain ⟨rfl, rfl, _⟩ := h; exact .inl rfl

end WaitGroup

namespace Promise

variable {T : Type}

/-- `promise`: `queue_`, as long as there is no value. -/
def line (T : Type) : Line (lawful T) where
  q d := if d.value.isNone then d.queue else []
  mem := by
    intro d ph log pi h i
    rw [h.mem i]
    cases d.value <;> simp
  nodup := by
    intro d ph log pi h
    split
    · exact h.nodup
    · simp
  admit := by intro d i p d' h; simp at h; subst h; rfl
  start := by
    intro d i b d' r es h
    simp only [start] at h
    split at h <;> simp at h <;> obtain ⟨rfl, rfl, _⟩ := h <;> simp_all
  tryCancel := by
    intro d ph log pi i d' r es _ h
    simp only [tryCancel] at h
    repeat' split at h
    all_goals simp at h
    all_goals obtain ⟨rfl, _⟩ := h
    · left; simp_all
    · exact .inr rfl
  fin _ _ := rfl
  call := by
    intro d x d' h
    cases x <;> simp only [call] at h
    · split at h <;> simp at h <;> subst h <;> rfl
    · simp at h
  exec := by
    intro d x b d' ps es h
    cases x <;> simp only [exec] at h
    · split at h
      · simp at h
      · simp at h; obtain ⟨rfl, rfl, _⟩ := h; simp_all [ops, ops_inl]
    · repeat' split at h
      all_goals simp at h
      obtain ⟨rfl, rfl, _⟩ := h; simp_all [ops]

theorem line_whole (T : Type) : (line T).Whole := by
  intro d x b d' ps es h
  cases x <;> simp only [exec] at h
  · split at h
    · simp at h
    · simp at h; obtain ⟨rfl, rfl, _⟩ := h; right; simp [line]
  · repeat' split at h
    all_goals simp at h
    obtain ⟨rfl, rfl, _⟩ := h; exact .inl rfl

end Promise

namespace PostAck

variable {T : Type}

theorem take_polls {d d' : D} {n : Nat} {l : List OpId} (h : take d n l = some d') : d'.polls = d.polls := by
  induction l generalizing d with
  | nil => simp [take] at h; subst h; rfl
  | cons i l ih =>
    simp only [take] at h
    split at h
    · simp at h
    · rw [ih h]

theorem release_polls {d d' : D} {a : Agent} {r : Nat} {ps : List (OpId ⊕ I T)} {es : List (E T)}
    (h : release d a r = some (d', ps, es)) : d'.polls = d.polls ∧ ops ps = [] := by
  simp only [release] at h
  repeat' split at h
  all_goals simp at h
  all_goals obtain ⟨rfl, rfl, _⟩ := h; exact ⟨rfl, rfl⟩

theorem exec_polls {d d' : D} {x : I T} {ps : List (OpId ⊕ I T)} {es : List (E T)}
    (h : exec d x = some (d', ps, es)) :
    (ops ps = [] ∧ d'.polls = d.polls) ∨ (ops ps = d.polls ∧ d'.polls = []) := by
  cases x with
  | post x =>
    simp only [exec] at h
    split at h
    · split at h
      · simp at h; obtain ⟨rfl, rfl, _⟩ := h; exact .inl ⟨rfl, rfl⟩
      · simp at h
    · split at h
      · rename_i ht
        simp at h; obtain ⟨rfl, rfl, _⟩ := h
        exact .inr ⟨ops_inl _, take_polls ht⟩
      · simp at h
  | detach a =>
    simp only [exec] at h
    split at h
    · simp at h
    · split at h
      · split at h
        · rename_i hr
          simp at h; obtain ⟨rfl, rfl, _⟩ := h
          obtain ⟨h1, h2⟩ := release_polls hr
          exact .inl ⟨h2, h1⟩
        · simp at h
      · simp at h; obtain ⟨rfl, rfl, _⟩ := h; exact .inl ⟨rfl, rfl⟩
  | det a r =>
    simp only [exec] at h
    split at h
    · simp at h; obtain ⟨rfl, rfl, _⟩ := h; exact .inl ⟨rfl, rfl⟩
    · obtain ⟨h1, h2⟩ := release_polls h
      exact .inl ⟨h2, h1⟩
  | ack a n =>
    simp only [exec] at h
    split at h
    · simp at h
    · simp at h; obtain ⟨rfl, rfl, _⟩ := h
      left; refine ⟨?_, rfl⟩
      split <;> rfl
  | _ =>
    simp only [exec] at h
    try split at h
    all_goals simp at h
    all_goals try (obtain ⟨rfl, rfl, _⟩ := h; exact .inl ⟨rfl, rfl⟩)

/-- `post_ack_mechanism`: `poll_queue_`. -/
def line (T : Type) : Line (lawful T) where
  q d := d.polls
  mem h i := (h.A.mem i).symm
  nodup h := h.A.pollsN
  admit := by
    intro d i p d' h
    simp only [admit] at h
    split at h
    · simp at h; subst h; rfl
    · simp at h
  start := by
    intro d i b d' r es h
    simp only [start] at h
    repeat' split at h
    all_goals simp at h
    all_goals obtain ⟨rfl, rfl, _⟩ := h; rfl
  tryCancel := by
    intro d ph log pi i d' r es _ h
    simp only [tryCancel] at h
    repeat' split at h
    all_goals simp at h
    all_goals obtain ⟨rfl, _⟩ := h
    · exact .inr rfl
    · exact .inl rfl
  fin d i := by simp only [fin]; split <;> rfl
  call := by
    intro d x d' h
    cases x <;> simp only [call] at h
    all_goals try split at h
    all_goals simp at h
    all_goals subst h; rfl
  exec := by
    intro d x b d' ps es h
    rcases exec_polls h with ⟨h1, h2⟩ | ⟨h1, h2⟩ <;> simp [h1, h2]

theorem line_whole (T : Type) : (line T).Whole := by
  intro d x b d' ps es h
  rcases exec_polls h with ⟨h1, h2⟩ | ⟨h1, h2⟩
  · exact .inl h1
  · exact .inr h2

end PostAck

namespace Queue

variable {T : Type}

/-- `queue`: `sinks_`. -/
def line (T : Type) : Line (lawful T) where
  q d := d.sinks
  mem h := h.mem
  nodup h := h.nodup
  admit := by intro d i p d' h; simp at h; subst h; rfl
  start := by
    intro d i b d' r es h
    simp only [start] at h
    repeat' split at h
    all_goals simp at h
    all_goals obtain ⟨rfl, rfl, _⟩ := h; rfl
  tryCancel := by
    intro d ph log pi i d' r es _ h
    simp only [tryCancel] at h
    repeat' split at h
    all_goals simp at h
    all_goals obtain ⟨rfl, _⟩ := h
    · exact .inl rfl
    · exact .inr rfl
  fin _ _ := rfl
  call := by intro d x d' h; simp at h; subst h; rfl
  exec := by
    intro d x b d' ps es h
    cases x <;> simp only [exec] at h
    all_goals
      repeat' split at h
      all_goals simp at h
      all_goals obtain ⟨rfl, rfl, _⟩ := h; simp_all [ops]

theorem line_single (T : Type) : (line T).Single := by
  intro d x b d' ps es h
  cases x <;> simp only [exec] at h
  all_goals
    repeat' split at h
    all_goals simp at h
    all_goals obtain ⟨rfl, rfl, _⟩ := h
    all_goals first | exact .inl ⟨rfl, rfl⟩ | exact .inr ⟨_, rfl⟩

end Queue

end Verif
