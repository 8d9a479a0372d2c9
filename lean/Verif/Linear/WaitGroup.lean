import Verif.Linear.Promise
import Verif.WaitGroup.Proof

/-!
# C98, `wait_group` and `oneshot_event`: `add`, `done` and `wait` behave like operations on a counter
-/

namespace Verif.WaitGroup

open Resolver

variable {T : Type} {c : Cfg}

/-- Member functions of the sequential object. -/
inductive Fn where
  | add (n : Nat)
  | done
  /-- Not a member function (for instructions that belong to a call that has taken effect). -/
  | rest

/-- The sequential object: a counter. `add(n)` and `done()` change it, and `done()` is called only if it is positive. A wait yields
true if the counter is zero; if it yields false (cancelled), the counter is positive. -/
def seq : Nat → Opn Fn → Rsl Unit Bool → Nat → Prop
  | q, .fn (.add n), .ret (), q' => q' = q + n
  | q, .fn .done, .ret (), q' => q = q' + 1
  | q, .wait, .got true, q' => q = 0 ∧ q' = 0
  | q, .wait, .got false, q' => 0 < q ∧ q' = q
  | _, _, _, _ => False

/-- The member function that an instruction belongs to. `wait_in_group` calls `add(1)` when it starts (wait-group.hpp line 227)
and `done()` when the wrapped sender completes (lines 205-206). -/
def fnOf : I T → Fn
  | .add n _ => .add n
  | .ld _ | .cas _ _ | .lock _ | .cdone _ _ => .done
  | .cstart _ | .wset _ _ => .rest

theorem exec_canc {d d' : D T} {x : I T} {ps : List (OpId ⊕ I T)} {es : List (E T)} (h : exec d x = some (d', ps, es)) :
    d'.canc = d.canc := by
  cases x <;> simp only [exec] at h
  all_goals
    repeat' split at h
    all_goals simp at h
    all_goals first
      | (obtain ⟨rfl, -⟩ := h; rfl)
      | (obtain ⟨_, -, rfl, -⟩ := h; rfl)

theorem stable (n : Nat) (h1 : c.safeAdd = true) (h2 : c.safeDone = true) : Stable (lawful (T := T) n h1 h2) where
  admit := by intro d ph log pi i p d' j h ha hj; simp at ha; subst ha; rfl
  call := by
    intro d ph log pi x d' j h ha hj
    have : d'.canc = d.canc := by
      simp only [call] at ha
      repeat' split at ha
      all_goals simp at ha
      all_goals subst ha; rfl
    simp [this]
  start := by
    intro d ph log pi i b d' v es j h hi hs hj
    simp only [start] at hs
    split at hs <;> simp at hs <;> obtain ⟨rfl, -⟩ := hs <;> rfl
  try_ := by
    intro d ph log pi i d' v es j h hi hs hj
    have h : Inv n d ph log pi := h
    simp only [tryCancel] at hs
    split at hs
    · split at hs
      · rename_i hm
        have hi : ph i = .waiting := (h.1.mem i).1 hm
        have hne : j ≠ i := by rintro rfl; rcases hj with hj | hj <;> rw [hi] at hj <;> simp at hj
        simp at hs; obtain ⟨rfl, -⟩ := hs; simp [hne]
      · simp at hs
    · simp at hs; obtain ⟨rfl, -⟩ := hs; rfl
  fin := by intro d i j _; rfl
  exec := by
    intro d ph log pi x b d' ps es j h hs hj
    simp [exec_canc hs]

theorem lin_ops_cont (w : Option (Nat × T)) : ops (cont w) = [] := by
  rcases w with _ | ⟨j, v⟩ <;> rfl

/-- Instructions of a call that has taken effect. -/
def post : I T → Bool
  | .cstart _ | .wset _ _ => true
  | _ => false

theorem lin_insts_cont (w : Option (Nat × T)) : ∀ y ∈ insts (cont w), post y = true := by
  rcases w with _ | ⟨j, v⟩ <;> simp [cont, insts, post]

theorem lin_ops_append {I : Type} (a b : List (OpId ⊕ I)) : ops (a ++ b) = ops a ++ ops b := by
  induction a with
  | nil => rfl
  | cons x a ih => cases x <;> simp [ops, ih]

theorem lin_insts_append {I : Type} (a b : List (OpId ⊕ I)) : insts (a ++ b) = insts a ++ insts b := by
  induction a with
  | nil => rfl
  | cons x a ih => cases x <;> simp [insts, ih]

/-- What follows when `done` goes on with another value. -/
theorem decide_silent {v : Nat} {w : Option (Nat × T)} {ps : List (OpId ⊕ I T)} (h : decide_ v w = some ps) :
    ops ps = [] ∧ ∃ y, insts ps = [y] ∧ post y = false ∧ fnOf y = .done := by
  simp only [decide_] at h
  repeat' split at h
  all_goals simp at h
  all_goals subst h
  · exact ⟨rfl, _, rfl, rfl, rfl⟩
  · exact ⟨rfl, _, rfl, rfl, rfl⟩

/-- `add` takes effect when it increases the counter, `done` when it decreases the counter. -/
def points (n : Nat) (h1 : c.safeAdd = true) (h2 : c.safeDone = true) : Points (lawful (T := T) n h1 h2) seq fnOf where
  abs d := d.ctr
  pt d
    | .add _ _ => some ()
    | .cas v _ => if d.ctr = v then some () else none
    | .lock _ => some ()
    | _ => none
  post := post
  stable := stable n h1 h2
  admit := by intro d i p d' h; simp at h; subst h; rfl
  call := by
    intro d x d' ha
    simp only [call] at ha
    repeat' split at ha
    all_goals simp at ha
    all_goals subst ha; exact ⟨rfl, rfl⟩
  fin := rfl
  fast := by
    intro d ph log pi i b d' v es h hi hs
    simp only [start] at hs
    split at hs <;> simp at hs
    obtain ⟨rfl, rfl, -⟩ := hs; simp [seq]; omega
  slow := by
    intro d ph log pi i b d' es h hi hs
    simp only [start] at hs
    split at hs <;> simp at hs
    obtain ⟨rfl, -⟩ := hs; rfl
  gone := by
    intro d ph log pi i d' es h hi hs
    simp only [tryCancel] at hs
    repeat' split at hs
    all_goals simp at hs
    obtain ⟨rfl, -⟩ := hs
    simp [seq]; assumption
  lost := by
    intro d ph log pi i d' es h hs
    simp only [tryCancel] at hs
    repeat' split at hs
    all_goals simp at hs
    obtain ⟨rfl, -⟩ := hs; rfl
  point := by
    intro d ph log pi x b d' ps es r h hs hr
    have h : Inv n d ph log (x :: pi) := h
    cases x with
    | add m w =>
      simp only [exec] at hs
      split at hs <;> simp at hs <;> obtain ⟨rfl, rfl, -⟩ := hs
      · exact ⟨rfl, by simp [insts], d.ctr + m, by simp [seq, fnOf], rfl⟩
      · exact ⟨rfl, by simp [insts, post], d.ctr + m, by simp [seq, fnOf], rfl⟩
    | cas v w =>
      simp at hr
      have hc := h.2.cas (.cas v w) (by simp)
      simp only [casOk] at hc
      simp only [exec, hr, if_true] at hs
      simp at hs; obtain ⟨rfl, rfl, -⟩ := hs
      refine ⟨rfl, lin_insts_cont w, v - 1, ?_, by simp [lin_ops_cont, Accepts]⟩
      simp [seq, fnOf]; omega
    | lock w =>
      simp only [exec] at hs
      split at hs
      · simp at hs
      split at hs
      · simp at hs; obtain ⟨rfl, rfl, -⟩ := hs
        refine ⟨rfl, lin_insts_cont w, d.ctr - 1, ?_, by simp [lin_ops_cont, Accepts]⟩
        simp [seq, fnOf]; omega
      · simp at hs; obtain ⟨rfl, rfl, -⟩ := hs
        refine ⟨rfl, ?_, 0, ?_, ?_⟩
        · rw [lin_insts_append, Promise.insts_map_inl, List.nil_append]; exact lin_insts_cont w
        · simp [seq, fnOf]; omega
        · rw [lin_ops_append, Promise.ops_map_inl, lin_ops_cont, List.append_nil]
          refine Promise.accepts_same (v := true) _ (by simp [seq]) _ ?_
          intro i hi
          simp [h.1.cancN i (.inr (.inl ((h.1.mem i).1 hi)))]
    | _ => simp at hr
  silent := by
    intro d ph log pi x b d' ps es h hs hr
    cases x with
    | add m w => simp at hr
    | lock w => simp at hr
    | ld w =>
      simp only [exec] at hs
      simp at hs; obtain ⟨ps, hd, rfl, rfl, -⟩ := hs
      obtain ⟨g1, g2⟩ := decide_silent hd
      exact ⟨rfl, g1, by simp [post], fun _ => g2⟩
    | cas v w =>
      simp at hr
      simp only [exec, hr, if_false] at hs
      simp at hs; obtain ⟨ps, hd, rfl, rfl, -⟩ := hs
      obtain ⟨g1, g2⟩ := decide_silent hd
      exact ⟨rfl, g1, by simp [post], fun _ => g2⟩
    | cstart j =>
      simp [exec] at hs; obtain ⟨rfl, rfl, -⟩ := hs
      exact ⟨rfl, rfl, by simp [insts], by simp [post]⟩
    | cdone j v =>
      simp [exec] at hs; obtain ⟨rfl, rfl, -⟩ := hs
      exact ⟨rfl, rfl, by simp [post], fun _ => ⟨_, rfl, rfl, rfl⟩⟩
    | wset j v =>
      simp [exec] at hs; obtain ⟨rfl, rfl, -⟩ := hs
      exact ⟨rfl, rfl, by simp [insts], by simp [post]⟩

/-- **C98** (wait_group, oneshot_event). A `wait_group` constructed with count `n`, used within its contract, is strongly
linearizable with respect to a counter. (`oneshot_event` is the case `n = 1` without `add`.) -/
theorem C98_wait_group_linearizable (n : Nat) (h1 : c.safeAdd = true) (h2 : c.safeDone = true) :
    StronglyLinearizable (M := mach (ds T c)) (RSt.init (init n)) (watch (init n) fnOf fun _ _ _ _ => True) seq n :=
  (points n h1 h2).stronglyLinearizable (fun _ _ _ _ _ _ _ _ _ _ => rfl)

/-- **C98** (wait_group, oneshot_event), in the classical form. -/
theorem C98_wait_group_real_time (n : Nat) (h1 : c.safeAdd = true) (h2 : c.safeDone = true) :
    Linearizable (M := mach (ds T c)) (RSt.init (init n)) (watch (init n) fnOf fun _ _ _ _ => True) seq n :=
  (C98_wait_group_linearizable n h1 h2).linearizable

/-! An execution with two `done()`s, one of which loses a race for the compare-exchange, and a wait. -/

def linDemo : List (Lbl (mach (ds Unit ⟨true, true, true⟩))) :=
  [.env (.call (.add 1 none)), .run 0 true, .env (.newOp 0 none ()), .run 1 true, .run 1 true, .run 1 true,
    .env (.call (.ld none)), .env (.call (.ld none)), .run 2 true, .run 3 true, .run 2 true, .run 3 true, .run 3 true,
    .run 3 true, .run 3 true, .run 3 true]

example : ((mach (ds Unit ⟨true, true, true⟩)).runs ((mach (ds Unit ⟨true, true, true⟩)).init (RSt.init (init 1))) linDemo).map
    (fun c => (c.bad, c.acts.all (·.isEmpty))) = some (false, true) := by decide

example : (points 1 rfl rfl).lin linDemo = [(.fn 0, .fn (.add 1), .ret ()), (.fn 2, .fn .done, .ret ()), (.fn 3, .fn .done, .ret ()),
    (.wait 0, .wait, .got true)] := rfl

end Verif.WaitGroup
