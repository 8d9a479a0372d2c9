import Verif.Linear.Resolver
import Verif.Promise.Proof

/-!
# C98, `promise` and `future`: `set_value` and `get` behave like operations on a variable that is written once
-/

namespace Verif.Promise

open Resolver

variable {T : Type}

/-- The member functions of the sequential object: `set_value(v)`. -/
inductive Fn (T : Type) where
  | set (v : T)
  /-- Not a member function (for instructions that belong to a call that has taken effect). -/
  | rest

/-- The sequential object: a variable without value at first. `set_value` gives it its value, `get` reads the value; if `get` is
cancelled, there was no value. -/
def seq : Option T → Opn (Fn T) → Rsl Unit (Option T) → Option T → Prop
  | q, .fn (.set v), .ret (), q' => q = none ∧ q' = some v
  | q, .wait, .got (some v), q' => q = some v ∧ q' = some v
  | q, .wait, .got none, q' => q = none ∧ q' = none
  | _, _, _, _ => False

/-- The member function that an instruction belongs to. -/
def fnOf : I T → Fn T
  | .set v => .set v
  | .wake _ => .rest

theorem stable : Stable (lawful T) where
  admit := by intro d ph log pi i p d' j h ha hj; simp at ha; subst ha; rfl
  call := by
    intro d ph log pi x d' j h ha hj
    cases x <;> simp [call] at ha
    obtain ⟨-, rfl⟩ := ha; rfl
  start := by
    intro d ph log pi i b d' v es j h hi hs hj
    simp only [start] at hs
    split at hs <;> simp at hs <;> obtain ⟨rfl, -⟩ := hs <;> rfl
  try_ := by
    intro d ph log pi i d' v es j h hi hs hj
    have h : Inv d ph log pi := h
    simp only [tryCancel] at hs
    split at hs
    · rename_i hv
      split at hs
      · rename_i hm
        have hi : ph i = .waiting := (h.mem i).2 ⟨hv, hm⟩
        have hne : j ≠ i := by rintro rfl; rcases hj with hj | hj <;> rw [hi] at hj <;> simp at hj
        simp at hs; obtain ⟨rfl, -⟩ := hs; simp [hne]
      · simp at hs
    · simp at hs; obtain ⟨rfl, -⟩ := hs; rfl
  fin := by intro d i j _; rfl
  exec := by
    intro d ph log pi x b d' ps es j h hs hj
    have h : Inv d ph log (x :: pi) := h
    cases x with
    | set v =>
      simp only [exec] at hs
      split at hs
      · simp at hs
      · rename_i hv
        simp at hs; obtain ⟨rfl, -⟩ := hs
        rcases hj with hj | hj
        · exact absurd hv (h.taken j hj)
        · simp [(h.cancG j hj).1]
    | wake l =>
      simp only [exec] at hs
      repeat' split at hs
      all_goals simp at hs
      obtain ⟨rfl, -⟩ := hs; rfl

theorem ops_map_inl {I : Type} (l : List OpId) : ops (l.map (Sum.inl : OpId → OpId ⊕ I)) = l := by
  induction l with
  | nil => rfl
  | cons i l ih => simp [ops, ih]

theorem insts_map_inl {I : Type} (l : List OpId) : insts (l.map (Sum.inl : OpId → OpId ⊕ I)) = [] := by
  induction l with
  | nil => rfl
  | cons i l ih => simp [insts, ih]

theorem accepts_same {Q O R V : Type} {spec : Q → Opn O → Rsl R V → Q → Prop} {q : Q} {v : V} (f : OpId → V)
    (hs : spec q .wait (.got v) q) (l : List OpId) (h : ∀ i ∈ l, f i = v) :
    Accepts (C := Call) spec q (l.map fun i => (.wait i, .wait, .got (f i))) q := by
  induction l with
  | nil => rfl
  | cons i l ih => exact ⟨q, by rw [h i (by simp)]; exact hs, ih (fun j hj => h j (by simp [hj]))⟩

/-- `set_value` takes effect when it publishes the value. -/
def points : Points (lawful T) seq fnOf where
  abs d := d.value
  pt d
    | .set _ => some ()
    | .wake _ => none
  post
    | .set _ => false
    | .wake _ => true
  stable := stable
  admit := by intro d i p d' h; simp at h; subst h; rfl
  call := by
    intro d x d' h
    cases x <;> simp [call] at h
    obtain ⟨-, rfl⟩ := h; exact ⟨rfl, rfl⟩
  fin := rfl
  fast := by
    intro d ph log pi i b d' v es h hi hs
    simp only [start] at hs
    split at hs
    · simp at hs
    · rename_i v hv
      simp at hs; obtain ⟨rfl, rfl, -⟩ := hs; simp [seq, hv]
  slow := by
    intro d ph log pi i b d' es h hi hs
    simp only [start] at hs
    split at hs <;> simp at hs
    obtain ⟨rfl, -⟩ := hs; rfl
  gone := by
    intro d ph log pi i d' es h hi hs
    simp only [tryCancel] at hs
    split at hs
    · rename_i hv
      split at hs <;> simp at hs
      obtain ⟨rfl, -⟩ := hs
      simp [seq, hv]
    · simp at hs
  lost := by
    intro d ph log pi i d' es h hs
    simp only [tryCancel] at hs
    repeat' split at hs
    all_goals simp at hs
    obtain ⟨rfl, -⟩ := hs; rfl
  point := by
    intro d ph log pi x b d' ps es r h hs hr
    have h : Inv d ph log (x :: pi) := h
    cases x with
    | set v =>
      simp only [exec] at hs
      split at hs
      · simp at hs
      · rename_i hv
        simp at hs; obtain ⟨rfl, rfl, -⟩ := hs
        refine ⟨rfl, by simp [insts, insts_map_inl], some v, by simp [seq, fnOf, hv], ?_⟩
        simp only [ops, ops_map_inl]
        refine accepts_same (v := some v) _ (by simp [seq]) _ ?_
        intro i hi
        have := h.cancN i (.inr (.inl ((h.mem i).2 ⟨hv, hi⟩)))
        simp [this]
    | wake l => simp at hr
  silent := by
    intro d ph log pi x b d' ps es h hs hr
    cases x with
    | set v => simp at hr
    | wake l =>
      simp only [exec] at hs
      repeat' split at hs
      all_goals simp at hs
      obtain ⟨rfl, rfl, -⟩ := hs
      exact ⟨rfl, rfl, by simp [insts], by simp⟩

/-- **C98** (promise, future). One promise and any number of `get()`s on its futures, with cancellation, are strongly linearizable
with respect to a variable that is written once. -/
theorem C98_promise_linearizable :
    StronglyLinearizable (M := mach (ds T)) (RSt.init init) (watch init fnOf fun _ _ _ _ => True) seq none :=
  points.stronglyLinearizable (fun _ _ _ _ _ _ _ _ _ _ => rfl)

/-- **C98** (promise, future), in the classical form. -/
theorem C98_promise_real_time :
    Linearizable (M := mach (ds T)) (RSt.init init) (watch init fnOf fun _ _ _ _ => True) seq none :=
  C98_promise_linearizable.linearizable

/-! An execution in which a get waits until the value is set, and another one finds the value. -/

def linDemo : List (Lbl (mach (ds Nat))) :=
  [.env (.newOp 0 none ()), .run 0 true, .run 0 true, .env (.call (.set 7)), .run 1 true, .env (.newOp 1 none ()), .run 2 true,
    .run 2 true, .run 0 true, .run 1 true, .run 1 true, .run 1 true, .run 1 true]

example : ((mach (ds Nat)).runs ((mach (ds Nat)).init (RSt.init init)) linDemo).map
    (fun c => (c.bad, c.acts.all (·.isEmpty))) = some (false, true) := by decide

example : points.lin linDemo = [(.fn 1, .fn (.set 7), .ret ()), (.wait 0, .wait, .got (some 7)), (.wait 1, .wait, .got (some 7))] := rfl

end Verif.Promise
