import Verif.Hb.Marks
import Verif.Promise.Props

/-!
# Happens-before for `promise` and `future`

`set_value` publishes the value in a critical section of `mutex_` (promise.hpp lines 369-372, 389-392) and `wake()` grabs
the queue in another one (lines 93-97). `get_operation::start` (lines 255-263) and `try_cancel` (line 72) are critical
sections, too. The completion itself reads the value outside of the lock (lines 265-270, 281-293): that is why the order
matters. `wake()` reads `has_value_` outside of the lock, too (line 84), but in the thread that wrote it. There are no
atomic variables besides the reference count, which is treated in `Verif/Hb/RefCount.lean`.
-/

namespace Verif.Promise

open Resolver

variable {T : Type}

/-- Memory accesses of the shared state. -/
def ords (T : Type) : Ords (ds T) where
  A := Empty
  dec := inferInstance
  start _ _ _ := []
  tryCancel _ _ := []
  locked _ _ _ := true
  exec _ _ _ := []

/-- The events that decide the fate of a `get` operation: it finds the value, it is withdrawn, or the value is published
while it waits. -/
def decides (before : List (Event T)) : E T → OpId → Prop
  | .skip j, i | .unq j, i => j = i
  | .set _, i => .ds (.enq i) ∈ before ∧ .ds (.unq i) ∉ before
  | _, _ => False

theorem start_cases {d d' : D T} {i : OpId} {r : Option (Option T)} {es : List (E T)}
    (h : start d i = some (d', r, es)) : (r = none ∧ es = [.enq i]) ∨ (∃ v, r = some (some v) ∧ es = [.skip i]) := by
  simp only [start] at h
  split at h <;> simp at h <;> obtain ⟨_, rfl, rfl⟩ := h <;> simp

theorem tryCancel_cases {d d' : D T} {i : OpId} {r : Bool} {es : List (E T)} (h : tryCancel d i = some (d', r, es)) :
    (r = true ∧ es = [.unq i]) ∨ (r = false ∧ es = []) := by
  simp only [tryCancel] at h
  repeat' split at h
  all_goals simp at h
  all_goals obtain ⟨_, rfl, rfl⟩ := h
  all_goals simp

theorem ops_inl (l : List OpId) : ops (I := I T) (l.map .inl) = l := by
  induction l with
  | nil => rfl
  | cons a l ih => simp [ops, ih]

theorem exec_cases {d d' : D T} {x : I T} {ps : List (OpId ⊕ I T)} {es : List (E T)} (h : exec d x = some (d', ps, es)) :
    (∃ v, x = .set v ∧ es = [.set v] ∧ ops ps = d.queue ∧ d.value = none) ∨
    (∃ l, x = .wake l ∧ es = [.wake l] ∧ ops ps = []) := by
  cases x <;> simp only [exec] at h <;> repeat' split at h
  all_goals simp at h
  · rename_i hv
    obtain ⟨_, rfl, rfl⟩ := h
    exact .inl ⟨_, rfl, rfl, by simp [ops, ops_inl], hv⟩
  · obtain ⟨_, rfl, rfl⟩ := h
    exact .inr ⟨_, rfl, rfl, rfl⟩

theorem hlaw (T : Type) : HLaw (ords T) (lawful T) (fun _ => True) decides where
  unlocked _ h := by simp [ords] at h
  start {d i b d' r es v j log} h hv hd := by
    rcases start_cases h with ⟨rfl, rfl⟩ | ⟨x, rfl, rfl⟩ <;> simp at hv <;> subst hv <;> simp [decides] at hd
    exact ⟨hd.symm, _, rfl⟩
  cancel {d i d' r es v j log} h hv hd := by
    rcases tryCancel_cases h with ⟨rfl, rfl⟩ | ⟨rfl, rfl⟩ <;> simp at hv
    subst hv; simp [decides] at hd
    exact ⟨hd.symm, rfl⟩
  exec {d ph log pi x b d' ps l1 v l2 j} hI h hd := by
    rcases exec_cases h with ⟨w, rfl, he, ho, hn⟩ | ⟨l, rfl, he, ho⟩
    · rw [List.append_eq_singleton_iff] at he
      simp at he
      obtain ⟨rfl, rfl, rfl⟩ := he
      rw [ho]
      exact (hI.wait hn j).2 (by simpa [decides] using hd)
    · rw [List.append_eq_singleton_iff] at he
      simp at he
      obtain ⟨rfl, rfl, rfl⟩ := he
      simp [decides] at hd

theorem hcanc (T : Type) : HCanc (ds T) (fun v i => v = .unq i) where
  start {d i b d' r es} h e he j hc := by
    subst hc
    rcases start_cases h with ⟨rfl, rfl⟩ | ⟨x, rfl, rfl⟩ <;> simp at he
  exec {d x b d' ps es} h e he j hc := by
    subst hc
    rcases exec_cases h with ⟨w, rfl, rfl, _⟩ | ⟨l, rfl, rfl, _⟩ <;> simp at he
  cancel {d i d' r es} h e he j hc := by
    subst hc
    rcases tryCancel_cases h with ⟨rfl, rfl⟩ | ⟨rfl, rfl⟩ <;> simp at he
    exact he

/-- A `get` completes with the value if it found it, or if it was published while the `get` was waiting. -/
def marks (T : Type) : Marks (lawful T) where
  F v i x := v = .skip i ∧ x ≠ none
  T before v i x := ∃ w, v = .set w ∧ x = some w ∧ .ds (.enq i) ∈ before ∧ .ds (.unq i) ∉ before
  G v i x := v = .unq i ∧ x = none
  start {d i b d' x es} h := by
    rcases start_cases h with ⟨hr, rfl⟩ | ⟨w, hr, rfl⟩ <;> simp at hr
    exact ⟨_, by simp, rfl, by simp [hr]⟩
  cancel {d i d' es} h := by
    rcases tryCancel_cases h with ⟨hr, rfl⟩ | ⟨hr, rfl⟩ <;> simp at hr
    exact ⟨_, by simp, _, rfl, rfl⟩
  exec {d ph log pi x b d' ps es i} hI h hi := by
    rcases exec_cases h with ⟨w, rfl, rfl, ho, hn⟩ | ⟨l, rfl, rfl, ho⟩
    · rw [ho] at hi
      exact ⟨[], _, [], rfl, _, w, rfl, rfl, by simpa using (hI.wait hn i).1 hi⟩
    · rw [ho] at hi; simp at hi
  valT {d ph log pi i x} h hp ho := by
    suffices hx : x = (ds T).val d i from hx ▸ ho
    obtain ⟨q, v, hq, w, rfl, rfl, _⟩ := ho
    show some w = if d.canc i then none else d.value
    rw [h.cancN i (.inr (.inr hp))]
    simp [(h.val w).2 (List.mem_of_getElem? hq)]
  valG {d ph log pi i x} h hp ho := by
    suffices hx : x = (ds T).val d i from hx ▸ ho
    obtain ⟨q, v, _, _, rfl⟩ := ho
    show none = if d.canc i then none else d.value
    rw [(h.cancG i hp).1]; rfl

theorem split_at {α : Type} {l : List α} {n : Nat} {v : α} (h : l[n]? = some v) : l = l.take n ++ v :: l.drop (n + 1) := by
  have hl := (List.getElem?_eq_some_iff.1 h).1
  have hw := (List.getElem?_eq_some_iff.1 h).2
  rw [← hw, List.getElem_cons_drop, List.take_append_drop]

variable {entry : RSt (ds T) → Act (ds T) → Nat → Bool} {c : Conf (mach (ds T))} {m : Mem (Loc (ords T).A)}

/-- C54. If `get` delivers a value then `set_value` with this value happens before. -/
theorem C54_set_before_get (h : HReach (ann (ords T) entry) (RSt.init init) c m) {n : Nat} {i : OpId} {v : T}
    (hn : c.sh.log[n]? = some (.done i (some v))) :
    ∃ a, c.sh.log[a]? = some (.ds (.set v)) ∧ m.hb a n := by
  obtain ⟨ph, hI, _⟩ := reach_inv (lawful T) h.reach
  have hsv : .ds (.set v) ∈ c.sh.log := by
    have := hI.hist _ _ _ (split_at hn)
    exact List.mem_of_mem_take this
  obtain ⟨q, w, hqn, hq, hD⟩ := (marks T).decided h.reach hn
  rcases hD with ⟨rfl, hx⟩ | ⟨w, rfl, hx, h1, h2⟩ | ⟨rfl, hx⟩
  · have hqn := completes_after (hlaw T) h hq rfl hn
    obtain ⟨w, hw⟩ := hI.hist _ _ _ (split_at hq)
    have hwv : w = v := by
      have h1 := (hI.val w).2 (List.mem_of_mem_take hw)
      rw [(hI.val v).2 hsv] at h1
      simpa using h1.symm
    subst hwv
    obtain ⟨a, ha⟩ := List.getElem?_of_mem hw
    have := (List.getElem?_eq_some_iff.1 ha).1
    rw [List.length_take] at this
    rw [List.getElem?_take_of_lt (by omega)] at ha
    exact ⟨a, ha, h.hb_trans (grows _ _ entry) (sections_ordered (hlaw T) h ha trivial hq trivial (by omega)) hqn⟩
  · simp at hx; subst hx
    exact ⟨q, hq, completes_after (hlaw T) h hq ⟨h1, h2⟩ hn⟩
  · simp at hx

/-- C54. If `get` is cancelled then a cancellation of its event happens before its completion. -/
theorem C54_cancel_before_completion (h : HReach (ann (ords T) entry) (RSt.init init) c m) {n : Nat} {i : OpId}
    (hn : c.sh.log[n]? = some (.done i none)) :
    ∃ ev e, c.sh.ct i = some ev ∧ c.sh.log[e]? = some (.cancel ev) ∧ m.hb e n := by
  obtain ⟨q, w, hqn, hq, hD⟩ := (marks T).decided h.reach hn
  rcases hD with ⟨_, hx⟩ | ⟨w, _, hx, _⟩ | ⟨rfl, _⟩
  · simp at hx
  · simp at hx
  · obtain ⟨ev, e, h2, h3, h4⟩ := withdrawn_after_cancel (lawful T) (hcanc T) h hq rfl
    exact ⟨ev, e, h2, h3, h.hb_trans (grows _ _ entry) h4 (completes_after (hlaw T) h hq rfl hn)⟩

/-- C54. Creating and starting a `get` operation happens before its completion. -/
theorem C54_created_before_completion (h : HReach (ann (ords T) entry) (RSt.init init) c m) {a n : Nat} {i : OpId}
    {ct : Option EvId} {x : Option T} (ha : c.sh.log[a]? = some (.begin i ct ())) (hn : c.sh.log[n]? = some (.done i x))
    (han : a < n) : m.hb a n :=
  created_before_completion (hlaw T) h ha hn han

/-! ## Examples -/

/-- Operation 0 suspends, `set_value(7)` completes it, operation 1 finds the value. -/
def hdemo : Conf (mach (ds Nat)) × Mem (Loc (ords Nat).A) :=
  (ann (ords Nat) (fun _ _ _ => false)).go (RSt.init init)
    [.env (.newOp 0 none ()), .run 0 true, .run 0 true, .run 0 true,
     .env (.call (.set 7)), .run 1 true, .run 1 true, .run 1 true, .run 1 true, .run 1 true,
     .env (.newOp 1 none ()), .run 2 true, .run 2 true]

example : hdemo.1.sh.log[2]? = some (.ds (.set 7)) := rfl
example : hdemo.1.sh.log[4]? = some (.done 0 (some 7)) := rfl
example : hdemo.1.sh.log[7]? = some (.done 1 (some 7)) := rfl
example : hdemo.2.hb 2 4 ∧ hdemo.2.hb 0 4 ∧ hdemo.2.hb 2 7 := by decide

/-- Operation 0 suspends and is cancelled. -/
def hdemo' : Conf (mach (ds Nat)) × Mem (Loc (ords Nat).A) :=
  (ann (ords Nat) (fun _ _ _ => false)).go (RSt.init init)
    [.env (.newOp 0 (some 1) ()), .run 0 true, .run 0 true, .run 0 true, .run 0 true,
     .env (.cancel 1), .run 1 true, .run 1 true, .run 1 true, .run 1 true]

example : hdemo'.1.sh.log[2]? = some (.cancel 1) := rfl
example : hdemo'.1.sh.log[4]? = some (.done 0 none) := rfl
example : hdemo'.2.hb 2 4 := by decide

example : ∃ a, hdemo.1.sh.log[a]? = some (.ds (.set 7)) ∧ hdemo.2.hb a 7 :=
  C54_set_before_get (HReach.go _ _ _) (n := 7) (i := 1) rfl
example : hdemo.2.hb 0 4 := C54_created_before_completion (HReach.go _ _ _) (a := 0) (n := 4) (i := 0) rfl rfl (by omega)
example : ∃ ev e, hdemo'.1.sh.ct 0 = some ev ∧ hdemo'.1.sh.log[e]? = some (.cancel ev) ∧ hdemo'.2.hb e 4 :=
  C54_cancel_before_completion (HReach.go _ _ _) (n := 4) rfl

end Verif.Promise
