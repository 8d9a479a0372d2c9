import Verif.Hb.Base

/-!
# Happens-before is a strict partial order

This is a check of the definitions of `Verif/Hb/Base.lean`.
-/

namespace Verif

/-- A set of events that contains whatever happens before its elements, and no event after the end of the history. -/
structure Closed {L : Type} (m : Mem L) (len : Nat) (v : Nat → Bool) : Prop where
  lt : ∀ n, v n = true → n < len
  down : ∀ e n, v e = true → m.past e n = true → v n = true

structure HOrd {L : Type} (m : Mem L) (len : Nat) : Prop where
  view : ∀ k, Closed m len (m.view k)
  msg : ∀ l, Closed m len (m.msg l)
  past : ∀ e, e < len → Closed m e (m.past e)
  out : ∀ e n, len ≤ e → m.past e n = false

variable {L : Type}

theorem Closed.union {m : Mem L} {len : Nat} {v w : Nat → Bool} (hv : Closed m len v) (hw : Closed m len w) :
    Closed m len (fun n => v n || w n) where
  lt n h := by
    simp at h; rcases h with h | h
    · exact hv.lt n h
    · exact hw.lt n h
  down e n h1 h2 := by
    simp at h1 ⊢; rcases h1 with h | h
    · exact .inl (hv.down e n h h2)
    · exact .inr (hw.down e n h h2)

theorem Closed.none {m : Mem L} {len : Nat} : Closed m len (fun _ => false) := ⟨by simp, by simp⟩

theorem HOrd.acquire {m : Mem L} {len : Nat} (h : HOrd m len) (as : List (Acc L)) {v : Nat → Bool}
    (hv : Closed m len v) : Closed m len (m.acquire v as) := by
  induction as generalizing v with
  | nil => exact hv
  | cons a as ih =>
    cases a with
    | lock l => exact ih (hv.union (h.msg l))
    | unlock l => exact ih hv
    | load o l => cases o <;> first | exact ih hv | exact ih (hv.union (h.msg l))
    | store o l => exact ih hv
    | rmw o l => cases o <;> first | exact ih hv | exact ih (hv.union (h.msg l))

theorem Closed.release [DecidableEq L] {m : Mem L} {len : Nat} {v : Nat → Bool} (hv : Closed m len v)
    (as : List (Acc L)) {msg : L → Nat → Bool} (hm : ∀ l, Closed m len (msg l)) :
    ∀ l, Closed m len (Mem.release v msg as l) := by
  have hj : ∀ (msg : L → Nat → Bool), (∀ l, Closed m len (msg l)) → ∀ l l',
      Closed m len (fun n => msg l' n || (if l' = l then v n else false)) := by
    intro msg hm l l'
    by_cases h : l' = l
    · simp only [h, if_true]; exact (hm l).union hv
    · simp only [h, if_false, Bool.or_false]; exact hm l'
  have hs : ∀ (w : Nat → Bool), Closed m len w → ∀ (msg : L → Nat → Bool), (∀ l, Closed m len (msg l)) → ∀ l l',
      Closed m len (fun n => if l' = l then w n else msg l' n) := by
    intro w hw msg hm l l'
    by_cases h : l' = l
    · simp only [h, if_true]; exact hw
    · simp only [h, if_false]; exact hm l'
  induction as generalizing msg with
  | nil => exact hm
  | cons a as ih =>
    cases a with
    | lock l => exact ih hm
    | unlock l => exact ih (hj _ hm l)
    | load o l => exact ih hm
    | store o l => cases o <;> first | exact ih (hs _ hv _ hm l) | exact ih (hs _ .none _ hm l)
    | rmw o l => cases o <;> first | exact ih hm | exact ih (hj _ hm l)

theorem HOrd.known {m : Mem L} {len : Nat} (h : HOrd m len) (S : Nat → Bool) : Closed m len (m.known len S) where
  lt n hn := by
    simp only [Mem.known, List.any_eq_true, List.mem_range] at hn
    obtain ⟨e, he, hn⟩ := hn
    simp at hn
    rcases hn.2 with h1 | h1
    · omega
    · have := (h.past e he).lt n h1; omega
  down e n h1 h2 := by
    simp only [Mem.known, List.any_eq_true, List.mem_range] at h1 ⊢
    obtain ⟨q, hq, h1⟩ := h1
    simp at h1
    refine ⟨q, hq, ?_⟩
    simp only [h1.1, Bool.true_and, Bool.or_eq_true]
    right
    rcases h1.2 with h3 | h3
    · rw [h3]; exact h2
    · exact (h.past q hq).down e n h3 h2

theorem HOrd.act [DecidableEq L] {m : Mem L} {a b : Nat} (h : HOrd m a) (hab : a ≤ b) (k : Nat) {v : Nat → Bool}
    (hv : Closed m a v) (as : List (Acc L)) : HOrd (m.act k v as a b) b := by
  have hv1 := h.acquire as hv
  -- passing to the longer history
  have lift : ∀ w, Closed m a w → Closed (m.act k v as a b) b w := fun w hw =>
    ⟨fun n hn => by have := hw.lt n hn; omega,
     fun e n h1 h2 => by
      rw [Mem.act_past_old _ _ _ _ _ _ (hw.lt e h1)] at h2; exact hw.down e n h1 h2⟩
  have hv2 : Closed (m.act k v as a b) b (fun n => m.acquire v as n || (decide (a ≤ n) && decide (n < b))) := by
    refine ⟨fun n hn => ?_, fun e n h1 h2 => ?_⟩
    · simp at hn; rcases hn with hn | hn
      · have := hv1.lt n hn; omega
      · exact hn.2
    · simp at h1 ⊢
      rcases h1 with h1 | h1
      · rw [Mem.act_past_old _ _ _ _ _ _ (hv1.lt e h1)] at h2
        exact .inl (hv1.down e n h1 h2)
      · rw [Mem.act_past_new _ _ _ _ _ _ h1.1 h1.2] at h2
        simp at h2
        rcases h2 with h2 | h2
        · exact .inl h2
        · right; omega
  refine ⟨?_, ?_, ?_, ?_⟩
  · intro j
    rw [Mem.act_view]
    split
    · exact hv2
    · exact lift _ (h.view j)
  · rw [Mem.act_msg]
    exact hv2.release as (fun l => lift _ (h.msg l))
  · intro e he
    by_cases hea : e < a
    · rw [Mem.act_past_old _ _ _ _ _ _ hea]
      refine ⟨(h.past e hea).lt, fun q n h1 h2 => ?_⟩
      have := (h.past e hea).lt q h1
      rw [Mem.act_past_old _ _ _ _ _ _ (by omega)] at h2
      exact (h.past e hea).down q n h1 h2
    · refine ⟨fun n hn => ?_, fun q n h1 h2 => ?_⟩
      · rw [Mem.act_past_new _ _ _ _ _ _ (by omega) he] at hn
        simp at hn; rcases hn with hn | hn
        · have := hv1.lt n hn; omega
        · exact hn.2
      · rw [Mem.act_past_new _ _ _ _ _ _ (by omega) he] at h1 ⊢
        simp at h1 ⊢
        rcases h1 with h1 | h1
        · rw [Mem.act_past_old _ _ _ _ _ _ (hv1.lt q h1)] at h2
          exact .inl (hv1.down q n h1 h2)
        · rw [Mem.act_past_new _ _ _ _ _ _ h1.1 (by omega)] at h2
          simp at h2
          rcases h2 with h2 | h2
          · exact .inl h2
          · right; omega
  · intro e n he
    simp only [Mem.act]
    rw [if_neg (by omega)]
    exact h.out e n (by omega)

/-- The history of the machine only grows. -/
structure Grows {M : Mach} (A : Ann M) (s0 : M.σ) : Prop where
  init : A.len s0 = 0
  env : ∀ s acts a s' p, M.env s acts a = some (s', p) → A.len s ≤ A.len s'
  run : ∀ s x b s' p, M.exec s x b = .ok s' p → A.len s ≤ A.len s'

theorem HReach.ord {M : Mach} {A : Ann M} {s0 : M.σ} (hg : Grows A s0) {c : Conf M} {m : Mem A.L}
    (h : HReach A s0 c m) : HOrd m (A.len c.sh) := by
  refine HReach.inv (P := fun _ => True) (Q := fun s _ m => HOrd m (A.len s)) (fun _ _ => trivial) ?_ ?_ ?_ h
  · rw [hg.init]
    exact ⟨fun _ => .none, fun _ => .none, by simp, by simp [Mem.init]⟩
  · intro c m a s' p _ _ hq he
    letI := A.dec
    exact hq.act (hg.env _ _ _ _ _ he) _ (hq.known _) _
  · intro c m k x r b s' p _ _ hq _ he
    letI := A.dec
    exact hq.act (hg.run _ _ _ _ _ he) _ (hq.view k) _

/-- Happens-before is transitive. -/
theorem HReach.hb_trans {M : Mach} {A : Ann M} {s0 : M.σ} (hg : Grows A s0) {c : Conf M} {m : Mem A.L}
    (h : HReach A s0 c m) {x y z : Nat} (h1 : m.hb x y) (h2 : m.hb y z) : m.hb x z := by
  have ho := h.ord hg
  by_cases hz : z < A.len c.sh
  · exact (ho.past z hz).down y x h2 h1
  · have := ho.out z y (by omega)
    rw [Mem.hb] at h2; rw [this] at h2; simp at h2

/-- Only earlier events happen before an event. -/
theorem HReach.hb_lt {M : Mach} {A : Ann M} {s0 : M.σ} (hg : Grows A s0) {c : Conf M} {m : Mem A.L}
    (h : HReach A s0 c m) {x y : Nat} (h1 : m.hb x y) : x < y := by
  have ho := h.ord hg
  by_cases hz : y < A.len c.sh
  · exact (ho.past y hz).lt x h1
  · have := ho.out y x (by omega)
    rw [Mem.hb] at h1; rw [this] at h1; simp at h1

end Verif
