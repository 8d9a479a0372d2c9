import Verif.Hb.Marks
import Verif.WaitGroup.Props
import Verif.Termination

/-!
# Happens-before for `wait_group`

`done()` reads `ctr_` with relaxed order (wait-group.hpp line 53), decrements it outside of the lock with acquire and
release order (line 55; relaxed if it fails), and decrements it to zero inside of the critical section of `mutex_`, with
acquire and release order (lines 61-65). `add()` increments with acquire and release order (line 90). `try_cancel` and
`start` read `ctr_` with relaxed order inside of critical sections of `mutex_` (lines 77-80, 105-108).
-/

namespace Verif.WaitGroup

open Resolver

variable {T : Type} {c : Cfg} {n : Nat}

/-- Memory accesses of the wait group; the only atomic variable is `ctr_`. -/
abbrev ords (T : Type) (c : Cfg) : Ords (ds T c) where
  A := Unit
  dec := inferInstance
  start _ _ _ := [.load .rlx ()]
  tryCancel _ _ := [.load .rlx ()]
  locked _ x _ := match x with
    | .lock _ => true
    | _ => false
  exec d x _ := match x with
    | .add _ _ => [.rmw .acqRel ()]
    | .ld _ => [.load .rlx ()]
    | .cas v _ => if d.ctr = v then [.rmw .acqRel ()] else [.load .rlx ()]
    | .lock _ => [.rmw .acqRel ()]
    | .cstart _ | .cdone _ _ | .wset _ _ => []

/-- The events of critical sections. -/
def section_ : E T → Prop
  | .zero _ _ | .enq _ | .skip _ | .unq _ => True
  | _ => False

/-- The events that decide the fate of a wait operation. -/
def decides : E T → OpId → Prop
  | .zero _ l, i => i ∈ l
  | .skip j, i | .unq j, i => j = i
  | _, _ => False

/-- Changes of the work count. -/
def counts : E T → Prop
  | .add _ _ | .dec _ | .zero _ _ => True
  | _ => False

theorem start_cases {d d' : D T} {i : OpId} {r : Option Bool} {es : List (E T)} (h : start d i = some (d', r, es)) :
    (r = none ∧ es = [.enq i]) ∨ (r = some true ∧ es = [.skip i]) := by
  simp only [start] at h
  split at h <;> simp at h <;> obtain ⟨_, rfl, rfl⟩ := h <;> simp

theorem tryCancel_cases {d d' : D T} {i : OpId} {r : Bool} {es : List (E T)} (h : tryCancel d i = some (d', r, es)) :
    (r = true ∧ es = [.unq i]) ∨ (r = false ∧ es = []) := by
  simp only [tryCancel] at h
  repeat' split at h
  all_goals simp at h
  all_goals obtain ⟨_, rfl, rfl⟩ := h
  all_goals simp

theorem ops_decide {v : Nat} {w : Option (Nat × T)} {l : List (OpId ⊕ I T)} (h : decide_ v w = some l) : ops l = [] := by
  simp only [decide_] at h
  repeat' split at h
  all_goals simp at h
  all_goals subst h
  all_goals simp [ops]

theorem ops_wake (l : List OpId) (w : Option (Nat × T)) : ops (l.map .inl ++ cont w) = l := by
  induction l with
  | nil => simp [ops_cont]
  | cons i l ih => simp [ops, ih]

/-- What the instructions do. -/
theorem exec_cases {d d' : D T} {x : I T} {ps : List (OpId ⊕ I T)} {es : List (E T)} (h : exec d x = some (d', ps, es)) :
    (∃ w l, x = .lock w ∧ es = [.zero (w.map (·.1)) l] ∧ ops ps = l) ∨
    (ops ps = [] ∧ ((∃ w v, x = .cas v w ∧ d.ctr = v ∧ es = [.dec (w.map (·.1))]) ∨
      (∃ w, x = .lock w ∧ es = [.dec (w.map (·.1))]) ∨ (∃ k w, x = .add k w ∧ es = [.add k w]) ∨
      (∀ v ∈ es, ¬ section_ v ∧ ¬ counts v ∧ ∀ i, ¬ decides v i))) := by
  cases x <;> simp only [exec] at h
  case add k w =>
    right
    cases w <;> simp at h <;> obtain ⟨_, rfl, rfl⟩ := h <;> simp [ops]
  case ld w =>
    right
    simp only [Option.map_eq_some_iff] at h
    obtain ⟨l, hl, h⟩ := h
    simp at h; obtain ⟨_, rfl, rfl⟩ := h
    exact ⟨ops_decide hl, .inr (.inr (.inr (by simp)))⟩
  case cas v w =>
    right
    split at h
    · rename_i hc
      simp at h; obtain ⟨_, rfl, rfl⟩ := h
      exact ⟨ops_cont w, .inl ⟨w, v, rfl, hc, rfl⟩⟩
    · simp only [Option.map_eq_some_iff] at h
      obtain ⟨l, hl, h⟩ := h
      simp at h; obtain ⟨_, rfl, rfl⟩ := h
      exact ⟨ops_decide hl, .inr (.inr (.inr (by simp)))⟩
  case lock w =>
    split at h
    · simp at h
    · split at h
      · right
        simp at h; obtain ⟨_, rfl, rfl⟩ := h
        exact ⟨ops_cont w, .inr (.inl ⟨w, rfl, rfl⟩)⟩
      · left
        simp at h; obtain ⟨_, rfl, rfl⟩ := h
        exact ⟨w, _, rfl, rfl, ops_wake _ w⟩
  all_goals
    right
    simp at h; obtain ⟨_, rfl, rfl⟩ := h
    refine ⟨by simp [ops], .inr (.inr (.inr ?_))⟩
    simp [section_, counts, decides]

theorem hlaw (T : Type) (n : Nat) (h1 : c.safeAdd = true) (h2 : c.safeDone = true) :
    HLaw (ords T c) (lawful (T := T) n h1 h2) section_ (fun _ v i => decides v i) where
  unlocked {d x b d' ps es} h hl := by
    rcases exec_cases h with ⟨w, l, rfl, _⟩ | ⟨h1, h2⟩
    · simp at hl
    · refine ⟨h1, fun e he => ?_⟩
      rcases h2 with ⟨w, v, rfl, _, rfl⟩ | ⟨w, rfl, rfl⟩ | ⟨k, w, rfl, rfl⟩ | h2
      · simp at he; subst he; simp [section_]
      · simp at hl
      · simp at he; subst he; simp [section_]
      · exact (h2 e he).1
  start {d i b d' r es v j log} h hv hd := by
    rcases start_cases h with ⟨rfl, rfl⟩ | ⟨rfl, rfl⟩ <;> simp at hv <;> subst hv <;> simp [decides] at hd
    exact ⟨hd.symm, _, rfl⟩
  cancel {d i d' r es v j log} h hv hd := by
    rcases tryCancel_cases h with ⟨rfl, rfl⟩ | ⟨rfl, rfl⟩ <;> simp at hv
    subst hv; simp [decides] at hd
    exact ⟨hd.symm, rfl⟩
  exec {d ph log pi x b d' ps l1 v l2 j} _ h hd := by
    have hv : v ∈ l1 ++ v :: l2 := by simp
    rcases exec_cases h with ⟨w, l, rfl, he, ho⟩ | ⟨h1, h2⟩
    · rw [he] at hv; simp at hv; subst hv
      rw [ho]; exact hd
    · rcases h2 with ⟨w, v, rfl, _, he⟩ | ⟨w, rfl, he⟩ | ⟨k, w, rfl, he⟩ | h2
      · rw [he] at hv; simp at hv; subst hv; simp [decides] at hd
      · rw [he] at hv; simp at hv; subst hv; simp [decides] at hd
      · rw [he] at hv; simp at hv; subst hv; simp [decides] at hd
      · exact absurd hd ((h2 v hv).2.2 j)

theorem hcanc (T : Type) (c : Cfg) : HCanc (ds T c) (fun v i => v = .unq i) where
  start {d i b d' r es} h e he j hc := by
    subst hc
    rcases start_cases h with ⟨rfl, rfl⟩ | ⟨rfl, rfl⟩ <;> simp at he
  exec {d x b d' ps es} h e he j hc := by
    subst hc
    rcases exec_cases h with ⟨w, l, rfl, rfl, _⟩ | ⟨_, h2⟩
    · simp at he
    · rcases h2 with ⟨w, v, rfl, _, rfl⟩ | ⟨w, rfl, rfl⟩ | ⟨k, w, rfl, rfl⟩ | h2
      · simp at he
      · simp at he
      · simp at he
      · exact (h2 _ he).1 trivial
  cancel {d i d' r es} h e he j hc := by
    subst hc
    rcases tryCancel_cases h with ⟨rfl, rfl⟩ | ⟨rfl, rfl⟩ <;> simp at he
    exact he

theorem chain (T : Type) (c : Cfg) : Chain (ords T c) counts () where
  start {d i b d' r es v} h hv hc := by
    rcases start_cases h with ⟨rfl, rfl⟩ | ⟨rfl, rfl⟩ <;> simp at hv <;> subst hv <;> exact hc
  cancel {d i d' r es v} h hv hc := by
    rcases tryCancel_cases h with ⟨rfl, rfl⟩ | ⟨rfl, rfl⟩ <;> simp at hv
    subst hv; exact hc
  exec {d x b d' ps es v} h hv hc := by
    rcases exec_cases h with ⟨w, l, rfl, rfl, _⟩ | ⟨_, h2⟩
    · exact List.mem_singleton.2 rfl
    · rcases h2 with ⟨w, k, rfl, hk, rfl⟩ | ⟨w, rfl, rfl⟩ | ⟨k, w, rfl, rfl⟩ | h2
      · simp only [ords, hk, if_true]; exact List.mem_singleton.2 rfl
      · exact List.mem_singleton.2 rfl
      · exact List.mem_singleton.2 rfl
      · exact absurd hc (h2 v hv).2.1
  noStart d i b a ha := by simp [ords] at ha; subst ha; rfl
  noCancel d i a ha := by simp [ords] at ha; subst ha; rfl
  noExec d x b a ha := by
    cases x <;> simp only [ords] at ha
    case cas => split at ha <;> simp at ha <;> subst ha <;> rfl
    all_goals simp at ha
    all_goals subst ha
    all_goals rfl
  noVal d i a ha := by simp [ords] at ha

/-- Waits that complete with true found the count zero or were woken; the others were withdrawn. -/
def marks (T : Type) (n : Nat) (h1 : c.safeAdd = true) (h2 : c.safeDone = true) :
    Marks (lawful (T := T) n h1 h2) where
  F v i x := v = .skip i ∧ x = true
  T _ v i x := (∃ w l, v = .zero w l ∧ i ∈ l) ∧ x = true
  G v i x := v = .unq i ∧ x = false
  start {d i b d' x es} h := by
    rcases start_cases h with ⟨hr, rfl⟩ | ⟨hr, rfl⟩ <;> simp at hr
    exact ⟨_, by simp, rfl, hr⟩
  cancel {d i d' es} h := by
    rcases tryCancel_cases h with ⟨hr, rfl⟩ | ⟨hr, rfl⟩ <;> simp at hr
    exact ⟨_, by simp, _, rfl, rfl⟩
  exec {d ph log pi x b d' ps es i} _ h hi := by
    rcases exec_cases h with ⟨w, l, rfl, rfl, ho⟩ | ⟨h1, _⟩
    · rw [ho] at hi
      exact ⟨[], _, [], rfl, _, ⟨_, _, rfl, hi⟩, rfl⟩
    · rw [h1] at hi; simp at hi
  valT {d ph log pi i x} h hp ho := by
    suffices hx : x = (ds T c).val d i from hx ▸ ho
    obtain ⟨q, v, _, _, rfl⟩ := ho
    show true = !d.canc i
    rw [h.1.cancN i (.inr (.inr hp))]; rfl
  valG {d ph log pi i x} h hp ho := by
    suffices hx : x = (ds T c).val d i from hx ▸ ho
    obtain ⟨q, v, _, _, rfl⟩ := ho
    show false = !d.canc i
    rw [(h.1.cancG i hp).1]; rfl

/-! ## Histories -/

/-- Calls of `done()`. -/
def isDec : E T → Prop
  | .dec _ | .zero _ _ => True
  | _ => False

/-- If the count is zero then the last decrement reached zero. -/
theorem last_zero {log : List (Event T c)} (h : Hist (hist n) log) (hz : count n log = 0) {a : Nat} {v : E T}
    (ha : log[a]? = some (.ds v)) (hv : isDec v) :
    ∃ q w l, a ≤ q ∧ log[q]? = some (.ds (.zero w l)) := by
  induction log using List.reverseRecOn generalizing a v with
  | nil => simp at ha
  | append_singleton log u ih =>
    rw [Hist.snoc] at h
    rw [count_append] at hz
    have hlt := (List.getElem?_eq_some_iff.1 ha).1
    simp at hlt
    have old : count n log = 0 → a < log.length →
        ∃ q w l, a ≤ q ∧ (log ++ [u])[q]? = some (.ds (.zero w l)) := by
      intro h0 hl
      rw [List.getElem?_append_left hl] at ha
      obtain ⟨q, w, l, h1, h2⟩ := ih h.1 h0 ha hv
      have := (List.getElem?_eq_some_iff.1 h2).1
      exact ⟨q, w, l, h1, by rw [List.getElem?_append_left this]; exact h2⟩
    have last : (∀ v, u = .ds v → ¬ isDec v) → a < log.length := by
      intro hu
      apply Classical.byContradiction
      intro hn
      have : a = log.length := by omega
      subst this
      simp at ha
      exact hu v ha hv
    cases u with
    | ds y =>
      cases y with
      | zero w l => exact ⟨log.length, w, l, by omega, by simp⟩
      | dec w => have := h.2; simp only [hist] at this; simp only [countStep] at hz; omega
      | add k w =>
        simp only [countStep] at hz
        exact old (by omega) (last (by rintro v hv; simp at hv; subst hv; simp [isDec]))
      | _ => exact old hz (last (by rintro v hv; simp at hv; subst hv; simp [isDec]))
    | _ => exact old hz (last (by simp))

theorem split_at {α : Type} {l : List α} {n : Nat} {v : α} (h : l[n]? = some v) : l = l.take n ++ v :: l.drop (n + 1) := by
  have hl := (List.getElem?_eq_some_iff.1 h).1
  have hw := (List.getElem?_eq_some_iff.1 h).2
  rw [← hw, List.getElem_cons_drop, List.take_append_drop]

theorem hist_take {α : Type} {P : List α → α → Prop} {l : List α} (h : Hist P l) (k : Nat) : Hist P (l.take k) := by
  intro l1 w l2 e
  exact h l1 w (l2 ++ l.drop k) (by rw [← List.cons_append, ← List.append_assoc, ← e, List.take_append_drop])

variable {entry : RSt (ds T c) → Act (ds T c) → Nat → Bool} {k : Conf (mach (ds T c))} {m : Mem (Loc (ords T c).A)}

/-- C53. When a wait completes with true then there was a moment, after the wait was started, at which the work count was
zero, and all calls of `done()` before that moment happen before the completion of the wait. -/
theorem C53_done_before_wait (h1 : c.safeAdd = true) (h2 : c.safeDone = true)
    (h : HReach (ann (ords T c) entry) (RSt.init (init n)) k m) {b : Nat} {i : OpId}
    (hb : k.sh.log[b]? = some (.done i true)) :
    ∃ z ≤ b, (∃ ct p, Ev.begin i ct p ∈ k.sh.log.take z) ∧ count n (k.sh.log.take z) = 0 ∧
      ∀ a < z, ∀ w, (k.sh.log[a]? = some (.ds (.dec w)) ∨ ∃ l, k.sh.log[a]? = some (.ds (.zero w l))) → m.hb a b := by
  obtain ⟨q, v, hq, hv, hD⟩ := (marks T n h1 h2).decided h.reach hb
  obtain ⟨ph, ⟨hA, _⟩, _⟩ := reach_inv (lawful n h1 h2) h.reach
  have hH := hA.hist
  have hvq := hH _ _ _ (split_at hv)
  have hql := (List.getElem?_eq_some_iff.1 hv).1
  have hdec : decides v i := by
    rcases hD with ⟨rfl, _⟩ | ⟨⟨w, l, rfl, hi⟩, _⟩ | ⟨rfl, _⟩ <;> first | exact hi | rfl
  have hqb : m.hb q b := completes_after (hlaw T n h1 h2) h hv hdec hb
  obtain ⟨ct, p, hbg⟩ := begin_before (hlaw T n h1 h2) h.reach hv hdec
  -- decrements before position `q`
  have cnt : ∀ a v', a < q → k.sh.log[a]? = some (.ds v') → counts v' → counts v → m.hb a b := fun a v' ha hv' h1 h2 =>
    h.hb_trans (grows _ _ entry) (chain_ordered (chain T c) h hv' h1 hv h2 ha) hqb
  rcases hD with ⟨rfl, _⟩ | ⟨⟨w, l, rfl, hi⟩, _⟩ | ⟨_, hx⟩
  · refine ⟨q, by omega, ⟨ct, p, hbg⟩, hvq, ?_⟩
    intro a ha w hw
    obtain ⟨v', hv', hd', hc'⟩ : ∃ v', k.sh.log[a]? = some (.ds v') ∧ isDec v' ∧ counts v' := by
      rcases hw with hw | ⟨l, hw⟩
      · exact ⟨_, hw, trivial, trivial⟩
      · exact ⟨_, hw, trivial, trivial⟩
    have hat : (k.sh.log.take q)[a]? = some (.ds v') := by rw [List.getElem?_take_of_lt ha]; exact hv'
    obtain ⟨z, w', l', hz1, hz2⟩ := last_zero (hist_take hH q) hvq hat hd'
    have hzq := (List.getElem?_eq_some_iff.1 hz2).1
    rw [List.length_take] at hzq
    have hzq' : z < q := by omega
    rw [List.getElem?_take_of_lt hzq'] at hz2
    have hzb : m.hb z b := h.hb_trans (grows _ _ entry)
      (sections_ordered (hlaw T n h1 h2) h hz2 trivial hv trivial hzq') hqb
    by_cases haz : a = z
    · subst haz; exact hzb
    · exact h.hb_trans (grows _ _ entry) (chain_ordered (chain T c) h hv' hc' hz2 trivial (by omega)) hzb
  · refine ⟨q + 1, by omega, ⟨ct, p, ?_⟩, ?_, ?_⟩
    · rw [List.take_add_one]; simp [hbg]
    · rw [List.take_add_one, hv, Option.toList_some, count_append]
      simp only [countStep, hvq.2]
    · intro a ha w' hw
      by_cases haq : a = q
      · subst haq; exact hqb
      · rcases hw with hw | ⟨l', hw⟩
        · exact cnt a _ (by omega) hw trivial trivial
        · exact cnt a _ (by omega) hw trivial trivial
  · simp at hx

/-- The `wait_in_group` operation on whose behalf an instruction runs `done()`. -/
def doneOf : I T → Nat → Prop
  | .ld (some (j, _)), q | .cas _ (some (j, _)), q | .lock (some (j, _)), q => j = q
  | _, _ => False

theorem dcarry (T : Type) (c : Cfg) : DCarry (ds T c) (fun v j => ∃ x, v = .cdone j x) doneOf
    (fun v j => v = .dec (some j) ∨ ∃ l, v = .zero (some j) l) where
  call {d x d' q} h hi := by
    cases x with
    | ld w => cases w <;> simp [call, doneOf] at h hi
    | cas v w => simp [call] at h
    | lock w => simp [call] at h
    | _ => simp [doneOf] at hi
  start {d i b d' r es v q} h hv hc := by
    rcases start_cases h with ⟨rfl, rfl⟩ | ⟨rfl, rfl⟩ <;> simp at hv <;> subst hv <;> simp at hc
  cancel {d i d' r es v q} h hv hc := by
    rcases tryCancel_cases h with ⟨rfl, rfl⟩ | ⟨rfl, rfl⟩ <;> simp at hv
    subst hv; simp at hc
  exec {d x b d' ps es} h := by
    have hdec : ∀ {v : Nat} {w : Option (Nat × T)} {l : List (OpId ⊕ I T)}, decide_ v w = some l → ∀ y q, .inr y ∈ l →
        doneOf y q → ∃ x, w = some (q, x) := by
      intro v w l hl y q hy hd
      simp only [decide_] at hl
      repeat' split at hl
      all_goals simp at hl
      all_goals subst hl
      all_goals simp at hy
      all_goals subst hy
      all_goals (rcases w with _ | ⟨j, x⟩ <;> simp [doneOf] at hd; subst hd; exact ⟨x, rfl⟩)
    have hcont : ∀ {w : Option (Nat × T)} {y q}, .inr y ∈ cont w → ¬ doneOf y q := by
      intro w y q hy
      rcases w with _ | ⟨j, x⟩ <;> simp [cont] at hy
      subst hy; simp [doneOf]
    cases x <;> simp only [exec] at h
    case add k w =>
      cases w <;> simp at h <;> obtain ⟨_, rfl, rfl⟩ := h <;> refine ⟨fun y q hy hd => ?_, by simp⟩ <;> simp at hy
      subst hy; simp [doneOf] at hd
    case ld w =>
      simp only [Option.map_eq_some_iff] at h
      obtain ⟨l, hl, h⟩ := h
      simp at h; obtain ⟨_, rfl, rfl⟩ := h
      refine ⟨fun y q hy hd => ?_, by simp⟩
      obtain ⟨x, rfl⟩ := hdec hl y q hy hd
      exact .inl rfl
    case cas v w =>
      split at h
      · simp at h; obtain ⟨_, rfl, rfl⟩ := h
        refine ⟨fun y q hy hd => absurd hd (hcont hy), ?_⟩
        rcases w with _ | ⟨j, x⟩ <;> simp [doneOf]
      · simp only [Option.map_eq_some_iff] at h
        obtain ⟨l, hl, h⟩ := h
        simp at h; obtain ⟨_, rfl, rfl⟩ := h
        refine ⟨fun y q hy hd => ?_, by simp⟩
        obtain ⟨x, rfl⟩ := hdec hl y q hy hd
        exact .inl rfl
    case lock w =>
      repeat' split at h
      · simp at h
      · simp at h; obtain ⟨_, rfl, rfl⟩ := h
        refine ⟨fun y q hy hd => absurd hd (hcont hy), ?_⟩
        rcases w with _ | ⟨j, x⟩ <;> simp [doneOf]
      · simp at h; obtain ⟨_, rfl, rfl⟩ := h
        refine ⟨fun y q hy hd => ?_, ?_⟩
        · simp at hy; exact absurd hd (hcont hy)
        · rcases w with _ | ⟨j, x⟩ <;> simp [doneOf]
    case cdone j v =>
      simp at h; obtain ⟨_, rfl, rfl⟩ := h
      refine ⟨fun y q hy hd => ?_, by simp⟩
      simp at hy; subst hy
      simp [doneOf] at hd
      subst hd
      exact .inr ⟨_, List.mem_singleton.2 rfl, v, rfl⟩
    all_goals
      simp at h; obtain ⟨_, rfl, rfl⟩ := h
      exact ⟨by simp, by simp⟩

/-- When the count is zero, all wrapped senders that were started have completed and were counted. -/
theorem zero_dec (h1 : c.safeAdd = true) (h2 : c.safeDone = true) {k : Conf (mach (ds T c))} (h : WReach n k)
    (hz : count n k.sh.log = 0) (j : Nat) (hj : .ds (.cstart j) ∈ k.sh.log) :
    .ds (.dec (some j)) ∈ k.sh.log ∨ ∃ l, .ds (.zero (some j) l) ∈ k.sh.log := by
  obtain ⟨ph, ⟨hA, hB⟩, _⟩ := reach_inv (lawful n h1 h2) h
  have hu := hB.units
  rw [hA.cnt] at hz
  have hm : WStep.start ∈ trOf (k.sh.d.wst j) := by
    rw [← hB.tr]
    exact List.mem_filterMap.2 ⟨_, hj, by simp [wstep]⟩
  have hnd : ∀ y, y ∈ js j (dsPend k.acts) → isDone y = false := by
    intro y hy
    have hp := hB.pd
    have h0 : (dsPend k.acts).countP isDone = 0 := by omega
    rw [List.countP_eq_zero] at h0
    have := h0 y (List.mem_filter.1 hy).1
    simpa using this
  have hjs := hB.js j
  have hd : WStep.dec ∈ trOf (k.sh.d.wst j) := by
    cases hs : k.sh.d.wst j with
    | none => rw [hs] at hm; simp [trOf] at hm
    | called => rw [hs] at hm; simp [trOf] at hm
    | added => rw [hs] at hm; simp [trOf] at hm
    | running =>
      have := List.length_pos_of_mem ((hB.hmem j).2 (.inr hs))
      omega
    | told v =>
      rw [hs] at hjs; simp only [jsOk] at hjs
      have := hnd (.cdone j v) (by rw [hjs]; simp)
      simp [isDone] at this
    | decing v =>
      rw [hs] at hjs; simp only [jsOk] at hjs
      rcases hjs with hjs | ⟨k, hjs⟩ | hjs
      · have := hnd (.ld (some (j, v))) (by rw [hjs]; simp)
        simp [isDone] at this
      · have := hnd (.cas k (some (j, v))) (by rw [hjs]; simp)
        simp [isDone] at this
      · have := hnd (.lock (some (j, v))) (by rw [hjs]; simp)
        simp [isDone] at this
    | dropped v => simp [trOf]
    | fin v => simp [trOf]
  rw [← hB.tr] at hd
  obtain ⟨ev, hev, he⟩ := List.mem_filterMap.1 hd
  cases ev with
  | ds y =>
    cases y with
    | cdone k val' => simp [wstep] at he
    | add n w => cases w <;> simp [wstep] at he
    | dec w => cases w <;> simp [wstep] at he; subst he; exact .inl hev
    | zero w l => cases w <;> simp [wstep] at he; subst he; exact .inr ⟨l, hev⟩
    | cstart k => simp [wstep] at he
    | wdone k v => simp [wstep] at he
    | _ => simp [wstep] at he
  | _ => simp [wstep] at he

/-- The same for every moment of an execution. -/
theorem zero_dec_take (h1 : c.safeAdd = true) (h2 : c.safeDone = true) {k : Conf (mach (ds T c))} (h : WReach n k)
    (z : Nat) (hz : count n (k.sh.log.take z) = 0) (j : Nat) (hj : .ds (.cstart j) ∈ k.sh.log.take z) :
    .ds (.dec (some j)) ∈ k.sh.log.take z ∨ ∃ l, .ds (.zero (some j) l) ∈ k.sh.log.take z := by
  have hp := Reach.prefixes (M := mach (ds T c)) (fun s => s.log) (Q := fun l : List (Event T c) => count n l = 0 →
    ∀ j, .ds (.cstart j) ∈ l → .ds (.dec (some j)) ∈ l ∨ ∃ l', .ds (.zero (some j) l') ∈ l) rfl
    (fun s acts a s' p he => ?_) (fun s x b s' p he => ?_) (fun c hc => zero_dec h1 h2 hc) h
  · by_cases hlt : z < k.sh.log.length
    · have hsp : k.sh.log[z]? = some k.sh.log[z] := List.getElem?_eq_getElem hlt
      exact hp _ _ _ (split_at hsp) hz j hj
    · rw [List.take_of_length_le (by omega)] at hz hj ⊢
      exact zero_dec h1 h2 h hz j hj
  · have he' : env s acts a = some (s', p) := he
    cases a <;> simp only [env] at he' <;> repeat' split at he'
    all_goals simp at he'
    all_goals obtain ⟨rfl, rfl⟩ := he'
    all_goals first
      | exact .inl rfl
      | exact .inr ⟨_, rfl⟩
  · have he' : Resolver.exec s x b = .ok s' p := he
    have one : ∀ es : List (E T), (es = [] ∨ ∃ v, es = [v]) → s'.log = s.log ++ es.map (Ev.ds (S := ds T c)) →
        s'.log = s.log ∨ ∃ v, s'.log = s.log ++ [v] := by
      rintro es (rfl | ⟨v, rfl⟩) h
      · exact .inl (by simpa using h)
      · exact .inr ⟨_, by simpa using h⟩
    cases x <;> simp only [Resolver.exec] at he'
    case start j =>
      split at he' <;> simp at he' <;> obtain ⟨rfl, rfl⟩ := he' <;> rename_i hs <;> refine one _ ?_ rfl <;>
        (rcases start_cases hs with ⟨_, rfl⟩ | ⟨_, rfl⟩ <;> simp)
    case tryCancel j l =>
      split at he'
      · simp at he'
      · rename_i hs
        simp at he'; obtain ⟨rfl, rfl⟩ := he'
        refine one _ ?_ rfl
        rcases tryCancel_cases hs with ⟨_, rfl⟩ | ⟨_, rfl⟩ <;> simp
    case ds x =>
      split at he'
      · simp at he'
      · rename_i hs
        simp at he'; obtain ⟨rfl, rfl⟩ := he'
        refine one _ ?_ rfl
        cases x <;> simp only [exec] at hs
        case add k w => cases w <;> simp at hs <;> obtain ⟨_, rfl, rfl⟩ := hs <;> simp
        case ld w =>
          simp only [Option.map_eq_some_iff] at hs
          obtain ⟨l, hl, hs⟩ := hs
          simp at hs; simp [← hs.2.2]
        case cas v w =>
          split at hs
          · simp at hs; simp [← hs.2.2]
          · simp only [Option.map_eq_some_iff] at hs
            obtain ⟨l, hl, hs⟩ := hs
            simp at hs; simp [← hs.2.2]
        case lock w =>
          repeat' split at hs
          all_goals simp at hs
          all_goals simp [← hs.2.2]
        all_goals
          simp at hs
          simp [← hs.2.2]
    all_goals
      repeat' split at he'
      all_goals simp at he'
      all_goals obtain ⟨rfl, rfl⟩ := he'
      all_goals first
        | exact .inl rfl
        | exact .inr ⟨_, rfl⟩

/-- C53. The wrapped senders of `wait_in_group` happen before the completion of a wait: there was a moment, after the wait
was started, at which the count was zero, and all wrapped senders that were started before that moment have completed, and
their completions happen before the completion of the wait. -/
theorem C53_wrapped_before_wait (h1 : c.safeAdd = true) (h2 : c.safeDone = true)
    (h : HReach (ann (ords T c) entry) (RSt.init (init n)) k m) {b : Nat} {i : OpId}
    (hb : k.sh.log[b]? = some (.done i true)) :
    ∃ z ≤ b, (∃ ct p, Ev.begin i ct p ∈ k.sh.log.take z) ∧ count n (k.sh.log.take z) = 0 ∧
      ∀ j, .ds (.cstart j) ∈ k.sh.log.take z → ∃ e v, k.sh.log[e]? = some (.ds (.cdone j v)) ∧ m.hb e b := by
  obtain ⟨z, hz, hbg, h0, hd⟩ := C53_done_before_wait h1 h2 h hb
  refine ⟨z, hz, hbg, h0, fun j hj => ?_⟩
  have key : ∃ a v, a < z ∧ k.sh.log[a]? = some (.ds v) ∧ (v = .dec (some j) ∨ ∃ l, v = .zero (some j) l) := by
    rcases zero_dec_take h1 h2 h.reach z h0 j hj with h3 | ⟨l, h3⟩
    · obtain ⟨a, ha⟩ := List.getElem?_of_mem h3
      have := (List.getElem?_eq_some_iff.1 ha).1
      rw [List.length_take] at this
      rw [List.getElem?_take_of_lt (by omega)] at ha
      exact ⟨a, _, by omega, ha, .inl rfl⟩
    · obtain ⟨a, ha⟩ := List.getElem?_of_mem h3
      have := (List.getElem?_eq_some_iff.1 ha).1
      rw [List.length_take] at this
      rw [List.getElem?_take_of_lt (by omega)] at ha
      exact ⟨a, _, by omega, ha, .inr ⟨l, rfl⟩⟩
  obtain ⟨a, v, ha, hv, ht⟩ := key
  obtain ⟨e, w, he, ⟨x, rfl⟩, hea⟩ := (dcarry T c).knows h hv ht
  refine ⟨e, x, he, h.hb_trans (grows _ _ entry) hea (hd a ha (some j) ?_)⟩
  rcases ht with rfl | ⟨l, rfl⟩
  · exact .inl hv
  · exact .inr ⟨l, hv⟩

/-- C53 for `oneshot_event`: a wait completes with true only if a call of `raise()` happens before. -/
theorem C53_raise_before_wait {entry : RSt (ds T oneshot) → Act (ds T oneshot) → Nat → Bool}
    {k : Conf (mach (ds T oneshot))} {m : Mem (Loc (ords T oneshot).A)}
    (h : HReach (ann (ords T oneshot) entry) (RSt.init (init 1)) k m) {b : Nat} {i : OpId}
    (hb : k.sh.log[b]? = some (.done i true)) :
    ∃ a w l, k.sh.log[a]? = some (.ds (.zero w l)) ∧ m.hb a b := by
  obtain ⟨z, hz, _, h0, hd⟩ := C53_done_before_wait rfl rfl h hb
  obtain ⟨ph, ⟨hA, _⟩, _⟩ := reach_inv (lawful 1 rfl rfl) h.reach
  have key : ∀ l : List (Event T oneshot), count 1 l = 0 → ∃ v, isDec v ∧ .ds v ∈ l := by
    intro l
    induction l using List.reverseRecOn with
    | nil => simp
    | append_singleton l u ih =>
      intro hc
      rw [count_append] at hc
      have old : count 1 l = 0 → ∃ v, isDec v ∧ .ds v ∈ l ++ [u] := by
        intro h; obtain ⟨v, h1, h2⟩ := ih h; exact ⟨v, h1, by simp [h2]⟩
      cases u with
      | ds y =>
        cases y with
        | zero w l => exact ⟨.zero w l, trivial, by simp⟩
        | dec w => exact ⟨.dec w, trivial, by simp⟩
        | add k w => simp only [countStep] at hc; exact old (by omega)
        | _ => exact old hc
      | _ => exact old hc
  obtain ⟨v, hv, hm⟩ := key _ h0
  obtain ⟨a, ha⟩ := List.getElem?_of_mem hm
  obtain ⟨q, w, l, haq, hq⟩ := last_zero (hist_take hA.hist z) h0 ha hv
  have := (List.getElem?_eq_some_iff.1 hq).1
  rw [List.length_take] at this
  rw [List.getElem?_take_of_lt (by omega)] at hq
  exact ⟨q, w, l, hq, hd q (by omega) w (.inr ⟨l, hq⟩)⟩

/-- C53. If a wait is cancelled then a cancellation of its event happens before its completion. -/
theorem C53_cancel_before_completion (h1 : c.safeAdd = true) (h2 : c.safeDone = true)
    (h : HReach (ann (ords T c) entry) (RSt.init (init n)) k m) {b : Nat} {i : OpId}
    (hb : k.sh.log[b]? = some (.done i false)) :
    ∃ ev e, k.sh.ct i = some ev ∧ k.sh.log[e]? = some (.cancel ev) ∧ m.hb e b := by
  obtain ⟨q, v, hq, hv, hD⟩ := (marks T n h1 h2).decided h.reach hb
  rcases hD with ⟨_, hx⟩ | ⟨_, hx⟩ | ⟨rfl, _⟩
  · simp at hx
  · simp at hx
  · obtain ⟨ev, e, h3, h4, h5⟩ := withdrawn_after_cancel (lawful n h1 h2) (hcanc T c) h hv rfl
    exact ⟨ev, e, h3, h4, h.hb_trans (grows _ _ entry) h5 (completes_after (hlaw T n h1 h2) h hv rfl hb)⟩

/-- C53. Creating and starting a wait happens before its completion. -/
theorem C53_created_before_completion (h1 : c.safeAdd = true) (h2 : c.safeDone = true)
    (h : HReach (ann (ords T c) entry) (RSt.init (init n)) k m) {a b : Nat} {i : OpId} {ct : Option EvId} {x : Bool}
    (ha : k.sh.log[a]? = some (.begin i ct ())) (hb : k.sh.log[b]? = some (.done i x)) (hab : a < b) : m.hb a b :=
  created_before_completion (hlaw T n h1 h2) h ha hb hab

/-! ## Examples -/

/-- A group with count 2. Operation 0 waits. Two calls of `done()` on two threads. -/
def hdemo : Conf (mach (ds Nat ⟨true, true, true⟩)) × Mem (Loc (ords Nat ⟨true, true, true⟩).A) :=
  (ann (ords Nat ⟨true, true, true⟩) (fun _ _ _ => false)).go (RSt.init (init 2))
    [.env (.newOp 0 none ()), .run 0 true, .run 0 true, .run 0 true,
     .env (.call (.ld none)), .run 1 true, .run 1 true,
     .env (.call (.ld none)), .run 2 true, .run 2 true, .run 2 true, .run 2 true, .run 2 true, .run 2 true]

example : hdemo.1.sh.log[2]? = some (.ds (.dec none)) := rfl
example : hdemo.1.sh.log[3]? = some (.ds (.zero none [0])) := rfl
example : hdemo.1.sh.log[4]? = some (.done 0 true) := rfl
example : hdemo.2.hb 2 4 ∧ hdemo.2.hb 3 4 ∧ hdemo.2.hb 0 4 := by decide

/-- A `wait_in_group` operation, then a wait that finds the count zero. -/
def hdemo' : Conf (mach (ds Nat ⟨true, true, true⟩)) × Mem (Loc (ords Nat ⟨true, true, true⟩).A) :=
  (ann (ords Nat ⟨true, true, true⟩) (fun _ _ _ => false)).go (RSt.init (init 0))
    [.env (.call (.add 1 (some 5))), .run 0 true, .run 0 true, .env (.call (.cdone 5 7)), .run 1 true, .run 1 true,
     .run 1 true, .run 1 true, .env (.newOp 0 none ()), .run 2 true, .run 2 true]

example : hdemo'.1.sh.log[1]? = some (.ds (.cstart 5)) := rfl
example : hdemo'.1.sh.log[2]? = some (.ds (.cdone 5 7)) := rfl
example : hdemo'.1.sh.log[7]? = some (.done 0 true) := rfl
example : hdemo'.2.hb 2 7 := by decide

/-- A wait that is cancelled. -/
def hdemoC : Conf (mach (ds Nat oneshot)) × Mem (Loc (ords Nat oneshot).A) :=
  (ann (ords Nat oneshot) (fun _ _ _ => false)).go (RSt.init (init 1))
    [.env (.newOp 0 (some 1) ()), .run 0 true, .run 0 true, .run 0 true, .run 0 true,
     .env (.cancel 1), .run 1 true, .run 1 true, .run 1 true, .run 1 true]

example : hdemoC.1.sh.log[4]? = some (.done 0 false) := rfl
example : hdemoC.2.hb 2 4 := by decide

/-- A wait that `raise()` completes. -/
def hdemoR : Conf (mach (ds Nat oneshot)) × Mem (Loc (ords Nat oneshot).A) :=
  (ann (ords Nat oneshot) (fun _ _ _ => false)).go (RSt.init (init 1))
    [.env (.newOp 0 none ()), .run 0 true, .run 0 true, .run 0 true, .env (.call (.ld none)), .run 1 true, .run 1 true,
     .run 1 true, .run 1 true, .run 1 true]

example : hdemoR.1.sh.log[3]? = some (.done 0 true) := rfl
example : hdemoR.2.hb 2 3 := by decide

example : ∃ z ≤ 4, (∃ ct p, Ev.begin 0 ct p ∈ hdemo.1.sh.log.take z) ∧ count 2 (hdemo.1.sh.log.take z) = 0 ∧
    ∀ a < z, ∀ w, (hdemo.1.sh.log[a]? = some (.ds (.dec w)) ∨ ∃ l, hdemo.1.sh.log[a]? = some (.ds (.zero w l))) →
      hdemo.2.hb a 4 :=
  C53_done_before_wait rfl rfl (HReach.go _ _ _) (b := 4) rfl
example : ∃ z ≤ 7, (∃ ct p, Ev.begin 0 ct p ∈ hdemo'.1.sh.log.take z) ∧ count 0 (hdemo'.1.sh.log.take z) = 0 ∧
    ∀ j, .ds (.cstart j) ∈ hdemo'.1.sh.log.take z → ∃ e v, hdemo'.1.sh.log[e]? = some (.ds (.cdone j v)) ∧ hdemo'.2.hb e 7 :=
  C53_wrapped_before_wait rfl rfl (HReach.go _ _ _) (b := 7) rfl
example : hdemo.2.hb 0 4 :=
  C53_created_before_completion rfl rfl (HReach.go _ _ _) (a := 0) (b := 4) (i := 0) rfl rfl (by omega)
example : ∃ ev e, hdemoC.1.sh.ct 0 = some ev ∧ hdemoC.1.sh.log[e]? = some (.cancel ev) ∧ hdemoC.2.hb e 4 :=
  C53_cancel_before_completion rfl rfl (HReach.go _ _ _) (b := 4) rfl
example : ∃ a w l, hdemoR.1.sh.log[a]? = some (.ds (.zero w l)) ∧ hdemoR.2.hb a 3 :=
  C53_raise_before_wait (HReach.go _ _ _) (i := 0) (b := 3) rfl

end Verif.WaitGroup
