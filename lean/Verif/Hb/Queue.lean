import Verif.Hb.ResolverProps
import Verif.Queue.Props

/-!
# Happens-before for `queue`

`emplace` (queue.hpp line 53), `get_operation::start` (line 81), `try_cancel` (line 34) and `maybe_get` (line 149) are
critical sections of `mutex_`; there are no atomic variables.
-/

namespace Verif.Queue

open Resolver

variable {T : Type}

/-- Memory accesses of the queue. -/
def ords (T : Type) : Ords (ds T) where
  A := Empty
  dec := inferInstance
  start _ _ _ := []
  tryCancel _ _ := []
  locked _ _ _ := true
  exec _ _ _ := []

/-- The events that decide the fate of a `get` operation. -/
def decides : E T → OpId → Prop
  | .claim (some j) _, i | .unq j, i => j = i
  | _, _ => False

theorem hlaw (T : Type) : HLaw (ords T) (lawful T) (fun _ => True) (fun _ v i => decides v i) where
  unlocked _ h := by simp [ords] at h
  start {d i b d' r es v j log} h hv hd := by
    simp only [start] at h
    split at h
    · split at h
      · simp at h; obtain ⟨_, rfl, rfl⟩ := h
        simp at hv; subst hv; simp [decides] at hd; exact ⟨hd.symm, _, rfl⟩
      · simp at h
    · simp at h; obtain ⟨_, rfl, rfl⟩ := h
      simp at hv; subst hv; simp [decides] at hd
  cancel {d i d' r es v j log} h hv hd := by
    simp only [tryCancel] at h
    split at h
    · split at h
      · simp at h; obtain ⟨_, rfl, rfl⟩ := h
        simp at hv; subst hv; simp [decides] at hd; exact ⟨hd.symm, rfl⟩
      · simp at h
    · simp at h; obtain ⟨_, rfl, rfl⟩ := h
      simp at hv
  exec {d ph log pi x b d' ps l1 v l2 j} _ h hd := by
    cases x <;> simp only [exec] at h
    · split at h
      · split at h
        · simp at h; obtain ⟨_, rfl, h⟩ := h
          have hv : v ∈ l1 ++ v :: l2 := by simp
          rw [← h] at hv
          simp at hv
          rcases hv with rfl | rfl
          · simp [decides] at hd
          · simp [decides] at hd; subst hd; simp [ops]
        · simp at h
      · simp at h; obtain ⟨_, rfl, h⟩ := h
        have hv : v ∈ l1 ++ v :: l2 := by simp
        rw [← h] at hv
        simp at hv; subst hv; simp [decides] at hd
    · split at h
      · simp at h
      · simp at h; obtain ⟨_, rfl, h⟩ := h
        have hv : v ∈ l1 ++ v :: l2 := by simp
        rw [← h] at hv
        simp at hv; subst hv; simp [decides] at hd

theorem hcanc (T : Type) : HCanc (ds T) (fun v i => v = .unq i) where
  start {d i b d' r es} h e he j hc := by
    subst hc
    simp only [start] at h
    split at h
    · split at h
      · simp at h; obtain ⟨_, rfl, rfl⟩ := h; simp at he
      · simp at h
    · simp at h; obtain ⟨_, rfl, rfl⟩ := h; simp at he
  exec {d x b d' ps es} h e he j hc := by
    subst hc
    cases x <;> simp only [exec] at h <;> repeat' split at h
    all_goals simp at h
    all_goals obtain ⟨_, rfl, rfl⟩ := h
    all_goals simp at he
  cancel {d i d' r es} h e he j hc := by
    subst hc
    simp only [tryCancel] at h
    repeat' split at h
    all_goals simp at h
    all_goals obtain ⟨_, rfl, rfl⟩ := h
    all_goals simp at he
    exact he

/-- The items are handed out in the order in which they were put, and what a `get` returns was handed to it before. -/
def handed (before : List (Event T)) : Event T → Prop
  | .ds (.claim _ y) => (puts before)[(claims before).length]? = some y
  | .done i (some y) => .ds (.claim (some i) y) ∈ before
  | .done i none => .ds (.unq i) ∈ before
  | _ => True

theorem mem_claimsOf {i : OpId} {y : T} {log : List (Event T)} (h : claimsOf i log = [y]) :
    .ds (.claim (some i) y) ∈ log := by
  have : y ∈ claimsOf i log := by simp [h]
  simp only [claimsOf, List.mem_filterMap] at this
  obtain ⟨v, hv, h2⟩ := this
  split at h2
  · split at h2
    · rename_i hj; simp at h2; subst h2; subst hj; exact hv
    · simp at h2
  · simp at h2

theorem hist_handed {c : Conf (mach (ds T))} (h : QReach c) : Hist handed c.sh.log := by
  refine Reach.inv_with (M := mach (ds T)) (P := RInv (lawful T)) (Q := fun s _ => Hist handed s.log)
    (fun c hc => reach_inv (lawful T) hc) (by simp [RSt.init, Hist.nil]) ?_ ?_ h
  · intro s acts a s' p _ _ hQ he
    cases a <;> simp only [env] at he <;> repeat' split at he
    all_goals simp at he
    all_goals obtain ⟨rfl, rfl⟩ := he
    all_goals first
      | exact hQ
      | (simp only [Hist.snoc]; exact ⟨hQ, trivial⟩)
  · intro s acts k x r b s' p hr hr' hQ hk he
    obtain ⟨ph, hI, hC⟩ := hr
    obtain ⟨ph', hI', hC'⟩ := hr'
    have hdone : ∀ j v, s'.log = s.log ++ [.done j v] → Hist handed s'.log := by
      intro j v hl
      have hm : Ev.done j v ∈ s'.log := by simp [hl]
      have hd := (hI'.done j v hm).2
      rw [hl]
      simp only [Hist.snoc]
      refine ⟨hQ, ?_⟩
      rw [hl] at hd
      cases v with
      | none => have := (hd.2 rfl).1; simpa [handed] using this
      | some y => have := mem_claimsOf hd.1; simpa [handed] using this
    have hbuf := hI.items
    cases x <;> simp only [Resolver.exec] at he
    case setFast j v => simp at he; exact hdone j v (by rw [← he.1])
    case resume j => simp at he; exact hdone j _ (by rw [← he.1])
    case start j =>
      split at he
      · simp at he
      all_goals
        rename_i hs
        simp at he; obtain ⟨rfl, rfl⟩ := he
        simp only [start] at hs
        split at hs
        · rename_i y rest hb
          split at hs
          · simp at hs
            try (obtain ⟨_, _, rfl⟩ := hs
                 simp only [List.map_cons, List.map_nil, Hist.snoc]
                 refine ⟨hQ, ?_⟩
                 simp [handed, hbuf, hb])
          · simp at hs
        · simp at hs
          try (obtain ⟨_, rfl⟩ := hs
               simp only [List.map_cons, List.map_nil, Hist.snoc]
               exact ⟨hQ, trivial⟩)
    case tryCancel j l =>
      split at he
      · simp at he
      · rename_i hs
        simp at he; obtain ⟨rfl, rfl⟩ := he
        simp only [tryCancel] at hs
        repeat' split at hs
        all_goals simp at hs
        all_goals obtain ⟨_, rfl, rfl⟩ := hs
        · simp only [List.map_cons, List.map_nil, Hist.snoc]; exact ⟨hQ, trivial⟩
        · simpa using hQ
    case ds x =>
      split at he
      · simp at he
      · rename_i hs
        simp at he; obtain ⟨rfl, rfl⟩ := he
        cases x <;> simp only [exec] at hs
        · split at hs
          · split at hs
            · rename_i hb
              simp at hs; obtain ⟨_, rfl, rfl⟩ := hs
              have : ∀ a b : Event T, s.log ++ [a, b] = (s.log ++ [a]) ++ [b] := by simp
              simp only [List.map_cons, List.map_nil, this, Hist.snoc]
              refine ⟨⟨hQ, trivial⟩, ?_⟩
              have h1 : puts s.log = claims s.log := by rw [hbuf, hb]; simp
              simp [handed, puts, claims] at h1 ⊢
              rw [← h1]
              simp
            · simp at hs
          · simp at hs; obtain ⟨_, rfl, rfl⟩ := hs
            simp only [List.map_cons, List.map_nil, Hist.snoc]; exact ⟨hQ, trivial⟩
        · split at hs
          · simp at hs; obtain ⟨_, rfl, rfl⟩ := hs; simpa using hQ
          · rename_i hb
            simp at hs; obtain ⟨_, rfl, rfl⟩ := hs
            simp only [List.map_cons, List.map_nil, Hist.snoc]
            refine ⟨hQ, ?_⟩
            simp [handed, hbuf, hb]
    case cancel e =>
      simp at he; obtain ⟨rfl, rfl⟩ := he
      simp only [Hist.snoc]; exact ⟨hQ, trivial⟩
    all_goals
      repeat' split at he
      all_goals simp at he
      all_goals obtain ⟨rfl, rfl⟩ := he
      all_goals exact hQ

/-- The place of an element that a filter keeps. -/
theorem filterMap_pos {α β : Type} {f : α → Option β} {l : List α} {k : Nat} {y : β}
    (h : (l.filterMap f)[k]? = some y) :
    ∃ a x, l[a]? = some x ∧ f x = some y ∧ ((l.take a).filterMap f).length = k := by
  induction l generalizing k with
  | nil => simp at h
  | cons z l ih =>
    cases hz : f z with
    | none =>
      rw [List.filterMap_cons_none hz] at h
      obtain ⟨a, x, h1, h2, h3⟩ := ih h
      exact ⟨a + 1, x, by simpa using h1, h2, by simp [hz, h3]⟩
    | some w =>
      rw [List.filterMap_cons_some hz] at h
      cases k with
      | zero => simp at h; subst h; exact ⟨0, z, by simp, hz, by simp⟩
      | succ k =>
        simp at h
        obtain ⟨a, x, h1, h2, h3⟩ := ih h
        exact ⟨a + 1, x, by simpa using h1, h2, by simp [hz, h3]⟩

theorem split_at {α : Type} {l : List α} {n : Nat} {v : α} (h : l[n]? = some v) : l = l.take n ++ v :: l.drop (n + 1) := by
  have hl := (List.getElem?_eq_some_iff.1 h).1
  have hw := (List.getElem?_eq_some_iff.1 h).2
  rw [← hw, List.getElem_cons_drop, List.take_append_drop]

variable {entry : RSt (ds T) → Act (ds T) → Nat → Bool} {c : Conf (mach (ds T))} {m : Mem (Loc (ords T).A)}

/-- C52. Every item that is handed out, to a `get` operation or by `maybe_get()`, was put by a call of `put` or `emplace`
that happens before. The put and the hand-over are those of the same item: as many items were put before the one as were
handed out before the other. -/
theorem C52_put_before_claim (h : HReach (ann (ords T) entry) (RSt.init init) c m) {b : Nat} {who : Option OpId} {y : T}
    (hb : c.sh.log[b]? = some (.ds (.claim who y))) :
    ∃ a, c.sh.log[a]? = some (.ds (.put y)) ∧
      (puts (c.sh.log.take a)).length = (claims (c.sh.log.take b)).length ∧ m.hb a b := by
  have h1 := hist_handed h.reach _ _ _ (split_at hb)
  simp only [handed, puts] at h1
  obtain ⟨a, x, h2, h3, h4⟩ := filterMap_pos h1
  have hlt := (List.getElem?_eq_some_iff.1 h2).1
  simp at hlt
  rw [List.getElem?_take, if_pos (by omega)] at h2
  rw [List.take_take, Nat.min_eq_left (by omega)] at h4
  split at h3
  · simp at h3; subst h3
    exact ⟨a, h2, h4, sections_ordered (hlaw T) h h2 trivial hb trivial (by omega)⟩
  · simp at h3

/-- C52. If `get` returns an item then the call that put this item happens before. -/
theorem C52_put_before_get (h : HReach (ann (ords T) entry) (RSt.init init) c m) {n : Nat} {i : OpId} {y : T}
    (hn : c.sh.log[n]? = some (.done i (some y))) :
    ∃ a b, c.sh.log[a]? = some (.ds (.put y)) ∧ c.sh.log[b]? = some (.ds (.claim (some i) y)) ∧
      (puts (c.sh.log.take a)).length = (claims (c.sh.log.take b)).length ∧ m.hb a n := by
  have h1 := hist_handed h.reach _ _ _ (split_at hn)
  simp only [handed] at h1
  obtain ⟨b, hb⟩ := List.getElem?_of_mem h1
  have hlt := (List.getElem?_eq_some_iff.1 hb).1
  simp at hlt
  rw [List.getElem?_take, if_pos (by omega)] at hb
  obtain ⟨a, h2, h3, h4⟩ := C52_put_before_claim h hb
  refine ⟨a, b, h2, hb, h3, h.hb_trans (grows _ _ entry) h4 (completes_after (hlaw T) h hb ?_ hn)⟩
  simp [decides]

/-- C52. If `get` is cancelled then a cancellation of its event happens before its completion. -/
theorem C52_cancel_before_completion (h : HReach (ann (ords T) entry) (RSt.init init) c m) {n : Nat} {i : OpId}
    (hn : c.sh.log[n]? = some (.done i none)) :
    ∃ ev e, c.sh.ct i = some ev ∧ c.sh.log[e]? = some (.cancel ev) ∧ m.hb e n := by
  have h1 := hist_handed h.reach _ _ _ (split_at hn)
  simp only [handed] at h1
  obtain ⟨b, hb⟩ := List.getElem?_of_mem h1
  have hlt := (List.getElem?_eq_some_iff.1 hb).1
  simp at hlt
  rw [List.getElem?_take, if_pos (by omega)] at hb
  obtain ⟨ev, e, h2, h3, h4⟩ := withdrawn_after_cancel (lawful T) (hcanc T) h hb rfl
  refine ⟨ev, e, h2, h3, h.hb_trans (grows _ _ entry) h4 (completes_after (hlaw T) h hb ?_ hn)⟩
  simp [decides]

/-- C52. Creating and starting a `get` operation happens before its completion. -/
theorem C52_created_before_completion (h : HReach (ann (ords T) entry) (RSt.init init) c m) {a n : Nat} {i : OpId}
    {ct : Option EvId} {x : Option T} (ha : c.sh.log[a]? = some (.begin i ct ())) (hn : c.sh.log[n]? = some (.done i x))
    (han : a < n) : m.hb a n :=
  created_before_completion (hlaw T) h ha hn han

/-! ## Example -/

/-- Operation 0 suspends, `put(7)` completes it. -/
def hdemo : Conf (mach (ds Nat)) × Mem (Loc (ords Nat).A) :=
  (ann (ords Nat) (fun _ _ _ => false)).go (RSt.init init)
    [.env (.newOp 0 none ()), .run 0 true, .run 0 true, .run 0 true,
     .env (.call (.put 7)), .run 1 true, .run 1 true, .run 1 true, .run 1 true]

example : hdemo.1.sh.log[2]? = some (.ds (.put 7)) := rfl
example : hdemo.1.sh.log[3]? = some (.ds (.claim (some 0) 7)) := rfl
example : hdemo.1.sh.log[4]? = some (.done 0 (some 7)) := rfl
example : hdemo.2.hb 2 4 ∧ hdemo.2.hb 0 4 ∧ hdemo.2.hb 1 2 := by decide

/-- Operation 0 suspends and is cancelled. -/
def hdemo' : Conf (mach (ds Nat)) × Mem (Loc (ords Nat).A) :=
  (ann (ords Nat) (fun _ _ _ => false)).go (RSt.init init)
    [.env (.newOp 0 (some 1) ()), .run 0 true, .run 0 true, .run 0 true, .run 0 true,
     .env (.cancel 1), .run 1 true, .run 1 true, .run 1 true, .run 1 true]

example : hdemo'.1.sh.log[2]? = some (.cancel 1) := rfl
example : hdemo'.1.sh.log[4]? = some (.done 0 none) := rfl
example : hdemo'.2.hb 2 4 := by decide

example : ∃ a b, hdemo.1.sh.log[a]? = some (.ds (.put 7)) ∧ hdemo.1.sh.log[b]? = some (.ds (.claim (some 0) 7)) ∧
    (puts (hdemo.1.sh.log.take a)).length = (claims (hdemo.1.sh.log.take b)).length ∧ hdemo.2.hb a 4 :=
  C52_put_before_get (HReach.go _ _ _) (n := 4) rfl
example : ∃ a, hdemo.1.sh.log[a]? = some (.ds (.put 7)) ∧
    (puts (hdemo.1.sh.log.take a)).length = (claims (hdemo.1.sh.log.take 3)).length ∧ hdemo.2.hb a 3 :=
  C52_put_before_claim (HReach.go _ _ _) (b := 3) (who := some 0) rfl
example : hdemo.2.hb 0 4 := C52_created_before_completion (HReach.go _ _ _) (a := 0) (n := 4) (i := 0) rfl rfl (by omega)
example : ∃ ev e, hdemo'.1.sh.ct 0 = some ev ∧ hdemo'.1.sh.log[e]? = some (.cancel ev) ∧ hdemo'.2.hb e 4 :=
  C52_cancel_before_completion (HReach.go _ _ _) (n := 4) rfl

end Verif.Queue
