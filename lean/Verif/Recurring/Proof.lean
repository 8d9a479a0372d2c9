import Verif.Recurring.Model
import Mathlib.Data.List.Induction

namespace Verif.Recurring

open Resolver

variable {X : User}

@[simp] theorem waiters_nil : waiters ([] : List (Event X)) = [] := rfl
@[simp] theorem waiters_append (l : List (Event X)) (v : Event X) :
    waiters (l ++ [v]) = waitStep (waiters l) v := by simp [waiters]
@[simp] theorem uOf_append (u0 : X.U) (l : List (Event X)) (v : Event X) :
    uOf u0 (l ++ [v]) = uStep (uOf u0 l) v := by simp [uOf]
theorem wakes_append (i : OpId) (l : List (Event X)) (v : Event X) :
    wakes i (l ++ [v]) = wakes i l + match v with | .ds (.raise w) => w.count i | _ => 0 := by
  cases v <;> simp [wakes]
  rename_i x; cases x <;> simp

/-- The actions among pending instructions. -/
def actsOf : List (I X) → List X.A
  | [] => []
  | .act a :: l => a :: actsOf l
  | .raise :: l => actsOf l

/-- Number of pending raises. -/
def raises : List (I X) → Nat
  | [] => 0
  | .act _ :: l => raises l
  | .raise :: l => raises l + 1

theorem actsOf_perm {l l' : List (I X)} (h : l.Perm l') : (actsOf l).Perm (actsOf l') := by
  induction h with
  | nil => exact .nil
  | cons x _ ih => cases x <;> simp [actsOf, ih]
  | swap x y l => cases x <;> cases y <;> simp [actsOf]; exact List.Perm.swap _ _ _
  | trans _ _ h1 h2 => exact h1.trans h2

theorem raises_perm {l l' : List (I X)} (h : l.Perm l') : raises l = raises l' := by
  induction h with
  | nil => rfl
  | cons x _ ih => cases x <;> simp [raises, ih]
  | swap x y l => cases x <;> cases y <;> simp [raises]
  | trans _ _ h1 h2 => exact h1.trans h2

/-- What an event says given the events before it. -/
def hist (u0 : X.U) (before : List (Event X)) : Event X → Prop
  | .ds (.raise l) => l = waiters before ∧ (Flushing X → ∀ i ∈ l,
      (.ds (.enq i false) : Event X) ∈ before → ∀ ct p, Ev.begin i ct p ∈ before →
        X.cond (uOf u0 before) p = some false)
  | .ds (.enq i _) => ∃ ct p, Ev.begin i ct p ∈ before ∧ X.cond (uOf u0 before) p = some true
  | .ds (.skip i) => ∃ ct p, Ev.begin i ct p ∈ before ∧ X.cond (uOf u0 before) p = some false
  | .ds (.act a f r) => ∃ u', X.act (uOf u0 before) a = some (u', f, r)
  | .done i .awaited => ∃ l, (.ds (.raise l) : Event X) ∈ before ∧ i ∈ l
  | .done i .conditionFailed => (.ds (.skip i) : Event X) ∈ before
  | .done i .cancelled => (.ds (.unq i) : Event X) ∈ before ∧
      ∃ e p, Ev.begin i (some e) p ∈ before ∧ Ev.cancel e ∈ before
  | .begin _ _ p => X.admit (uOf u0 before) p = true
  | _ => True

/-- Invariant. -/
structure Inv {u0 : X.U} (O : UserOk X u0) (d : D X) (ph : OpId → Phase Res)
    (log : List (Event X)) (pi : List (I X)) : Prop where
  nodup : d.queue.Nodup
  mem : ∀ i, i ∈ d.queue ↔ ph i = .waiting
  stW : ∀ i, ph i = .waiting → d.st i = .submitted
  stN : ∀ i, ph i = .new → d.st i = .none
  stT : ∀ i, ph i = .taken → d.st i = .pending ∧ ∃ l, (.ds (.raise l) : Event X) ∈ log ∧ i ∈ l
  stG : ∀ i, ph i = .gone → d.st i = .cancelled ∧ (.ds (.unq i) : Event X) ∈ log ∧
      ∃ e p, Ev.begin i (some e) p ∈ log ∧ Ev.cancel e ∈ log
  fast : ∀ i v, ph i = .fast v → v = .conditionFailed ∧ (.ds (.skip i) : Event X) ∈ log
  wake1 : ∀ i, wakes i log ≤ 1 ∧ ((ph i = .new ∨ ph i = .waiting) → wakes i log = 0)
  mark : ∀ i l, (.ds (.raise l) : Event X) ∈ log → i ∈ l →
    ph i = .taken ∨ (ph i = .fin ∧ Ev.done i Res.awaited ∈ log)
  key : ∀ i ct p, Ev.begin i ct p ∈ log → d.key i = some p
  def_ : ∀ i p, d.key i = some p → (X.cond d.u p).isSome
  wait : waiters log = d.queue
  user : uOf u0 log = d.u
  hist : Hist (hist u0) log
  acts : (actsOf pi).Perm d.pendA
  inv : O.Inv d.u d.pendA
  rs : raises pi = d.pendR
  disc : Disciplined X → ∀ i ∈ d.queue, ∀ p, d.key i = some p → X.cond d.u p = some false →
    0 < d.pendR
  enqN : ∀ i b, ph i = .new → (.ds (.enq i b) : Event X) ∉ log
  flush : Flushing X → ∀ i ∈ d.queue, ∀ p, d.key i = some p → X.cond d.u p = some true →
    (.ds (.enq i false) : Event X) ∈ log → d.pendR = 0

theorem Inv.ext_ {u0 : X.U} {O : UserOk X u0} {d : D X} {ph : OpId → Phase Res}
    {log : List (Event X)} {pi : List (I X)} (h : Inv O d ph log pi) (v : Event X)
    (hv : (∃ e, v = .cancel e) ∨ (∃ e, v = .reset e)) : Inv O d ph (log ++ [v]) pi := by
  obtain ⟨h1, h2, h3, h4, h5, h6, h7, h8, h9, h10, h11, h12, h13, h14, h15, h16, h17, h18, h19, h20⟩ := h
  rcases hv with ⟨e, rfl⟩ | ⟨e, rfl⟩
  all_goals
    refine ⟨h1, h2, h3, h4, ?_, ?_, ?_, ?_, ?_, ?_, h11, ?_, ?_, ?_, h15, h16, h17, h18, ?_, ?_⟩
    rotate_right 2
    · intro i b hi; simpa using h19 i b hi
    · intro hf i hi p hk hc hm; simp at hm; exact h20 hf i hi p hk hc hm
    · intro i hi; obtain ⟨a, l, b, c⟩ := h5 i hi; exact ⟨a, l, by simp [b], c⟩
    · intro i hi; obtain ⟨a, b, e, p, c, d⟩ := h6 i hi; exact ⟨a, by simp [b], e, p, by simp [c], by simp [d]⟩
    · intro i v hi; obtain ⟨a, b⟩ := h7 i v hi; exact ⟨a, by simp [b]⟩
    · intro i; simpa [wakes_append] using h8 i
    · intro i l hm hi; simp at hm; rcases h9 i l hm hi with h | h <;> simp [h]
    · intro i ct p hm; simp at hm; exact h10 i ct p hm
    · simpa [waitStep] using h12
    · simpa [uStep] using h13
    · simp only [Hist.snoc]; exact ⟨h14, trivial⟩

def lawful {u0 : X.U} (O : UserOk X u0) : Lawful (ds X) (init u0) where
  Inv := Inv O
  init := by
    constructor <;> simp [init, wakes, Hist.nil, actsOf, raises, uOf, O.init]
  perm := by
    intro d ph log pi pi' h hp
    obtain ⟨h1, h2, h3, h4, h5, h6, h7, h8, h9, h10, h11, h12, h13, h14, h15, h16, h17, h18, h19, h20⟩ := h
    exact ⟨h1, h2, h3, h4, h5, h6, h7, h8, h9, h10, h11, h12, h13, h14,
      (actsOf_perm hp).symm.trans h15, h16, by rw [← raises_perm hp]; exact h17, h18, h19, h20⟩
  begin := by
    intro d ph log pi i ct p d' h hph hb ha
    obtain ⟨h1, h2, h3, h4, h5, h6, h7, h8, h9, h10, h11, h12, h13, h14, h15, h16, h17, h18, h19, h20⟩ := h
    simp only at ha
    split at ha
    · rename_i had
      simp at ha; subst ha
      have hkq : ∀ j ∈ d.queue, j ≠ i := by
        rintro j hj rfl; rw [h2, hph] at hj; simp at hj
      refine ⟨h1, h2, h3, h4, ?_, ?_, ?_, ?_, ?_, ?_, ?_, ?_, ?_, ?_, h15, h16, h17, ?_, ?_, ?_⟩
      rotate_right 3
      · intro hd j hj p' hk hc; simp [hkq j hj] at hk; exact h18 hd j hj p' hk hc
      · intro i b hi; simpa using h19 i b hi
      · intro hf j hj p' hk hc hm; simp at hm; simp [hkq j hj] at hk; exact h20 hf j hj p' hk hc hm
      · intro i hi; obtain ⟨a, l, b, c⟩ := h5 i hi; exact ⟨a, l, by simp [b], c⟩
      · intro i hi; obtain ⟨a, b, e, p, c, d⟩ := h6 i hi; exact ⟨a, by simp [b], e, p, by simp [c], by simp [d]⟩
      · intro i v hi; obtain ⟨a, b⟩ := h7 i v hi; exact ⟨a, by simp [b]⟩
      · intro i; simpa [wakes_append] using h8 i
      · intro i l hm hi; simp at hm; rcases h9 i l hm hi with h | h <;> simp [h]
      · intro j ct' p' hm
        simp at hm
        rcases hm with hm | ⟨rfl, rfl, rfl⟩
        · by_cases hij : j = i
          · subst hij; exact absurd hm (hb _ _)
          · simp [hij, h10 j ct' p' hm]
        · simp
      · intro j p' hk
        by_cases hij : j = i
        · subst hij; simp at hk; subst hk; exact O.admit had
        · simp [hij] at hk; exact h11 j p' hk
      · simpa [waitStep] using h12
      · simpa [uStep] using h13
      · simp only [Hist.snoc]; exact ⟨h14, by simp only [hist, h13]; exact had⟩
    · simp at ha
  cancel := by intro d ph log pi e h; exact h.ext_ _ (.inl ⟨e, rfl⟩)
  reset := by intro d ph log pi e h; exact h.ext_ _ (.inr ⟨e, rfl⟩)
  call := by
    intro d ph log pi x d' h hc
    obtain ⟨h1, h2, h3, h4, h5, h6, h7, h8, h9, h10, h11, h12, h13, h14, h15, h16, h17, h18, h19, h20⟩ := h
    cases x with
    | raise =>
      simp only [call] at hc
      split at hc
      · simp at hc; subst hc
        exact ⟨h1, h2, h3, h4, h5, h6, h7, h8, h9, h10, h11, h12, h13, h14, h15, h16, by simp [raises, h17],
          fun _ _ _ _ _ _ => Nat.succ_pos _, h19, fun hf => by rename_i hd; simp [hf.1] at hd⟩
      · simp at hc
    | act a =>
      simp only [call] at hc
      split at hc
      · rename_i hok
        simp at hc; subst hc
        exact ⟨h1, h2, h3, h4, h5, h6, h7, h8, h9, h10, h11, h12, h13, h14, by simp [actsOf, h15],
          O.call h16 hok, by simp [raises, h17], h18, h19, h20⟩
      · simp at hc
  start := by
    intro d ph log pi i ct p b h hph hb
    obtain ⟨h1, h2, h3, h4, h5, h6, h7, h8, h9, h10, h11, h12, h13, h14, h15, h16, h17, h18, h19, h20⟩ := h
    have hk := h10 i ct p hb
    have hdef := h11 i p hk
    have hst := h4 i hph
    cases hc : X.cond d.u p with
    | none => simp [hc] at hdef
    | some v =>
      cases v with
      | false =>
        refine ⟨_, _, _, by simp [start, hst, hk, hc]; exact ⟨rfl, rfl, rfl⟩, ?_⟩
        simp only [List.map_cons, List.map_nil]
        have w8 : ∀ j, wakes j (log ++ [(.ds (.skip i) : Event X)]) = wakes j log := by
          intro j; simp [wakes_append]
        refine ⟨h1, ?_, ?_, ?_, ?_, ?_, ?_, ?_, ?_, ?_, h11, ?_, ?_, ?_, h15, h16, h17, ?_, ?_, ?_⟩
        rotate_right 3
        · grind
        · grind
        · grind
        · grind
        · grind
        · grind
        · grind
        · grind
        · grind
        · grind
        · grind
        · grind
        · simpa [waitStep] using h12
        · simpa [uStep] using h13
        · simp only [Hist.snoc]; refine ⟨h14, ct, p, hb, ?_⟩; rw [h13]; exact hc
      | true =>
        refine ⟨_, _, _, by simp [start, hst, hk, hc]; exact ⟨rfl, rfl, rfl⟩, ?_⟩
        simp only [List.map_cons, List.map_nil]
        have w8 : ∀ j b, wakes j (log ++ [(.ds (.enq i b) : Event X)]) = wakes j log := by
          intro j b; simp [wakes_append]
        have hni : i ∉ d.queue := by rw [h2]; simp [hph]
        refine ⟨?_, ?_, ?_, ?_, ?_, ?_, ?_, ?_, ?_, ?_, h11, ?_, ?_, ?_, h15, h16, h17, ?_, ?_, ?_⟩
        rotate_right 3
        · grind
        · grind
        · grind
        · rw [List.nodup_append]; grind
        · grind
        · grind
        · grind
        · grind
        · grind
        · grind
        · grind
        · grind
        · grind
        · simp [waitStep, h12]
        · simpa [uStep] using h13
        · simp only [Hist.snoc]; refine ⟨h14, ct, p, hb, ?_⟩; rw [h13]; exact hc
  fast := by
    intro d ph log pi i v h hph
    obtain ⟨h1, h2, h3, h4, h5, h6, h7, h8, h9, h10, h11, h12, h13, h14, h15, h16, h17, h18, h19, h20⟩ := h
    have w8 : ∀ j, wakes j (log ++ [Ev.done (S := ds X) i v]) = wakes j log := by
      intro j; simp [wakes_append]
    obtain ⟨rfl, hsk⟩ := h7 i v hph
    refine ⟨h1, ?_, ?_, ?_, ?_, ?_, ?_, ?_, ?_, ?_, h11, ?_, ?_, ?_, h15, h16, h17, ?_, ?_, ?_⟩
    rotate_right 3
    · grind
    · grind
    · grind
    · grind
    · grind
    · grind
    · grind
    · grind
    · grind
    · grind
    · grind
    · grind
    · simpa [waitStep] using h12
    · simpa [uStep] using h13
    · simp only [Hist.snoc]; exact ⟨h14, hsk⟩
  tryWaiting := by
    intro d ph log pi i e p h hph hb hc
    obtain ⟨h1, h2, h3, h4, h5, h6, h7, h8, h9, h10, h11, h12, h13, h14, h15, h16, h17, h18, h19, h20⟩ := h
    have hs := h3 i hph
    have hm := (h2 i).2 hph
    refine ⟨_, _, by simp [tryCancel, hs, hm]; exact ⟨rfl, rfl⟩, ?_⟩
    simp only [List.map_cons, List.map_nil]
    have w8 : ∀ j, wakes j (log ++ [(.ds (.unq i) : Event X)]) = wakes j log := by
      intro j; simp [wakes_append]
    refine ⟨?_, ?_, ?_, ?_, ?_, ?_, ?_, ?_, ?_, ?_, h11, ?_, ?_, ?_, h15, h16, h17, ?_, ?_, ?_⟩
    rotate_right 3
    · grind
    · grind
    · grind
    · grind
    · grind
    · grind
    · grind
    · grind
    · intro j hj
      by_cases hij : j = i
      · subst hij; exact ⟨by simp, by simp, e, p, by simp [hb], by simp [hc]⟩
      · simp only [upd, hij, if_false] at hj ⊢
        obtain ⟨a, b, e', p', c, d⟩ := h6 j hj
        exact ⟨a, by simp [b], e', p', by simp [c], by simp [d]⟩
    · grind
    · grind
    · grind
    · grind
    · simp [waitStep, h12]
    · simpa [uStep] using h13
    · simp only [Hist.snoc]; exact ⟨h14, trivial⟩
  tryTaken := by
    intro d ph log pi i e p h hph hb hc
    have := (h.stT i hph).1
    refine ⟨_, _, by simp [tryCancel, this]; exact ⟨rfl, rfl⟩, ?_⟩
    simpa using h
  resume := by
    intro d ph log pi i h hph
    obtain ⟨h1, h2, h3, h4, h5, h6, h7, h8, h9, h10, h11, h12, h13, h14, h15, h16, h17, h18, h19, h20⟩ := h
    have w8 : ∀ j v, wakes j (log ++ [Ev.done (S := ds X) i v]) = wakes j log := by
      intro j v; simp [wakes_append]
    refine ⟨h1, ?_, ?_, ?_, ?_, ?_, ?_, ?_, ?_, ?_, h11, ?_, ?_, ?_, h15, h16, h17, ?_, ?_, ?_⟩
    rotate_right 3
    · grind
    · grind
    · grind
    · grind
    · grind
    · grind
    · grind
    · grind
    · grind
    · grind
    · grind
    · grind
    · simpa [waitStep] using h12
    · simpa [uStep] using h13
    · simp only [Hist.snoc]
      refine ⟨h14, ?_⟩
      rcases hph with hph | hph
      · obtain ⟨a, b⟩ := h5 i hph
        simp only [a, if_false, reduceCtorEq]
        exact b
      · obtain ⟨a, b, c⟩ := h6 i hph
        simp only [a, if_true]
        exact ⟨b, c⟩
  exec := by
    intro d ph log pi x b h
    obtain ⟨h1, h2, h3, h4, h5, h6, h7, h8, h9, h10, h11, h12, h13, h14, h15, h16, h17, h18, h19, h20⟩ := h
    cases x with
    | raise =>
      have hops : ∀ l : List OpId, ops (I := I X) (l.map .inl) = l := by
        intro l; induction l with
        | nil => rfl
        | cons a l ih => simp [ops, ih]
      have hins : ∀ l : List OpId, insts (I := I X) (l.map .inl) = [] := by
        intro l; induction l with
        | nil => rfl
        | cons a l ih => simp [insts, ih]
      have hall : ∀ i ∈ d.queue, d.st i = .submitted := fun i hi => h3 i ((h2 i).1 hi)
      refine ⟨_, _, _, by
        simp only [exec]; rw [if_pos (by simpa using hall)], ?_, ?_, ?_⟩
      · rw [hops]; exact h1
      · rw [hops]; intro i hi; exact (h2 i).1 hi
      rw [hops, hins]
      simp only [List.map_cons, List.map_nil, List.nil_append]
      have w8 : ∀ j, wakes j (log ++ [(.ds (.raise d.queue) : Event X)]) =
          wakes j log + d.queue.count j := by
        intro j; simp [wakes_append]
      have hcnt : ∀ j, d.queue.count j = if j ∈ d.queue then 1 else 0 := by
        intro j
        split
        · rename_i hm
          have a1 := List.nodup_iff_count.1 h1 j
          have a2 := List.count_pos_iff.2 hm
          omega
        · rename_i hm; exact List.count_eq_zero.2 hm
      refine ⟨by simp, ?_, ?_, ?_, ?_, ?_, ?_, ?_, ?_, ?_, h11, ?_, ?_, ?_, ?_, h16, ?_, ?_, ?_, ?_⟩
      rotate_right 3
      · simp
      · grind
      · simp
      · grind
      · grind
      · grind
      · grind
      · grind
      · grind
      · intro j
        have := h8 j
        rw [w8, hcnt]
        by_cases hj : j ∈ d.queue
        · have hw := (h2 j).1 hj
          simp [hj, this.2 (.inr hw)]
        · simp [hj]; exact this
      · grind
      · grind
      · simp [waitStep]
      · simpa [uStep] using h13
      · simp only [Hist.snoc]
        refine ⟨h14, h12.symm, ?_⟩
        intro hf i hi hm ct p hb
        have hk := h10 i ct p hb
        have hd := h11 i p hk
        rw [h13]
        cases hc : X.cond d.u p with
        | none => simp [hc] at hd
        | some v =>
          cases v with
          | false => rfl
          | true =>
            have := h20 hf i hi p hk hc hm
            simp [raises] at h17; omega
      · exact h15
      · show raises pi = d.pendR - 1
        simp [raises] at h17; omega
    | act a =>
      have hp : d.pendA.Perm (a :: actsOf pi) := by
        simpa [actsOf] using h15.symm
      obtain ⟨u', f, r, hact, hinv⟩ := O.act (O.perm h16 hp)
      have hpa : (d.pendA.erase a).Perm (actsOf pi) := by
        simpa using hp.erase a
      have w8 : ∀ j, wakes j (log ++ [(.ds (.act a f r) : Event X)]) = wakes j log := by
        intro j; simp [wakes_append]
      refine ⟨_, _, _, by simp [exec, hact]; exact ⟨rfl, rfl, rfl⟩, ?_, ?_, ?_⟩
      · cases f <;> simp [ops]
      · cases f <;> simp [ops]
      have hops : ops (if f = true then [Sum.inr I.raise] else ([] : List (OpId ⊕ I X))) = [] := by
        cases f <;> rfl
      rw [hops]
      simp only [List.map_cons, List.map_nil, List.not_mem_nil, if_false]
      refine ⟨h1, h2, h3, h4, ?_, ?_, ?_, ?_, ?_, ?_, ?_, ?_, ?_, ?_, ?_, ?_, ?_, ?_, ?_, ?_⟩
      rotate_right 3
      · intro hd i hi p hk hc
        cases f with
        | true => simp
        | false =>
          have hdef := h11 i p hk
          cases hc' : X.cond d.u p with
          | none => simp [hc'] at hdef
          | some v =>
            cases v with
            | false => simpa using h18 hd i hi p hk hc'
            | true =>
              have := hd _ _ _ _ _ hact hc'
              simp only at hc
              rw [this] at hc; simp at hc
      · grind
      · intro hf i hi p hk hc hm
        simp at hm
        have hdef := h11 i p hk
        simp only at hc
        cases hc' : X.cond d.u p with
        | none => simp [hc'] at hdef
        | some v =>
          cases v with
          | false => have := hf.2.1 _ _ _ _ _ _ hact hc'; rw [this] at hc; simp at hc
          | true =>
            cases f with
            | true => have := hf.2.2 _ _ _ _ _ hact hc'; rw [this] at hc; simp at hc
            | false => simpa using h20 hf i hi p hk hc' hm
      · grind
      · grind
      · grind
      · grind
      · grind
      · grind
      · intro i p hk; exact O.stable hact (h11 i p hk)
      · simpa [waitStep] using h12
      · simp [uStep, h13, hact]
      · simp only [Hist.snoc]; exact ⟨h14, u', by rw [h13]; exact hact⟩
      · cases f
        · simpa [insts] using hpa.symm
        · simpa [insts, actsOf] using hpa.symm
      · exact O.perm hinv hpa.symm
      · cases f
        · simpa [insts, raises] using h17
        · simpa [insts, raises] using h17

/-! ## Auxiliary facts about histories -/

theorem enq_of_waiting {i : OpId} {l : List (Event X)} (h : i ∈ waiters l) :
    ∃ b, (.ds (.enq i b) : Event X) ∈ l := by
  induction l using List.reverseRecOn with
  | nil => simp at h
  | append_singleton l v ih =>
    rw [waiters_append] at h
    have key : i ∈ waiters l → ∃ b, (.ds (.enq i b) : Event X) ∈ l ++ [v] := by
      intro h; obtain ⟨b, hb⟩ := ih h; exact ⟨b, by simp [hb]⟩
    cases v with
    | ds x =>
      cases x with
      | enq j b =>
        simp [waitStep] at h
        rcases h with h | rfl
        · exact key h
        · exact ⟨b, by simp⟩
      | unq j => exact key (List.mem_of_mem_erase h)
      | raise w => simp [waitStep] at h
      | act a f r => exact key h
      | skip j => exact key h
    | _ => exact key h

/-- Once false, the conditions of a flushing program stay false. -/
theorem cond_false_stays {u0 : X.U} (hf : Flushing X) {p : X.P} {l1 l2 : List (Event X)}
    (h : X.cond (uOf u0 l1) p = some false) : X.cond (uOf u0 (l1 ++ l2)) p = some false := by
  induction l2 using List.reverseRecOn with
  | nil => simpa using h
  | append_singleton l v ih =>
    rw [← List.append_assoc, uOf_append]
    cases v with
    | ds x =>
      cases x with
      | act a f r =>
        simp only [uStep]
        split
        · rename_i u' y hact
          obtain ⟨f', r'⟩ := y
          exact hf.2.1 _ _ _ _ _ _ hact ih
        · exact ih
      | _ => exact ih
    | _ => exact ih

/-- The condition of an operation that completed by `raise()` or `condition_failed` is false, if
it did not suspend in the middle of a `raise()`. -/
theorem cond_false_of_done {u0 : X.U} {O : UserOk X u0} (hf : Flushing X) {d : D X}
    {ph : OpId → Phase Res} {log : List (Event X)} {pi : List (I X)} (hI : Inv O d ph log pi)
    {l1 l2 : List (Event X)} {i : OpId} {v : Res} (e : log = l1 ++ Ev.done i v :: l2)
    (hv : v ≠ .cancelled) {ct : Option EvId} {p : X.P} (hb : Ev.begin i ct p ∈ log)
    (hn : (.ds (.enq i true) : Event X) ∉ log) : X.cond (uOf u0 l1) p = some false := by
  have hp : ∀ ct' p', Ev.begin i ct' p' ∈ log → p' = p := by
    intro ct' p' h
    have h1 := hI.key _ _ _ h
    have h2 := hI.key _ _ _ hb
    rw [h1] at h2; simpa using h2
  have h := hI.hist l1 _ l2 e
  cases v with
  | cancelled => simp at hv
  | conditionFailed =>
    obtain ⟨m1, m2, rfl⟩ := List.append_of_mem h
    have h' : Recurring.hist u0 m1 (.ds (.skip i)) :=
      hI.hist m1 _ (m2 ++ (Ev.done i Res.conditionFailed : Event X) :: l2) (by rw [e]; simp)
    obtain ⟨ct', p', hb', hc⟩ := h'
    have := hp ct' p' (by rw [e]; simp [hb'])
    subst this
    exact cond_false_stays hf hc
  | awaited =>
    obtain ⟨l, hl, hil⟩ := h
    obtain ⟨m1, m2, rfl⟩ := List.append_of_mem hl
    have h' : Recurring.hist u0 m1 (.ds (.raise l)) :=
      hI.hist m1 _ (m2 ++ (Ev.done i Res.awaited : Event X) :: l2) (by rw [e]; simp)
    obtain ⟨rfl, hfl⟩ := h'
    obtain ⟨b, hbq⟩ := enq_of_waiting hil
    obtain ⟨n1, n2, rfl⟩ := List.append_of_mem hbq
    have h' : Recurring.hist u0 n1 (.ds (.enq i b)) := hI.hist n1 _
      (n2 ++ (.ds (.raise (waiters (n1 ++ .ds (.enq i b) :: n2))) : Event X) :: m2 ++
        (Ev.done i Res.awaited : Event X) :: l2) (by rw [e]; simp)
    obtain ⟨ct', p', hb', _⟩ := h'
    have := hp ct' p' (by rw [e]; simp [hb'])
    subst this
    cases b with
    | true => exact absurd (by rw [e]; simp) hn
    | false =>
      exact cond_false_stays hf (hfl hf i hil (by simp) ct' p' (by simp [hb']))

end Verif.Recurring
