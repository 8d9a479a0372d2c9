import Verif.Locks.SectionSpec
import Verif.Locks.Proof

/-! # Swapping independent events (lemmas for `Verif.Locks.SectionProps`) -/

namespace Verif.Locks

/-- What a thread has to do after an instruction. -/
def next : Instr → Choice → List Instr → Option (List Instr)
  | .lock _, _, r => some r
  | .unlock _, _, r => some r
  | .acc _ _ _, _, r => some r
  | .atom _ _, _, r => some r
  | .user, .ret, r => some r
  | .user, .call f, r => some (body f ++ .user :: r)
  | .under _, .ret, r => some r
  | .under o, .call f, r => some (body f ++ .under o :: r)
  | .alt xs ys, .pick b, r => some ((if b then xs else ys) ++ r)
  | .loop xs, .pick b, r => some (if b then xs ++ .loop xs :: r else r)
  | .callback, .cb k, r => some (k.body ++ r)
  | .complete, .token ct, r => some (transition ct ++ r)
  | _, _, _ => none

/-- Whether an instruction can be executed. -/
def free : Instr → Choice → Thr → St → Prop
  | .lock o, _, _, s => s.holder o = none
  | .unlock o, _, t, s => s.holder o = some t
  | .user, .call f, _, s => s.admits f = true
  | .under _, .call f, _, s => s.admits f = true
  | _, _, _, _ => True

/-- Effect on the rest of the state. -/
def eff : Instr → Choice → Thr → St → St
  | .lock o, _, t, s => { s with holder := upd s.holder o (some t), held := upd s.held t (o :: s.held t) }
  | .unlock o, _, t, s => { s with holder := upd s.holder o none, held := upd s.held t ((s.held t).erase o) }
  | .user, .call f, t, s => s.mark t f
  | .under _, .call f, t, s => s.mark t f
  | _, _, _, s => s

theorem step_iff {s s' : St} {t : Thr} {c : Choice} {x : Instr} {r : List Instr} (h : s.stack t = x :: r) :
    step s t c = .ok s' ↔ ∃ ys, next x c r = some ys ∧ free x c t s ∧ s' = (eff x c t s).goto t ys := by
  cases x with
  | lock o =>
    simp only [step, h, next, free, eff]
    cases hh : s.holder o with
    | none => simp [eq_comm]
    | some u => simp
  | unlock o =>
    simp only [step, h, next, free, eff]
    by_cases hh : s.holder o = some t
    · simp [hh, eq_comm]
    · simp [hh]
  | acc => simp [step, h, next, free, eff, eq_comm]
  | atom => simp [step, h, next, free, eff, eq_comm]
  | user =>
    cases c with
    | call f =>
      simp only [step, h, next, free, eff, St.runUser]
      by_cases hh : s.admits f = true
      · simp [hh, eq_comm]
      · simp [hh]
    | ret => simp [step, h, next, free, eff, St.runUser, eq_comm]
    | _ => simp [step, h, next, free, eff, St.runUser]
  | under =>
    cases c with
    | call f =>
      simp only [step, h, next, free, eff, St.runUser]
      by_cases hh : s.admits f = true
      · simp [hh, eq_comm]
      · simp [hh]
    | ret => simp [step, h, next, free, eff, St.runUser, eq_comm]
    | _ => simp [step, h, next, free, eff, St.runUser]
  | alt => cases c <;> simp [step, h, next, free, eff, eq_comm]
  | loop => cases c <;> simp [step, h, next, free, eff, eq_comm]
  | callback => cases c <;> simp [step, h, next, free, eff, eq_comm]
  | complete => cases c <;> simp [step, h, next, free, eff, eq_comm]

theorem eff_stack (x : Instr) (c : Choice) (t : Thr) (s : St) : (eff x c t s).stack = s.stack := by
  unfold eff; split <;> first | rfl | (rename_i f _ _; cases f <;> rfl) | (cases ‹Fn› <;> rfl)

/-- Events of different threads that do not access the same thing, unless both only read it. -/
def Indep (a b : Ev) : Prop :=
  a.thr ≠ b.thr ∧ ∀ v w w', a.ins.touches = some (v, w) → b.ins.touches = some (v, w') → w = false ∧ w' = false

theorem Indep.symm {a b : Ev} (h : Indep a b) : Indep b a :=
  ⟨fun e => h.1 e.symm, fun v w w' x y => (h.2 v w' w y x).symm⟩

theorem upd_ne' {α : Type} {f : Nat → α} {i j : Nat} {a : α} (h : j ≠ i) : upd f i a j = f j := by simp [upd, h]

theorem upd_comm {α : Type} (f : Nat → α) {i j : Nat} (h : i ≠ j) (a b : α) : upd (upd f i a) j b = upd (upd f j b) i a := by
  funext k
  simp only [upd]
  by_cases h1 : k = i <;> by_cases h2 : k = j <;> simp_all

/-- An event does not change whether an independent one can be executed. -/
theorem free_frame {a b : Ev} (h : Indep a b) (s : St) (ys : List Instr) :
    free b.ins b.ch b.thr ((eff a.ins a.ch a.thr s).goto a.thr ys) ↔ free b.ins b.ch b.thr s := by
  obtain ⟨t, x, c⟩ := a
  obtain ⟨u, y, d⟩ := b
  obtain ⟨_, h2⟩ := h
  simp only at h2 ⊢
  cases y with
  | lock o =>
    cases x with
    | lock p =>
      have : o ≠ p := by rintro rfl; simpa using h2 (.mutex o) true true rfl rfl
      simp [free, eff, St.goto, upd_ne' this]
    | unlock p =>
      have : o ≠ p := by rintro rfl; simpa using h2 (.mutex o) true true rfl rfl
      simp [free, eff, St.goto, upd_ne' this]
    | user => cases c <;> first | (cases ‹Fn› <;> rfl) | rfl
    | under => cases c <;> first | (cases ‹Fn› <;> rfl) | rfl
    | _ => rfl
  | unlock o =>
    cases x with
    | lock p =>
      have : o ≠ p := by rintro rfl; simpa using h2 (.mutex o) true true rfl rfl
      simp [free, eff, St.goto, upd_ne' this]
    | unlock p =>
      have : o ≠ p := by rintro rfl; simpa using h2 (.mutex o) true true rfl rfl
      simp [free, eff, St.goto, upd_ne' this]
    | user => cases c <;> first | (cases ‹Fn› <;> rfl) | rfl
    | under => cases c <;> first | (cases ‹Fn› <;> rfl) | rfl
    | _ => rfl
  | user =>
    cases x with
    | user => exact absurd (h2 .user true true rfl rfl).1 (by simp)
    | under => exact absurd (h2 .user true true rfl rfl).1 (by simp)
    | _ => cases d <;> first | (cases ‹Fn› <;> rfl) | rfl
  | under =>
    cases x with
    | user => exact absurd (h2 .user true true rfl rfl).1 (by simp)
    | under => exact absurd (h2 .user true true rfl rfl).1 (by simp)
    | _ => cases d <;> first | (cases ‹Fn› <;> rfl) | rfl
  | _ => rfl

theorem eff_goto (x : Instr) (c : Choice) (t u : Thr) (s : St) (ys : List Instr) :
    eff x c t (s.goto u ys) = (eff x c t s).goto u ys := by
  cases x <;> first
    | rfl
    | (cases c <;> first | rfl | (cases ‹Fn› <;> rfl))

theorem goto_comm {t u : Thr} (h : t ≠ u) (s : St) (ys zs : List Instr) :
    (s.goto t ys).goto u zs = (s.goto u zs).goto t ys := by
  simp only [St.goto]; rw [upd_comm _ h]

/-- Effects of independent events commute. -/
theorem eff_comm {a b : Ev} (h : Indep a b) (s : St) :
    eff b.ins b.ch b.thr (eff a.ins a.ch a.thr s) = eff a.ins a.ch a.thr (eff b.ins b.ch b.thr s) := by
  obtain ⟨t, x, c⟩ := a
  obtain ⟨u, y, d⟩ := b
  obtain ⟨h1, h2⟩ := h
  simp only at h1 h2 ⊢
  have hmm : ∀ p q, (x = .lock p ∨ x = .unlock p) → (y = .lock q ∨ y = .unlock q) → p ≠ q := by
    rintro p q hx hy rfl
    have := h2 (.mutex p) true true (by rcases hx with rfl | rfl <;> rfl) (by rcases hy with rfl | rfl <;> rfl)
    simp at this
  cases x with
  | lock p =>
    cases y with
    | lock q =>
      have := hmm p q (by simp) (by simp)
      simp only [eff, upd_ne' h1, upd_ne' (Ne.symm h1)]
      rw [upd_comm _ this, upd_comm _ h1]
    | unlock q =>
      have := hmm p q (by simp) (by simp)
      simp only [eff, upd_ne' h1, upd_ne' (Ne.symm h1)]
      rw [upd_comm _ this, upd_comm _ h1]
    | user => cases d <;> first | rfl | (cases ‹Fn› <;> rfl)
    | under => cases d <;> first | rfl | (cases ‹Fn› <;> rfl)
    | _ => rfl
  | unlock p =>
    cases y with
    | lock q =>
      have := hmm p q (by simp) (by simp)
      simp only [eff, upd_ne' h1, upd_ne' (Ne.symm h1)]
      rw [upd_comm _ this, upd_comm _ h1]
    | unlock q =>
      have := hmm p q (by simp) (by simp)
      simp only [eff, upd_ne' h1, upd_ne' (Ne.symm h1)]
      rw [upd_comm _ this, upd_comm _ h1]
    | user => cases d <;> first | rfl | (cases ‹Fn› <;> rfl)
    | under => cases d <;> first | rfl | (cases ‹Fn› <;> rfl)
    | _ => rfl
  | user =>
    cases y with
    | user => exact absurd (h2 .user true true rfl rfl).1 (by simp)
    | under => exact absurd (h2 .user true true rfl rfl).1 (by simp)
    | _ => cases c <;> first | rfl | (cases ‹Fn› <;> rfl)
  | under =>
    cases y with
    | user => exact absurd (h2 .user true true rfl rfl).1 (by simp)
    | under => exact absurd (h2 .user true true rfl rfl).1 (by simp)
    | _ => cases c <;> first | rfl | (cases ‹Fn› <;> rfl)
  | _ => rfl

/-- Independent neighbours can be swapped. -/
theorem Trace.swap {A : Instr → Fn → Bool} {s s' : St} {a b : Ev} {es : List Ev} (hi : Indep a b)
    (h : Trace A s (a :: b :: es) s') : Trace A s (b :: a :: es) s' := by
  cases h with
  | cons e1 p1 k1 h =>
  cases h with
  | cons e2 p2 k2 h =>
  rename_i s1 r1 s2 r2
  obtain ⟨ys, n1, f1, rfl⟩ := (step_iff e1).1 k1
  obtain ⟨zs, n2, f2, rfl⟩ := (step_iff e2).1 k2
  have e3 : s.stack b.thr = b.ins :: r2 := by
    rw [← e2]; simp only [St.goto, eff_stack]; rw [upd_ne' hi.1.symm]
  have e4 : ((eff b.ins b.ch b.thr s).goto b.thr zs).stack a.thr = a.ins :: r1 := by
    rw [← e1]; simp only [St.goto, eff_stack]; rw [upd_ne' hi.1]
  refine .cons e3 (by simpa [permits, e3, e2] using p2) ((step_iff e3).2 ⟨zs, n2, (free_frame hi s ys).1 f2, rfl⟩) ?_
  refine .cons e4 (by simpa [permits, e4, e1] using p1) ((step_iff e4).2 ⟨ys, n1, (free_frame hi.symm s zs).2 f1, rfl⟩) ?_
  rw [eff_goto, eff_comm hi, goto_comm hi.1, ← eff_goto] at h
  exact h

theorem Trace.append {A : Instr → Fn → Bool} {s s1 s' : St} {es es' : List Ev} (h : Trace A s es s1) (h' : Trace A s1 es' s') :
    Trace A s (es ++ es') s' := by
  induction h with
  | nil => exact h'
  | cons a b c _ ih => exact .cons a b c (ih h')

theorem Trace.split {A : Instr → Fn → Bool} {s s' : St} {es es' : List Ev} (h : Trace A s (es ++ es') s') :
    ∃ s1, Trace A s es s1 ∧ Trace A s1 es' s' := by
  induction es generalizing s with
  | nil => exact ⟨s, .nil, h⟩
  | cons e es ih =>
    cases h with
    | cons a b c h =>
      obtain ⟨s1, h1, h2⟩ := ih h
      exact ⟨s1, .cons a b c h1, h2⟩

/-- Reordering by swaps of independent neighbours. -/
inductive Swaps : List Ev → List Ev → Prop where
  | refl {l} : Swaps l l
  | swap {l a b m} : Indep a b → Swaps (l ++ a :: b :: m) (l ++ b :: a :: m)
  | trans {l m n} : Swaps l m → Swaps m n → Swaps l n

theorem Swaps.cons {l m : List Ev} (h : Swaps l m) (e : Ev) : Swaps (e :: l) (e :: m) := by
  induction h with
  | refl => exact .refl
  | @swap l a b m h => exact .swap (l := e :: l) h
  | trans _ _ h1 h2 => exact .trans h1 h2

theorem Swaps.trace {A : Instr → Fn → Bool} {l m : List Ev} (h : Swaps l m) {s s' : St} (ht : Trace A s l s') : Trace A s m s' := by
  induction h with
  | refl => exact ht
  | swap hi =>
    obtain ⟨s1, h1, h2⟩ := ht.split
    exact h1.append (h2.swap hi)
  | trans _ _ h1 h2 => exact h2 (h1 ht)

theorem Swaps.equivalent {l m : List Ev} (h : Swaps l m) : Equivalent l m := by
  induction h with
  | refl => exact ⟨fun _ => rfl, fun _ _ => rfl⟩
  | @swap l a b m hi =>
    obtain ⟨h1, h2⟩ := hi
    constructor
    · intro t
      simp only [List.filter_append, List.append_cancel_left_eq, List.filter_cons]
      by_cases e1 : a.thr = t <;> by_cases e2 : b.thr = t
      · exact absurd (e1.trans e2.symm) h1
      all_goals simp [e1, e2]
    · intro t v
      simp only [List.filter_append, List.append_cancel_left_eq, List.filter_cons]
      cases e1 : Ev.concerns t v a <;> cases e2 : Ev.concerns t v b <;> simp
      exfalso
      simp only [Ev.concerns] at e1 e2
      split at e1 <;> simp at e1
      split at e2 <;> simp at e2
      rename_i v1 w1 k1 _ v2 w2 k2
      obtain ⟨rfl, e1⟩ := e1
      obtain ⟨rfl, e2⟩ := e2
      obtain ⟨rfl, rfl⟩ := h2 _ _ _ k1 k2
      simp at e1 e2
      exact h1 (e1.trans e2.symm)
  | trans _ _ h1 h2 => exact ⟨fun t => (h1.1 t).trans (h2.1 t), fun t v => (h1.2 t v).trans (h2.2 t v)⟩

theorem step_comm {L V : Type} (M : Meaning L V) (m : Mem L V) {a b : Ev} (h : Indep a b) :
    M.step (M.step m a) b = M.step (M.step m b) a := by
  obtain ⟨h1, h2⟩ := h
  have h1' := Ne.symm h1
  simp only [Meaning.step]
  cases ha : a.ins.touches with
  | none =>
    cases hb : b.ins.touches with
    | none => simp [upd_ne' h1, upd_ne' h1', upd_comm _ h1]
    | some p => obtain ⟨v, w⟩ := p; simp [upd_ne' h1, upd_ne' h1', upd_comm _ h1]
  | some p =>
    obtain ⟨v, w⟩ := p
    cases hb : b.ins.touches with
    | none => simp [upd_ne' h1, upd_ne' h1', upd_comm _ h1]
    | some p =>
      obtain ⟨v', w'⟩ := p
      by_cases e : v = v'
      · subst e
        obtain ⟨rfl, rfl⟩ := h2 _ _ _ ha hb
        simp [upd_ne' h1, upd_ne' h1', upd_comm _ h1]
      · have e' : v' ≠ v := fun x => e x.symm
        simp only [upd_ne' h1, upd_ne' h1', e, e', and_false, if_false, Mem.mk.injEq]
        refine ⟨upd_comm _ h1 _ _, ?_⟩
        funext z
        by_cases z1 : z = v <;> by_cases z2 : z = v' <;> simp_all

theorem Swaps.run {L V : Type} (M : Meaning L V) {l m : List Ev} (h : Swaps l m) (x : Mem L V) : M.run x l = M.run x m := by
  induction h with
  | refl => rfl
  | @swap l a b m hi =>
    simp only [Meaning.run, List.foldl_append, List.foldl_cons]
    rw [step_comm M _ hi]
  | trans _ _ h1 h2 => exact h1.trans h2

/-! Sorting positions. -/

variable (key : Nat → Nat)

/-- Order by key, then by position. -/
def before (x y : Nat) : Prop := key x < key y ∨ key x = key y ∧ x < y

instance : DecidableRel (before key) := fun x y => by unfold before; infer_instance

/-- Insertion. -/
def ins (x : Nat) : List Nat → List Nat
  | [] => [x]
  | y :: l => if before key y x then y :: ins x l else x :: y :: l

/-- Insertion sort. -/
def sort : List Nat → List Nat
  | [] => []
  | x :: l => ins key x (sort l)

theorem mem_ins {x y : Nat} {l : List Nat} : y ∈ ins key x l ↔ y = x ∨ y ∈ l := by
  induction l with
  | nil => simp [ins]
  | cons z l ih =>
    simp only [ins]
    split
    · simp only [List.mem_cons, ih]; grind
    · simp

theorem mem_sort {y : Nat} {l : List Nat} : y ∈ sort key l ↔ y ∈ l := by
  induction l with
  | nil => simp [sort]
  | cons x l ih => simp [sort, mem_ins, ih]

theorem ins_sorted {x : Nat} {l : List Nat} (hx : x ∉ l) (h : l.Pairwise (before key)) : (ins key x l).Pairwise (before key) := by
  induction l with
  | nil => simp [ins]
  | cons y l ih =>
    simp only [ins]
    rw [List.pairwise_cons] at h
    split
    · rename_i hb
      rw [List.pairwise_cons]
      refine ⟨fun z hz => ?_, ih (fun hm => hx (by simp [hm])) h.2⟩
      rcases (mem_ins key).1 hz with rfl | hz
      · exact hb
      · exact h.1 z hz
    · rename_i hb
      rw [List.pairwise_cons, List.pairwise_cons]
      have hxy : before key x y := by
        have : x ≠ y := fun e => hx (by simp [e])
        simp only [before] at hb ⊢
        omega
      refine ⟨fun z hz => ?_, h.1, h.2⟩
      rcases List.mem_cons.1 hz with rfl | hz
      · exact hxy
      · have := h.1 z hz
        simp only [before] at *
        omega

theorem sort_sorted {l : List Nat} (h : l.Nodup) : (sort key l).Pairwise (before key) := by
  induction l with
  | nil => simp [sort]
  | cons x l ih =>
    rw [List.nodup_cons] at h
    exact ins_sorted key (fun hm => h.1 ((mem_sort key).1 hm)) (ih h.2)

theorem ins_swaps {f : Nat → Ev} {x : Nat} {l : List Nat} (h : ∀ y ∈ l, before key y x → Indep (f x) (f y)) :
    Swaps ((x :: l).map f) ((ins key x l).map f) := by
  induction l with
  | nil => exact .refl
  | cons y l ih =>
    simp only [ins]
    split
    · rename_i hb
      refine .trans (.swap (l := []) (h y (by simp) hb)) ?_
      exact (ih fun z hz => h z (by simp [hz])).cons _
    · exact .refl

theorem sort_swaps {f : Nat → Ev} {l : List Nat} (h : l.Pairwise (fun x y => before key y x → Indep (f x) (f y))) :
    Swaps (l.map f) ((sort key l).map f) := by
  induction l with
  | nil => exact .refl
  | cons x l ih =>
    rw [List.pairwise_cons] at h
    refine .trans ((ih h.2).cons (f x)) ?_
    exact ins_swaps key fun y hy => h.1 y ((mem_sort key).1 hy)

end Verif.Locks
