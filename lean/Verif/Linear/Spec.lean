import Verif.Base

/-!
# Linearizability

What it means that an object behaves as if its calls happened one after the other (Herlihy and Wing), in the strong form
(Golab, Higham and Woelfel): the order is fixed while the execution runs and never revised, so that it also holds for programs
that draw lots. This file does not model code of `/repo`.
-/

namespace Verif

variable {M : Mach} {C O R Q : Type}

/-- The environment actions of a schedule. Action number `k` starts activity number `k`. -/
def envs (ls : List (Lbl M)) : List M.α :=
  ls.filterMap fun l => match l with
    | .env a => some a
    | .run _ _ => none

/-- How to watch the calls: which calls (of type `C`) were invoked with which operation in an execution that followed this
schedule, and which calls have returned which result. -/
structure Watch (M : Mach) (C O R : Type) where
  invoked : List (Lbl M) → C → O → Prop
  returned : List (Lbl M) → C → R → Prop

/-- A sequential object with states `Q`: `spec q o r q'` says that operation `o` in state `q` may return `r` and leave `q'`.
The calls listed can happen in this order, one after the other. -/
def Accepts (spec : Q → O → R → Q → Prop) : Q → List (C × O × R) → Q → Prop
  | q, [], q' => q = q'
  | q, (_, o, r) :: L, q' => ∃ u, spec q o r u ∧ Accepts spec u L q'

/-- `L` is an order of calls that explains the execution with this schedule: it is possible for the sequential object, contains
no call twice, contains only calls that were invoked (with the operation they were invoked with), and all calls that have returned
(with the result they returned). -/
structure Explains (W : Watch M C O R) (spec : Q → O → R → Q → Prop) (q0 : Q) (ls : List (Lbl M)) (L : List (C × O × R)) :
    Prop where
  accepted : ∃ q, Accepts spec q0 L q
  once : (L.map (·.1)).Nodup
  invoked : ∀ e ∈ L, W.invoked ls e.1 e.2.1
  returned : ∀ x r, W.returned ls x r → ∃ o, (x, o, r) ∈ L

/-- Strong linearizability: there is an explaining order for every execution, and the order of a longer execution extends the
order of a shorter one. -/
def StronglyLinearizable (s0 : M.σ) (W : Watch M C O R) (spec : Q → O → R → Q → Prop) (q0 : Q) : Prop :=
  ∃ lin : List (Lbl M) → List (C × O × R),
    (∀ ls ls', lin ls <+: lin (ls ++ ls')) ∧
    ∀ ls c, M.runs (M.init s0) ls = some c → Explains W spec q0 ls (lin ls)

/-- Call `x` had returned before call `y` was invoked. -/
def Before (W : Watch M C O R) (ls : List (Lbl M)) (x y : C) : Prop :=
  ∃ l1 l2, ls = l1 ++ l2 ∧ (∃ r, W.returned l1 x r) ∧ ∀ o, ¬ W.invoked l1 y o

/-- Linearizability: every execution is explained by an order that keeps the order of calls that do not overlap. -/
def Linearizable (s0 : M.σ) (W : Watch M C O R) (spec : Q → O → R → Q → Prop) (q0 : Q) : Prop :=
  ∀ ls c, M.runs (M.init s0) ls = some c → ∃ L, Explains W spec q0 ls L ∧
    ∀ (i j : Nat) x y, (L.map (·.1))[i]? = some x → (L.map (·.1))[j]? = some y → Before W ls x y → i < j

theorem runs_append {c c' : Conf M} {l1 l2 : List (Lbl M)} (h : M.runs c (l1 ++ l2) = some c') :
    ∃ c1, M.runs c l1 = some c1 ∧ M.runs c1 l2 = some c' := by
  induction l1 generalizing c with
  | nil => exact ⟨c, rfl, h⟩
  | cons l l1 ih =>
    simp only [List.cons_append, Mach.runs] at h ⊢
    split at h
    · exact ih h
    · simp at h

/-- The strong form implies the classical one. -/
theorem StronglyLinearizable.linearizable {s0 : M.σ} {W : Watch M C O R} {spec : Q → O → R → Q → Prop} {q0 : Q}
    (h : StronglyLinearizable s0 W spec q0) : Linearizable s0 W spec q0 := by
  obtain ⟨lin, hp, hx⟩ := h
  intro ls c hr
  refine ⟨lin ls, hx ls c hr, ?_⟩
  rintro i j x y hi hj ⟨l1, l2, rfl, ⟨r, hret⟩, hinv⟩
  obtain ⟨c1, h1, -⟩ := runs_append hr
  obtain ⟨L2, hL⟩ := hp l1 l2
  have e1 := hx l1 c1 h1
  have e2 := hx _ c hr
  obtain ⟨o, ho⟩ := e1.returned x r hret
  obtain ⟨n, hn, hne⟩ := List.getElem_of_mem ho
  have hn' : ((lin (l1 ++ l2)).map (·.1))[n]? = some x := by
    rw [← hL]; simp [List.getElem?_append, hn, hne]
  have hin : i = n := by
    have a1 := List.getElem?_eq_some_iff.1 hi
    have a2 := List.getElem?_eq_some_iff.1 hn'
    obtain ⟨b1, c1⟩ := a1; obtain ⟨b2, c2⟩ := a2
    have nd := List.pairwise_iff_getElem.1 e2.once
    rcases Nat.lt_trichotomy i n with hlt | heq | hlt
    · exact absurd (c1.trans c2.symm) (nd _ _ b1 b2 hlt)
    · exact heq
    · exact absurd (c2.trans c1.symm) (nd _ _ b2 b1 hlt)
  subst hin
  apply Classical.byContradiction
  intro hle
  have hj' : j < (lin l1).length := by omega
  rw [← hL] at hj
  simp only [List.map_append, List.getElem?_append, List.length_map, hj', if_true, List.getElem?_map,
    List.getElem?_eq_getElem hj', Option.map_some, Option.some.injEq] at hj
  exact hinv _ (hj ▸ e1.invoked _ (List.getElem_mem hj'))

/-! ## Orders read off the steps -/

/-- The calls that take effect at each step, in order. -/
def linRun {E : Type} (f : Conf M → Lbl M → List E) (c : Conf M) : List (Lbl M) → List E
  | [] => []
  | l :: ls => match M.step c l with
    | some c' => f c l ++ linRun f c' ls
    | none => []

theorem linRun_prefix {E : Type} (f : Conf M → Lbl M → List E) (c : Conf M) (ls ls' : List (Lbl M)) :
    linRun f c ls <+: linRun f c (ls ++ ls') := by
  induction ls generalizing c with
  | nil => simp [linRun]
  | cons l ls ih =>
    simp only [List.cons_append, linRun]
    cases M.step c l with
    | none => simp
    | some c1 => exact (List.prefix_append_right_inj _).2 (ih c1)

theorem linRun_snoc {E : Type} (f : Conf M → Lbl M → List E) {c c1 c2 : Conf M} {ls : List (Lbl M)} {l : Lbl M}
    (h : M.runs c ls = some c1) (hs : M.step c1 l = some c2) : linRun f c (ls ++ [l]) = linRun f c ls ++ f c1 l := by
  induction ls generalizing c with
  | nil => simp only [Mach.runs, Option.some.injEq] at h; subst h; simp [linRun, hs]
  | cons x ls ih =>
    simp only [Mach.runs] at h
    split at h
    · rename_i c' hc; simp only [List.cons_append, linRun, hc, ih h, List.append_assoc]
    · simp at h

theorem runs_snoc {c c1 c2 : Conf M} {ls : List (Lbl M)} {l : Lbl M} (h : M.runs c ls = some c1)
    (hs : M.step c1 l = some c2) : M.runs c (ls ++ [l]) = some c2 := by
  induction ls generalizing c with
  | nil => simp only [Mach.runs, Option.some.injEq] at h; subst h; simp [Mach.runs, hs]
  | cons x ls ih =>
    simp only [Mach.runs, List.cons_append] at h ⊢
    split at h
    · exact ih h
    · simp at h

/-- Induction over schedules, from the front. -/
theorem runs_ind {s0 : M.σ} {P : List (Lbl M) → Conf M → Prop} (h0 : P [] (M.init s0))
    (hs : ∀ ls c l c', M.runs (M.init s0) ls = some c → P ls c → M.step c l = some c' → P (ls ++ [l]) c')
    {ls : List (Lbl M)} {c : Conf M} (h : M.runs (M.init s0) ls = some c) : P ls c := by
  have gen : ∀ (l2 l1 : List (Lbl M)) (c1 : Conf M), M.runs (M.init s0) l1 = some c1 → P l1 c1 →
      ∀ c, M.runs c1 l2 = some c → P (l1 ++ l2) c := by
    intro l2
    induction l2 with
    | nil => intro l1 c1 _ hp c hc; simp only [Mach.runs, Option.some.injEq] at hc; subst hc; simpa using hp
    | cons l l2 ih =>
      intro l1 c1 h1 hp c hc
      simp only [Mach.runs] at hc
      split at hc
      · rename_i c' hst
        have := ih (l1 ++ [l]) c' (runs_snoc h1 hst) (hs _ _ _ _ h1 hp hst) c hc
        simpa using this
      · simp at hc
  simpa using gen ls [] _ rfl h0 c h

theorem Accepts.append {spec : Q → O → R → Q → Prop} {q q1 q2 : Q} {L1 L2 : List (C × O × R)}
    (h1 : Accepts spec q L1 q1) (h2 : Accepts spec q1 L2 q2) : Accepts spec q (L1 ++ L2) q2 := by
  induction L1 generalizing q with
  | nil => simp only [Accepts] at h1; subst h1; exact h2
  | cons e L1 ih => obtain ⟨u, hu, h⟩ := h1; exact ⟨u, hu, ih h⟩

@[simp] theorem envs_snoc_env (ls : List (Lbl M)) (a : M.α) : envs (ls ++ [.env a]) = envs ls ++ [a] := by simp [envs]
@[simp] theorem envs_snoc_run (ls : List (Lbl M)) (k : Nat) (b : Bool) : envs (ls ++ [.run k b]) = envs ls := by simp [envs]

/-- One activity per environment action. -/
theorem envs_length {s0 : M.σ} {ls : List (Lbl M)} {c : Conf M} (h : M.runs (M.init s0) ls = some c) :
    (envs ls).length = c.acts.length := by
  refine runs_ind (M := M) (P := fun ls c => (envs ls).length = c.acts.length) (by simp [envs, Mach.init]) ?_ h
  intro ls c l c' _ ih hs
  cases l with
  | env a =>
    simp only [Mach.step] at hs
    split at hs
    · simp at hs
    · split at hs
      · simp at hs; subst hs; simp [ih]
      · simp at hs
  | run k b =>
    simp only [Mach.step] at hs
    split at hs
    · simp at hs
    · split at hs
      · split at hs
        · simp at hs; subst hs; simp [ih]
        · simp at hs
        · simp at hs; subst hs; simp [ih]
      · simp at hs

/-- In the course of the schedule, activity `k` executes instruction `x`, which takes the state from `s` to `s'`. -/
def Executes (s0 : M.σ) (ls : List (Lbl M)) (k : Nat) (x : M.ι) (s s' : M.σ) : Prop :=
  ∃ l1 b l2 c r p, ls = l1 ++ .run k b :: l2 ∧ M.runs (M.init s0) l1 = some c ∧ c.acts[k]? = some (x :: r) ∧
    c.bad = false ∧ c.sh = s ∧ M.exec s x b = .ok s' p

/-- What takes effect at a step of the schedule is in the order of the schedule. -/
theorem mem_linRun {E : Type} {f : Conf M → Lbl M → List E} {c c1 c2 : Conf M} {l1 l2 : List (Lbl M)} {l : Lbl M}
    (h1 : M.runs c l1 = some c1) (hs : M.step c1 l = some c2) {e : E} (he : e ∈ f c1 l) :
    e ∈ linRun f c (l1 ++ l :: l2) := by
  have h : linRun f c (l1 ++ [l]) <+: linRun f c ((l1 ++ [l]) ++ l2) := linRun_prefix f c _ _
  rw [linRun_snoc f h1 hs] at h
  have := h.subset (List.mem_append_right _ he)
  simpa using this

theorem of_mem_linRun {E : Type} {f : Conf M → Lbl M → List E} {c : Conf M} {ls : List (Lbl M)} {e : E}
    (h : e ∈ linRun f c ls) : ∃ l1 l l2 c1 c2, ls = l1 ++ l :: l2 ∧ M.runs c l1 = some c1 ∧ M.step c1 l = some c2 ∧ e ∈ f c1 l := by
  induction ls generalizing c with
  | nil => simp [linRun] at h
  | cons l ls ih =>
    simp only [linRun] at h
    split at h
    · rename_i c' hs
      rcases List.mem_append.1 h with h | h
      · exact ⟨[], l, ls, c, c', rfl, rfl, hs, h⟩
      · obtain ⟨l1, l', l2, c1, c2, rfl, h1, h2, h3⟩ := ih h
        exact ⟨l :: l1, l', l2, c1, c2, rfl, by simp [Mach.runs, hs, h1], h2, h3⟩
    · simp at h

end Verif
