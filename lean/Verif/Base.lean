/-!
# Transition systems made of activities

A *machine* has a shared state and a pool of activities. An activity is a running library call:
the stack of its pending atomic instructions, top first. One step executes the top instruction of
one activity against the shared state; the instruction may push further instructions on top of
the stack of its activity. The environment (user code) may start new activities at any time,
within the contract of the library.

This file does not model code of `/repo`; it fixes the execution model used by all components
(see DESIGN.md, section 1).
-/

namespace Verif

/-- Update of a function at one point. -/
def upd {α : Type u} (f : Nat → α) (i : Nat) (v : α) : Nat → α :=
  fun j => if j = i then v else f j

@[simp, grind =] theorem upd_same {α : Type u} (f : Nat → α) (i : Nat) (v : α) :
    upd f i v i = v := by simp [upd]

@[simp] theorem upd_ne {α : Type u} (f : Nat → α) {i j : Nat} (v : α) (h : j ≠ i) :
    upd f i v j = f j := by simp [upd, h]

@[grind =] theorem upd_apply {α : Type u} (f : Nat → α) (i j : Nat) (v : α) :
    upd f i v j = if j = i then v else f j := rfl

/-- Result of executing one instruction. -/
inductive Out (σ : Type u) (ι : Type v) where
  /-- The instruction succeeds; `push` goes on top of the stack of the activity. -/
  | ok (s : σ) (push : List ι)
  /-- The instruction has to wait (lock taken by somebody else). -/
  | block
  /-- Failing assertion, undefined behaviour or panic. -/
  | fault

/-- A machine. `exec s x b` executes instruction `x`; the Boolean is a choice made by the
schedule (spurious failure of a weak compare-exchange, result of a user predicate).
`env s acts a` is the effect of the environment performing action `a`: it yields the new state
and the instructions of the activity it starts; `none` means that the contract forbids it. -/
structure Mach where
  σ : Type
  ι : Type
  α : Type
  exec : σ → ι → Bool → Out σ ι
  env : σ → List (List ι) → α → Option (σ × List ι)

/-- A configuration: shared state, pool of activities, and whether a fault has happened. -/
structure Conf (M : Mach) where
  sh : M.σ
  acts : List (List M.ι)
  bad : Bool

/-- What the schedule does next. -/
inductive Lbl (M : Mach) where
  /-- The environment performs an action. -/
  | env (a : M.α)
  /-- Activity number `k` executes its top instruction with choice `b`. -/
  | run (k : Nat) (b : Bool)

/-- One step. `none`: the label is not enabled. -/
def Mach.step (M : Mach) (c : Conf M) : Lbl M → Option (Conf M)
  | .env a =>
    if c.bad then none
    else match M.env c.sh c.acts a with
      | some (s', p) => some ⟨s', c.acts ++ [p], false⟩
      | none => none
  | .run k b =>
    if c.bad then none
    else match c.acts[k]? with
      | some (x :: r) =>
        match M.exec c.sh x b with
        | .ok s' p => some ⟨s', c.acts.set k (p ++ r), false⟩
        | .block => none
        | .fault => some ⟨c.sh, c.acts, true⟩
      | _ => none

/-- A finite execution. -/
def Mach.runs (M : Mach) (c : Conf M) : List (Lbl M) → Option (Conf M)
  | [] => some c
  | l :: ls => match M.step c l with
    | some c' => M.runs c' ls
    | none => none

/-- Start configuration. -/
def Mach.init (M : Mach) (s0 : M.σ) : Conf M := ⟨s0, [], false⟩

/-- Reachable configurations. -/
inductive Reach (M : Mach) (s0 : M.σ) : Conf M → Prop where
  | init : Reach M s0 (M.init s0)
  | step {c c' : Conf M} {l : Lbl M} : Reach M s0 c → M.step c l = some c' → Reach M s0 c'

/-- No library call is running. -/
def Quiescent {M : Mach} (c : Conf M) : Prop := ∀ a ∈ c.acts, a = []

theorem Reach.of_runs {M : Mach} {s0 : M.σ} {c c' : Conf M} {ls : List (Lbl M)}
    (hc : Reach M s0 c) (h : M.runs c ls = some c') : Reach M s0 c' := by
  induction ls generalizing c with
  | nil => simp [Mach.runs] at h; exact h ▸ hc
  | cons l ls ih =>
    simp only [Mach.runs] at h
    split at h
    · rename_i c'' hs; exact ih (.step hc hs) h
    · simp at h

theorem Reach.to_runs {M : Mach} {s0 : M.σ} {c : Conf M} (hc : Reach M s0 c) :
    ∃ ls, M.runs (M.init s0) ls = some c := by
  have app : ∀ (ls : List (Lbl M)) (a b d : Conf M) (l : Lbl M), M.runs a ls = some b →
      M.step b l = some d → M.runs a (ls ++ [l]) = some d := by
    intro ls
    induction ls with
    | nil => intro a b d l h1 h2; simp [Mach.runs] at h1; subst h1; simp [Mach.runs, h2]
    | cons x xs ih =>
      intro a b d l h1 h2
      simp only [Mach.runs, List.cons_append] at h1 ⊢
      split at h1
      · rename_i c'' hs; exact ih _ _ _ _ h1 h2
      · simp at h1
  induction hc with
  | init => exact ⟨[], rfl⟩
  | step _ hs ih => obtain ⟨ls, h⟩ := ih; exact ⟨ls ++ [_], app _ _ _ _ _ h hs⟩

/-- Invariants: it suffices to look at the start, at environment actions and at instructions. -/
theorem Reach.inv {M : Mach} {s0 : M.σ} {P : M.σ → List (List M.ι) → Prop}
    (h0 : P s0 [])
    (henv : ∀ s acts a s' p, P s acts → M.env s acts a = some (s', p) → P s' (acts ++ [p]))
    (hrun : ∀ s acts k x r b s' p, P s acts → acts[k]? = some (x :: r) →
      M.exec s x b = .ok s' p → P s' (acts.set k (p ++ r)))
    {c : Conf M} (hc : Reach M s0 c) : P c.sh c.acts := by
  induction hc with
  | init => exact h0
  | @step c c' l _ hs ih =>
    cases l with
    | env a =>
      simp only [Mach.step] at hs
      split at hs
      · simp at hs
      · split at hs
        · rename_i s' p he; simp at hs; subst hs; exact henv _ _ _ _ _ ih he
        · simp at hs
    | run k b =>
      simp only [Mach.step] at hs
      split at hs
      · simp at hs
      · split at hs
        · rename_i x r hk
          split at hs
          · rename_i s' p he; simp at hs; subst hs; exact hrun _ _ _ _ _ _ _ _ ih hk he
          · simp at hs
          · simp at hs; subst hs; exact ih
        · simp at hs

/-- Absence of faults follows from an invariant under which no top instruction faults. -/
theorem Reach.no_fault {M : Mach} {s0 : M.σ} {P : M.σ → List (List M.ι) → Prop}
    (hinv : ∀ c : Conf M, Reach M s0 c → P c.sh c.acts)
    (hf : ∀ (s : M.σ) (acts : List (List M.ι)) (k : Nat) (x : M.ι) (r : List M.ι) (b : Bool),
      P s acts → acts[k]? = some (x :: r) → M.exec s x b ≠ .fault)
    {c : Conf M} (hc : Reach M s0 c) : c.bad = false := by
  cases hc with
  | init => rfl
  | @step c c' l hc hs =>
    cases l with
    | env a =>
      simp only [Mach.step] at hs
      split at hs
      · simp at hs
      · split at hs
        · simp at hs; subst hs; rfl
        · simp at hs
    | run k b =>
      simp only [Mach.step] at hs
      split at hs
      · simp at hs
      · split at hs
        · rename_i x r hk
          split at hs
          · simp at hs; subst hs; rfl
          · simp at hs
          · rename_i he; exact absurd he (hf _ _ _ _ _ _ (hinv _ hc) hk)
        · simp at hs

/-! ## Weights of pending instructions -/

/-- Sum of weights over a list of instructions. -/
def wl {ι : Type u} (w : ι → Nat) : List ι → Nat
  | [] => 0
  | x :: l => w x + wl w l

/-- Sum of weights over all pending instructions. -/
def ws {ι : Type u} (w : ι → Nat) : List (List ι) → Nat
  | [] => 0
  | a :: l => wl w a + ws w l

@[simp] theorem wl_nil {ι : Type u} (w : ι → Nat) : wl w [] = 0 := rfl
@[simp] theorem wl_cons {ι : Type u} (w : ι → Nat) (x : ι) (l : List ι) :
    wl w (x :: l) = w x + wl w l := rfl
@[simp] theorem wl_append {ι : Type u} (w : ι → Nat) (a b : List ι) :
    wl w (a ++ b) = wl w a + wl w b := by
  induction a with
  | nil => simp
  | cons x a ih => simp [ih]; omega
@[simp] theorem ws_nil {ι : Type u} (w : ι → Nat) : ws w ([] : List (List ι)) = 0 := rfl
@[simp] theorem ws_cons {ι : Type u} (w : ι → Nat) (a : List ι) (l : List (List ι)) :
    ws w (a :: l) = wl w a + ws w l := rfl
@[simp] theorem ws_append {ι : Type u} (w : ι → Nat) (a b : List (List ι)) :
    ws w (a ++ b) = ws w a + ws w b := by
  induction a with
  | nil => simp
  | cons x a ih => simp [ih]; omega

theorem ws_set {ι : Type u} (w : ι → Nat) {acts : List (List ι)} {k : Nat} {x : ι} {r : List ι}
    (p : List ι) (h : acts[k]? = some (x :: r)) :
    ws w (acts.set k (p ++ r)) + w x = ws w acts + wl w p := by
  induction acts generalizing k with
  | nil => simp at h
  | cons a acts ih =>
    cases k with
    | zero => simp at h; subst h; simp; omega
    | succ k =>
      simp at h
      have := ih h
      simp only [List.set_cons_succ, ws_cons]; omega

theorem wl_zero {ι : Type u} {w : ι → Nat} {l : List ι} (h : ∀ x ∈ l, w x = 0) : wl w l = 0 := by
  induction l with
  | nil => rfl
  | cons x l ih => simp only [wl_cons]; rw [h x (by simp), ih (fun y hy => h y (by simp [hy]))]

theorem ws_quiescent {ι : Type u} (w : ι → Nat) {acts : List (List ι)}
    (h : ∀ a ∈ acts, a = []) : ws w acts = 0 := by
  induction acts with
  | nil => rfl
  | cons a acts ih =>
    have h1 : a = [] := h a (by simp)
    subst h1
    simp [ih (fun b hb => h b (by simp [hb]))]

theorem ws_pos {ι : Type u} {w : ι → Nat} {acts : List (List ι)} {k : Nat} {x : ι} {r : List ι}
    (h : acts[k]? = some (x :: r)) : w x ≤ ws w acts := by
  have := ws_set w [] h
  simp at this; omega

theorem exists_of_ws_pos {ι : Type u} {w : ι → Nat} {acts : List (List ι)}
    (h : 0 < ws w acts) : ∃ a ∈ acts, ∃ x ∈ a, 0 < w x := by
  have hl : ∀ l : List ι, 0 < wl w l → ∃ x ∈ l, 0 < w x := by
    intro l
    induction l with
    | nil => simp
    | cons x l ih =>
      intro h
      simp only [wl_cons] at h
      by_cases hx : 0 < w x
      · exact ⟨x, by simp, hx⟩
      · obtain ⟨y, hy, hw⟩ := ih (by omega)
        exact ⟨y, by simp [hy], hw⟩
  induction acts with
  | nil => simp at h
  | cons a acts ih =>
    simp only [ws_cons] at h
    by_cases ha : 0 < wl w a
    · obtain ⟨x, hx, hw⟩ := hl a ha
      exact ⟨a, by simp, x, hx, hw⟩
    · obtain ⟨b, hb, x, hx, hw⟩ := ih (by omega)
      exact ⟨b, by simp [hb], x, hx, hw⟩

theorem ws_pos_of_mem {ι : Type u} {w : ι → Nat} {acts : List (List ι)} {a : List ι} {x : ι}
    (ha : a ∈ acts) (hx : x ∈ a) : w x ≤ ws w acts := by
  have hl : ∀ l : List ι, x ∈ l → w x ≤ wl w l := by
    intro l
    induction l with
    | nil => simp
    | cons y l ih =>
      intro h
      simp only [wl_cons]
      rcases List.mem_cons.1 h with h | h
      · subst h; omega
      · have := ih h; omega
  induction acts with
  | nil => simp at ha
  | cons b acts ih =>
    simp only [ws_cons]
    rcases List.mem_cons.1 ha with h | h
    · subst h; have := hl _ hx; omega
    · have := ih h; omega

/-- `x` is pending in some activity. -/
def Pending {ι : Type u} (acts : List (List ι)) (x : ι) : Prop := ∃ a ∈ acts, x ∈ a

theorem pending_set {ι : Type u} {acts : List (List ι)} {k : Nat} {x : ι} {r p : List ι} {y : ι}
    (h : acts[k]? = some (x :: r)) (hy : Pending (acts.set k (p ++ r)) y) :
    y ∈ p ∨ Pending acts y := by
  obtain ⟨a, ha, hya⟩ := hy
  rcases List.mem_or_eq_of_mem_set ha with ha | ha
  · exact .inr ⟨a, ha, hya⟩
  · subst ha
    rcases List.mem_append.1 hya with h1 | h1
    · exact .inl h1
    · exact .inr ⟨x :: r, List.mem_of_getElem? h, by simp [h1]⟩

theorem pending_append {ι : Type u} {acts : List (List ι)} {p : List ι} {y : ι}
    (hy : Pending (acts ++ [p]) y) : y ∈ p ∨ Pending acts y := by
  obtain ⟨a, ha, hya⟩ := hy
  rcases List.mem_append.1 ha with ha | ha
  · exact .inr ⟨a, ha, hya⟩
  · simp at ha; subst ha; exact .inl hya

theorem pending_top {ι : Type u} {acts : List (List ι)} {k : Nat} {x : ι} {r : List ι}
    (h : acts[k]? = some (x :: r)) : Pending acts x :=
  ⟨x :: r, List.mem_of_getElem? h, by simp⟩

/-! ## Executions given by a list of labels -/

/-- Configuration after a list of labels (the start configuration if a label is not enabled). -/
def Mach.after (M : Mach) (s0 : M.σ) (ls : List (Lbl M)) : Conf M :=
  (M.runs (M.init s0) ls).getD (M.init s0)

theorem Reach.after (M : Mach) (s0 : M.σ) (ls : List (Lbl M)) : Reach M s0 (M.after s0 ls) := by
  unfold Mach.after
  cases h : M.runs (M.init s0) ls with
  | none => exact .init
  | some c => exact Reach.of_runs .init h

/-! ## Histories -/

/-- `P before event` holds for every event of a history, `before` being the events before it. -/
def Hist {ε : Type u} (P : List ε → ε → Prop) (l : List ε) : Prop :=
  ∀ l1 w l2, l = l1 ++ w :: l2 → P l1 w

theorem Hist.nil {ε : Type u} {P : List ε → ε → Prop} : Hist P [] := by
  intro l1 w l2 h; simp at h

@[simp] theorem Hist.snoc {ε : Type u} {P : List ε → ε → Prop} {l : List ε} {v : ε} :
    Hist P (l ++ [v]) ↔ Hist P l ∧ P l v := by
  constructor
  · intro h
    refine ⟨fun l1 w l2 e => h l1 w (l2 ++ [v]) (by simp [e]), h l v [] rfl⟩
  · rintro ⟨h1, h2⟩ l1 w l2 e
    rcases List.eq_nil_or_concat l2 with rfl | ⟨l2', y, rfl⟩
    · have := List.append_inj' (s₁ := l) (t₁ := [v]) (s₂ := l1) (t₂ := [w]) e rfl
      obtain ⟨rfl, h3⟩ := this
      simp at h3; subst h3; exact h2
    · have e' : l ++ [v] = (l1 ++ w :: l2') ++ [y] := by simpa using e
      obtain ⟨rfl, _⟩ := List.append_inj' e' rfl
      exact h1 l1 w l2' rfl

theorem Hist.snoc2 {ε : Type u} {P : List ε → ε → Prop} {l : List ε} {v w : ε} :
    Hist P (l ++ [v, w]) ↔ Hist P l ∧ P l v ∧ P (l ++ [v]) w := by
  have : l ++ [v, w] = (l ++ [v]) ++ [w] := by simp
  rw [this, Hist.snoc, Hist.snoc, and_assoc]

end Verif
