import Verif.Tree.Live

/-!
# Properties of the sender algorithms

Histories consist of the events `Ev` of Verif/Tree/Model.lean; `c.sh.snd p` is the sender operation `p` was made from.
The statements use the specification in Verif/Tree/Spec.lean (`Ok`, `KidOk`, `DoneOk`).
-/

namespace Verif.Tree

abbrev TReach (c : Conf mach) : Prop := Reach mach init c

/-- The receiver of operation `p` is completed. -/
def isDone (p : Path) : Ev → Bool
  | .done q _ => decide (q = p)
  | _ => false

/-- The functor of operation `p` (`transform`) is called. -/
def isCall (p : Path) : Ev → Bool
  | .call q _ _ => decide (q = p)
  | _ => false

/-- The functor of operation `p` (`invocable`) is called. -/
def isInvoke (p : Path) : Ev → Bool
  | .invoke q _ => decide (q = p)
  | _ => false

/-- The variable of operation `p` (`let`) is computed. -/
def isBind (p : Path) : Ev → Bool
  | .bind q _ => decide (q = p)
  | _ => false

/-- The condition of operation `p` is evaluated for the time number `k`. -/
def isCond (p : Path) (k : Nat) : Ev → Bool
  | .cond q j _ => decide (q = p ∧ j = k)
  | _ => false

/-! ## C48: all expressions -/

/-- Every event is allowed by the specification `Ok` of the algorithms, given the events before it. -/
theorem C48_order {c : Conf mach} (hc : TReach c) : Hist (Ok c.sh.snd) c.sh.log := reach_hist hc

/-- Every operation, and in particular every whole expression, completes at most once. -/
theorem C48_at_most_once {c : Conf mach} (hc : TReach c) (p : Path) : c.sh.log.countP (isDone p) ≤ 1 := by
  refine (reach_hist hc).countP_le_one _ (fun before a ha hok b hb => ?_)
  cases a <;> simp [isDone] at ha
  subst ha
  cases b <;> simp only [isDone, decide_eq_false_iff_not]
  rintro rfl
  exact hok.2.1 _ hb

/-- Every operation is started at most once. -/
theorem C48_started_once {c : Conf mach} (hc : TReach c) (p : Path) : c.sh.log.count (.start p) ≤ 1 :=
  (reach_hist hc).count_le_one (fun _ hok => hok.1)

theorem isDone_iff {p : Path} {log : List Ev} : log.countP (isDone p) ≠ 0 ↔ ∃ v, .done p v ∈ log := by
  constructor
  · intro h
    obtain ⟨a, ha, hd⟩ := List.countP_pos_iff.1 (Nat.pos_of_ne_zero h)
    cases a <;> simp [isDone] at hd
    subst hd
    exact ⟨_, ha⟩
  · rintro ⟨v, h⟩
    exact Nat.ne_of_gt (List.countP_pos_iff.2 ⟨_, h, by simp [isDone]⟩)

theorem done_one {c : Conf mach} (hc : TReach c) {p : Path} {v : Nat} (h : .done p v ∈ c.sh.log) :
    c.sh.log.countP (isDone p) = 1 := by
  have := C48_at_most_once hc p
  have := isDone_iff.2 ⟨v, h⟩
  omega

theorem done_unique {c : Conf mach} (hc : TReach c) {p : Path} {v w : Nat} (h : .done p v ∈ c.sh.log)
    (h2 : .done p w ∈ c.sh.log) : v = w := by
  have := (reach_hist hc).unique (isDone p) (fun before a ha hok b hb => by
    cases a <;> simp [isDone] at ha
    subst ha
    cases b <;> simp only [isDone, decide_eq_false_iff_not]
    rintro rfl
    exact hok.2.1 _ hb) h h2 (by simp [isDone]) (by simp [isDone])
  cases this
  rfl

/-- When nothing is left to do, every operation that was started has completed exactly once, if the leaves below it that
were started have completed. -/
theorem C48_exactly_once {c : Conf mach} (hc : TReach c) (hq : Quiescent c) {p : Path} (hs : .start p ∈ c.sh.log)
    (hl : ∀ q, p <:+ q → c.sh.snd q = some .leaf → .start q ∈ c.sh.log → ∃ v, .done q v ∈ c.sh.log) :
    c.sh.log.countP (isDone p) = 1 := by
  have h := reach_inv hc
  have h2 := reach_inv2 hc
  have h3 := reach_inv3 hc
  have h4 : ∃ v, .done p v ∈ c.sh.log := by
    have hph := (h2.s1 p).1 hs
    rcases hph with hph | hph
    · exfalso
      have hp : p ≠ [] := by intro e; subst e; rw [h.root] at hph; cases hph
      cases hS : c.sh.snd p with
      | none => rw [h.sn] at hS; rw [hS] at hph; cases hph
      | some S =>
        obtain ⟨q, h5, h6, h7, _⟩ := waits h h3 hq S p hp hS (.inr hph)
        obtain ⟨v, hv⟩ := hl q h5 h6 ((h2.s1 q).2 (.inl h7))
        have := h2.s2 q v hv
        rw [h7] at this
        cases this
    · exact h2.s3 p hph
  obtain ⟨v, h4⟩ := h4
  exact done_one hc h4

/-- A parent completes after its children: no child completes after its parent. -/
theorem C48_children_first {c : Conf mach} (hc : TReach c) {k : Nat} {q : Path} (hq : q ≠ []) {v w : Nat}
    {l1 l2 : List Ev} (e : c.sh.log = l1 ++ .done (k :: q) v :: l2) : .done q w ∉ l1 := by
  have := reach_hist hc _ _ _ e
  exact this.2.2.1 k q w rfl hq

theorem sound {c : Conf mach} (hc : TReach c) {k : Nat} {x : Instr} {r : List Instr}
    (hk : c.acts[k]? = some (x :: r)) (b : Bool) :
    (∃ s' p, exec c.sh x b = .ok s' p) ∨ exec c.sh x b = .fault := by
  cases he : exec c.sh x b with
  | ok s' p => exact .inl ⟨s', p, rfl⟩
  | block => exact absurd he (exec_not_block _ _ _)
  | fault => exact .inr rfl

/-- No step ever waits. -/
theorem C48_never_blocks {c : Conf mach} (hb : c.bad = false) {k : Nat} {x : Instr} {r : List Instr}
    (hk : c.acts[k]? = some (x :: r)) (b : Bool) : ∃ c', mach.step c (.run k b) = some c' := by
  simp only [Mach.step, hb, hk]
  cases he : exec c.sh x b with
  | ok s' p => simp [he]
  | block => exact absurd he (exec_not_block _ _ _)
  | fault => simp [he]

/-- An execution only goes wrong in the two ways described by C46 and C47. -/
theorem fault_kinds {c : Conf mach} (hc : TReach c) (hb : c.bad = true) :
    (∃ p n f, c.sh.snd p = some (.all n f) ∧ .start p ∈ c.sh.log ∧ ∀ k, k ≤ n → ∃ v, .done (k :: p) v ∈ c.sh.log) ∨
    (∃ p n f v, c.sh.snd p = some (.race n f) ∧ 0 < n ∧ .done p v ∈ c.sh.log) := by
  have h := reach_inv hc
  have h2 := reach_inv2 hc
  have h3 := reach_inv3 hc
  have h4 := reach_inv4 hc
  have hh := reach_hist hc
  have key : ∃ (k : Nat) (x : Instr) (r : List Instr) (b : Bool), c.acts[k]? = some (x :: r) ∧ exec c.sh x b = .fault := by
    cases hc with
    | init => cases hb
    | @step c0 _ l hr hs =>
      cases l with
      | env a =>
        simp only [Mach.step] at hs
        split at hs
        · simp at hs
        · split at hs
          · simp at hs; subst hs; cases hb
          · simp at hs
      | run k b =>
        simp only [Mach.step] at hs
        split at hs
        · simp at hs
        · split at hs
          · rename_i x r hk
            split at hs
            · simp at hs; subst hs; cases hb
            · simp at hs
            · rename_i he
              simp at hs; subst hs
              exact ⟨k, x, r, b, hk, he⟩
          · simp at hs
  obtain ⟨k, x, r, b, hk, he⟩ := key
  rcases fault_cause h h2 h3 h4 hh hk he with ⟨p, n, f, rfl, h5, h6⟩ | ⟨p, j, n, f, v, rfl, h5, h6, h7⟩
  · refine .inl ⟨p, n, f, h5, ?_, h6⟩
    have h7 := ws_pos (w := trw p) hk
    simp only [trw, if_true] at h7
    have h8 := h4.tn p h7
    rw [h2.s1]
    have hp : p ≠ [] := by intro e; subst e; have := (h.sn []).2 h.root; rw [h5] at this; cases this
    have h9 := h.fre p hp
    cases hph : c.sh.phase p <;> simp [hph] at h9 ⊢ <;> omega
  · refine .inr ⟨p, n, f, v, h5, ?_, h7⟩
    have h8 := ws_pos (w := cnw p j) hk
    simp only [cnw, and_self, if_true] at h8
    obtain ⟨n', f', h9, h10, _, _, k', _, h11, h12, _⟩ := h4.cp p j (by omega)
    rw [h5] at h9
    cases h9
    omega

/-- Expressions without `when_all` and `race_and_cancel` never access destroyed operations, nor operations that were
not constructed. -/
theorem C48_no_fault {c : Conf mach} (hc : TReach c) (hp : ∀ t S, c.sh.snd [t] = some S → S.plain) :
    c.bad = false := by
  cases hb : c.bad with
  | false => rfl
  | true =>
    have h := plain_all (reach_inv hc) (reach_inv3 hc) hp
    rcases fault_kinds hc hb with ⟨p, n, f, h1, _⟩ | ⟨p, n, f, v, h1, _⟩
    · exact (h p _ h1).elim
    · exact (h p _ h1).elim

/-! ## Facts about a single operation -/

theorem ne_nil {c : Conf mach} (hc : TReach c) {p : Path} {S : Snd} (hs : c.sh.snd p = some S) : p ≠ [] := by
  rintro rfl
  have := ((reach_inv hc).sn []).2 (reach_inv hc).root
  rw [hs] at this
  cases this

theorem done_ok {c : Conf mach} (hc : TReach c) {p : Path} {S : Snd} {v : Nat} (hs : c.sh.snd p = some S)
    (hd : .done p v ∈ c.sh.log) : ∃ l1 l2, c.sh.log = l1 ++ .done p v :: l2 ∧ DoneOk l1 p v S := by
  obtain ⟨l1, l2, e, hok⟩ := (reach_hist hc).mem hd
  obtain ⟨_, _, _, S', h1, h2⟩ := hok
  rw [hs] at h1
  cases h1
  exact ⟨l1, l2, e, h2⟩

theorem kid_ok {c : Conf mach} (hc : TReach c) {p : Path} {S : Snd} {k : Nat} (hs : c.sh.snd p = some S)
    (hd : .start (k :: p) ∈ c.sh.log) :
    ∃ l1 l2, c.sh.log = l1 ++ .start (k :: p) :: l2 ∧ KidOk c.sh.snd l1 k p S := by
  obtain ⟨l1, l2, e, hok⟩ := (reach_hist hc).mem hd
  obtain ⟨_, _, S', h1, h2⟩ := hok.2 k p rfl (ne_nil hc hs)
  rw [hs] at h1
  cases h1
  exact ⟨l1, l2, e, h2⟩

theorem done_started {c : Conf mach} (hc : TReach c) {p : Path} {v : Nat} (hd : .done p v ∈ c.sh.log) :
    .start p ∈ c.sh.log := by
  obtain ⟨l1, l2, e, hok⟩ := (reach_hist hc).mem hd
  rw [e]
  simp [hok.1]

theorem parent_started {c : Conf mach} (hc : TReach c) {p : Path} (hp : p ≠ []) {k : Nat}
    (hs : .start (k :: p) ∈ c.sh.log) : .start p ∈ c.sh.log := by
  obtain ⟨_, _, e, hok⟩ := (reach_hist hc).mem hs
  rw [e]
  simp [(hok.2 k p rfl hp).1]

/-- When nothing is left to do, an operation that has not completed waits for a child that was started. -/
theorem C48_waits_for_child {c : Conf mach} (hc : TReach c) (hq : Quiescent c) {p : Path} {S : Snd}
    (hS : c.sh.snd p = some S) (hl : S ≠ .leaf) (hs : .start p ∈ c.sh.log) (hd : ∀ v, .done p v ∉ c.sh.log) :
    ∃ k, .start (k :: p) ∈ c.sh.log ∧ ∀ v, .done (k :: p) v ∉ c.sh.log := by
  have h := reach_inv hc
  have h2 := reach_inv2 hc
  have h3 := reach_inv3 hc
  have hp := ne_nil hc hS
  have hph : c.sh.phase p = .started := by
    rcases (h2.s1 p).1 hs with h4 | h4
    · exact h4
    · obtain ⟨v, hv⟩ := h2.s3 p h4
      exact absurd hv (hd v)
  rcases waits1 h h3 hq p hp hph S hS with ⟨h4, _⟩ | ⟨k, h4, _⟩
  · exact absurd h4 hl
  · have h5 := waits0 h hq (k :: p) (by simp) h4
    refine ⟨k, (h2.s1 _).2 (.inl h5), fun v hv => ?_⟩
    have := h2.s2 _ _ hv
    rw [h5] at this
    cases this

/-- An operation with at most one child at a time completes as soon as the child it has started last has completed. -/
theorem quiet_done {c : Conf mach} (hc : TReach c) (hq : Quiescent c) {p : Path} {S : Snd}
    (hS : c.sh.snd p = some S) (hl : S ≠ .leaf) (hs : .start p ∈ c.sh.log)
    (hk : ∀ k, .start (k :: p) ∈ c.sh.log → ∃ v, .done (k :: p) v ∈ c.sh.log) : c.sh.log.countP (isDone p) = 1 := by
  have h1 := C48_at_most_once hc p
  apply Classical.byContradiction
  intro hn
  have h0 : c.sh.log.countP (isDone p) = 0 := by omega
  obtain ⟨k, h2, h3⟩ := C48_waits_for_child hc hq hS hl hs
    (fun v hv => absurd h0 (isDone_iff.2 ⟨v, hv⟩))
  obtain ⟨v, hv⟩ := hk k h2
  exact h3 v hv

/-! ## C41: `transform` and `invocable` -/

theorem call_ok {c : Conf mach} (hc : TReach c) (p : Path) : c.sh.log.countP (isCall p) ≤ 1 := by
  refine (reach_hist hc).countP_le_one _ (fun before a ha hok b hb => ?_)
  cases a <;> simp [isCall] at ha
  subst ha
  cases b <;> simp only [isCall, decide_eq_false_iff_not]
  rintro rfl
  exact hok.1 _ _ hb

/-- `transform(S, f)` completes with the result of the only call of `f`, made with the value of `S` after `S` completed. -/
theorem C41_transform {c : Conf mach} (hc : TReach c) {p : Path} {S : Snd} {f : List Ev → Nat → Nat}
    (hS : c.sh.snd p = some (.xform S f)) {v : Nat} (hd : .done p v ∈ c.sh.log) :
    ∃ w l1 l2 l3, c.sh.log = l1 ++ .call p w v :: l2 ++ .done p v :: l3 ∧ v = f l1 w ∧ .done (0 :: p) w ∈ l1 ∧
      c.sh.snd (0 :: p) = some S ∧ c.sh.log.countP (isCall p) = 1 := by
  obtain ⟨m, l3, e, w, hw⟩ := done_ok hc hS hd
  obtain ⟨l1, l2, rfl⟩ := List.append_of_mem hw
  have h1 : Ok c.sh.snd l1 (.call p w v) := reach_hist hc l1 _ (l2 ++ .done p v :: l3) (by rw [e]; simp)
  obtain ⟨_, h2, _, S', f', h3, h4⟩ := h1
  rw [hS] at h3
  cases h3
  have h5 : .done (0 :: p) w ∈ c.sh.log := by rw [e]; simp [h2]
  obtain ⟨_, _, _, h6⟩ := kid_ok hc hS (done_started hc h5)
  refine ⟨w, l1, l2, l3, e, h4, h2, h6.2, ?_⟩
  have h7 := call_ok hc p
  have h8 : 0 < c.sh.log.countP (isCall p) :=
    List.countP_pos_iff.2 ⟨.call p w v, by rw [e]; simp, by simp [isCall]⟩
  omega

/-- Its only child is `S`, and it completes when `S` has completed. -/
theorem C41_transform_completes {c : Conf mach} (hc : TReach c) (hq : Quiescent c) {p : Path} {S : Snd}
    {f : List Ev → Nat → Nat} (hS : c.sh.snd p = some (.xform S f)) {w : Nat} (hw : .done (0 :: p) w ∈ c.sh.log) :
    c.sh.log.countP (isDone p) = 1 := by
  have h1 := parent_started hc (ne_nil hc hS) (done_started hc hw)
  refine quiet_done hc hq hS (by simp) h1 (fun k hk => ?_)
  obtain ⟨_, _, _, h2⟩ := kid_ok hc hS hk
  rw [h2.1]
  exact ⟨w, hw⟩

theorem invoke_ok {c : Conf mach} (hc : TReach c) (p : Path) : c.sh.log.countP (isInvoke p) ≤ 1 := by
  refine (reach_hist hc).countP_le_one _ (fun before a ha hok b hb => ?_)
  cases a <;> simp [isInvoke] at ha
  subst ha
  cases b <;> simp only [isInvoke, decide_eq_false_iff_not]
  rintro rfl
  exact hok.1 _ hb

/-- `invocable(f)` completes with the result of the only call of `f`. -/
theorem C41_invocable {c : Conf mach} (hc : TReach c) {p : Path} {f : List Ev → Nat}
    (hS : c.sh.snd p = some (.inv f)) {v : Nat} (hd : .done p v ∈ c.sh.log) :
    ∃ l1 l2 l3, c.sh.log = l1 ++ .invoke p v :: l2 ++ .done p v :: l3 ∧ v = f l1 ∧ .start p ∈ l1 ∧
      c.sh.log.countP (isInvoke p) = 1 := by
  obtain ⟨m, l3, e, hw⟩ := done_ok hc hS hd
  obtain ⟨l1, l2, rfl⟩ := List.append_of_mem hw
  have h1 : Ok c.sh.snd l1 (.invoke p v) := reach_hist hc l1 _ (l2 ++ .done p v :: l3) (by rw [e]; simp)
  obtain ⟨_, h2, _, f', h3, h4⟩ := h1
  rw [hS] at h3
  cases h3
  refine ⟨l1, l2, l3, e, h4, h2, ?_⟩
  have h7 := invoke_ok hc p
  have h8 : 0 < c.sh.log.countP (isInvoke p) :=
    List.countP_pos_iff.2 ⟨.invoke p v, by rw [e]; simp, by simp [isInvoke]⟩
  omega

/-- `invocable(f)` has completed when `start()` has returned: nothing else is needed. -/
theorem C41_invocable_completes {c : Conf mach} (hc : TReach c) (hq : Quiescent c) {p : Path} {f : List Ev → Nat}
    (hS : c.sh.snd p = some (.inv f)) (hs : .start p ∈ c.sh.log) : c.sh.log.countP (isDone p) = 1 := by
  refine quiet_done hc hq hS (by simp) hs (fun k hk => ?_)
  obtain ⟨_, _, _, h2⟩ := kid_ok hc hS hk
  exact h2.elim

/-! ## C42: `ite` -/

theorem cond_unique {c : Conf mach} (hc : TReach c) {p : Path} {k : Nat} {b b' : Bool}
    (h : .cond p k b ∈ c.sh.log) (h' : .cond p k b' ∈ c.sh.log) : b = b' := by
  have := (reach_hist hc).unique (isCond p k) (fun before a ha hok x hb => by
    cases a <;> simp [isCond] at ha
    obtain ⟨rfl, rfl⟩ := ha
    cases x <;> simp only [isCond, decide_eq_false_iff_not]
    rintro ⟨rfl, rfl⟩
    exact hok.1 _ hb) h h' (by simp [isCond]) (by simp [isCond])
  cases this
  rfl

theorem cond_once {c : Conf mach} (hc : TReach c) (p : Path) (k : Nat) : c.sh.log.countP (isCond p k) ≤ 1 :=
  (reach_hist hc).countP_le_one _ (fun before a ha hok b hb => by
    cases a <;> simp [isCond] at ha
    obtain ⟨rfl, rfl⟩ := ha
    cases b <;> simp only [isCond, decide_eq_false_iff_not]
    rintro ⟨rfl, rfl⟩
    exact hok.1 _ hb)

/-- `ite(c, a, b)` evaluates its condition at most once; a child is started after that, and is the selected one: number 0
is `a` and number 1 is `b`. -/
theorem C42_ite {c : Conf mach} (hc : TReach c) {p : Path} {cnd : List Ev → Bool} {A B : Snd}
    (hS : c.sh.snd p = some (.ite cnd A B)) {k : Nat} (hk : .start (k :: p) ∈ c.sh.log) :
    ∃ b l1 l2 l3, c.sh.log = l1 ++ .cond p 0 b :: l2 ++ .start (k :: p) :: l3 ∧ b = cnd l1 ∧
      k = (if b then 0 else 1) ∧ c.sh.snd (k :: p) = some (if b then A else B) ∧
      c.sh.log.countP (isCond p 0) = 1 ∧ (∀ j, j ≠ k → .start (j :: p) ∉ c.sh.log) := by
  have key : ∀ j, .start (j :: p) ∈ c.sh.log → ∃ b m l3, c.sh.log = m ++ .start (j :: p) :: l3 ∧ .cond p 0 b ∈ m ∧
      j = (if b then 0 else 1) ∧ c.sh.snd (j :: p) = some (if b then A else B) := by
    intro j hj
    obtain ⟨m, l3, e, h⟩ := kid_ok hc hS hj
    rcases h with ⟨rfl, h1, h2⟩ | ⟨rfl, h1, h2⟩
    · exact ⟨true, m, l3, e, h1, rfl, h2⟩
    · exact ⟨false, m, l3, e, h1, rfl, h2⟩
  obtain ⟨b, m, l3, e, h1, h2, h3⟩ := key k hk
  have h4 : .cond p 0 b ∈ c.sh.log := by rw [e]; simp [h1]
  obtain ⟨l1, l2, rfl⟩ := List.append_of_mem h1
  have h5 : Ok c.sh.snd l1 (.cond p 0 b) := reach_hist hc l1 _ (l2 ++ .start (k :: p) :: l3) (by rw [e]; simp)
  refine ⟨b, l1, l2, l3, e, ?_, h2, h3, ?_, fun j hj hs => ?_⟩
  · rcases h5.2.2.2 with ⟨c', A', B', h6, _, h7⟩ | ⟨c', f, h6, _⟩
    · rw [hS] at h6; cases h6; exact h7
    · rw [hS] at h6; cases h6
  · have h7 := cond_once hc p 0
    have h8 : 0 < c.sh.log.countP (isCond p 0) := List.countP_pos_iff.2 ⟨.cond p 0 b, h4, by simp [isCond]⟩
    omega
  · obtain ⟨b', m', _, e', h6, h7, _⟩ := key j hs
    have h8 : .cond p 0 b' ∈ c.sh.log := by rw [e']; simp [h6]
    rw [cond_unique hc h8 h4] at h7
    exact hj (h7.trans h2.symm)

/-- When nothing is left to do, it has started the selected sender. -/
theorem C42_starts {c : Conf mach} (hc : TReach c) (hq : Quiescent c) {p : Path} {cnd : List Ev → Bool} {A B : Snd}
    (hS : c.sh.snd p = some (.ite cnd A B)) (hs : .start p ∈ c.sh.log) : ∃ k, .start (k :: p) ∈ c.sh.log := by
  by_cases hd : ∃ v, .done p v ∈ c.sh.log
  · obtain ⟨v, hv⟩ := hd
    obtain ⟨l1, l2, e, b, _, h⟩ := done_ok hc hS hv
    exact ⟨_, done_started hc (by rw [e]; exact List.mem_append_left _ h)⟩
  · obtain ⟨k, h, _⟩ := C48_waits_for_child hc hq hS (by simp) hs (fun v hv => hd ⟨v, hv⟩)
    exact ⟨k, h⟩

/-- It completes with the value of the selected sender … -/
theorem C42_value {c : Conf mach} (hc : TReach c) {p : Path} {cnd : List Ev → Bool} {A B : Snd}
    (hS : c.sh.snd p = some (.ite cnd A B)) {v : Nat} (hd : .done p v ∈ c.sh.log) :
    ∃ k l1 l2, c.sh.log = l1 ++ .done p v :: l2 ∧ .done (k :: p) v ∈ l1 := by
  obtain ⟨l1, l2, e, b, _, h⟩ := done_ok hc hS hd
  exact ⟨_, l1, l2, e, h⟩

/-- … when that has completed. -/
theorem C42_completes {c : Conf mach} (hc : TReach c) (hq : Quiescent c) {p : Path} {cnd : List Ev → Bool} {A B : Snd}
    (hS : c.sh.snd p = some (.ite cnd A B)) {k v : Nat} (hd : .done (k :: p) v ∈ c.sh.log) :
    c.sh.log.countP (isDone p) = 1 := by
  have h0 := done_started hc hd
  have h1 := parent_started hc (ne_nil hc hS) h0
  refine quiet_done hc hq hS (by simp) h1 (fun j hj => ?_)
  obtain ⟨_, _, _, _, _, _, _, _, _, h2⟩ := C42_ite hc hS h0
  by_cases e : j = k
  · subst e; exact ⟨v, hd⟩
  · exact absurd hj (h2 j e)

/-! ## C43: `let` -/

theorem bind_once {c : Conf mach} (hc : TReach c) (p : Path) : c.sh.log.countP (isBind p) ≤ 1 :=
  (reach_hist hc).countP_le_one _ (fun before a ha hok b hb => by
    cases a <;> simp [isBind] at ha
    subst ha
    cases b <;> simp only [isBind, decide_eq_false_iff_not]
    rintro rfl
    exact hok.1 _ hb)

/-- `let(g, f)` evaluates `g` once, and then starts the sender that `f` makes from the result, as its only child. -/
theorem C43_let {c : Conf mach} (hc : TReach c) {p : Path} {g : List Ev → Nat} {f : Nat → Snd}
    (hS : c.sh.snd p = some (.letS g f)) {k : Nat} (hk : .start (k :: p) ∈ c.sh.log) :
    k = 0 ∧ ∃ u l1 l2 l3, c.sh.log = l1 ++ .bind p u :: l2 ++ .start (k :: p) :: l3 ∧ u = g l1 ∧
      c.sh.snd (k :: p) = some (f u) ∧ c.sh.log.countP (isBind p) = 1 := by
  obtain ⟨m, l3, e, rfl, u, h1, h2⟩ := kid_ok hc hS hk
  obtain ⟨l1, l2, rfl⟩ := List.append_of_mem h1
  have h5 : Ok c.sh.snd l1 (.bind p u) := reach_hist hc l1 _ (l2 ++ .start (0 :: p) :: l3) (by rw [e]; simp)
  obtain ⟨_, _, _, g', f', h6, h7⟩ := h5
  rw [hS] at h6
  cases h6
  refine ⟨rfl, u, l1, l2, l3, e, h7, h2, ?_⟩
  have h7 := bind_once hc p
  have h8 : 0 < c.sh.log.countP (isBind p) :=
    List.countP_pos_iff.2 ⟨.bind p u, by rw [e]; simp, by simp [isBind]⟩
  omega

/-- It completes with the value of that sender, after the sender has completed: the variable outlives the sender. -/
theorem C43_value {c : Conf mach} (hc : TReach c) {p : Path} {g : List Ev → Nat} {f : Nat → Snd}
    (hS : c.sh.snd p = some (.letS g f)) {v : Nat} (hd : .done p v ∈ c.sh.log) :
    ∃ l1 l2 l3, c.sh.log = l1 ++ .done (0 :: p) v :: l2 ++ .done p v :: l3 := by
  obtain ⟨m, l3, e, h⟩ := done_ok hc hS hd
  obtain ⟨l1, l2, rfl⟩ := List.append_of_mem h
  exact ⟨l1, l2, l3, e⟩

theorem C43_completes {c : Conf mach} (hc : TReach c) (hq : Quiescent c) {p : Path} {g : List Ev → Nat} {f : Nat → Snd}
    (hS : c.sh.snd p = some (.letS g f)) (hs : .start p ∈ c.sh.log) :
    .start (0 :: p) ∈ c.sh.log ∧ ∀ v, .done (0 :: p) v ∈ c.sh.log → c.sh.log.countP (isDone p) = 1 := by
  constructor
  · by_cases hd : ∃ v, .done p v ∈ c.sh.log
    · obtain ⟨v, hv⟩ := hd
      obtain ⟨l1, l2, l3, e⟩ := C43_value hc hS hv
      exact done_started (v := v) hc (by rw [e]; simp)
    · obtain ⟨k, h, _⟩ := C48_waits_for_child hc hq hS (by simp) hs (fun v hv => hd ⟨v, hv⟩)
      rw [(C43_let hc hS h).1] at h
      exact h
  · intro v hv
    refine quiet_done hc hq hS (by simp) hs (fun j hj => ?_)
    rw [(C43_let hc hS hj).1]
    exact ⟨v, hv⟩

/-- `lambda(f)(args…)` behaves like the sender `f(args…)`. -/
theorem C43_lambda {c : Conf mach} (hc : TReach c) {p : Path} {S : Snd} (hS : c.sh.snd p = some (.lam S)) :
    (∀ k, .start (k :: p) ∈ c.sh.log → k = 0 ∧ c.sh.snd (k :: p) = some S) ∧
    ∀ v, .done p v ∈ c.sh.log → ∃ l1 l2 l3, c.sh.log = l1 ++ .done (0 :: p) v :: l2 ++ .done p v :: l3 := by
  constructor
  · intro k hk
    obtain ⟨_, _, _, rfl, h2⟩ := kid_ok hc hS hk
    exact ⟨rfl, h2⟩
  · intro v hd
    obtain ⟨m, l3, e, h⟩ := done_ok hc hS hd
    obtain ⟨l1, l2, rfl⟩ := List.append_of_mem h
    exact ⟨l1, l2, l3, e⟩

/-! ## C44: `sequence` -/

/-- `sequence` starts its senders in order: sender number `k` is only started after sender number `k - 1` has completed. -/
theorem C44_order {c : Conf mach} (hc : TReach c) {p : Path} {n : Nat} {f : Nat → Snd}
    (hS : c.sh.snd p = some (.seq n f)) {k : Nat} (hk : .start (k :: p) ∈ c.sh.log) :
    k ≤ n ∧ c.sh.snd (k :: p) = some (f k) ∧ c.sh.log.count (.start (k :: p)) = 1 ∧
      ∀ j, j < k → ∃ v l1 l2 l3, c.sh.log = l1 ++ .done (j :: p) v :: l2 ++ .start (k :: p) :: l3 := by
  have h0 : c.sh.log.count (.start (k :: p)) = 1 := by
    have := C48_started_once hc (k :: p)
    have := List.count_pos_iff.2 hk
    omega
  obtain ⟨m, l3, e, h1, h2, _⟩ := kid_ok hc hS hk
  refine ⟨h1, h2, h0, ?_⟩
  have key : ∀ d k m l3, c.sh.log = m ++ .start (k :: p) :: l3 → ∀ j, k = j + 1 + d → ∃ v, .done (j :: p) v ∈ m := by
    intro d
    induction d with
    | zero =>
      intro k m l3 e j hj
      obtain ⟨_, _, S, h3, h4⟩ := (reach_hist hc m _ l3 e).2 k p rfl (ne_nil hc hS)
      rw [hS] at h3
      cases h3
      exact h4.2.2 j hj
    | succ d ih =>
      intro k m l3 e j hj
      obtain ⟨_, _, S, h3, h4⟩ := (reach_hist hc m _ l3 e).2 k p rfl (ne_nil hc hS)
      rw [hS] at h3
      cases h3
      obtain ⟨v, hv⟩ := h4.2.2 (j + 1 + d) hj
      obtain ⟨m1, m2, rfl⟩ := List.append_of_mem hv
      have h5 := reach_hist hc m1 (.done ((j + 1 + d) :: p) v) (m2 ++ .start (k :: p) :: l3) (by rw [e]; simp)
      obtain ⟨a1, a2, e2⟩ := List.append_of_mem h5.1
      obtain ⟨w, hw⟩ := ih (j + 1 + d) a1 (a2 ++ .done ((j + 1 + d) :: p) v :: m2 ++ .start (k :: p) :: l3)
        (by rw [e, e2]; simp) j rfl
      exact ⟨w, by rw [e2]; simp [hw]⟩
  intro j hj
  obtain ⟨v, hv⟩ := key (k - (j + 1)) k m l3 e j (by omega)
  obtain ⟨l1, l2, rfl⟩ := List.append_of_mem hv
  exact ⟨v, l1, l2, l3, e⟩

/-- It completes with the value of the last sender, after all senders were started and have completed. -/
theorem C44_value {c : Conf mach} (hc : TReach c) {p : Path} {n : Nat} {f : Nat → Snd}
    (hS : c.sh.snd p = some (.seq n f)) {v : Nat} (hd : .done p v ∈ c.sh.log) :
    c.sh.log.countP (isDone p) = 1 ∧
    (∃ l1 l2 l3, c.sh.log = l1 ++ .done (n :: p) v :: l2 ++ .done p v :: l3) ∧
    ∀ k, k ≤ n → c.sh.log.count (.start (k :: p)) = 1 ∧ c.sh.log.countP (isDone (k :: p)) = 1 := by
  obtain ⟨m, l3, e, h⟩ := done_ok hc hS hd
  obtain ⟨l1, l2, rfl⟩ := List.append_of_mem h
  have hn : .done (n :: p) v ∈ c.sh.log := by rw [e]; simp
  refine ⟨done_one hc hd, ⟨l1, l2, l3, e⟩, fun k hk => ?_⟩
  have hk' : ∃ u, .done (k :: p) u ∈ c.sh.log := by
    by_cases ek : k = n
    · subst ek; exact ⟨v, hn⟩
    · obtain ⟨u, a, b, d, e2⟩ := (C44_order hc hS (done_started hc hn)).2.2.2 k (by omega)
      exact ⟨u, by rw [e2]; simp⟩
  obtain ⟨u, hu⟩ := hk'
  exact ⟨(C44_order hc hS (done_started hc hu)).2.2.1, done_one hc hu⟩

/-- There is always progress: when nothing is left to do, either it has completed, or exactly one of its senders was
started and has not completed. -/
theorem C44_completes {c : Conf mach} (hc : TReach c) (hq : Quiescent c) {p : Path} {n : Nat} {f : Nat → Snd}
    (hS : c.sh.snd p = some (.seq n f)) (hs : .start p ∈ c.sh.log) :
    c.sh.log.countP (isDone p) = 1 ∨ ∃ k, .start (k :: p) ∈ c.sh.log ∧ (∀ v, .done (k :: p) v ∉ c.sh.log) ∧
      ∀ j, j ≠ k → .start (j :: p) ∈ c.sh.log → ∃ v, .done (j :: p) v ∈ c.sh.log := by
  by_cases hd : ∃ v, .done p v ∈ c.sh.log
  · obtain ⟨v, hv⟩ := hd
    exact .inl (done_one hc hv)
  · right
    obtain ⟨k, h1, h2⟩ := C48_waits_for_child hc hq hS (by simp) hs (fun v hv => hd ⟨v, hv⟩)
    refine ⟨k, h1, h2, fun j hj h3 => ?_⟩
    have h4 : j < k := by
      apply Classical.byContradiction
      intro hn
      obtain ⟨v, a, b, d, e⟩ := (C44_order hc hS h3).2.2.2 k (by omega)
      exact h2 v (by rw [e]; simp)
    obtain ⟨v, a, b, d, e⟩ := (C44_order hc hS h1).2.2.2 j h4
    exact ⟨v, by rw [e]; simp⟩

/-! ## C45: `repeat_while` -/

/-- Evaluation number `k` of the condition happens after all evaluations before it were true and the senders they started
have completed. -/
theorem C45_condition {c : Conf mach} (hc : TReach c) {p : Path} {cnd : List Ev → Bool} {f : List Ev → Snd}
    (hS : c.sh.snd p = some (.rep cnd f)) {k : Nat} {b : Bool} {l1 l2 : List Ev}
    (e : c.sh.log = l1 ++ .cond p k b :: l2) :
    b = cnd l1 ∧ c.sh.log.countP (isCond p k) = 1 ∧
      ∀ j, j < k → .cond p j true ∈ l1 ∧ ∃ v, .done (j :: p) v ∈ l1 := by
  have key : ∀ k b l1 l2, c.sh.log = l1 ++ .cond p k b :: l2 → b = cnd l1 ∧
      ∀ j, k = j + 1 → .cond p j true ∈ l1 ∧ ∃ v, .done (j :: p) v ∈ l1 := by
    intro k b l1 l2 e
    rcases (reach_hist hc l1 _ l2 e).2.2.2 with ⟨c', A, B, h, _⟩ | ⟨c', f', h, h1, h2⟩
    · rw [hS] at h; cases h
    · rw [hS] at h; cases h; exact ⟨h1, h2⟩
  refine ⟨(key k b l1 l2 e).1, ?_, ?_⟩
  · have h7 := cond_once hc p k
    have h8 : 0 < c.sh.log.countP (isCond p k) :=
      List.countP_pos_iff.2 ⟨.cond p k b, by rw [e]; simp, by simp [isCond]⟩
    omega
  · have ind : ∀ d k b l1 l2, c.sh.log = l1 ++ .cond p k b :: l2 → ∀ j, k = j + 1 + d →
        .cond p j true ∈ l1 ∧ ∃ v, .done (j :: p) v ∈ l1 := by
      intro d
      induction d with
      | zero => intro k b l1 l2 e j hj; exact (key k b l1 l2 e).2 j hj
      | succ d ih =>
        intro k b l1 l2 e j hj
        obtain ⟨h1, _⟩ := (key k b l1 l2 e).2 (j + 1 + d) hj
        obtain ⟨m1, m2, rfl⟩ := List.append_of_mem h1
        obtain ⟨h2, v, h3⟩ := ih (j + 1 + d) true m1 (m2 ++ .cond p k b :: l2) (by rw [e]; simp) j rfl
        exact ⟨by simp [h2], v, by simp [h3]⟩
    intro j hj
    exact ind (k - (j + 1)) k b l1 l2 e j (by omega)

/-- Body number `k` is started after evaluation number `k`, which was true, and is the sender made by `f` at that time;
all bodies before it have completed, so that there never are two bodies. -/
theorem C45_body {c : Conf mach} (hc : TReach c) {p : Path} {cnd : List Ev → Bool} {f : List Ev → Snd}
    (hS : c.sh.snd p = some (.rep cnd f)) {k : Nat} {m l3 : List Ev} (e : c.sh.log = m ++ .start (k :: p) :: l3) :
    (∃ l1 l2, m = l1 ++ .cond p k true :: l2 ∧ c.sh.snd (k :: p) = some (f (l1 ++ [.cond p k true]))) ∧
    .start (k :: p) ∉ m ∧ ∀ j, j < k → ∃ v, .done (j :: p) v ∈ m := by
  obtain ⟨h0, h1⟩ := reach_hist hc m _ l3 e
  obtain ⟨_, _, S, h2, h3⟩ := h1 k p rfl (ne_nil hc hS)
  rw [hS] at h2
  cases h2
  obtain ⟨l1, l2, rfl, h4⟩ := h3
  refine ⟨⟨l1, l2, rfl, h4⟩, h0, fun j hj => ?_⟩
  obtain ⟨_, _, h5⟩ := C45_condition hc hS (k := k) (b := true) (l1 := l1) (l2 := l2 ++ .start (k :: p) :: l3)
    (by rw [e]; simp)
  obtain ⟨_, v, h6⟩ := h5 j hj
  exact ⟨v, by simp [h6]⟩

/-- It completes after an evaluation that was false, which is the last one, and it has started exactly the bodies before
it. -/
theorem C45_value {c : Conf mach} (hc : TReach c) {p : Path} {cnd : List Ev → Bool} {f : List Ev → Snd}
    (hS : c.sh.snd p = some (.rep cnd f)) {v : Nat} (hd : .done p v ∈ c.sh.log) :
    c.sh.log.countP (isDone p) = 1 ∧
    ∃ k l1 l2 l3, c.sh.log = l1 ++ .cond p k false :: l2 ++ .done p v :: l3 ∧
      (∀ j b, .cond p j b ∈ c.sh.log → j ≤ k) ∧ ∀ j, .start (j :: p) ∈ c.sh.log ↔ j < k := by
  obtain ⟨m, l3, e, k, h⟩ := done_ok hc hS hd
  have hk : .cond p k false ∈ c.sh.log := by rw [e]; simp [h]
  obtain ⟨l1, l2, rfl⟩ := List.append_of_mem h
  refine ⟨done_one hc hd, k, l1, l2, l3, e, ?_, ?_⟩
  · intro j b hj
    apply Classical.byContradiction
    intro hn
    obtain ⟨m1, m2, e2⟩ := List.append_of_mem hj
    have := ((C45_condition hc hS e2).2.2 k (by omega)).1
    have := cond_unique hc hk (by rw [e2]; exact List.mem_append_left _ this)
    cases this
  · intro j
    constructor
    · intro hj
      obtain ⟨m, l, e2⟩ := List.append_of_mem hj
      obtain ⟨⟨a, b, rfl, _⟩, _⟩ := C45_body hc hS e2
      have h1 : .cond p j true ∈ c.sh.log := by rw [e2]; simp
      have h2 : ¬ k ≤ j := by
        intro hle
        by_cases ek : k = j
        · subst ek
          have := cond_unique hc hk h1
          cases this
        · obtain ⟨m1, m2, e3⟩ := List.append_of_mem h1
          have := ((C45_condition hc hS e3).2.2 k (by omega)).1
          have := cond_unique hc hk (by rw [e3]; exact List.mem_append_left _ this)
          cases this
      omega
    · intro hj
      obtain ⟨_, v, h2⟩ := (C45_condition hc hS (k := k) (b := false) (l1 := l1) (l2 := l2 ++ .done p v :: l3)
        (by rw [e]; simp)).2.2 j hj
      exact done_started (v := v) hc (by rw [e]; simp [h2])

/-- There is always progress: when nothing is left to do, either it has completed, or the body that was started last has
not completed. -/
theorem C45_completes {c : Conf mach} (hc : TReach c) (hq : Quiescent c) {p : Path} {cnd : List Ev → Bool}
    {f : List Ev → Snd} (hS : c.sh.snd p = some (.rep cnd f)) (hs : .start p ∈ c.sh.log) :
    c.sh.log.countP (isDone p) = 1 ∨ ∃ k, .start (k :: p) ∈ c.sh.log ∧ (∀ v, .done (k :: p) v ∉ c.sh.log) ∧
      ∀ j, j ≠ k → .start (j :: p) ∈ c.sh.log → ∃ v, .done (j :: p) v ∈ c.sh.log := by
  by_cases hd : ∃ v, .done p v ∈ c.sh.log
  · obtain ⟨v, hv⟩ := hd
    exact .inl (done_one hc hv)
  · right
    obtain ⟨k, h1, h2⟩ := C48_waits_for_child hc hq hS (by simp) hs (fun v hv => hd ⟨v, hv⟩)
    refine ⟨k, h1, h2, fun j hj h3 => ?_⟩
    obtain ⟨m1, m2, e1⟩ := List.append_of_mem h1
    obtain ⟨m3, m4, e3⟩ := List.append_of_mem h3
    have h4 : j < k := by
      apply Classical.byContradiction
      intro hn
      obtain ⟨v, hv⟩ := (C45_body hc hS e3).2.2 k (by omega)
      exact h2 v (by rw [e3]; exact List.mem_append_left _ hv)
    obtain ⟨v, hv⟩ := (C45_body hc hS e1).2.2 j h4
    exact ⟨v, by rw [e1]; exact List.mem_append_left _ hv⟩

/-! ## C46: `when_all` -/

/-- `when_all` starts every sender. -/
theorem C46_starts_all {c : Conf mach} (hc : TReach c) (hq : Quiescent c) {p : Path} {n : Nat} {f : Nat → Snd}
    (hS : c.sh.snd p = some (.all n f)) (hs : .start p ∈ c.sh.log) {k : Nat} (hk : k ≤ n) :
    c.sh.log.count (.start (k :: p)) = 1 ∧ c.sh.snd (k :: p) = some (f k) := by
  have h := reach_inv hc
  have h2 := reach_inv2 hc
  have h3 := reach_inv3 hc
  have hst : .start (k :: p) ∈ c.sh.log := by
    rcases h3.fan p n f (.inl hS) ((h2.s1 p).1 hs) with h4 | ⟨_, h4⟩
    · rw [ws_quiescent _ hq] at h4; omega
    · rw [h2.s1]
      have h5 := h4 k hk
      have h6 := waits0 h hq (k :: p) (by simp)
      cases hph : c.sh.phase (k :: p) <;> simp_all
  obtain ⟨_, _, _, h5⟩ := kid_ok hc hS hst
  refine ⟨?_, h5.2⟩
  have := C48_started_once hc (k :: p)
  have := List.count_pos_iff.2 hst
  omega

/-- It completes once, and only after all senders have completed. -/
theorem C46_after_all {c : Conf mach} (hc : TReach c) {p : Path} {n : Nat} {f : Nat → Snd}
    (hS : c.sh.snd p = some (.all n f)) {v : Nat} (hd : .done p v ∈ c.sh.log) :
    c.sh.log.countP (isDone p) = 1 ∧
    ∀ k, k ≤ n → ∃ u l1 l2 l3, c.sh.log = l1 ++ .done (k :: p) u :: l2 ++ .done p v :: l3 := by
  obtain ⟨m, l3, e, h⟩ := done_ok hc hS hd
  refine ⟨done_one hc hd, fun k hk => ?_⟩
  obtain ⟨u, hu⟩ := h k hk
  obtain ⟨l1, l2, rfl⟩ := List.append_of_mem hu
  exact ⟨u, l1, l2, l3, e⟩

/-- It completes when all senders have completed. -/
theorem C46_completes {c : Conf mach} (hc : TReach c) (hq : Quiescent c) {p : Path} {n : Nat} {f : Nat → Snd}
    (hS : c.sh.snd p = some (.all n f)) (hs : .start p ∈ c.sh.log)
    (hd : ∀ k, k ≤ n → ∃ v, .done (k :: p) v ∈ c.sh.log) : c.sh.log.countP (isDone p) = 1 := by
  refine quiet_done hc hq hS (by simp) hs (fun k hk => ?_)
  obtain ⟨_, _, _, h5⟩ := kid_ok hc hS hk
  exact hd k h5.1

/-- The end of `start()` is safe as long as one of the senders has not completed. -/
theorem C46_safe_partial {c : Conf mach} (hc : TReach c) {p : Path} {n : Nat} {f : Nat → Snd}
    (hS : c.sh.snd p = some (.all n f)) {k : Nat} {r : List Instr} (hk : c.acts[k]? = some (.trail p :: r))
    {j : Nat} (hj : j ≤ n) (hd : ∀ v, .done (j :: p) v ∉ c.sh.log) (b : Bool) :
    exec c.sh (.trail p) b ≠ .fault := by
  intro he
  rcases fault_cause (reach_inv hc) (reach_inv2 hc) (reach_inv3 hc) (reach_inv4 hc) (reach_hist hc) hk he with
    ⟨p', n', f', h1, h2, h3⟩ | ⟨_, _, _, _, _, h1, _⟩
  · cases h1
    rw [hS] at h2
    cases h2
    obtain ⟨v, hv⟩ := h3 j hj
    exact hd v hv
  · cases h1

/-! ## C47: `race_and_cancel` -/

theorem C47_starts_all {c : Conf mach} (hc : TReach c) (hq : Quiescent c) {p : Path} {n : Nat} {f : Nat → Snd}
    (hS : c.sh.snd p = some (.race n f)) (hs : .start p ∈ c.sh.log) {k : Nat} (hk : k ≤ n) :
    c.sh.log.count (.start (k :: p)) = 1 ∧ c.sh.snd (k :: p) = some (f k) := by
  have h := reach_inv hc
  have h2 := reach_inv2 hc
  have h3 := reach_inv3 hc
  have hst : .start (k :: p) ∈ c.sh.log := by
    rcases h3.fan p n f (.inr hS) ((h2.s1 p).1 hs) with h4 | ⟨_, h4⟩
    · rw [ws_quiescent _ hq] at h4; omega
    · rw [h2.s1]
      have h5 := h4 k hk
      have h6 := waits0 h hq (k :: p) (by simp)
      cases hph : c.sh.phase (k :: p) <;> simp_all
  obtain ⟨_, _, _, h5⟩ := kid_ok hc hS hst
  refine ⟨?_, h5.2⟩
  have := C48_started_once hc (k :: p)
  have := List.count_pos_iff.2 hst
  omega

/-- `race_and_cancel` completes once, and only after all senders have completed. -/
theorem C47_after_all {c : Conf mach} (hc : TReach c) {p : Path} {n : Nat} {f : Nat → Snd}
    (hS : c.sh.snd p = some (.race n f)) {v : Nat} (hd : .done p v ∈ c.sh.log) :
    c.sh.log.countP (isDone p) = 1 ∧
    ∀ k, k ≤ n → ∃ u l1 l2 l3, c.sh.log = l1 ++ .done (k :: p) u :: l2 ++ .done p v :: l3 := by
  obtain ⟨m, l3, e, h⟩ := done_ok hc hS hd
  refine ⟨done_one hc hd, fun k hk => ?_⟩
  obtain ⟨u, hu⟩ := h k hk
  obtain ⟨l1, l2, rfl⟩ := List.append_of_mem hu
  exact ⟨u, l1, l2, l3, e⟩

/-- It completes when all senders have completed. -/
theorem C47_completes {c : Conf mach} (hc : TReach c) (hq : Quiescent c) {p : Path} {n : Nat} {f : Nat → Snd}
    (hS : c.sh.snd p = some (.race n f)) (hs : .start p ∈ c.sh.log)
    (hd : ∀ k, k ≤ n → ∃ v, .done (k :: p) v ∈ c.sh.log) : c.sh.log.countP (isDone p) = 1 := by
  refine quiet_done hc hq hS (by simp) hs (fun k hk => ?_)
  obtain ⟨_, _, _, h5⟩ := kid_ok hc hS hk
  exact hd k h5.1

/-- As soon as one of the senders has completed, all others but one that has completed are cancelled, once each. -/
theorem C47_cancels_others {c : Conf mach} (hc : TReach c) (hq : Quiescent c) {p : Path} {n : Nat} {f : Nat → Snd}
    (hS : c.sh.snd p = some (.race n f)) {k v : Nat} (hd : .done (k :: p) v ∈ c.sh.log) :
    ∃ k0, k0 ≤ n ∧ (∃ u, .done (k0 :: p) u ∈ c.sh.log) ∧
      ∀ j, j ≤ n → j ≠ k0 → c.sh.log.count (.cancel (j :: p)) = 1 := by
  have h := reach_inv hc
  have h2 := reach_inv2 hc
  have h3 := reach_inv3 hc
  have h4 := reach_inv4 hc
  have hp := ne_nil hc hS
  have hst := done_started hc hd
  have hk : k ≤ n := by
    obtain ⟨_, _, _, h5⟩ := kid_ok hc hS hst
    exact h5.1
  have hph := (h2.s1 p).1 (parent_started hc hp hst)
  have hn : c.sh.nx p = n + 1 := by
    rcases h3.fan p n f (.inr hS) hph with h5 | ⟨h5, _⟩
    · rw [ws_quiescent _ hq] at h5; omega
    · exact h5
  have hct : c.sh.ctr p ≤ n := by
    rcases hph with hph | hph
    · have h5 := h.sta p hp hph _ hS
      simp only [Load, (quiet hq p).2] at h5
      have h6 : kids c.sh.phase p (n + 1) ≤ n := kids_le (Nat.lt_succ_of_le hk) (by rw [h2.s2 _ _ hd]; rfl)
      omega
    · rw [h4.dz p n f hS hph]; omega
  obtain ⟨k0, u, h5, h6, h7⟩ := h4.cq p n f hS hn hct
  refine ⟨k0, h5, ⟨u, h6⟩, fun j hj hne => ?_⟩
  have h8 := h7 j hj hne
  have h9 := h4.cc p j
  rw [ws_quiescent _ hq] at h8 h9
  omega

/-- Cancellation is requested at most once per sender, before the whole operation completes, and only after another
sender has completed. -/
theorem C47_cancel_only {c : Conf mach} (hc : TReach c) {p : Path} {n : Nat} {f : Nat → Snd}
    (hS : c.sh.snd p = some (.race n f)) {j : Nat} {l1 l2 : List Ev} (e : c.sh.log = l1 ++ .cancel (j :: p) :: l2) :
    .cancel (j :: p) ∉ l1 ∧ j ≤ n ∧ (∀ u, .done p u ∉ l1) ∧ ∃ k v, k ≤ n ∧ k ≠ j ∧ .done (k :: p) v ∈ l1 := by
  obtain ⟨h1, j', q, n', f', h2, h3, h4, h5, h6⟩ := reach_hist hc _ _ _ e
  cases h2
  rw [hS] at h3
  cases h3
  exact ⟨h1, h4, h5, h6⟩

/-- The cancellation loop is safe as long as the operation has not completed. -/
theorem C47_safe_partial {c : Conf mach} (hc : TReach c) {p : Path} {j : Nat}
    {k : Nat} {r : List Instr} (hk : c.acts[k]? = some (.cancel p j :: r))
    (hd : ∀ v, .done p v ∉ c.sh.log) (b : Bool) : exec c.sh (.cancel p j) b ≠ .fault := by
  intro he
  rcases fault_cause (reach_inv hc) (reach_inv2 hc) (reach_inv3 hc) (reach_inv4 hc) (reach_hist hc) hk he with
    ⟨_, _, _, h1, _⟩ | ⟨_, _, _, _, v, h1, _, _, h4⟩
  · cases h1
  · cases h1
    exact hd v h4

set_option maxRecDepth 100000

/-! ## Examples

Expression 0 uses all algorithms that have one child at a time. -/

def pick (a b : Snd) : Nat → Snd
  | 0 => a
  | _ => b

/-- `transform(sequence(leaf, let([] { return 4; }, [] (auto x) { return ite(x == 4, lambda(invocable(x)), leaf); })),
[] (auto v) { return v + 1; })`. -/
def expr : Snd :=
  .xform (.seq 1 (pick .leaf (.letS (fun _ => 4) (fun x =>
    .ite (fun _ => x == 4) (.lam (.inv (fun _ => x))) .leaf)))) (fun _ v => v + 1)

def demo : Conf mach :=
  mach.go init ([.env (.start 0 expr)] ++ List.replicate 6 (.run 0 true) ++ [.env (.finish [0, 0, 0] 7)] ++
    List.replicate 40 (.run 1 true))

theorem demo_log : demo.sh.log = [.start [0], .start [0, 0], .start [0, 0, 0], .done [0, 0, 0] 7, .start [1, 0, 0],
    .bind [1, 0, 0] 4, .start [0, 1, 0, 0], .cond [0, 1, 0, 0] 0 true, .start [0, 0, 1, 0, 0],
    .start [0, 0, 0, 1, 0, 0], .invoke [0, 0, 0, 1, 0, 0] 4, .done [0, 0, 0, 1, 0, 0] 4, .done [0, 0, 1, 0, 0] 4,
    .done [0, 1, 0, 0] 4, .done [1, 0, 0] 4, .done [0, 0] 4, .call [0] 4 5, .done [0] 5] := by decide

theorem demo_reach : TReach demo := Reach.go ..

theorem demo_quiescent : Quiescent demo := by
  have : demo.acts = [[], []] := by decide
  simp [Quiescent, this]

example : Ok demo.sh.snd (demo.sh.log.take 10) (.invoke [0, 0, 0, 1, 0, 0] 4) :=
  C48_order demo_reach _ _ (demo.sh.log.drop 11) (by rw [demo_log]; rfl)

example : demo.sh.log.countP (isDone [0]) ≤ 1 := C48_at_most_once demo_reach [0]
example : demo.sh.log.count (.start [0, 0]) ≤ 1 := C48_started_once demo_reach [0, 0]

/-- The only leaf that was started. -/
theorem demo_leaf (q : Path) (h1 : .start q ∈ demo.sh.log) (h2 : demo.sh.snd q = some .leaf) : q = [0, 0, 0] := by
  rw [demo_log] at h1
  simp at h1
  rcases h1 with rfl | rfl | rfl | rfl | rfl | rfl | rfl
  · cases h2
  · cases h2
  · rfl
  · cases h2
  · cases h2
  · cases h2
  · cases h2

example : demo.sh.log.countP (isDone [0]) = 1 :=
  C48_exactly_once demo_reach demo_quiescent (by rw [demo_log]; simp)
    (fun q _ h1 h2 => ⟨7, by rw [demo_leaf q h2 h1, demo_log]; simp⟩)

example : .done [0] 5 ∉ demo.sh.log.take 15 :=
  C48_children_first (q := [0]) (k := 0) (v := 4) (l2 := demo.sh.log.drop 16) demo_reach (by simp)
    (by rw [demo_log]; rfl)

example : ∃ c', mach.step (mach.go init [.env (.start 0 expr)]) (.run 0 true) = some c' :=
  C48_never_blocks (x := .start [0]) (r := []) rfl (by rfl) true

theorem expr_plain : expr.plain := by
  intro k
  match k with
  | 0 => exact trivial
  | k + 1 => exact fun _ => ⟨trivial, trivial⟩

theorem demo_root (t : Nat) (S : Snd) (h : demo.sh.snd [t] = some S) : t = 0 ∧ S = expr := by
  have h1 : demo.sh.phase [t] ≠ .none := by
    have := (reach_inv demo_reach).sn [t]
    intro h2
    rw [this.2 h2] at h
    cases h
  have h2 := waits0 (reach_inv demo_reach) demo_quiescent [t] (by simp)
  have h3 : .start [t] ∈ demo.sh.log := by
    rw [(reach_inv2 demo_reach).s1]
    cases hp : demo.sh.phase [t] <;> simp_all
  rw [demo_log] at h3
  simp at h3
  subst h3
  have : demo.sh.snd [0] = some expr := rfl
  rw [this] at h
  cases h
  exact ⟨rfl, rfl⟩

example : demo.bad = false := C48_no_fault demo_reach (fun t S h => (demo_root t S h).2 ▸ expr_plain)

/-- Half of the way, the sequence waits for its first sender. -/
def demo1 : Conf mach := mach.go init ([.env (.start 0 expr)] ++ List.replicate 6 (.run 0 true))

theorem demo1_log : demo1.sh.log = [.start [0], .start [0, 0], .start [0, 0, 0]] := by decide

theorem demo1_reach : TReach demo1 := Reach.go ..

theorem demo1_quiescent : Quiescent demo1 := by
  have : demo1.acts = [[]] := by decide
  simp [Quiescent, this]

example : ∃ k, .start [k, 0, 0] ∈ demo1.sh.log ∧ ∀ v, .done [k, 0, 0] v ∉ demo1.sh.log :=
  C48_waits_for_child (S := .seq 1 _) demo1_reach demo1_quiescent rfl (by simp) (by rw [demo1_log]; simp)
    (by rw [demo1_log]; simp)

example : ∃ w l1 l2 l3, demo.sh.log = l1 ++ .call [0] w 5 :: l2 ++ .done [0] 5 :: l3 ∧ 5 = w + 1 ∧
    .done [0, 0] w ∈ l1 ∧ demo.sh.snd [0, 0] ≠ none ∧ demo.sh.log.countP (isCall [0]) = 1 := by
  obtain ⟨w, l1, l2, l3, h1, h2, h3, h4, h5⟩ :=
    C41_transform (p := [0]) (f := fun _ v => v + 1) (v := 5) demo_reach rfl (by rw [demo_log]; simp)
  exact ⟨w, l1, l2, l3, h1, h2, h3, by simp [h4], h5⟩

example : demo.sh.log.countP (isDone [0]) = 1 :=
  C41_transform_completes demo_reach demo_quiescent (f := fun _ v => v + 1) rfl (w := 4) (by rw [demo_log]; simp)

example : demo.sh.log.countP (isInvoke [0, 0, 0, 1, 0, 0]) = 1 := by
  obtain ⟨_, _, _, _, _, _, h⟩ := C41_invocable (p := [0, 0, 0, 1, 0, 0]) (f := fun _ => 4) (v := 4) demo_reach rfl
    (by rw [demo_log]; simp)
  exact h

example : demo.sh.log.countP (isDone [0, 0, 0, 1, 0, 0]) = 1 :=
  C41_invocable_completes (f := fun _ => 4) demo_reach demo_quiescent rfl (by rw [demo_log]; simp)

example : .start [1, 0, 1, 0, 0] ∉ demo.sh.log := by
  obtain ⟨_, _, _, _, _, _, _, _, _, h⟩ := C42_ite (p := [0, 1, 0, 0]) (k := 0) demo_reach (by rfl)
    (by rw [demo_log]; simp)
  exact h 1 (by simp)

example : ∃ k, .start (k :: [0, 1, 0, 0]) ∈ demo.sh.log :=
  C42_starts demo_reach demo_quiescent (by rfl) (by rw [demo_log]; simp)

example : ∃ k l1 l2, demo.sh.log = l1 ++ .done [0, 1, 0, 0] 4 :: l2 ∧ .done (k :: [0, 1, 0, 0]) 4 ∈ l1 :=
  C42_value demo_reach (by rfl) (by rw [demo_log]; simp)

example : demo.sh.log.countP (isDone [0, 1, 0, 0]) = 1 :=
  C42_completes (k := 0) (v := 4) demo_reach demo_quiescent (by rfl) (by rw [demo_log]; simp)

example : demo.sh.log.countP (isBind [1, 0, 0]) = 1 := by
  obtain ⟨_, _, _, _, _, _, _, _, h⟩ := C43_let (p := [1, 0, 0]) (k := 0) demo_reach (by rfl) (by rw [demo_log]; simp)
  exact h

example : ∃ l1 l2 l3, demo.sh.log = l1 ++ .done [0, 1, 0, 0] 4 :: l2 ++ .done [1, 0, 0] 4 :: l3 :=
  C43_value demo_reach (by rfl) (by rw [demo_log]; simp)

example : demo.sh.log.countP (isDone [1, 0, 0]) = 1 :=
  (C43_completes demo_reach demo_quiescent (by rfl) (by rw [demo_log]; simp)).2 4 (by rw [demo_log]; simp)

example : ∃ l1 l2 l3, demo.sh.log = l1 ++ .done [0, 0, 0, 1, 0, 0] 4 :: l2 ++ .done [0, 0, 1, 0, 0] 4 :: l3 :=
  (C43_lambda demo_reach (by rfl)).2 4 (by rw [demo_log]; simp)

example : ∃ v l1 l2 l3, demo.sh.log = l1 ++ .done [0, 0, 0] v :: l2 ++ .start [1, 0, 0] :: l3 :=
  (C44_order (p := [0, 0]) (k := 1) demo_reach (by rfl) (by rw [demo_log]; simp)).2.2.2 0 (by simp)

example : ∃ l1 l2 l3, demo.sh.log = l1 ++ .done [1, 0, 0] 4 :: l2 ++ .done [0, 0] 4 :: l3 :=
  (C44_value (p := [0, 0]) (v := 4) demo_reach (by rfl) (by rw [demo_log]; simp)).2.1

example :=
  C44_completes (p := [0, 0]) demo1_reach demo1_quiescent (by rfl) (by rw [demo1_log]; simp)

/-- `repeat_while([] { return …; }, [] { return leaf; })`, two iterations. -/
def demo2 : Conf mach :=
  mach.go init ([.env (.start 0 (.rep (fun l => decide (l.length < 6)) (fun _ => .leaf)))] ++
    List.replicate 5 (.run 0 true) ++ [.env (.finish [0, 0] 7)] ++ List.replicate 5 (.run 1 true) ++
    [.env (.finish [1, 0] 8)] ++ List.replicate 5 (.run 2 true))

theorem demo2_log : demo2.sh.log = [.start [0], .cond [0] 0 true, .start [0, 0], .done [0, 0] 7, .cond [0] 1 true,
    .start [1, 0], .done [1, 0] 8, .cond [0] 2 false, .done [0] 0] := by decide

theorem demo2_reach : TReach demo2 := Reach.go ..

theorem demo2_quiescent : Quiescent demo2 := by
  have : demo2.acts = [[], [], []] := by decide
  simp [Quiescent, this]

example : ∃ v, .done [1, 0] v ∈ demo2.sh.log.take 7 :=
  ((C45_condition (p := [0]) (k := 2) (b := false) (l1 := demo2.sh.log.take 7) (l2 := demo2.sh.log.drop 8) demo2_reach
    (by rfl) (by rw [demo2_log]; rfl)).2.2 1 (by simp)).2

example : ∀ j, j < 1 → ∃ v, .done [j, 0] v ∈ demo2.sh.log.take 5 :=
  (C45_body (p := [0]) (k := 1) (m := demo2.sh.log.take 5) (l3 := demo2.sh.log.drop 6) demo2_reach (by rfl)
    (by rw [demo2_log]; rfl)).2.2

example : demo2.sh.log.countP (isDone [0]) = 1 := (C45_value demo2_reach (by rfl) (v := 0) (by rw [demo2_log]; simp)).1

example :=
  C45_completes (p := [0]) demo2_reach demo2_quiescent (by rfl) (by rw [demo2_log]; simp)

/-- `when_all(leaf, leaf)`; the leaves complete after `start()` has returned. -/
def demo3 : Conf mach :=
  mach.go init ([.env (.start 0 (.all 1 (fun _ => .leaf)))] ++ List.replicate 7 (.run 0 true) ++
    [.env (.finish [1, 0] 7)] ++ List.replicate 5 (.run 1 true) ++ [.env (.finish [0, 0] 8)] ++
    List.replicate 5 (.run 2 true))

theorem demo3_log : demo3.sh.log = [.start [0], .start [0, 0], .start [1, 0], .done [1, 0] 7, .done [0, 0] 8,
    .done [0] 0] := by decide

theorem demo3_reach : TReach demo3 := Reach.go ..

theorem demo3_quiescent : Quiescent demo3 := by
  have : demo3.acts = [[], [], []] := by decide
  simp [Quiescent, this]

example : demo3.sh.log.count (.start [1, 0]) = 1 :=
  (C46_starts_all demo3_reach demo3_quiescent (p := [0]) (by rfl) (by rw [demo3_log]; simp) (k := 1) (by simp)).1

example : demo3.sh.log.countP (isDone [0]) = 1 :=
  (C46_after_all demo3_reach (p := [0]) (by rfl) (v := 0) (by rw [demo3_log]; simp)).1

example : demo3.sh.log.countP (isDone [0]) = 1 :=
  C46_completes demo3_reach demo3_quiescent (p := [0]) (n := 1) (by rfl) (by rw [demo3_log]; simp)
    (fun k hk => by
      match k, hk with
      | 0, _ => exact ⟨8, by rw [demo3_log]; simp⟩
      | 1, _ => exact ⟨7, by rw [demo3_log]; simp⟩)

/-- `start()` is about to execute its last statement; no sender has completed. -/
def demo4 : Conf mach :=
  mach.go init ([.env (.start 0 (.all 1 (fun _ => .leaf)))] ++ List.replicate 6 (.run 0 true))

theorem demo4_reach : TReach demo4 := Reach.go ..

example : exec demo4.sh (.trail [0]) true ≠ .fault :=
  C46_safe_partial (p := [0]) (n := 1) (j := 0) (k := 0) (r := []) demo4_reach (by rfl) (by rfl) (by simp)
    (by have : demo4.sh.log = [.start [0], .start [0, 0], .start [1, 0]] := by decide
        simp [this]) true

/-- **C46 is violated**: both leaves complete before `start()` executes its last statement (lines 709-712), which then
accesses an operation that has completed. -/
def bad_all : Conf mach :=
  mach.go init ([.env (.start 0 (.all 1 (fun _ => .leaf)))] ++ List.replicate 6 (.run 0 true) ++
    [.env (.finish [1, 0] 7)] ++ List.replicate 5 (.run 1 true) ++ [.env (.finish [0, 0] 8)] ++
    List.replicate 4 (.run 2 true) ++ [.run 0 true])

theorem C46_violated : TReach bad_all ∧ bad_all.sh.snd [0] = some (.all 1 (fun _ => .leaf)) ∧ bad_all.bad = true ∧
    bad_all.sh.log = [.start [0], .start [0, 0], .start [1, 0], .done [1, 0] 7, .done [0, 0] 8, .done [0] 0] :=
  ⟨Reach.go .., rfl, by decide, by decide⟩

/-- `race_and_cancel(leaf, leaf)`; the second leaf completes after it was cancelled. -/
def demo5 : Conf mach :=
  mach.go init ([.env (.start 0 (.race 1 (fun _ => .leaf)))] ++ List.replicate 7 (.run 0 true) ++
    [.env (.finish [1, 0] 7)] ++ List.replicate 5 (.run 1 true) ++ [.env (.finish [0, 0] 8)] ++
    List.replicate 5 (.run 2 true))

theorem demo5_log : demo5.sh.log = [.start [0], .start [0, 0], .start [1, 0], .done [1, 0] 7, .cancel [0, 0],
    .done [0, 0] 8, .done [0] 0] := by decide

theorem demo5_reach : TReach demo5 := Reach.go ..

theorem demo5_quiescent : Quiescent demo5 := by
  have : demo5.acts = [[], [], []] := by decide
  simp [Quiescent, this]

example : demo5.sh.log.count (.start [1, 0]) = 1 :=
  (C47_starts_all demo5_reach demo5_quiescent (p := [0]) (by rfl) (by rw [demo5_log]; simp) (k := 1) (by simp)).1

example : demo5.sh.log.countP (isDone [0]) = 1 :=
  (C47_after_all demo5_reach (p := [0]) (by rfl) (v := 0) (by rw [demo5_log]; simp)).1

example : demo5.sh.log.countP (isDone [0]) = 1 :=
  C47_completes demo5_reach demo5_quiescent (p := [0]) (n := 1) (by rfl) (by rw [demo5_log]; simp)
    (fun k hk => by
      match k, hk with
      | 0, _ => exact ⟨8, by rw [demo5_log]; simp⟩
      | 1, _ => exact ⟨7, by rw [demo5_log]; simp⟩)

example : ∃ k0, k0 ≤ 1 ∧ (∃ u, .done [k0, 0] u ∈ demo5.sh.log) ∧
    ∀ j, j ≤ 1 → j ≠ k0 → demo5.sh.log.count (.cancel [j, 0]) = 1 :=
  C47_cancels_others demo5_reach demo5_quiescent (p := [0]) (by rfl) (k := 1) (v := 7) (by rw [demo5_log]; simp)

example : ∃ k v, k ≤ 1 ∧ k ≠ 0 ∧ .done [k, 0] v ∈ demo5.sh.log.take 4 :=
  (C47_cancel_only demo5_reach (p := [0]) (n := 1) (j := 0) (l2 := demo5.sh.log.drop 5) (by rfl)
    (by rw [demo5_log]; rfl)).2.2.2

/-- The first sender to complete is about to cancel the other one. -/
def demo6 : Conf mach :=
  mach.go init ([.env (.start 0 (.race 1 (fun _ => .leaf)))] ++ List.replicate 6 (.run 0 true) ++
    [.env (.finish [1, 0] 7)] ++ List.replicate 2 (.run 1 true))

theorem demo6_reach : TReach demo6 := Reach.go ..

example : exec demo6.sh (.cancel [0] 0) true ≠ .fault :=
  C47_safe_partial (p := [0]) (j := 0) (k := 1) (r := []) demo6_reach (by rfl)
    (by have : demo6.sh.log = [.start [0], .start [0, 0], .start [1, 0], .done [1, 0] 7] := by decide
        simp [this]) true

/-- **C47 is violated**: sender 1 completes first; before its thread gets to cancel sender 0 (line 367), sender 0
completes on its own, which completes the whole operation; the loop then accesses `cs_` of a completed operation. -/
def bad_race : Conf mach :=
  mach.go init ([.env (.start 0 (.race 1 (fun _ => .leaf)))] ++ List.replicate 6 (.run 0 true) ++
    [.env (.finish [1, 0] 7)] ++ List.replicate 2 (.run 1 true) ++ [.env (.finish [0, 0] 8)] ++
    List.replicate 4 (.run 2 true) ++ [.run 1 true])

theorem C47_violated : TReach bad_race ∧ bad_race.sh.snd [0] = some (.race 1 (fun _ => .leaf)) ∧ bad_race.bad = true ∧
    bad_race.sh.log = [.start [0], .start [0, 0], .start [1, 0], .done [1, 0] 7, .done [0, 0] 8, .done [0] 0] :=
  ⟨Reach.go .., rfl, by decide, by decide⟩

example := fault_kinds C46_violated.1 C46_violated.2.2.1

end Verif.Tree
