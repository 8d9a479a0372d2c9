import Verif.Hb.Base
import Mathlib.Order.Extension.Linear

/-!
# Outdated values

The machines of `Verif/Base.lean` interleave activities, and a load yields the latest value. In C++ a load may yield an
older value. Executions of C++ are partial orders: accesses, happens-before, for each atomic variable the order of its
modifications, and for each load the modification that it reads. This file describes such executions, with the conditions
that C++20 puts on them, and shows: if there is at most one atomic variable that is accessed by anything else than
`memory_order_acq_rel` read-modify-writes, the accesses can be arranged in one sequence that respects happens-before and
in which each read yields the latest value. Hence the machines lose no execution.
-/

namespace Verif

section
variable {L : Type}

/-- The location that is accessed. -/
def Acc.loc : Acc L → L
  | .lock l | .unlock l | .load _ l | .store _ l | .rmw _ l => l

/-- Does the access read the value of an atomic variable? (A compare-exchange that fails is a load.) -/
def Acc.reads : Acc L → Bool
  | .load _ _ | .rmw _ _ => true
  | _ => false

/-- Does the access write the value of an atomic variable? -/
def Acc.writes : Acc L → Bool
  | .store _ _ | .rmw _ _ => true
  | _ => false

/-- Is it an acquire operation on an atomic variable? -/
def Acc.isAcq : Acc L → Bool
  | .load .acq _ | .load .acqRel _ | .rmw .acq _ | .rmw .acqRel _ => true
  | _ => false

/-- Is it a release operation on an atomic variable? -/
def Acc.isRel : Acc L → Bool
  | .store .rel _ | .store .acqRel _ | .rmw .rel _ | .rmw .acqRel _ => true
  | _ => false

/-- An operation on a lock, or a read-modify-write with `memory_order_acq_rel`. -/
def Acc.isSync : Acc L → Bool
  | .lock _ | .unlock _ | .rmw .acqRel _ => true
  | _ => false

end

/-- An execution: the accesses, happens-before, and the order of the modifications of each variable. -/
structure CExec (L : Type) where
  /-- The accesses (events). -/
  E : Type
  acc : E → Acc L
  /-- Happens-before. -/
  hb : E → E → Prop
  /-- The value that is read: the initial value is number 0, each modification is identified by its position in the
  modification order of the variable. -/
  rd : E → Nat
  /-- The position of the value that is written. -/
  wr : E → Nat

variable {L : Type}

/-- Accesses to the same location. -/
def CExec.same (X : CExec L) (a b : X.E) : Prop := (X.acc a).loc = (X.acc b).loc

/-- What C++20 requires (intro.races, atomics.order, thread.mutex.requirements). -/
structure CExec.Valid (X : CExec L) : Prop where
  irrefl : ∀ a, ¬ X.hb a a
  trans : ∀ a b c, X.hb a b → X.hb b c → X.hb a c
  /-- The modification order is a total order. -/
  uniq : ∀ a b, (X.acc a).writes = true → (X.acc b).writes = true → X.same a b → X.wr a = X.wr b → a = b
  /-- Modifications are numbered consecutively, after the initial value. -/
  pos : ∀ a, (X.acc a).writes = true → 0 < X.wr a
  gap : ∀ a, (X.acc a).writes = true → 1 < X.wr a → ∃ b, (X.acc b).writes = true ∧ X.same b a ∧ X.wr b + 1 = X.wr a
  /-- A read-modify-write reads the value before the one that it writes. -/
  rmw : ∀ a, (X.acc a).reads = true → (X.acc a).writes = true → X.wr a = X.rd a + 1
  /-- Write-write coherence. -/
  ww : ∀ a b, X.hb a b → X.same a b → (X.acc a).writes = true → (X.acc b).writes = true → X.wr a < X.wr b
  /-- Write-read coherence. -/
  wr_ : ∀ a b, X.hb a b → X.same a b → (X.acc a).writes = true → (X.acc b).reads = true → X.wr a ≤ X.rd b
  /-- Read-write coherence. -/
  rw_ : ∀ a b, X.hb a b → X.same a b → (X.acc a).reads = true → (X.acc b).writes = true → X.rd a < X.wr b
  /-- Read-read coherence. -/
  rr : ∀ a b, X.hb a b → X.same a b → (X.acc a).reads = true → (X.acc b).reads = true → X.rd a ≤ X.rd b
  /-- An acquire operation that reads the value of a release operation synchronises with it. (C++ has more rules; they
  are not needed.) -/
  sw : ∀ a b, X.same a b → (X.acc a).isRel = true → (X.acc b).isAcq = true → X.rd b = X.wr a → X.hb a b

/-- The accesses can be arranged in a sequence that respects happens-before and the modification orders, and in which each
read yields the value that was written last. -/
def CExec.Interleaved (X : CExec L) : Prop :=
  ∃ lt : X.E → X.E → Prop,
    ((∀ a, ¬ lt a a) ∧ (∀ a b c, lt a b → lt b c → lt a c) ∧ ∀ a b, a ≠ b → lt a b ∨ lt b a) ∧
    (∀ a b, X.hb a b → lt a b) ∧
    (∀ v w, (X.acc v).writes = true → (X.acc w).writes = true → X.same v w → (lt v w ↔ X.wr v < X.wr w)) ∧
    ∀ r w, (X.acc r).reads = true → (X.acc w).writes = true → X.same w r → w ≠ r → (lt w r ↔ X.wr w ≤ X.rd r)

/-- Everything except `x` is accessed by operations on locks and by `memory_order_acq_rel` read-modify-writes, after its
construction. -/
def CExec.OneVar (X : CExec L) (x : Option L) : Prop :=
  ∀ a, some (X.acc a).loc = x ∨ (X.acc a).isSync = true ∨ ∀ b, X.same a b → b ≠ a → X.hb a b

/-! ## Proof -/

section
variable {X : CExec L} (V : X.Valid)
include V

/-- Position of an access to an atomic variable. -/
def CExec.place (X : CExec L) (a : X.E) : Nat := if (X.acc a).writes then 2 * X.wr a else 2 * X.rd a + 1

theorem CExec.place_mono {a b : X.E} (h : X.hb a b) (hs : X.same a b) (ha : (X.acc a).reads = true ∨ (X.acc a).writes = true)
    (hb : (X.acc b).reads = true ∨ (X.acc b).writes = true) : X.place a ≤ X.place b := by
  have h1 := V.ww a b h hs
  have h2 := V.wr_ a b h hs
  have h3 := V.rw_ a b h hs
  have h4 := V.rr a b h hs
  simp only [CExec.place]
  by_cases wa : (X.acc a).writes = true <;> by_cases wb : (X.acc b).writes = true <;> simp_all <;> omega

/-- An access to the atomic variable `x`. -/
def CExec.on (X : CExec L) (x : Option L) (a : X.E) : Prop :=
  some (X.acc a).loc = x ∧ ((X.acc a).reads = true ∨ (X.acc a).writes = true)

/-- Happens-before, together with the order of the accesses to `x`. -/
def CExec.before (X : CExec L) (x : Option L) (a b : X.E) : Prop :=
  X.hb a b ∨ ∃ c d, (a = c ∨ X.hb a c) ∧ X.on x c ∧ X.on x d ∧ X.place c < X.place d ∧ (d = b ∨ X.hb d b)

theorem CExec.on_mono {x : Option L} {a b : X.E} (h : a = b ∨ X.hb a b) (ha : X.on x a) (hb : X.on x b) :
    X.place a ≤ X.place b := by
  rcases h with rfl | h
  · exact Nat.le_refl _
  · refine CExec.place_mono V h ?_ ha.2 hb.2
    have := ha.1.trans hb.1.symm
    simpa [CExec.same] using this

theorem CExec.le_trans {a b c : X.E} (h1 : a = b ∨ X.hb a b) (h2 : b = c ∨ X.hb b c) : a = c ∨ X.hb a c := by
  rcases h1 with rfl | h1
  · exact h2
  · rcases h2 with rfl | h2
    · exact .inr h1
    · exact .inr (V.trans _ _ _ h1 h2)

theorem CExec.before_irrefl (x : Option L) (a : X.E) : ¬ X.before x a a := by
  rintro (h | ⟨c, d, h1, hc, hd, h2, h3⟩)
  · exact V.irrefl a h
  · have := CExec.on_mono V (CExec.le_trans V h3 h1) hd hc
    omega

theorem CExec.before_trans (x : Option L) {a b c : X.E} (h1 : X.before x a b) (h2 : X.before x b c) : X.before x a c := by
  rcases h1 with h1 | ⟨d, e, h3, hd, he, h4, h5⟩
  · rcases h2 with h2 | ⟨d, e, h3, hd, he, h4, h5⟩
    · exact .inl (V.trans _ _ _ h1 h2)
    · exact .inr ⟨d, e, CExec.le_trans V (.inr h1) h3, hd, he, h4, h5⟩
  · rcases h2 with h2 | ⟨d', e', h3', hd', he', h4', h5'⟩
    · exact .inr ⟨d, e, h3, hd, he, h4, CExec.le_trans V h5 (.inr h2)⟩
    · have := CExec.on_mono V (CExec.le_trans V h5 h3') he hd'
      exact .inr ⟨d, e', h3, hd, he', by omega, h5'⟩

omit V in
theorem Acc.rmw_of {a : Acc L} (h : a.isSync = true) (h2 : a.reads = true ∨ a.writes = true) :
    a.reads = true ∧ a.writes = true ∧ a.isAcq = true ∧ a.isRel = true := by
  cases a with
  | rmw o l => cases o <;> simp [Acc.isSync] at h; simp [Acc.reads, Acc.writes, Acc.isAcq, Acc.isRel]
  | _ => simp [Acc.isSync, Acc.reads, Acc.writes] at *

/-- Modifications of the variables other than `x` happen before the reads that yield later values. -/
theorem CExec.chain {x : Option L} (h : X.OneVar x) {w : X.E} (hw : (X.acc w).writes = true) (hx : some (X.acc w).loc ≠ x)
    {m : Nat} {r : X.E} (hr : (X.acc r).reads = true) (hs : X.same w r) (hm : X.rd r = m) (hle : X.wr w ≤ m) (hne : w ≠ r) :
    X.hb w r := by
  rcases h w with h1 | h1 | h1
  · exact absurd h1 hx
  · have w4 := Acc.rmw_of h1 (.inr hw)
    induction m generalizing r with
    | zero => have := V.pos w hw; omega
    | succ m ih =>
      have hxr : some (X.acc r).loc ≠ x := by rw [← hs]; exact hx
      have r4 : (X.acc r).reads = true ∧ (X.acc r).writes = true ∧ (X.acc r).isAcq = true := by
        rcases h r with h2 | h2 | h2
        · exact absurd h2 hxr
        · have := Acc.rmw_of h2 (.inl hr); exact ⟨this.1, this.2.1, this.2.2.1⟩
        · have h3 := h2 w hs.symm hne
          have := V.rw_ r w h3 hs.symm hr hw
          omega
      by_cases he : X.wr w = m + 1
      · exact V.sw w r hs w4.2.2.2 r4.2.2 (by omega)
      · have hwr := V.rmw r hr r4.2.1
        obtain ⟨b, hb, hbs, hbn⟩ := V.gap r r4.2.1 (by omega)
        have hwb : X.same w b := hs.trans hbs.symm
        have hbne : w ≠ b := by rintro rfl; omega
        have b4 : (X.acc b).reads = true ∧ (X.acc b).writes = true ∧ (X.acc b).isRel = true := by
          rcases h b with h2 | h2 | h2
          · exact absurd (hwb ▸ h2 : some (X.acc w).loc = x) hx
          · have := Acc.rmw_of h2 (.inr hb); exact ⟨this.1, hb, this.2.2.2⟩
          · have := V.ww b w (h2 w hwb.symm hbne) hwb.symm hb hw
            omega
        have hbw := V.rmw b b4.1 hb
        exact V.trans _ _ _ (ih b4.1 hwb (by omega) (by omega) hbne) (V.sw b r hbs b4.2.2 r4.2.2 (by omega))
  · exact h1 r hs hne.symm

/-- If there is at most one atomic variable that is accessed by anything else than `memory_order_acq_rel`
read-modify-writes, the execution is an interleaving. -/
theorem CExec.interleaved {x : Option L} (h : X.OneVar x) : X.Interleaved := by
  have po : IsPartialOrder X.E (fun a b => a = b ∨ X.before x a b) :=
    { refl := fun a => .inl rfl
      trans := by
        rintro a b c (rfl | h1) (rfl | h2)
        · exact .inl rfl
        · exact .inr h2
        · exact .inr h1
        · exact .inr (CExec.before_trans V x h1 h2)
      antisymm := by
        rintro a b (rfl | h1) (h2 | h2)
        · rfl
        · rfl
        · exact h2.symm
        · exact absurd (CExec.before_trans V x h1 h2) (CExec.before_irrefl V x a) }
  obtain ⟨le, hle, hext⟩ := extend_partialOrder (fun a b => a = b ∨ X.before x a b)
  have hsub : ∀ a b, X.before x a b → le a b ∧ a ≠ b := fun a b hab =>
    ⟨hext a b (.inr hab), by rintro rfl; exact CExec.before_irrefl V x a hab⟩
  have anti : ∀ a b, le a b → le b a → a = b := fun a b => hle.antisymm a b
  refine ⟨fun a b => le a b ∧ a ≠ b, ⟨fun a ha => ha.2 rfl, ?_, ?_⟩, fun a b hab => hsub a b (.inl hab), ?_, ?_⟩
  · rintro a b c ⟨h1, h2⟩ ⟨h3, h4⟩
    refine ⟨hle.trans a b c h1 h3, ?_⟩
    rintro rfl
    exact h2 (anti _ _ h1 h3)
  · intro a b hne
    rcases hle.total a b with h1 | h1
    · exact .inl ⟨h1, hne⟩
    · exact .inr ⟨h1, Ne.symm hne⟩
  · -- modifications
    have fwd : ∀ v w, (X.acc v).writes = true → (X.acc w).writes = true → X.same v w → X.wr v < X.wr w →
        le v w ∧ v ≠ w := by
      intro v w hv hw hs hlt
      apply hsub
      by_cases hx : some (X.acc v).loc = x
      · refine .inr ⟨v, w, .inl rfl, ⟨hx, .inr hv⟩, ⟨?_, .inr hw⟩, ?_, .inl rfl⟩
        · rw [← hx]; exact congrArg some (Eq.symm hs)
        · simp only [CExec.place, hv, hw, if_true]; omega
      · left
        have hne : v ≠ w := by rintro rfl; omega
        rcases h w with h1 | h1 | h1
        · exact absurd ((congrArg some hs).trans h1) hx
        · have w4 := Acc.rmw_of h1 (.inr hw)
          have := V.rmw w w4.1 hw
          exact CExec.chain V h hv hx w4.1 hs rfl (by omega) hne
        · have := V.ww w v (h1 v hs.symm hne) hs.symm hw hv
          omega
    intro v w hv hw hs
    refine ⟨fun hlt => ?_, fwd v w hv hw hs⟩
    rcases Nat.lt_trichotomy (X.wr v) (X.wr w) with h1 | h1 | h1
    · exact h1
    · exact absurd (V.uniq v w hv hw hs h1) hlt.2
    · have h2 := fwd w v hw hv hs.symm h1
      exact absurd (anti _ _ hlt.1 h2.1) hlt.2
  · -- reads
    intro r w hr hw hs hne
    by_cases hx : some (X.acc w).loc = x
    · have onw : X.on x w := ⟨hx, .inr hw⟩
      have onr : X.on x r := ⟨by rw [← hx]; exact congrArg some (Eq.symm hs), .inl hr⟩
      have key : X.place w ≠ X.place r ∧ (X.place w < X.place r ↔ X.wr w ≤ X.rd r) := by
        simp only [CExec.place, hw, if_true]
        by_cases wr : (X.acc r).writes = true
        · have h1 := V.rmw r hr wr
          have h2 : X.wr w ≠ X.wr r := fun h3 => hne (V.uniq w r hw wr hs h3)
          simp only [wr, if_true]; omega
        · simp only [wr, if_false, Bool.false_eq_true]; omega
      constructor
      · intro hlt
        rw [← key.2]
        apply Classical.byContradiction
        intro hn
        have h2 := hsub r w (.inr ⟨r, w, .inl rfl, onr, onw, by omega, .inl rfl⟩)
        exact hlt.2 (anti _ _ hlt.1 h2.1)
      · intro h1
        exact hsub w r (.inr ⟨w, r, .inl rfl, onw, onr, key.2.2 h1, .inl rfl⟩)
    · constructor
      · intro hlt
        apply Classical.byContradiction
        intro hn
        have h2 : X.hb r w := by
          rcases h r with h1 | h1 | h1
          · exact absurd ((congrArg some hs).trans h1) hx
          · have r4 := Acc.rmw_of h1 (.inl hr)
            have e1 := V.rmw r hr r4.2.1
            have e2 : X.wr w ≠ X.wr r := fun h3 => hne (V.uniq w r hw r4.2.1 hs h3)
            rcases h w with h1 | h1 | h1
            · exact absurd h1 hx
            · have w4 := Acc.rmw_of h1 (.inr hw)
              have e3 := V.rmw w w4.1 hw
              exact CExec.chain V h r4.2.1 (by rw [← hs]; exact hx) w4.1 hs.symm rfl (by omega) hne.symm
            · have := V.wr_ w r (h1 r hs.symm.symm hne.symm) hs hw hr
              omega
          · exact h1 w hs.symm.symm.symm hne
        have h3 := hsub r w (.inl h2)
        exact hlt.2 (anti _ _ hlt.1 h3.1)
      · intro h1
        exact hsub w r (.inl (CExec.chain V h hw hx hr hs rfl h1 hne))

end

end Verif
