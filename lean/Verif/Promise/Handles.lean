import Verif.Base

/-!
# Handles of `promise` and `future`: ownership of the shared state (promise.hpp 23-35, 110,
144-184, 198-242, 348-352, 368-376)

The operations on handles, one after the other. (A handle is used by one thread at a time; the
counter is atomic and every operation but copy assignment updates it at most once, so concurrent
operations on different handles are sequences of these.) Allocators are left out here, see
`Verif.Promise.Alloc`.
-/

namespace Verif.Promise.Handles

/-- Events of the heap. -/
inductive Ev where
  | alloc (s : Nat)
  | free (s : Nat)
deriving DecidableEq

/-- State: the live handles (promises and futures), the state each refers to, and the states. -/
structure St where
  /-- Handles that are constructed and not destroyed. -/
  live : List Nat
  /-- Is the handle a promise? Otherwise it is a future. -/
  isP : Nat → Bool
  /-- `state_` of a handle, lines 182 and 354; `none` is the null pointer. -/
  ptr : Nat → Option Nat
  /-- `ctr_` of a state, line 110. -/
  rc : Nat → Nat
  /-- The state is allocated and not freed. -/
  alive : Nat → Bool
  /-- `has_value_`, line 107. -/
  has : Nat → Bool
  /-- Next address. -/
  next : Nat
  log : List Ev

def St.init : St :=
  ⟨[], fun _ => false, fun _ => none, fun _ => 0, fun _ => false, fun _ => false, 0, []⟩

/-- Operations; `h` is the handle operated on, `g` the argument. -/
inductive Op where
  | newPromise (h : Nat)        -- lines 150-151
  | moveP (h g : Nat)           -- lines 159-162
  | assignP (h g : Nat)         -- lines 164-167
  | setValue (h : Nat)          -- lines 368-376
  | getFuture (h g : Nat)       -- lines 169-171, 348-352
  | newFuture (h : Nat)         -- lines 208-209
  | copyF (h g : Nat)           -- lines 216-220
  | copyAssignF (h g : Nat)     -- lines 222-232
  | moveF (h g : Nat)           -- lines 234-237
  | moveAssignF (h g : Nat)     -- lines 239-242
  | swapF (h g : Nat)           -- lines 202-206
  | destroy (h : Nat)           -- lines 153-155, 211-214

/-- Outcome of an operation. -/
inductive Res where
  | ok (s : St)
  /-- Access to a freed state, null pointer dereference or failing assertion. -/
  | fault
  /-- Not a C++ program: handle does not exist, exists already, or has the wrong type. -/
  | illTyped

def Res.bind (r : Res) (f : St → Res) : Res :=
  match r with
  | .ok s => f s
  | .fault => .fault
  | .illTyped => .illTyped

/-- `state_->ref()`, lines 28-30. Faults if the state is not there. -/
def ref (s : St) : Option Nat → Res
  | none => .fault
  | some a => if s.alive a then .ok { s with rc := upd s.rc a (s.rc a + 1) } else .fault

/-- `if (state_) state_->ref()`. -/
def refIf (s : St) : Option Nat → Res
  | none => .ok s
  | some a => ref s (some a)

/-- `destruct(state_)`: the destructor asserts that the counter is zero (lines 24-26), then the memory is freed. -/
def destruct (s : St) (a : Nat) : Res :=
  if s.rc a = 0 then .ok { s with alive := upd s.alive a false, log := s.log ++ [.free a] } else .fault

/-- `if (state_ && !state_->unref()) destruct(state_)`, lines 32-34, 175-177, 212-213, 223-226. -/
def drop (s : St) : Option Nat → Res
  | none => .ok s
  | some a =>
    if s.alive a then
      if s.rc a - 1 = 0 then destruct { s with rc := upd s.rc a (s.rc a - 1) } a
      else .ok { s with rc := upd s.rc a (s.rc a - 1) }
    else .fault

/-- Constructs handle `h` with pointer `p`. -/
def mk (s : St) (h : Nat) (isP : Bool) (p : Option Nat) : St :=
  { s with live := h :: s.live, isP := upd s.isP h isP, ptr := upd s.ptr h p }

def setPtr (s : St) (h : Nat) (p : Option Nat) : St := { s with ptr := upd s.ptr h p }

/-- `swap(a.state_, b.state_)`. -/
def swap (s : St) (h g : Nat) : St :=
  { s with ptr := upd (upd s.ptr h (s.ptr g)) g (s.ptr h) }

/-- Is `h` a live promise? -/
def St.P (s : St) (h : Nat) : Bool := decide (h ∈ s.live) && s.isP h

/-- Is `h` a live future? -/
def St.F (s : St) (h : Nat) : Bool := decide (h ∈ s.live) && !s.isP h

/-- One operation. -/
def step (s : St) : Op → Res
  | .newPromise h =>
    if h ∈ s.live then .illTyped
    else .ok { mk s h true (some s.next) with
      rc := upd s.rc s.next 1, alive := upd s.alive s.next true, has := upd s.has s.next false,
      next := s.next + 1, log := s.log ++ [.alloc s.next] }
  | .moveP h g =>
    if h ∉ s.live ∧ s.P g then .ok (swap (mk s h true none) h g) else .illTyped
  | .assignP h g =>
    if s.P h ∧ s.P g then
      -- parameter `other` takes the pointer of `g`; swap; destructor of `other`
      let s1 := setPtr s g none
      drop (setPtr s1 h (s.ptr g)) (s1.ptr h)
    else .illTyped
  | .setValue h =>
    if s.P h then
      match s.ptr h with
      | none => .fault
      | some a =>
        if s.alive a && !s.has a then
          (drop { s with has := upd s.has a true } (some a)).bind fun s => .ok (setPtr s h none)
        else .fault
    else .illTyped
  | .getFuture h g =>
    if h ∉ s.live ∧ s.P g then refIf (mk s h false (s.ptr g)) (s.ptr g) else .illTyped
  | .newFuture h => if h ∈ s.live then .illTyped else .ok (mk s h false none)
  | .copyF h g =>
    if h ∉ s.live ∧ s.F g then refIf (mk s h false (s.ptr g)) (s.ptr g) else .illTyped
  | .copyAssignF h g =>
    if s.F h ∧ s.F g then
      (drop s (s.ptr h)).bind fun s => ref (setPtr s h (s.ptr g)) (s.ptr g)
    else .illTyped
  | .moveF h g =>
    if h ∉ s.live ∧ s.F g then .ok (swap (mk s h false none) h g) else .illTyped
  | .moveAssignF h g => if s.F h ∧ s.F g then .ok (swap s h g) else .illTyped
  | .swapF h g => if s.F h ∧ s.F g then .ok (swap s h g) else .illTyped
  | .destroy h =>
    if h ∈ s.live then
      (drop s (s.ptr h)).bind fun s =>
        .ok { s with live := s.live.erase h, ptr := upd s.ptr h none }
    else .illTyped

/-- A program. -/
def run (s : St) : List Op → Res
  | [] => .ok s
  | o :: os => (step s o).bind fun s => run s os

/-- Number of live handles that refer to state `a`. -/
def refs (s : St) (a : Nat) : Nat := (s.live.filter fun h => s.ptr h == some a).length

/-- What the user has to respect: `set_value` is called on a promise that has a state, and the
argument of a copy assignment is a future that has one; a future that is the last handle of its
state is not assigned to itself. -/
def Allowed (s : St) : Op → Prop
  | .setValue h => s.ptr h ≠ none
  | .copyAssignF h g => s.ptr g ≠ none ∧ (h = g → ∀ a, s.ptr h = some a → 2 ≤ refs s a)
  | _ => True

/-! ## Invariant -/

/-- Invariant, with references held by temporaries. -/
structure Inv (s : St) (ex : List (Option Nat)) : Prop where
  nodup : s.live.Nodup
  rc : ∀ a, s.alive a = true → s.rc a = refs s a + ex.count (some a)
  alive : ∀ a, s.alive a = true ↔ 0 < refs s a + ex.count (some a)
  lt : ∀ a, s.alive a = true → a < s.next
  alloc : ∀ a, s.log.count (.alloc a) = if a < s.next then 1 else 0
  free : ∀ a, s.log.count (.free a) = if a < s.next ∧ s.alive a = false then 1 else 0
  dead : ∀ h, h ∉ s.live → s.ptr h = none
  hasP : ∀ h a, h ∈ s.live → s.isP h = true → s.ptr h = some a → s.has a = false
  uniqP : ∀ h g a, h ∈ s.live → g ∈ s.live → s.isP h = true → s.isP g = true →
    s.ptr h = some a → s.ptr g = some a → h = g
  ltP : ∀ h a, s.ptr h = some a → a < s.next

theorem refs_pos {s : St} {h a : Nat} (hl : h ∈ s.live) (hp : s.ptr h = some a) :
    0 < refs s a := by
  have : h ∈ s.live.filter fun h => s.ptr h == some a := by simp [hl, hp]
  exact List.length_pos_of_mem this

theorem refs_upd (l : List Nat) (p : Nat → Option Nat) (h : Nat) (v : Option Nat) (a : Nat)
    (hn : l.Nodup) :
    (h ∉ l → (l.filter fun x => upd p h v x == some a).length =
      (l.filter fun x => p x == some a).length) ∧
    (h ∈ l → (l.filter fun x => upd p h v x == some a).length + (if p h = some a then 1 else 0) =
      (l.filter fun x => p x == some a).length + (if v = some a then 1 else 0)) := by
  induction l with
  | nil => simp
  | cons x l ih =>
    rw [List.nodup_cons] at hn
    obtain ⟨i1, i2⟩ := ih hn.2
    by_cases hx : x = h
    · subst hx
      have := i1 hn.1
      refine ⟨by simp, fun _ => ?_⟩
      simp only [List.filter_cons, upd_same, beq_iff_eq]
      split <;> split <;> simp_all
    · refine ⟨fun hm => ?_, fun hm => ?_⟩
      · have := i1 (by simp_all)
        simp only [List.filter_cons, upd_ne _ _ hx]
        split <;> simp [this]
      · have := i2 (by grind)
        simp only [List.filter_cons, upd_ne _ _ hx]
        split <;> (try simp only [List.length_cons]) <;> omega

/-- Exchange of the pointer of `h` with the first temporary. -/
theorem Inv.exch {s : St} {ex : List (Option Nat)} {p : Option Nat} {h : Nat}
    (hI : Inv s (p :: ex)) (hl : h ∈ s.live)
    (hlt : ∀ a, p = some a → a < s.next)
    (hP : s.isP h = true → ∀ a, p = some a → s.has a = false ∧
      ∀ g, g ∈ s.live → s.isP g = true → s.ptr g = some a → h = g) :
    Inv (setPtr s h p) (s.ptr h :: ex) := by
  obtain ⟨h1, h2, h3, h4, h5, h6, h7, h8, h9, h10⟩ := hI
  have key : ∀ a, refs (setPtr s h p) a + (s.ptr h :: ex).count (some a) =
      refs s a + (p :: ex).count (some a) := by
    intro a
    have := (refs_upd s.live s.ptr h p a h1).2 hl
    simp only [refs, setPtr, List.count_cons, beq_iff_eq]
    omega
  refine ⟨h1, ?_, ?_, h4, h5, h6, ?_, ?_, ?_, ?_⟩
  · intro a ha; rw [key]; exact h2 a ha
  · intro a; rw [key]; exact h3 a
  · (simp only [setPtr]; grind)
  · (simp only [setPtr]; grind)
  · (simp only [setPtr]; grind)
  · (simp only [setPtr]; grind)

theorem Res.bind_ok {r : Res} {f : St → Res} {s' : St} (h : r.bind f = .ok s') :
    ∃ s, r = .ok s ∧ f s = .ok s' := by
  cases r with
  | ok s => exact ⟨s, rfl, h⟩
  | fault => simp [Res.bind] at h
  | illTyped => simp [Res.bind] at h

theorem drop_setPtr (s : St) (h : Nat) (q p : Option Nat) :
    Handles.drop (setPtr s h q) p = (Handles.drop s p).bind fun s => .ok (setPtr s h q) := by
  cases p with
  | none => rfl
  | some a =>
    by_cases h1 : s.alive a = true
    · by_cases h2 : s.rc a - 1 = 0 <;> simp [Handles.drop, destruct, setPtr, h1, h2, Res.bind]
    · simp [Handles.drop, setPtr, h1, Res.bind]

theorem drop_ptr {s s' : St} {p : Option Nat} (h : Handles.drop s p = .ok s') :
    s'.ptr = s.ptr := by
  cases p with
  | none => simp only [Handles.drop, Res.ok.injEq] at h; subst h; rfl
  | some a =>
    by_cases h1 : s.alive a = true
    · by_cases h2 : s.rc a - 1 = 0 <;>
        (simp only [Handles.drop, destruct, h1, h2, upd_same, if_true, if_false, Res.ok.injEq] at h; subst h; rfl)
    · simp [Handles.drop, h1] at h

theorem Inv.tmp {s : St} {ex : List (Option Nat)} (hI : Inv s ex) : Inv s (none :: ex) := by
  obtain ⟨h1, h2, h3, h4, h5, h6, h7, h8, h9, h10⟩ := hI
  exact ⟨h1, by simpa using h2, by simpa using h3, h4, h5, h6, h7, h8, h9, h10⟩

theorem Inv.untmp {s : St} {ex : List (Option Nat)} (hI : Inv s (none :: ex)) : Inv s ex := by
  obtain ⟨h1, h2, h3, h4, h5, h6, h7, h8, h9, h10⟩ := hI
  exact ⟨h1, by simpa using h2, by simpa using h3, h4, h5, h6, h7, h8, h9, h10⟩

theorem Inv.make {s : St} {ex : List (Option Nat)} (hI : Inv s ex) {h : Nat} (hl : h ∉ s.live)
    (b : Bool) : Inv (Handles.mk s h b none) ex := by
  obtain ⟨h1, h2, h3, h4, h5, h6, h7, h8, h9, h10⟩ := hI
  have key : ∀ a, refs (Handles.mk s h b none) a = refs s a := by
    intro a
    have := (refs_upd s.live s.ptr h none a h1).1 hl
    simp only [refs, Handles.mk, List.filter_cons, upd_same]
    simpa using this
  refine ⟨by simp [Handles.mk, hl, h1], ?_, ?_, h4, h5, h6, ?_, ?_, ?_, ?_⟩
  · intro a; rw [key]; exact h2 a
  · intro a; rw [key]; exact h3 a
  · (simp only [Handles.mk]; grind)
  · (simp only [Handles.mk]; grind)
  · (simp only [Handles.mk]; grind)
  · (simp only [Handles.mk]; grind)

theorem Inv.unmk {s : St} {ex : List (Option Nat)} (hI : Inv s ex) {h : Nat}
    (hp : s.ptr h = none) : Inv { s with live := s.live.erase h } ex := by
  obtain ⟨h1, h2, h3, h4, h5, h6, h7, h8, h9, h10⟩ := hI
  have key : ∀ a, refs { s with live := s.live.erase h } a = refs s a := by
    intro a
    simp only [refs]
    by_cases hl : h ∈ s.live
    · have hperm := (List.perm_cons_erase hl).filter (fun x => s.ptr x == some a)
      rw [hperm.length_eq, List.filter_cons]
      simp [hp]
    · rw [List.erase_of_not_mem hl]
  refine ⟨h1.erase h, ?_, ?_, h4, h5, h6, ?_, ?_, ?_, h10⟩
  · intro a; rw [key]; exact h2 a
  · intro a; rw [key]; exact h3 a
  · grind
  · grind
  · grind

theorem Inv.drop {s : St} {ex : List (Option Nat)} {p : Option Nat} (hI : Inv s (p :: ex)) :
    ∃ s', drop s p = .ok s' ∧ Inv s' ex ∧ s'.live = s.live ∧ s'.ptr = s.ptr ∧ s'.isP = s.isP ∧
      s'.has = s.has ∧ s'.next = s.next := by
  cases p with
  | none => exact ⟨s, rfl, hI.untmp, rfl, rfl, rfl, rfl, rfl⟩
  | some a =>
    obtain ⟨h1, h2, h3, h4, h5, h6, h7, h8, h9, h10⟩ := hI
    have ha : s.alive a = true := (h3 a).2 (by simp; omega)
    have hr := h2 a ha
    have hcnt : ∀ b, (some a :: ex).count (some b) = ex.count (some b) + if b = a then 1 else 0 := by
      intro b; rw [List.count_cons]; grind
    simp only [hcnt] at h2 h3 hr
    by_cases hz : s.rc a - 1 = 0
    · refine ⟨_, by simp only [Handles.drop, destruct, ha, hz, upd_same, if_true]; rfl, ?_, by rfl, by rfl, by rfl, by rfl, by rfl⟩
      refine ⟨h1, ?_, ?_, ?_, ?_, ?_, h7, h8, h9, h10⟩
      · intro b hb
        by_cases hba : b = a
        · subst hba; simp at hb
        · simp only [upd_ne _ _ hba] at hb ⊢; have := h2 b hb; simp only [hba, if_false, Nat.add_zero] at this; exact this
      · intro b
        by_cases hba : b = a
        · subst hba
          simp only [upd_same, Bool.false_eq_true, false_iff]
          show ¬ 0 < refs s b + ex.count (some b)
          simp at hr; omega
        · simp only [upd_ne _ _ hba]; have := h3 b
          simp only [hba, if_false, Nat.add_zero] at this; exact this
      · grind
      · intro b; rw [List.count_append, h5]; simp [List.count_cons]
      · intro b; rw [List.count_append, h6]
        have := h4 a ha
        by_cases hba : b = a
        · subst hba; simp [ha, this]
        · have : ¬ a = b := fun h => hba h.symm
          simp [List.count_cons, hba, this]
    · refine ⟨_, by simp only [Handles.drop, ha, hz, if_true, if_false]; rfl, ?_, by rfl, by rfl, by rfl, by rfl, by rfl⟩
      refine ⟨h1, ?_, ?_, h4, h5, h6, h7, h8, h9, h10⟩
      · intro b hb
        show (upd s.rc a (s.rc a - 1)) b = refs s b + ex.count (some b)
        have := h2 b hb
        by_cases hba : b = a
        · subst hba; simp at this ⊢; omega
        · simpa [hba] using this
      · intro b
        show s.alive b = true ↔ 0 < refs s b + ex.count (some b)
        have := h3 b
        by_cases hba : b = a
        · subst hba; simp at hr; constructor
          · intro _; omega
          · intro _; exact ha
        · simpa [hba] using this

theorem Inv.ref {s : St} {ex : List (Option Nat)} {a : Nat} (hI : Inv s ex)
    (ha : s.alive a = true) :
    ∃ s', ref s (some a) = .ok s' ∧ Inv s' (some a :: ex) ∧ s' = { s with rc := upd s.rc a (s.rc a + 1) } := by
  obtain ⟨h1, h2, h3, h4, h5, h6, h7, h8, h9, h10⟩ := hI
  refine ⟨_, by simp only [Handles.ref, ha, if_true]; rfl, ?_, by rfl⟩
  have hcnt : ∀ b, (some a :: ex).count (some b) = ex.count (some b) + if b = a then 1 else 0 := by
    intro b; rw [List.count_cons]; grind
  refine ⟨h1, ?_, ?_, h4, h5, h6, h7, h8, h9, h10⟩
  · intro b hb
    rw [hcnt]
    show (upd s.rc a (s.rc a + 1)) b = refs s b + _
    have := h2 b hb
    by_cases hba : b = a
    · subst hba; simp; omega
    · simpa [hba] using this
  · intro b
    rw [hcnt]
    show s.alive b = true ↔ 0 < refs s b + _
    have := h3 b
    by_cases hba : b = a
    · subst hba; simp [ha]; omega
    · simpa [hba] using this

theorem Inv.init : Inv .init [] := by
  constructor <;> simp [St.init, refs]

theorem Inv.swap {s : St} {h g : Nat} (hI : Inv s []) (hh : h ∈ s.live) (hg : g ∈ s.live)
    (hk : s.isP h = s.isP g) : Inv (swap s h g) [] := by
  have hdis : ∀ a, refs (Handles.swap s h g) a = refs s a := by
    intro a
    have e1 := (refs_upd s.live s.ptr h (s.ptr g) a hI.nodup).2 hh
    have e2 := (refs_upd s.live (upd s.ptr h (s.ptr g)) g (s.ptr h) a hI.nodup).2 hg
    have e3 : upd s.ptr h (s.ptr g) g = s.ptr g := by grind
    rw [e3] at e2
    simp only [refs, Handles.swap]
    omega
  obtain ⟨h1, h2, h3, h4, h5, h6, h7, h8, h9, h10⟩ := hI
  refine ⟨h1, ?_, ?_, h4, h5, h6, ?_, ?_, ?_, ?_⟩
  · intro a; rw [hdis]; exact h2 a
  · intro a; rw [hdis]; exact h3 a
  · (simp only [Handles.swap]; grind)
  · (simp only [Handles.swap]; grind)
  · intro x y a hx hy px py ex ey
    simp only [Handles.swap] at *
    grind
  · (simp only [Handles.swap]; grind)

/-- Pointer of a live handle refers to a live state. -/
theorem Inv.ptr_alive {s : St} {ex : List (Option Nat)} (hI : Inv s ex) {h a : Nat}
    (hl : h ∈ s.live) (hp : s.ptr h = some a) : s.alive a = true :=
  (hI.alive a).2 (by have := refs_pos hl hp; omega)

/-- A new future with pointer `p`, taken from a live handle. -/
theorem Inv.share {s : St} {h g : Nat} (hI : Inv s []) (hl : h ∉ s.live) (hg : g ∈ s.live) :
    ∃ s', refIf (Handles.mk s h false (s.ptr g)) (s.ptr g) = .ok s' ∧ Inv s' [] := by
  have hmk := hI.make hl false
  cases hp : s.ptr g with
  | none => exact ⟨_, rfl, hmk⟩
  | some a =>
    have ha := hI.ptr_alive hg hp
    obtain ⟨s1, e1, h1, rfl⟩ := hmk.ref (a := a) ha
    have h2 := h1.exch (h := h) (by simp [Handles.mk])
      (by intro b hb; cases hb; exact hI.lt a ha) (by simp [Handles.mk])
    refine ⟨_, by simp only [refIf, Handles.ref, Handles.mk, ha, if_true]; rfl, ?_⟩
    have := h2
    simp only [Handles.mk, setPtr, upd_same] at this
    have hu : upd (upd s.ptr h none) h (some a) = upd s.ptr h (some a) := by
      funext x; simp only [upd]; split <;> rfl
    rw [hu] at this
    exact this.untmp

/-- Every allowed operation succeeds and preserves the invariant. -/
theorem Inv.step {s : St} (hI : Inv s []) {o : Op} (ha : Allowed s o) (hr : step s o ≠ .illTyped) :
    ∃ s', step s o = .ok s' ∧ Inv s' [] := by
  cases o with
  | newPromise h =>
    by_cases hl : h ∈ s.live
    · simp [Handles.step, hl] at hr
    refine ⟨_, by simp only [Handles.step, hl, if_false]; rfl, ?_⟩
    have key : ∀ a, refs (Handles.mk s h true (some s.next)) a =
        refs s a + if a = s.next then 1 else 0 := by
      intro a
      have := (refs_upd s.live s.ptr h (some s.next) a hI.nodup).1 hl
      simp only [refs, Handles.mk, List.filter_cons, upd_same]
      by_cases e : a = s.next
      · subst e; simpa using this
      · have e' : ¬ s.next = a := fun h => e h.symm
        simpa [e, e'] using this
    obtain ⟨h1, h2, h3, h4, h5, h6, h7, h8, h9, h10⟩ := hI
    have hna : s.alive s.next = false := by
      rw [Bool.eq_false_iff]; intro hc; have := h4 s.next hc; omega
    have hz : refs s s.next = 0 := by
      have := (h3 s.next); simp [hna] at this; omega
    refine ⟨by simp [Handles.mk, hl, h1], ?_, ?_, ?_, ?_, ?_, ?_, ?_, ?_, ?_⟩
    · intro a haa
      show (upd s.rc s.next 1) a = refs (Handles.mk s h true (some s.next)) a + _
      rw [key]
      by_cases e : a = s.next
      · subst e; simp [hz]
      · simp only [upd_ne _ _ e] at haa ⊢; simpa [e] using h2 a haa
    · intro a
      show (upd s.alive s.next true) a = true ↔ 0 < refs (Handles.mk s h true (some s.next)) a + _
      rw [key]
      by_cases e : a = s.next
      · subst e; simp
      · simp only [upd_ne _ _ e]; simpa [e] using h3 a
    · grind
    · intro a; rw [List.count_append, h5]
      by_cases e : a = s.next
      · subst e; simp
      · have e' : ¬ s.next = a := fun h => e h.symm
        have : (a < s.next + 1) ↔ a < s.next := by omega
        simp [List.count_cons, e', this]
    · intro a; rw [List.count_append, h6]
      by_cases e : a = s.next
      · subst e; simp
      · have : (a < s.next + 1) ↔ a < s.next := by omega
        simp [this, e]
    · (simp only [Handles.mk]; grind)
    · intro x a hx px ex
      simp only [Handles.mk] at *
      grind
    · intro x y a hx hy px py ex ey
      simp only [Handles.mk] at *
      grind
    · intro x a ex
      simp only [Handles.mk] at *
      grind
  | moveP h g =>
    by_cases hc : h ∉ s.live ∧ s.P g = true
    · refine ⟨_, by simp only [Handles.step, hc]; rfl, ?_⟩
      have hg := hc.2; simp [St.P] at hg
      refine (hI.make hc.1 true).swap (by simp [Handles.mk]) (by simp [Handles.mk, hg.1]) ?_
      have : g ≠ h := by rintro rfl; exact hc.1 hg.1
      simp [Handles.mk, upd_ne _ _ this, hg.2]
    · simp only [Handles.step, hc, if_false] at hr; exact absurd rfl hr
  | moveF h g =>
    by_cases hc : h ∉ s.live ∧ s.F g = true
    · refine ⟨_, by simp only [Handles.step, hc]; rfl, ?_⟩
      have hg := hc.2; simp [St.F] at hg
      refine (hI.make hc.1 false).swap (by simp [Handles.mk]) (by simp [Handles.mk, hg.1]) ?_
      have : g ≠ h := by rintro rfl; exact hc.1 hg.1
      simp [Handles.mk, upd_ne _ _ this, hg.2]
    · simp only [Handles.step, hc, if_false] at hr; exact absurd rfl hr
  | moveAssignF h g =>
    by_cases hc : s.F h = true ∧ s.F g = true
    · refine ⟨_, by simp only [Handles.step, hc]; rfl, ?_⟩
      simp [St.F] at hc
      exact hI.swap hc.1.1 hc.2.1 (by rw [hc.1.2, hc.2.2])
    · simp only [Handles.step, hc, if_false] at hr; exact absurd rfl hr
  | swapF h g =>
    by_cases hc : s.F h = true ∧ s.F g = true
    · refine ⟨_, by simp only [Handles.step, hc]; rfl, ?_⟩
      simp [St.F] at hc
      exact hI.swap hc.1.1 hc.2.1 (by rw [hc.1.2, hc.2.2])
    · simp only [Handles.step, hc, if_false] at hr; exact absurd rfl hr
  | newFuture h =>
    by_cases hl : h ∈ s.live
    · simp [Handles.step, hl] at hr
    · exact ⟨_, by simp only [Handles.step, hl, if_false], hI.make hl false⟩
  | getFuture h g =>
    by_cases hc : h ∉ s.live ∧ s.P g = true
    · have hg := hc.2; simp [St.P] at hg
      obtain ⟨s', e, h'⟩ := hI.share hc.1 hg.1
      exact ⟨s', by simp only [Handles.step, hc]; exact e, h'⟩
    · simp only [Handles.step, hc, if_false] at hr; exact absurd rfl hr
  | copyF h g =>
    by_cases hc : h ∉ s.live ∧ s.F g = true
    · have hg := hc.2; simp [St.F] at hg
      obtain ⟨s', e, h'⟩ := hI.share hc.1 hg.1
      exact ⟨s', by simp only [Handles.step, hc]; exact e, h'⟩
    · simp only [Handles.step, hc, if_false] at hr; exact absurd rfl hr
  | destroy h =>
    by_cases hl : h ∈ s.live
    · have h1 := hI.tmp.exch hl (by simp) (by simp)
      obtain ⟨s1, e1, i1, l1, p1, _⟩ := h1.drop
      rw [drop_setPtr] at e1
      obtain ⟨s2, e2, e3⟩ := Res.bind_ok e1
      cases e3
      refine ⟨_, by simp only [Handles.step, hl, if_true, e2, Res.bind]; rfl, ?_⟩
      exact i1.unmk (h := h) (by simp [setPtr])
    · simp [Handles.step, hl] at hr
  | assignP h g =>
    by_cases hc : s.P h = true ∧ s.P g = true
    · have hc' := hc
      simp [St.P] at hc'
      obtain ⟨⟨hh, kh⟩, hg, kg⟩ := hc'
      have h1 := hI.tmp.exch hg (by simp) (by simp)
      have h2 := h1.exch (h := h) hh (fun a e => hI.ltP g a e) (by
        intro _ a e
        refine ⟨hI.hasP g a hg kg e, ?_⟩
        intro x hx px ex
        simp only [setPtr] at ex hx px
        by_cases hxg : x = g
        · subst hxg; simp at ex
        · rw [upd_ne _ _ hxg] at ex
          exact absurd (hI.uniqP x g a hx hg px kg ex e) hxg)
      obtain ⟨s1, e1, i1, _⟩ := h2.drop
      exact ⟨s1, by simp only [Handles.step, hc]; exact e1, i1⟩
    · simp only [Handles.step, hc, if_false] at hr; exact absurd rfl hr
  | setValue h =>
    by_cases hc : s.P h = true
    · have hc' := hc
      simp [St.P] at hc'
      obtain ⟨hh, kh⟩ := hc'
      cases hp : s.ptr h with
      | none => exact absurd hp ha
      | some a =>
        have hal := hI.ptr_alive hh hp
        have hhas := hI.hasP h a hh kh hp
        have h1 := hI.tmp.exch hh (by simp) (by simp)
        rw [hp] at h1
        have h2 : Inv { setPtr s h none with has := upd s.has a true } [some a] := by
          obtain ⟨h1', h2, h3, h4, h5, h6, h7, h8, h9, h10⟩ := h1
          refine ⟨h1', h2, h3, h4, h5, h6, h7, ?_, h9, h10⟩
          intro x b hx px ex
          show upd s.has a true b = false
          by_cases hb : b = a
          · subst hb
            simp only [setPtr] at ex hx px
            by_cases hxh : x = h
            · subst hxh; simp at ex
            · rw [upd_ne _ _ hxh] at ex
              exact absurd (hI.uniqP x h b hx hh px kh ex hp) hxh
          · rw [upd_ne _ _ hb]; exact h8 x b hx px ex
        obtain ⟨s1, e1, i1, _⟩ := h2.drop
        have hok : ∃ s2, Handles.drop { s with has := upd s.has a true } (some a) = .ok s2 ∧
            setPtr s2 h none = s1 := by
          have : Handles.drop { setPtr s h none with has := upd s.has a true } (some a) =
              Handles.drop (setPtr { s with has := upd s.has a true } h none) (some a) := rfl
          rw [this, drop_setPtr] at e1
          obtain ⟨s2, e2, e3⟩ := Res.bind_ok e1
          cases e3
          exact ⟨s2, e2, rfl⟩
        obtain ⟨s2, e2, e3⟩ := hok
        refine ⟨s1, ?_, i1⟩
        simp only [Handles.step, hc, if_true, hp, hal, hhas, Bool.not_false, Bool.and_self, e2,
          Res.bind, e3]
    · simp only [Handles.step, hc, if_false] at hr; exact absurd rfl hr
  | copyAssignF h g =>
    by_cases hc : s.F h = true ∧ s.F g = true
    · have hc' := hc
      simp [St.F] at hc'
      obtain ⟨⟨hh, kh⟩, hg, kg⟩ := hc'
      obtain ⟨hne, hself⟩ := ha
      cases hpg : s.ptr g with
      | none => exact absurd hpg hne
      | some a =>
      -- drop the old pointer
      have h1 := hI.tmp.exch hh (by simp) (by simp)
      obtain ⟨s1, e1, i1, l1, p1, q1, _, n1⟩ := h1.drop
      have hok : ∃ s2, Handles.drop s (s.ptr h) = .ok s2 ∧ setPtr s2 h none = s1 ∧ s2.ptr = s.ptr := by
        rw [drop_setPtr] at e1
        obtain ⟨s2, e2, e3⟩ := Res.bind_ok e1
        cases e3
        exact ⟨s2, e2, rfl, drop_ptr e2⟩
      obtain ⟨s2, e2, rfl, p2⟩ := hok
      -- the new one is alive
      have hal : (setPtr s2 h none).alive a = true := by
        apply (i1.alive a).2
        by_cases hgh : g = h
        · subst hgh
          have h2 := hself rfl a hpg
          have := (refs_upd s.live s.ptr g none a hI.nodup).2 hg
          rw [if_pos hpg] at this
          have e : refs (setPtr s2 g none) a =
              (s.live.filter fun x => upd s.ptr g none x == some a).length := by
            simp only [refs]; rw [l1, p1]; rfl
          rw [e]
          simp only [refs] at h2
          simp at this
          omega
        · have : (setPtr s2 h none).ptr g = some a := by
            rw [p1]; simp only [setPtr]; rw [upd_ne _ _ hgh]; exact hpg
          have := refs_pos (s := setPtr s2 h none) (by rw [l1]; exact hg) this
          omega
      obtain ⟨s3, e3, i3, rfl⟩ := i1.ref hal
      have hlt : a < (setPtr s2 h none).next := by rw [n1]; exact hI.ltP g a hpg
      have i4 := i3.exch (h := h) (by show h ∈ (setPtr s2 h none).live; rw [l1]; exact hh)
        (by intro b hb; cases hb; exact hlt)
        (by
          intro hk
          have : (setPtr s2 h none).isP h = true := hk
          rw [q1] at this; simp only [setPtr, kh] at this; exact absurd this (by simp))
      refine ⟨{ setPtr s2 h (some a) with rc := upd s2.rc a (s2.rc a + 1) }, ?_, ?_⟩
      · have hal' : s2.alive a = true := hal
        simp only [Handles.step, hc, and_self, if_true, e2, Res.bind, p2, hpg, Handles.ref,
          setPtr, hal']
      · have := i4
        simp only [setPtr, upd_same] at this
        have hu : upd (upd s2.ptr h none) h (some a) = upd s2.ptr h (some a) := by
          funext x; simp only [upd]; split <;> rfl
        rw [hu] at this
        exact this.untmp
    · simp only [Handles.step, hc, if_false] at hr; exact absurd rfl hr

end Verif.Promise.Handles
