import Verif.Promise.Alloc

/-! # C89: the state of a promise is freed by the allocator that allocated it -/

namespace Verif.Promise.Alloc

open Handles (Op)

theorem Reach.handles {s : St} (h : Reach s) : Handles.HReach s.h := by
  induction h with
  | init => exact .init
  | @step s s' o α _ ha hs ih =>
    simp only [Alloc.step] at hs
    split at hs
    · rename_i h' e; cases hs; exact .step ih ha e
    · cases hs

/-- What one drop does to the handles and the log. -/
theorem drop_log {s s' : Handles.St} {p : Option Nat} (h : Handles.drop s p = .ok s') :
    s'.live = s.live ∧ s'.ptr = s.ptr ∧ s'.next = s.next ∧ (s'.log = s.log ∨ ∃ a, p = some a ∧ s'.log = s.log ++ [.free a]) := by
  cases p with
  | none => simp only [Handles.drop, Handles.Res.ok.injEq] at h; subst h; exact ⟨rfl, rfl, rfl, .inl rfl⟩
  | some a =>
    simp only [Handles.drop, Handles.destruct] at h
    split at h
    · split at h
      · split at h
        · cases h; exact ⟨rfl, rfl, rfl, .inr ⟨a, rfl, rfl⟩⟩
        · cases h
      · cases h; exact ⟨rfl, rfl, rfl, .inl rfl⟩
    · cases h

structure Inv (s : St) : Prop where
  /-- The allocator of a handle, as long as the promise is not moved. -/
  al : ∀ h a α, h ∈ s.h.live → s.h.ptr h = some a → .move a ∉ s.log → .alloc a α ∈ s.log → s.al h = α
  lt : ∀ a α, .alloc a α ∈ s.log → a < s.h.next
  one : ∀ a α β, .alloc a α ∈ s.log → .alloc a β ∈ s.log → α = β
  ltf : ∀ a α, .free a α ∈ s.log → a < s.h.next
  ok : ∀ a α β, .alloc a α ∈ s.log → .free a β ∈ s.log → .move a ∉ s.log → α = β

theorem ref_eq {s s' : Handles.St} {p : Option Nat} (h : Handles.refIf s p = .ok s') :
    s'.live = s.live ∧ s'.ptr = s.ptr ∧ s'.next = s.next ∧ s'.log = s.log := by
  cases p with
  | none => simp only [Handles.refIf, Handles.Res.ok.injEq] at h; subst h; exact ⟨rfl, rfl, rfl, rfl⟩
  | some a =>
    simp only [Handles.refIf, Handles.ref] at h
    split at h
    · cases h; exact ⟨rfl, rfl, rfl, rfl⟩
    · cases h

/-- What an operation does to handles and states. -/
structure Shape (h h' : Handles.St) (al : Nat → Nat) (α : Nat) (o : Op) (l : List Handles.Ev) : Prop where
  log : h'.log = h.log ++ l
  ptr : ∀ x a, x ∈ h'.live → h'.ptr x = some a → (a = h.next ∧ alloc' al α o x = α) ∨ a ∈ movedBy h o ∨
    ∃ y ∈ h.live, h.ptr y = some a ∧ alloc' al α o x = al y
  free : ∀ a, .free a ∈ l → a ∈ movedBy h o ∨ ∃ y ∈ h.live, h.ptr y = some a ∧ user al o = al y
  alloc : ∀ a, .alloc a ∈ l → a = h.next ∧ h'.next = h.next + 1
  next : h.next ≤ h'.next

theorem mem_P {s : Handles.St} {h : Nat} (e : s.P h = true) : h ∈ s.live := by
  simp [Handles.St.P] at e; exact e.1

theorem mem_F {s : Handles.St} {h : Nat} (e : s.F h = true) : h ∈ s.live := by
  simp [Handles.St.F] at e; exact e.1

theorem shape {h h' : Handles.St} (al : Nat → Nat) (α : Nat) {o : Op} (D : ∀ x, x ∉ h.live → h.ptr x = none)
    (e : Handles.step h o = .ok h') : ∃ l, Shape h h' al α o l := by
  cases o with
  | newPromise x =>
    simp only [Handles.step] at e
    split at e
    · cases e
    · cases e
      refine ⟨[.alloc h.next], rfl, ?_, by simp, by simp, by simp [Handles.mk]⟩
      intro y a hy hp
      simp only [Handles.mk, upd_apply, List.mem_cons, alloc', movedBy] at *
      grind
  | moveP x g =>
    simp only [Handles.step] at e
    split at e
    · rename_i hc
      have := mem_P hc.2
      cases e
      refine ⟨[], by simp [Handles.swap, Handles.mk], ?_, by simp, by simp, by simp [Handles.swap, Handles.mk]⟩
      intro y a hy hp
      simp only [Handles.swap, Handles.mk, upd_apply, List.mem_cons, alloc', movedBy] at *
      grind
    · cases e
  | assignP x g =>
    simp only [Handles.step] at e
    split at e
    · rename_i hc
      obtain ⟨e1, e2, e3, e4⟩ := drop_log e
      have m1 := mem_P hc.1
      have m2 := mem_P hc.2
      simp only [Handles.setPtr] at e1 e2 e3 e4
      have hp : ∀ y a, y ∈ h'.live → h'.ptr y = some a → (a = h.next ∧ alloc' al α (.assignP x g) y = α) ∨ a ∈ movedBy h (.assignP x g) ∨
          ∃ z ∈ h.live, h.ptr z = some a ∧ alloc' al α (.assignP x g) y = al z := by
        intro y a hy hp
        simp only [e1, e2, upd_apply, alloc', movedBy] at *
        grind
      rcases e4 with e4 | ⟨a, ea, e4⟩
      · exact ⟨[], by simpa using e4, hp, by simp, by simp, by omega⟩
      · refine ⟨[.free a], e4, hp, ?_, by simp, by omega⟩
        intro b hb
        simp only [List.mem_singleton, Handles.Ev.free.injEq] at hb
        subst hb
        left
        simp only [movedBy, upd_apply] at *
        grind
    · cases e
  | setValue x =>
    simp only [Handles.step] at e
    split at e
    · rename_i hc
      have m1 := mem_P hc
      split at e
      · cases e
      · rename_i a ha
        split at e
        · obtain ⟨s1, h1, h2⟩ := Handles.Res.bind_ok e
          cases h2
          obtain ⟨e1, e2, e3, e4⟩ := drop_log h1
          simp only at e1 e2 e3 e4
          have hp : ∀ y b, y ∈ (Handles.setPtr s1 x none).live → (Handles.setPtr s1 x none).ptr y = some b →
              (b = h.next ∧ alloc' al α (.setValue x) y = α) ∨ b ∈ movedBy h (.setValue x) ∨
              ∃ z ∈ h.live, h.ptr z = some b ∧ alloc' al α (.setValue x) y = al z := by
            intro y b hy hp
            simp only [Handles.setPtr, e1, e2, upd_apply, alloc', movedBy] at *
            grind
          rcases e4 with e4 | ⟨b, eb, e4⟩
          · exact ⟨[], by simpa [Handles.setPtr] using e4, hp, by simp, by simp, by simp only [Handles.setPtr]; omega⟩
          · refine ⟨[.free b], e4, hp, ?_, by simp, by simp only [Handles.setPtr]; omega⟩
            intro c hb
            simp only [List.mem_singleton, Handles.Ev.free.injEq] at hb
            subst hb
            cases eb
            exact .inr ⟨x, m1, ha, rfl⟩
        · cases e
    · cases e
  | getFuture x g | copyF x g =>
    simp only [Handles.step] at e
    split at e
    · rename_i hc
      have m2 : g ∈ h.live := by first | exact mem_P hc.2 | exact mem_F hc.2
      obtain ⟨e1, e2, e3, e4⟩ := ref_eq e
      refine ⟨[], by simpa [Handles.mk] using e4, ?_, by simp, by simp, by simp only [e3, Handles.mk]; omega⟩
      intro y a hy hp
      simp only [e1, e2, Handles.mk, upd_apply, List.mem_cons, alloc', movedBy] at *
      grind
    · cases e
  | newFuture x =>
    simp only [Handles.step] at e
    split at e
    · cases e
    · cases e
      refine ⟨[], by simp [Handles.mk], ?_, by simp, by simp, by simp [Handles.mk]⟩
      intro y a hy hp
      simp only [Handles.mk, upd_apply, List.mem_cons, alloc', movedBy] at *
      grind
  | copyAssignF x g =>
    simp only [Handles.step] at e
    split at e
    · rename_i hc
      have m1 := mem_F hc.1
      have m2 := mem_F hc.2
      obtain ⟨s1, h1, h2⟩ := Handles.Res.bind_ok e
      obtain ⟨e1, e2, e3, e4⟩ := drop_log h1
      have h3 : h'.live = s1.live ∧ h'.ptr = upd s1.ptr x (s1.ptr g) ∧ h'.next = s1.next ∧ h'.log = s1.log := by
        cases hg : s1.ptr g with
        | none => rw [hg] at h2; simp [Handles.ref] at h2
        | some a =>
          rw [hg] at h2
          simp only [Handles.ref] at h2
          split at h2
          · cases h2; exact ⟨rfl, rfl, rfl, rfl⟩
          · cases h2
      obtain ⟨f1, f2, f3, f4⟩ := h3
      have hp : ∀ y b, y ∈ h'.live → h'.ptr y = some b →
          (b = h.next ∧ alloc' al α (.copyAssignF x g) y = α) ∨ b ∈ movedBy h (.copyAssignF x g) ∨
          ∃ z ∈ h.live, h.ptr z = some b ∧ alloc' al α (.copyAssignF x g) y = al z := by
        intro y b hy hp
        simp only [f1, f2, e1, e2, upd_apply, alloc', movedBy] at *
        grind
      rcases e4 with e4 | ⟨b, eb, e4⟩
      · exact ⟨[], by simp [f4, e4], hp, by simp, by simp, by omega⟩
      · refine ⟨[.free b], by rw [f4, e4], hp, ?_, by simp, by omega⟩
        intro c hb
        simp only [List.mem_singleton, Handles.Ev.free.injEq] at hb
        subst hb
        exact .inr ⟨x, m1, eb, rfl⟩
    · cases e
  | moveF x g | moveAssignF x g | swapF x g =>
    simp only [Handles.step] at e
    split at e
    · rename_i hc
      have m2 := mem_F hc.2
      have m1 : x ∈ h.live ∨ x ∉ h.live := Classical.em _
      cases e
      refine ⟨[], by simp [Handles.swap, Handles.mk], ?_, by simp, by simp, by simp [Handles.swap, Handles.mk]⟩
      intro y a hy hp
      have := D x
      simp only [Handles.swap, Handles.mk, upd_apply, List.mem_cons, alloc', movedBy] at *
      grind
    · cases e
  | destroy x =>
    simp only [Handles.step] at e
    split at e
    · rename_i m1
      obtain ⟨s1, h1, h2⟩ := Handles.Res.bind_ok e
      cases h2
      obtain ⟨e1, e2, e3, e4⟩ := drop_log h1
      have hp : ∀ y b, y ∈ s1.live.erase x → upd s1.ptr x none y = some b →
          (b = h.next ∧ alloc' al α (.destroy x) y = α) ∨ b ∈ movedBy h (.destroy x) ∨
          ∃ z ∈ h.live, h.ptr z = some b ∧ alloc' al α (.destroy x) y = al z := by
        intro y b hy hp
        have := List.mem_of_mem_erase hy
        simp only [e1, e2, upd_apply, alloc', movedBy] at *
        grind
      rcases e4 with e4 | ⟨b, eb, e4⟩
      · exact ⟨[], by simpa using e4, hp, by simp, by simp, by simp only; omega⟩
      · refine ⟨[.free b], e4, hp, ?_, by simp, by simp only; omega⟩
        intro c hb
        simp only [List.mem_singleton, Handles.Ev.free.injEq] at hb
        subst hb
        exact .inr ⟨x, m1, eb, rfl⟩
    · cases e

theorem movedBy_lt {h : Handles.St} (T : ∀ x a, h.ptr x = some a → a < h.next) {o : Op} {a : Nat} (ha : a ∈ movedBy h o) :
    a < h.next := by
  cases o <;> simp [movedBy] at ha
  · exact T _ _ ha
  · rcases ha with ha | ha <;> exact T _ _ ha

theorem inv_step {s s' : St} {o : Op} {α : Nat} (hr : Reach s) (I : Inv s) (hs : step s o α = some s') : Inv s' := by
  have H := hr.handles.inv
  have T := H.ltP
  simp only [step] at hs
  split at hs
  · rename_i h' e
    cases hs
    obtain ⟨l, hS⟩ := shape s.al α H.dead e
    obtain ⟨i1, i2, i3, i5, i4⟩ := I
    obtain ⟨g1, g2, g3, g4, g5⟩ := hS
    have hl : h'.log.drop s.h.log.length = l := by rw [g1]; simp
    rw [hl]
    have ma : ∀ a β, Ev.alloc a β ∈ l.map (note α (user s.al o)) ↔ β = α ∧ .alloc a ∈ l := by
      intro a β; simp only [List.mem_map]
      constructor
      · rintro ⟨x, hx, e⟩; cases x <;> simp [note] at e; obtain ⟨rfl, rfl⟩ := e; exact ⟨rfl, hx⟩
      · rintro ⟨rfl, hx⟩; exact ⟨_, hx, rfl⟩
    have mf : ∀ a β, Ev.free a β ∈ l.map (note α (user s.al o)) ↔ β = user s.al o ∧ .free a ∈ l := by
      intro a β; simp only [List.mem_map]
      constructor
      · rintro ⟨x, hx, e⟩; cases x <;> simp [note] at e; obtain ⟨rfl, rfl⟩ := e; exact ⟨rfl, hx⟩
      · rintro ⟨rfl, hx⟩; exact ⟨_, hx, rfl⟩
    have mm : ∀ a, Ev.move a ∉ l.map (note α (user s.al o)) := by
      intro a h; simp only [List.mem_map] at h
      obtain ⟨x, _, e⟩ := h; cases x <;> simp [note] at e
    have mv : ∀ (L : List Nat) a, Ev.move a ∈ L.map Ev.move ↔ a ∈ L := by intro L a; simp
    have mva : ∀ (L : List Nat) a β, Ev.alloc a β ∉ L.map Ev.move := by intro L a β; simp
    have mvf : ∀ (L : List Nat) a β, Ev.free a β ∉ L.map Ev.move := by intro L a β; simp
    constructor <;> simp only [List.mem_append, ma, mf, mm, mv, mva, mvf, or_false]
    · intro x a β hx hp hm ha
      rcases g2 x a hx hp with ⟨e1, e2⟩ | e1 | ⟨y, hy, e1, e2⟩
      · rcases ha with ha | ⟨ha, _⟩
        · have := i2 a β ha; omega
        · rw [e2, ha]
      · exact absurd (.inr e1) hm
      · rw [e2]
        rcases ha with ha | ⟨_, ha⟩
        · exact i1 y a β hy e1 (fun h => hm (.inl h)) ha
        · have := (g4 a ha).1; have := T y a e1; omega
    · intro a β ha
      rcases ha with ha | ⟨_, ha⟩
      · have := i2 a β ha; omega
      · have := g4 a ha; omega
    · intro a β γ h1 h2
      rcases h1 with h1 | ⟨h1, h1'⟩ <;> rcases h2 with h2 | ⟨h2, h2'⟩
      · exact i3 a β γ h1 h2
      · have := i2 _ _ h1; have := (g4 a h2').1; omega
      · have := i2 _ _ h2; have := (g4 a h1').1; omega
      · rw [h1, h2]
    · intro a β h1
      rcases h1 with h1 | ⟨_, h1⟩
      · have := i5 a β h1; omega
      · rcases g3 a h1 with h3 | ⟨y, hy, h3, h4⟩
        · have := movedBy_lt T h3; omega
        · have := T y a h3; omega
    · intro a β γ h1 h2 hm
      rcases h2 with h2 | ⟨h2, h2'⟩
      · rcases h1 with h1 | ⟨h1, h1'⟩
        · exact i4 a β γ h1 h2 (fun h => hm (.inl h))
        · have := i5 _ _ h2; have := (g4 a h1').1; omega
      · rcases g3 a h2' with h3 | ⟨y, hy, h3, h4⟩
        · exact absurd (.inr h3) hm
        · rcases h1 with h1 | ⟨h1, h1'⟩
          · rw [h2, h4]; exact (i1 y a β hy h3 (fun h => hm (.inl h)) h1).symm
          · have := (g4 a h1').1; have := T y a h3; omega
  · cases hs

theorem Reach.inv {s : St} (h : Reach s) : Inv s := by
  induction h with
  | init => constructor <;> simp [St.init]
  | step hr _ hs ih => exact inv_step hr ih hs

/-- A handle whose allocator may be used. -/
def Uses (h : Handles.St) (x : Nat) : Prop := x ∈ h.live ∧ (h.isP x = true ∨ h.ptr x ≠ none)

theorem drop_isP {s s' : Handles.St} {p : Option Nat} (h : Handles.drop s p = .ok s') : s'.isP = s.isP := by
  cases p with
  | none => simp only [Handles.drop, Handles.Res.ok.injEq] at h; subst h; rfl
  | some a =>
    simp only [Handles.drop, Handles.destruct] at h
    split at h
    · split at h
      · split at h
        · cases h; rfl
        · cases h
      · cases h; rfl
    · cases h

theorem ref_isP {s s' : Handles.St} {p : Option Nat} (h : Handles.refIf s p = .ok s') : s'.isP = s.isP := by
  cases p with
  | none => simp only [Handles.refIf, Handles.Res.ok.injEq] at h; subst h; rfl
  | some a =>
    simp only [Handles.refIf, Handles.ref] at h
    split at h
    · cases h; rfl
    · cases h

/-- Where the allocators of the handles come from. -/
theorem uses {h h' : Handles.St} (al : Nat → Nat) (α : Nat) {o : Op} (D : ∀ x, x ∉ h.live → h.ptr x = none)
    (e : Handles.step h o = .ok h') {x : Nat} (hx : Uses h' x) :
    (alloc' al α o x = α ∧ ∃ z, o = .newPromise z) ∨ alloc' al α o x = 0 ∨ ∃ y, Uses h y ∧ alloc' al α o x = al y := by
  obtain ⟨hx, hu⟩ := hx
  cases o with
  | newPromise z =>
    simp only [Handles.step] at e
    split at e
    · cases e
    · cases e
      simp only [Handles.mk, upd_apply, List.mem_cons, alloc', Uses] at *
      grind
  | moveP z g =>
    simp only [Handles.step] at e
    split at e
    · rename_i hc
      have := mem_P hc.2
      have := hc.2
      simp only [Handles.St.P, Bool.and_eq_true] at this
      cases e
      simp only [Handles.swap, Handles.mk, upd_apply, List.mem_cons, alloc', Uses] at *
      grind
    · cases e
  | assignP z g =>
    simp only [Handles.step] at e
    split at e
    · rename_i hc
      obtain ⟨e1, e2, e3, e4⟩ := drop_log e
      have e5 := drop_isP e
      simp only [Handles.St.P, Bool.and_eq_true] at hc
      simp only [Handles.setPtr] at e1 e2 e5
      simp only [e1, e2, e5, upd_apply, alloc', Uses] at *
      grind
    · cases e
  | setValue z =>
    simp only [Handles.step] at e
    split at e
    · split at e
      · cases e
      · split at e
        · obtain ⟨s1, h1, h2⟩ := Handles.Res.bind_ok e
          cases h2
          obtain ⟨e1, e2, e3, e4⟩ := drop_log h1
          have e5 := drop_isP h1
          simp only [Handles.setPtr] at e1 e2 e5
          simp only [Handles.setPtr, e1, e2, e5, upd_apply, alloc', Uses] at *
          grind
        · cases e
    · cases e
  | getFuture z g | copyF z g =>
    simp only [Handles.step] at e
    split at e
    · rename_i hc
      have m2 : g ∈ h.live := by first | exact mem_P hc.2 | exact mem_F hc.2
      obtain ⟨e1, e2, e3, e4⟩ := ref_eq e
      have e5 := ref_isP e
      simp only [e1, e2, e5, Handles.mk, upd_apply, List.mem_cons, alloc', Uses] at *
      grind
    · cases e
  | newFuture z =>
    simp only [Handles.step] at e
    split at e
    · cases e
    · cases e
      simp only [Handles.mk, upd_apply, List.mem_cons, alloc', Uses] at *
      grind
  | copyAssignF z g =>
    simp only [Handles.step] at e
    split at e
    · rename_i hc
      have hc1 := hc.1
      simp only [Handles.St.F, Bool.and_eq_true] at hc1
      have m2 := mem_F hc.2
      obtain ⟨s1, h1, h2⟩ := Handles.Res.bind_ok e
      obtain ⟨e1, e2, e3, e4⟩ := drop_log h1
      have e5 := drop_isP h1
      have h3 : h'.live = s1.live ∧ h'.ptr = upd s1.ptr z (s1.ptr g) ∧ h'.isP = s1.isP := by
        cases hg : s1.ptr g with
        | none => rw [hg] at h2; simp [Handles.ref] at h2
        | some a =>
          rw [hg] at h2
          simp only [Handles.ref] at h2
          split at h2
          · cases h2; exact ⟨rfl, rfl, rfl⟩
          · cases h2
      obtain ⟨f1, f2, f3⟩ := h3
      simp only [f1, f2, f3, e1, e2, e5, upd_apply, alloc', Uses] at *
      grind
    · cases e
  | moveF z g | moveAssignF z g | swapF z g =>
    simp only [Handles.step] at e
    split at e
    · rename_i hc
      have hc2 := hc.2
      simp only [Handles.St.F, Bool.and_eq_true] at hc2
      have m1 : z ∈ h.live ∨ z ∉ h.live := Classical.em _
      have hc1 := hc.1
      try simp only [Handles.St.F, Bool.and_eq_true] at hc1
      cases e
      have := D z
      simp only [Handles.swap, Handles.mk, upd_apply, List.mem_cons, alloc', Uses] at *
      grind
    · cases e
  | destroy z =>
    simp only [Handles.step] at e
    split at e
    · obtain ⟨s1, h1, h2⟩ := Handles.Res.bind_ok e
      cases h2
      obtain ⟨e1, e2, e3, e4⟩ := drop_log h1
      have e5 := drop_isP h1
      have := List.mem_of_mem_erase hx
      simp only [e1, e2, e5, upd_apply, alloc', Uses] at *
      grind
    · cases e

theorem inv0 {s : St} (h : Reach s) (h0 : ∀ a α, .alloc a α ∈ s.log → α = 0) :
    (∀ x, Uses s.h x → s.al x = 0) ∧ ∀ a β, .free a β ∈ s.log → β = 0 := by
  induction h with
  | init => exact ⟨fun _ _ => rfl, by simp [St.init]⟩
  | @step s s' o α hr ha hs ih =>
    have H := hr.handles.inv
    simp only [step] at hs
    split at hs
    · rename_i h' e
      cases hs
      obtain ⟨j1, j2⟩ := ih fun a α h => h0 a α (List.mem_append_left _ (List.mem_append_left _ h))
      obtain ⟨l, hS⟩ := shape s.al α H.dead e
      have hl : h'.log.drop s.h.log.length = l := by rw [hS.log]; simp
      simp only [hl] at h0 ⊢
      refine ⟨fun x hx => ?_, fun a β hf => ?_⟩
      · rcases uses s.al α H.dead e hx with ⟨e1, z, rfl⟩ | e1 | ⟨y, hy, e1⟩
        · rw [e1]
          refine h0 s.h.next α (List.mem_append_right _ ?_)
          have : h'.log = s.h.log ++ [.alloc s.h.next] := by
            simp only [Handles.step] at e
            split at e
            · cases e
            · cases e; rfl
          rw [hS.log] at this
          have := List.append_cancel_left this
          rw [this]; simp [note]
        · exact e1
        · rw [e1]; exact j1 y hy
      · simp only [List.mem_append, List.mem_map] at hf
        rcases hf with (hf | ⟨x, _, hf⟩) | ⟨x, hx, hf⟩
        · exact j2 a β hf
        · cases hf
        · cases x with
          | alloc b => cases hf
          | free b =>
            cases hf
            cases o with
            | setValue z | destroy z | copyAssignF z g =>
              rcases hS.free a hx with h3 | ⟨y, hy, h3, h4⟩
              · simp [movedBy] at h3
              · rw [h4]; exact j1 y ⟨hy, .inr (by rw [h3]; simp)⟩
            | _ => rfl
    · cases hs

/-! ## The property -/

/-- The event of the heap, without the allocator. -/
def strip : Ev → Option Handles.Ev
  | .alloc a _ => some (.alloc a)
  | .free a _ => some (.free a)
  | .move _ => none

/-- **C89**: nothing is left out; the allocations and deallocations are those of C36. -/
theorem C89_complete {s : St} (h : Reach s) : s.log.filterMap strip = s.h.log := by
  induction h with
  | init => rfl
  | @step s s' o α hr ha hs ih =>
    simp only [step] at hs
    split at hs
    · rename_i h' e
      cases hs
      obtain ⟨l, hS⟩ := shape s.al α hr.handles.inv.dead e
      have hl : h'.log.drop s.h.log.length = l := by rw [hS.log]; simp
      have h1 : ∀ L : List Nat, (L.map Ev.move).filterMap strip = [] := by
        intro L; induction L with
        | nil => rfl
        | cons x L ih => simp [strip, ih]
      have h2 : ∀ (L : List Handles.Ev) β, (L.map (note α β)).filterMap strip = L := by
        intro L β; induction L with
        | nil => rfl
        | cons x L ih => cases x <;> simp [strip, note, ih]
      simp only [hl, List.filterMap_append, h1, h2, ih, List.append_nil]
      exact hS.log.symm
    · cases hs

/-- **C89**, partial: a state is freed by the allocator that allocated it, unless its promise was moved from or assigned to. -/
theorem C89_same_allocator_partial {s : St} (h : Reach s) {a α β : Nat} (ha : .alloc a α ∈ s.log) (hf : .free a β ∈ s.log)
    (hm : .move a ∉ s.log) : α = β := h.inv.ok a α β ha hf hm

/-- **C89**, partial: this also holds if all promises use default constructed allocators. -/
theorem C89_default_allocator_partial {s : St} (h : Reach s) (h0 : ∀ a α, .alloc a α ∈ s.log → α = 0) {a β : Nat}
    (hf : .free a β ∈ s.log) : β = 0 := (inv0 h h0).2 a β hf

/-- A program, with the allocators given to constructors. -/
def run (s : St) : List (Op × Nat) → Option St
  | [] => some s
  | (o, α) :: os => match step s o α with
    | some s' => run s' os
    | none => none

/-- The promise is moved, as when it is stored in an object: `promise p{alloc}; promise q{std::move(p)};` -/
def moveRun : List (Op × Nat) := [(.newPromise 0, 7), (.moveP 1 0, 0), (.getFuture 2 1, 0), (.setValue 1, 0), (.destroy 2, 0)]

/-- **C89** is false: after a promise was moved, its state is freed by a default constructed allocator. -/
theorem C89_move_false : ∃ s, Reach s ∧ run .init moveRun = some s ∧ s.log = [.alloc 0 7, .move 0, .free 0 0] := by
  have h1 := Reach.init.step (o := .newPromise 0) (α := 7) trivial rfl
  have h2 := h1.step (o := .moveP 1 0) (α := 0) trivial rfl
  have h3 := h2.step (o := .getFuture 2 1) (α := 0) trivial rfl
  have h4 := h3.step (o := .setValue 1) (α := 0) (by show some 0 ≠ none; simp) rfl
  have h5 := h4.step (o := .destroy 2) (α := 0) trivial rfl
  exact ⟨_, h5, rfl, rfl⟩

/-- The promise is assigned to: `promise p{a}; promise q{b}; p = std::move(q);` -/
def assignRun : List (Op × Nat) := [(.newPromise 0, 7), (.newPromise 1, 8), (.assignP 0 1, 0), (.destroy 0, 0)]

/-- **C89** is false: an assignment frees the old state by a default constructed allocator, and the new state is freed by the allocator
of the old one. -/
theorem C89_assign_false : ∃ s, Reach s ∧ run .init assignRun = some s ∧
    s.log = [.alloc 0 7, .alloc 1 8, .move 1, .move 0, .free 0 0, .free 1 7] := by
  have h1 := Reach.init.step (o := .newPromise 0) (α := 7) trivial rfl
  have h2 := h1.step (o := .newPromise 1) (α := 8) trivial rfl
  have h3 := h2.step (o := .assignP 0 1) (α := 0) trivial rfl
  have h4 := h3.step (o := .destroy 0) (α := 0) trivial rfl
  exact ⟨_, h4, rfl, rfl⟩

example : ∃ s, Reach s ∧ s.log.filterMap strip = s.h.log ∧ .free 0 ∈ s.h.log := by
  obtain ⟨s, h, _, e⟩ := C89_assign_false
  exact ⟨s, h, C89_complete h, by rw [← C89_complete h, e]; decide⟩

/-- The hypotheses of `C89_same_allocator_partial`: two states with different allocators; futures are copied, moved, swapped and
assigned; the first state is freed by a copy assignment, the second one by a future. -/
example : ∃ s, Reach s ∧ s.log = [.alloc 0 7, .alloc 1 8, .free 0 7, .free 1 8] ∧ (7 = 7 ∧ 8 = 8) := by
  have h1 := Reach.init.step (o := .newPromise 0) (α := 7) trivial rfl
  have h2 := h1.step (o := .getFuture 1 0) (α := 0) trivial rfl
  have h3 := h2.step (o := .newPromise 2) (α := 8) trivial rfl
  have h4 := h3.step (o := .getFuture 3 2) (α := 0) trivial rfl
  have h5 := h4.step (o := .moveF 4 3) (α := 0) trivial rfl
  have h6 := h5.step (o := .setValue 0) (α := 0) (by show some 0 ≠ none; simp) rfl
  have h7 := h6.step (o := .copyAssignF 1 4) (α := 0) ⟨by decide, by intro h; cases h⟩ rfl
  have h8 := h7.step (o := .destroy 2) (α := 0) trivial rfl
  have h9 := h8.step (o := .destroy 4) (α := 0) trivial rfl
  have h10 := h9.step (o := .swapF 3 1) (α := 0) trivial rfl
  have h11 := h10.step (o := .destroy 3) (α := 0) trivial rfl
  exact ⟨_, h11, rfl, C89_same_allocator_partial h11 (a := 0) (by decide) (by decide) (by decide),
    C89_same_allocator_partial h11 (a := 1) (by decide) (by decide) (by decide)⟩

/-- The hypotheses of `C89_default_allocator_partial`, with a promise that is moved. -/
example : ∃ s, Reach s ∧ .free 0 0 ∈ s.log ∧ .move 0 ∈ s.log ∧ 0 = 0 := by
  have h1 := Reach.init.step (o := .newPromise 0) (α := 0) trivial rfl
  have h2 := h1.step (o := .moveP 1 0) (α := 0) trivial rfl
  have h3 := h2.step (o := .destroy 1) (α := 0) trivial rfl
  exact ⟨_, h3, by decide, by decide, C89_default_allocator_partial h3 (a := 0) (by
    intro a α h
    have h : Ev.alloc a α ∈ [Ev.alloc 0 0, .move 0, .free 0 0] := h
    simp at h; exact h.2) (by decide)⟩

end Verif.Promise.Alloc
