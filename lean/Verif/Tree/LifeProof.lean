import Verif.Tree.LifeModel
import Verif.Tree.Live

/-! # Invariants of the lifetimes of operation objects -/

namespace Verif.Tree

/-! ## Paths -/

theorem suf_cons {p r : Path} {k : Nat} (h : k :: p <:+ r) : p <:+ r := (List.suffix_cons k p).trans h

theorem suf_branch {p r : Path} {j k : Nat} (h1 : j :: p <:+ r) (h2 : k :: p <:+ r) : j = k := by
  have := List.suffix_of_suffix_length_le h1 h2 (by simp)
  have := this.eq_of_length (by simp)
  simpa using this

theorem suf_cmp {p q r : Path} (h1 : p <:+ r) (h2 : q <:+ r) : p <:+ q ∨ q <:+ p := by
  rcases Nat.le_total p.length q.length with h | h
  · exact .inl (List.suffix_of_suffix_length_le h1 h2 h)
  · exact .inr (List.suffix_of_suffix_length_le h2 h1 h)

theorem suf_step {p r : Path} (h : p <:+ r) (hn : r ≠ p) : ∃ k, k :: p <:+ r := by
  obtain ⟨l, rfl⟩ := h
  rcases l.eq_nil_or_concat with rfl | ⟨l', k, rfl⟩
  · simp at hn
  · exact ⟨k, l', by simp⟩

theorem not_suf_self {p : Path} {k : Nat} : ¬ k :: p <:+ p := by
  intro h
  have := h.length_le
  rw [List.length_cons] at this
  omega

/-! ## Regions of the memory -/

/-- No object exists at or below `p`. -/
def Dead (m : LMem) (p : Path) : Prop := ∀ r, p <:+ r → m.live r = false

/-- The memory is the same at and below `p`. -/
def Same (m m' : LMem) (p : Path) : Prop :=
  ∀ r, p <:+ r → m'.live r = m.live r ∧ m'.box r = m.box r ∧ m'.imm r = m.imm r

/-- The memory is the same except at and below `p`. -/
def Only (m m' : LMem) (p : Path) : Prop :=
  ∀ r, ¬ p <:+ r → m'.live r = m.live r ∧ m'.box r = m.box r ∧ m'.imm r = m.imm r

theorem Only.refl (m : LMem) (p : Path) : Only m m p := fun _ _ => ⟨rfl, rfl, rfl⟩

theorem Only.trans {m m' m'' : LMem} {p : Path} (h : Only m m' p) (h' : Only m' m'' p) : Only m m'' p := by
  intro r hr
  have := h r hr
  have := h' r hr
  simp_all

theorem Only.up {m m' : LMem} {p : Path} {k : Nat} (h : Only m m' (k :: p)) : Only m m' p :=
  fun r hr => h r (fun h' => hr (suf_cons h'))

theorem Only.same {m m' : LMem} {p q : Path} (h : Only m m' p) (h1 : ¬ p <:+ q) (h2 : ¬ q <:+ p) : Same m m' q := by
  intro r hr
  refine h r (fun h' => ?_)
  rcases suf_cmp hr h' with h | h
  · exact h2 h
  · exact h1 h

theorem Only.sib {m m' : LMem} {p : Path} {j k : Nat} (h : Only m m' (k :: p)) (hn : j ≠ k) : Same m m' (j :: p) := by
  intro r hr
  exact h r (fun h' => hn (suf_branch hr h'))

theorem Same.dead {m m' : LMem} {p : Path} (h : Same m m' p) (hd : Dead m p) : Dead m' p :=
  fun r hr => by rw [(h r hr).1, hd r hr]

theorem Dead.down {m : LMem} {p : Path} (h : Dead m p) (k : Nat) : Dead m (k :: p) := fun r hr => h r (suf_cons hr)

theorem Dead.of_kids {m : LMem} {p : Path} (h : m.live p = false) (hk : ∀ k, Dead m (k :: p)) : Dead m p := by
  intro r hr
  by_cases e : r = p
  · subst e; exact h
  · obtain ⟨k, h'⟩ := suf_step hr e
    exact hk k r h'

theorem birth_only (m : LMem) (p : Path) : Only m (m.birth p) p := by
  intro r hr
  have : r ≠ p := fun e => hr (e ▸ List.suffix_refl _)
  simp [LMem.birth, updP_apply, this]

theorem kill_only (m : LMem) (p : Path) : Only m (m.kill p) p := by
  intro r hr
  have : r ≠ p := fun e => hr (e ▸ List.suffix_refl _)
  simp [LMem.kill, updP_apply, this]

theorem each_only {g : Nat → LMem → LMem} {p : Path} (h : ∀ k m, Only m (g k m) p) (n : Nat) (m : LMem) :
    Only m (each g n m) p := by
  induction n generalizing m with
  | zero => exact h 0 m
  | succ n ih => exact (h _ m).trans (ih _)

theorem ctor_only (S : Snd) (p : Path) (m : LMem) : Only m (ctor S p m) p := by
  induction S generalizing p m with
  | leaf | inv | ite | letS | seq | rep => exact birth_only m p
  | xform S _ ih | lam S ih => exact (birth_only m p).trans (ih (0 :: p) _).up
  | all n f ih | race n f ih => exact (birth_only m p).trans (each_only (fun k m => (ih k (k :: p) m).up) n _)

theorem dtor_only (S : Snd) (p : Path) (m : LMem) : Only m (dtor S p m) p := by
  induction S generalizing p m with
  | leaf | inv | seq | rep => exact kill_only m p
  | xform S _ ih | lam S ih => exact (ih (0 :: p) m).up.trans (kill_only _ p)
  | ite c a b iha ihb =>
    simp only [dtor]
    refine Only.trans ?_ (kill_only _ p)
    refine Only.trans (m' := if m.box p = some 0 then dtor a (0 :: p) m else m) ?_ ?_
    · split
      · exact (iha _ _).up
      · exact .refl _ _
    · generalize (if m.box p = some 0 then dtor a (0 :: p) m else m) = m1
      split
      · exact (ihb _ _).up
      · exact .refl _ _
  | letS g f ih =>
    simp only [dtor]
    split
    · exact (ih _ _ _).up.trans (kill_only _ p)
    · exact kill_only m p
  | all n f ih | race n f ih => exact (each_only (fun k m => (ih k (k :: p) m).up) n m).trans (kill_only _ p)

/-! ## Objects that were constructed and not started, and objects that may be destroyed -/

/-- Operation `p` of sender `S` was constructed and not started. -/
def Fresh (m : LMem) : Snd → Path → Prop
  | .leaf, p | .inv _, p => m.live p = true ∧ ∀ k, Dead m (k :: p)
  | .ite _ _ _, p | .letS _ _, p | .seq _ _, p | .rep _ _, p =>
    m.live p = true ∧ m.box p = none ∧ ∀ k, Dead m (k :: p)
  | .xform S _, p | .lam S, p => m.live p = true ∧ Fresh m S (0 :: p) ∧ ∀ k, 0 < k → Dead m (k :: p)
  | .all n f, p | .race n f, p =>
    m.live p = true ∧ (∀ k, k ≤ n → Fresh m (f k) (k :: p)) ∧ ∀ k, n < k → Dead m (k :: p)

/-- The destructor of operation `p` of sender `S` destroys everything below. -/
def Tidy (m : LMem) : Snd → Path → Prop
  | .leaf, p | .inv _, p | .seq _ _, p | .rep _ _, p => m.live p = true ∧ ∀ k, Dead m (k :: p)
  | .xform S _, p | .lam S, p => m.live p = true ∧ Tidy m S (0 :: p) ∧ ∀ k, 0 < k → Dead m (k :: p)
  | .ite _ a b, p => m.live p = true ∧ (m.box p = some 0 → Tidy m a (0 :: p)) ∧ (m.box p = some 1 → Tidy m b (1 :: p)) ∧
      (∀ k, m.box p = some k → k ≤ 1) ∧ ∀ k, m.box p ≠ some k → Dead m (k :: p)
  | .letS _ f, p => m.live p = true ∧ m.box p = some 0 ∧ Tidy m (f (m.imm p)) (0 :: p) ∧ ∀ k, 0 < k → Dead m (k :: p)
  | .all n f, p | .race n f, p =>
    m.live p = true ∧ (∀ k, k ≤ n → Tidy m (f k) (k :: p)) ∧ ∀ k, n < k → Dead m (k :: p)

theorem Fresh.live {m : LMem} {S : Snd} {p : Path} (h : Fresh m S p) : m.live p = true := by
  cases S <;> exact h.1

theorem Tidy.live {m : LMem} {S : Snd} {p : Path} (h : Tidy m S p) : m.live p = true := by
  cases S <;> exact h.1

theorem Same.down {m m' : LMem} {p : Path} (h : Same m m' p) (k : Nat) : Same m m' (k :: p) :=
  fun r hr => h r (suf_cons hr)

theorem Same.self {m m' : LMem} {p : Path} (h : Same m m' p) :
    m'.live p = m.live p ∧ m'.box p = m.box p ∧ m'.imm p = m.imm p := h p (List.suffix_refl _)

theorem Fresh.same {m m' : LMem} {S : Snd} {p : Path} (h : Fresh m S p) (e : Same m m' p) : Fresh m' S p := by
  induction S generalizing p with
  | leaf | inv => exact ⟨e.self.1 ▸ h.1, fun k => (e.down k).dead (h.2 k)⟩
  | ite | letS | seq | rep => exact ⟨e.self.1 ▸ h.1, e.self.2.1 ▸ h.2.1, fun k => (e.down k).dead (h.2.2 k)⟩
  | xform S _ ih | lam S ih =>
    exact ⟨e.self.1 ▸ h.1, ih h.2.1 (e.down 0), fun k hk => (e.down k).dead (h.2.2 k hk)⟩
  | all n f ih | race n f ih =>
    exact ⟨e.self.1 ▸ h.1, fun k hk => ih k (h.2.1 k hk) (e.down k), fun k hk => (e.down k).dead (h.2.2 k hk)⟩

theorem Tidy.same {m m' : LMem} {S : Snd} {p : Path} (h : Tidy m S p) (e : Same m m' p) : Tidy m' S p := by
  induction S generalizing p with
  | leaf | inv | seq | rep => exact ⟨e.self.1 ▸ h.1, fun k => (e.down k).dead (h.2 k)⟩
  | ite c a b iha ihb =>
    obtain ⟨h1, h2, h3, h4, h5⟩ := h
    simp only [Tidy, e.self.1, e.self.2.1]
    exact ⟨h1, fun hb => iha (h2 hb) (e.down 0), fun hb => ihb (h3 hb) (e.down 1), h4,
      fun k hk => (e.down k).dead (h5 k hk)⟩
  | letS g f ih =>
    obtain ⟨h1, h2, h3, h4⟩ := h
    simp only [Tidy, e.self.1, e.self.2.1, e.self.2.2]
    exact ⟨h1, h2, ih _ h3 (e.down 0), fun k hk => (e.down k).dead (h4 k hk)⟩
  | xform S _ ih | lam S ih =>
    exact ⟨e.self.1 ▸ h.1, ih h.2.1 (e.down 0), fun k hk => (e.down k).dead (h.2.2 k hk)⟩
  | all n f ih | race n f ih =>
    exact ⟨e.self.1 ▸ h.1, fun k hk => ih k (h.2.1 k hk) (e.down k), fun k hk => (e.down k).dead (h.2.2 k hk)⟩

theorem birth_same {m : LMem} {p : Path} (k : Nat) : Same m (m.birth p) (k :: p) := by
  intro r hr
  have : r ≠ p := fun e => by subst e; exact not_suf_self hr
  simp [LMem.birth, updP_apply, this]

/-- Construction in a free place. -/
theorem ctor_fresh (S : Snd) (p : Path) (m : LMem) (h : Dead m p) : Fresh (ctor S p m) S p ∧ (ctor S p m).bad = m.bad := by
  have hb : ∀ (m : LMem) p, Dead m p → (m.birth p).bad = m.bad ∧ (m.birth p).live p = true ∧ (m.birth p).box p = none ∧
      ∀ k, Dead (m.birth p) (k :: p) := by
    intro m p h
    have := h p (List.suffix_refl _)
    exact ⟨by simp [LMem.birth, this], by simp [LMem.birth, updP_apply], by simp [LMem.birth, updP_apply],
      fun k => (birth_same k).dead (h.down k)⟩
  induction S generalizing p m with
  | leaf | inv => have := hb m p h; exact ⟨⟨this.2.1, this.2.2.2⟩, this.1⟩
  | ite | letS | seq | rep => have := hb m p h; exact ⟨⟨this.2.1, this.2.2.1, this.2.2.2⟩, this.1⟩
  | xform S _ ih | lam S ih =>
    have hb := hb m p h
    have h1 := ih (0 :: p) (m.birth p) (hb.2.2.2 0)
    have h2 := ctor_only S (0 :: p) (m.birth p)
    refine ⟨⟨?_, h1.1, fun k hk => (h2.sib (by omega)).dead (hb.2.2.2 k)⟩, h1.2.trans hb.1⟩
    exact (h2 p not_suf_self).1.trans hb.2.1
  | all n f ih | race n f ih =>
    have hb := hb m p h
    have key : ∀ n (m0 : LMem), (∀ k, k ≤ n → Dead m0 (k :: p)) →
        (∀ k, k ≤ n → Fresh (each (fun k => ctor (f k) (k :: p)) n m0) (f k) (k :: p)) ∧
        (each (fun k => ctor (f k) (k :: p)) n m0).bad = m0.bad ∧
        (each (fun k => ctor (f k) (k :: p)) n m0).live p = m0.live p ∧
        ∀ k, n < k → Same m0 (each (fun k => ctor (f k) (k :: p)) n m0) (k :: p) := by
      intro n
      induction n with
      | zero =>
        intro m0 hd
        have h1 := ih 0 (0 :: p) m0 (hd 0 (by omega))
        have h2 := ctor_only (f 0) (0 :: p) m0
        refine ⟨fun k hk => ?_, h1.2, (h2 p not_suf_self).1, fun k hk => h2.sib (by omega)⟩
        obtain rfl : k = 0 := by omega
        exact h1.1
      | succ n ihn =>
        intro m0 hd
        have h1 := ih (n + 1) ((n + 1) :: p) m0 (hd _ (by omega))
        have h2 := ctor_only (f (n + 1)) ((n + 1) :: p) m0
        obtain ⟨i1, i2, i3, i4⟩ := ihn (ctor (f (n + 1)) ((n + 1) :: p) m0)
          (fun k hk => (h2.sib (by omega)).dead (hd k (by omega)))
        refine ⟨fun k hk => ?_, i2.trans h1.2, i3.trans (h2 p not_suf_self).1, fun k hk => ?_⟩
        · by_cases e : k = n + 1
          · subst e
            exact h1.1.same (i4 _ (by omega))
          · exact i1 k (by omega)
        · have a := i4 k (by omega)
          have b := h2.sib (j := k) (by omega)
          intro r hr
          have := a r hr
          have := b r hr
          simp_all [each]
    obtain ⟨k1, k2, k3, k4⟩ := key n (m.birth p) (fun k _ => hb.2.2.2 k)
    exact ⟨⟨k3.trans hb.2.1, k1, fun k hk => (k4 k hk).dead (hb.2.2.2 k)⟩, k2.trans hb.1⟩

theorem kill_same {m : LMem} {p : Path} (k : Nat) : Same m (m.kill p) (k :: p) := by
  intro r hr
  have : r ≠ p := fun e => by subst e; exact not_suf_self hr
  simp [LMem.kill, updP_apply, this]

/-- Destruction of an object that is in order. -/
theorem dtor_tidy (S : Snd) (p : Path) (m : LMem) (h : Tidy m S p) : Dead (dtor S p m) p ∧ (dtor S p m).bad = m.bad := by
  have hb : ∀ (m : LMem) p, m.live p = true → (∀ k, Dead m (k :: p)) → Dead (m.kill p) p ∧ (m.kill p).bad = m.bad := by
    intro m p h1 h2
    exact ⟨.of_kids (by simp [LMem.kill, updP_apply]) (fun k => (kill_same k).dead (h2 k)), by simp [LMem.kill, h1]⟩
  induction S generalizing p m with
  | leaf | inv | seq | rep => exact hb m p h.1 h.2
  | xform S _ ih | lam S ih =>
    have h1 := ih (0 :: p) m h.2.1
    have h2 := dtor_only S (0 :: p) m
    have h3 := hb (dtor S (0 :: p) m) p ((h2 p not_suf_self).1.trans h.1) (fun k => by
      by_cases e : k = 0
      · subst e; exact h1.1
      · exact (h2.sib e).dead (h.2.2 k (by omega)))
    exact ⟨h3.1, h3.2.trans h1.2⟩
  | ite c a b iha ihb =>
    obtain ⟨h1, h2, h3, h4, h5⟩ := h
    simp only [dtor]
    by_cases e0 : m.box p = some 0
    · have i1 := iha (0 :: p) m (h2 e0)
      have i2 := dtor_only a (0 :: p) m
      have i3 := i2 p not_suf_self
      have e1 : (dtor a (0 :: p) m).box p ≠ some 1 := by rw [i3.2.1, e0]; simp
      simp only [if_pos e0, if_neg e1]
      have i4 := hb (dtor a (0 :: p) m) p (i3.1.trans h1) (fun k => by
        by_cases e : k = 0
        · subst e; exact i1.1
        · exact (i2.sib e).dead (h5 k (by rw [e0]; simpa using fun e' => e e'.symm)))
      exact ⟨i4.1, i4.2.trans i1.2⟩
    · simp only [if_neg e0]
      by_cases e1 : m.box p = some 1
      · have i1 := ihb (1 :: p) m (h3 e1)
        have i2 := dtor_only b (1 :: p) m
        have i3 := i2 p not_suf_self
        simp only [if_pos e1]
        have i4 := hb (dtor b (1 :: p) m) p (i3.1.trans h1) (fun k => by
          by_cases e : k = 1
          · subst e; exact i1.1
          · exact (i2.sib e).dead (h5 k (by rw [e1]; simpa using fun e' => e e'.symm)))
        exact ⟨i4.1, i4.2.trans i1.2⟩
      · simp only [if_neg e1]
        exact hb m p h1 (fun k => h5 k (fun e => by
          have := h4 k e
          rcases k with _ | _ | k
          · exact e0 e
          · exact e1 e
          · omega))
  | letS g f ih =>
    obtain ⟨h1, h2, h3, h4⟩ := h
    simp only [dtor, if_pos h2]
    have i1 := ih _ (0 :: p) m h3
    have i2 := dtor_only (f (m.imm p)) (0 :: p) m
    have i4 := hb (dtor (f (m.imm p)) (0 :: p) m) p ((i2 p not_suf_self).1.trans h1) (fun k => by
      by_cases e : k = 0
      · subst e; exact i1.1
      · exact (i2.sib e).dead (h4 k (by omega)))
    exact ⟨i4.1, i4.2.trans i1.2⟩
  | all n f ih | race n f ih =>
    obtain ⟨h1, h2, h3⟩ := h
    have key : ∀ n (m0 : LMem), (∀ k, k ≤ n → Tidy m0 (f k) (k :: p)) →
        (∀ k, k ≤ n → Dead (each (fun k => dtor (f k) (k :: p)) n m0) (k :: p)) ∧
        (each (fun k => dtor (f k) (k :: p)) n m0).bad = m0.bad ∧
        (each (fun k => dtor (f k) (k :: p)) n m0).live p = m0.live p ∧
        ∀ k, n < k → Same m0 (each (fun k => dtor (f k) (k :: p)) n m0) (k :: p) := by
      intro n
      induction n with
      | zero =>
        intro m0 hd
        have h1 := ih 0 (0 :: p) m0 (hd 0 (by omega))
        have h2 := dtor_only (f 0) (0 :: p) m0
        refine ⟨fun k hk => ?_, h1.2, (h2 p not_suf_self).1, fun k hk => h2.sib (by omega)⟩
        obtain rfl : k = 0 := by omega
        exact h1.1
      | succ n ihn =>
        intro m0 hd
        have h1 := ih (n + 1) ((n + 1) :: p) m0 (hd _ (by omega))
        have h2 := dtor_only (f (n + 1)) ((n + 1) :: p) m0
        obtain ⟨i1, i2, i3, i4⟩ := ihn (dtor (f (n + 1)) ((n + 1) :: p) m0)
          (fun k hk => (hd k (by omega)).same (h2.sib (by omega)))
        refine ⟨fun k hk => ?_, i2.trans h1.2, i3.trans (h2 p not_suf_self).1, fun k hk => ?_⟩
        · by_cases e : k = n + 1
          · subst e
            exact (i4 _ (by omega)).dead h1.1
          · exact i1 k (by omega)
        · have a := i4 k (by omega)
          have b := h2.sib (j := k) (by omega)
          intro r hr
          have := a r hr
          have := b r hr
          simp_all [each]
    obtain ⟨k1, k2, k3, k4⟩ := key n m h2
    have i4 := hb (each (fun k => dtor (f k) (k :: p)) n m) p (k3.trans h1) (fun k => by
      by_cases e : k ≤ n
      · exact k1 k e
      · exact (k4 k (by omega)).dead (h3 k (by omega)))
    exact ⟨i4.1, i4.2.trans k2⟩

end Verif.Tree
