import Verif.Tree.LifeProof

/-! # Invariants of the lifetimes of operation objects: the steps -/

namespace Verif.Tree

/-- Which objects belong to operation `q` of sender `S`, depending on what it has done. `rc` counts completions of children
that were not received so far. -/
def Shape (s : St) (rc : Path → Nat) (m : LMem) (q : Path) : Snd → Prop
  | .leaf | .inv _ => ∀ k, Dead m (k :: q)
  | .xform S _ | .lam S => (s.nx q = 0 → Fresh m S (0 :: q)) ∧ (0 < s.nx q → m.live (0 :: q) = true) ∧
      ∀ k, 0 < k → Dead m (k :: q)
  | .ite _ _ _ => (∀ k, m.box q ≠ some k → Dead m (k :: q)) ∧
      (∀ k, (m.box q = some k → m.live (k :: q) = true) ∧ (m.box q = some k ↔ s.phase (k :: q) ≠ .none)) ∧
      (m.box q = none ↔ s.nx q = 0)
  | .letS _ f => (∀ k, m.box q ≠ some k → Dead m (k :: q)) ∧ (s.nx q = 0 → m.box q = none) ∧
      (0 < s.nx q → m.box q = some 0 ∧ m.live (0 :: q) = true ∧ s.snd (0 :: q) = some (f (m.imm q)))
  | .seq _ _ | .rep _ _ => (∀ k, m.box q ≠ some k → Dead m (k :: q)) ∧
      ∀ k, (m.box q = some k → m.live (k :: q) = true) ∧ (m.box q = some k ↔ (s.phase (k :: q)).act = 1 ∨ 0 < rc (k :: q))
  | .all n f | .race n f => (s.nx q = 0 → ∀ k, k ≤ n → Fresh m (f k) (k :: q)) ∧
      (0 < s.nx q → ∀ k, k ≤ n → m.live (k :: q) = true) ∧ ∀ k, n < k → Dead m (k :: q)

def Snd.boxed : Snd → Bool
  | .seq _ _ | .rep _ _ => true
  | _ => false

structure LInv (s : St) (rc : Path → Nat) (m : LMem) : Prop where
  bad : m.bad = false
  out : ∀ t, s.phase [t] = .none → Dead m [t]
  gone : ∀ p, p ≠ [] → s.phase p ≠ .none → m.live p = false → s.phase p = .done ∧ Dead m p
  shp : ∀ p S, s.snd p = some S → m.live p = true → Shape s rc m p S

theorem Shape.mono {s s' : St} {rc rc' : Path → Nat} {m m' : LMem} {q : Path} {S : Snd} (h : Shape s rc m q S)
    (hn : s'.nx q = s.nx q) (hp : ∀ k, s'.phase (k :: q) = .none ↔ s.phase (k :: q) = .none)
    (hs : ∀ k S, s.snd (k :: q) = some S → s'.snd (k :: q) = some S)
    (hr : S.boxed = true → ∀ k, ((s'.phase (k :: q)).act = 1 ∨ 0 < rc' (k :: q)) ↔ ((s.phase (k :: q)).act = 1 ∨ 0 < rc (k :: q)))
    (hb : m'.box q = m.box q) (hi : m'.imm q = m.imm q) (D : ∀ k, Dead m (k :: q) → Dead m' (k :: q))
    (L : ∀ k, m.live (k :: q) = true → m'.live (k :: q) = true)
    (F : s.nx q = 0 → ∀ k S, Fresh m S (k :: q) → Fresh m' S (k :: q)) : Shape s' rc' m' q S := by
  cases S with
  | leaf | inv => exact fun k => D k (h k)
  | xform S _ | lam S =>
    simp only [Shape, hn]
    exact ⟨fun h0 => F h0 _ _ (h.1 h0), fun h0 => L _ (h.2.1 h0), fun k hk => D k (h.2.2 k hk)⟩
  | ite =>
    simp only [Shape, hn, hb]
    exact ⟨fun k hk => D k (h.1 k hk), fun k => ⟨fun hk => L _ ((h.2.1 k).1 hk), (h.2.1 k).2.trans
      (not_congr (hp k)).symm⟩, h.2.2⟩
  | letS g f =>
    simp only [Shape, hn, hb, hi]
    exact ⟨fun k hk => D k (h.1 k hk), h.2.1, fun h0 => ⟨(h.2.2 h0).1, L _ (h.2.2 h0).2.1, hs _ _ (h.2.2 h0).2.2⟩⟩
  | seq | rep =>
    simp only [Shape, hb]
    exact ⟨fun k hk => D k (h.1 k hk), fun k => ⟨fun hk => L _ ((h.2 k).1 hk), (h.2 k).2.trans (hr rfl k).symm⟩⟩
  | all n f | race n f =>
    simp only [Shape, hn]
    exact ⟨fun h0 k hk => F h0 _ _ (h.1 h0 k hk), fun h0 k hk => L _ (h.2.1 h0 k hk), fun k hk => D k (h.2.2 k hk)⟩

/-- Entering an operation that was constructed. -/
theorem Fresh.shape {s : St} {rc : Path → Nat} {m : LMem} {p : Path} {S : Snd} (h : Fresh m S p) (hn : s.nx p = 0)
    (hp : ∀ j, s.phase (j :: p) = .none) (hr : ∀ j, rc (j :: p) = 0) : Shape s rc m p S := by
  cases S with
  | leaf | inv => exact h.2
  | xform S _ | lam S =>
    exact ⟨fun _ => h.2.1, fun h0 => by omega, h.2.2⟩
  | ite => exact ⟨fun k _ => h.2.2 k, by simp [h.2.1, hp], by simp [h.2.1, hn]⟩
  | letS g f => exact ⟨fun k _ => h.2.2 k, fun _ => h.2.1, fun h0 => by omega⟩
  | seq | rep => exact ⟨fun k _ => h.2.2 k, by simp [h.2.1, hp, hr]⟩
  | all n f | race n f => exact ⟨fun _ => h.2.1, fun h0 => by omega, h.2.2⟩

/-- What is used of the invariants of the machine. -/
structure Ctx (s : St) (rc : Path → Nat) : Prop where
  root : s.phase [] = .none
  sn : ∀ p, s.snd p = none ↔ s.phase p = .none
  new : ∀ q j, q ≠ [] → s.nx q ≤ j → s.phase (j :: q) = .none
  fre : ∀ p, p ≠ [] → s.phase p = .none ∨ s.phase p = .conn → s.nx p = 0
  par : ∀ q k, q ≠ [] → s.phase (k :: q) = .conn ∨ s.phase (k :: q) = .started → s.phase q = .started
  kd : ∀ q k, q ≠ [] → s.phase (k :: q) ≠ .none → ∃ S, s.snd q = some S ∧ KidOk s.snd s.log k q S
  rn : ∀ p, 0 < rc p → s.phase p = .done

theorem Ctx.of {s : St} {acts : List (List Instr)} (h : Inv s acts) (h2 : Inv2 s acts) (h3 : Inv3 s acts) :
    Ctx s (fun p => ws (rcw p) acts) :=
  ⟨h.root, h.sn, h.new, fun p hp h' => (h.fre p hp h').1, h.par, h3.kd, h2.rn⟩

theorem Ctx.snd_ne {s : St} {rc : Path → Nat} (x : Ctx s rc) {p : Path} {S : Snd} (h : s.snd p = some S) :
    s.phase p ≠ .none := by
  intro h'
  have := (x.sn p).2 h'
  rw [h] at this
  cases this

theorem Ctx.ne_nil {s : St} {rc : Path → Nat} (x : Ctx s rc) {p : Path} (h : s.phase p ≠ .none) : p ≠ [] := by
  rintro rfl
  exact h x.root

/-- The operations that an operation is a part of were entered. -/
theorem Ctx.anc {s : St} {rc : Path → Nat} (x : Ctx s rc) {p r : Path} (h : s.phase p ≠ .none) (hs : r <:+ p) (hr : r ≠ []) :
    s.phase r ≠ .none := by
  induction p with
  | nil => exact absurd x.root h
  | cons k q ih =>
    by_cases e : r = k :: q
    · subst e; exact h
    · have hq : r <:+ q := by
        rcases List.suffix_cons_iff.1 hs with h' | h'
        · exact absurd h' e
        · exact h'
      have hn : q ≠ [] := by
        rintro rfl
        exact hr (List.suffix_nil.1 hq)
      obtain ⟨S, h1, _⟩ := x.kd q k hn h
      exact ih (x.snd_ne h1) hq

/-- Children of operations that were not started do not exist for the machine. -/
theorem Ctx.kid_none {s : St} {rc : Path → Nat} (x : Ctx s rc) {q : Path} (hq : q ≠ []) (h : s.nx q = 0) (j : Nat) :
    s.phase (j :: q) = .none := x.new q j hq (by omega)

/-- Steps that change neither objects nor what was entered. -/
theorem LInv.keep {s s' : St} {rc rc' : Path → Nat} {m : LMem} (h : LInv s rc m) (hsn : s'.snd = s.snd) (hnx : s'.nx = s.nx)
    (hp : ∀ p, s'.phase p = .none ↔ s.phase p = .none) (hd : ∀ p, s.phase p = .done → s'.phase p = .done)
    (hr : ∀ q S, s.snd q = some S → S.boxed = true → ∀ k,
      ((s'.phase (k :: q)).act = 1 ∨ 0 < rc' (k :: q)) ↔ ((s.phase (k :: q)).act = 1 ∨ 0 < rc (k :: q))) :
    LInv s' rc' m where
  bad := h.bad
  out t ht := h.out t ((hp _).1 ht)
  gone p hp1 hp2 hl := by
    have := h.gone p hp1 (fun e => hp2 ((hp _).2 e)) hl
    exact ⟨hd _ this.1, this.2⟩
  shp p S hS hl := by
    rw [hsn] at hS
    exact (h.shp p S hS hl).mono (by rw [hnx]) (fun k => hp _) (fun k S h => by rw [hsn]; exact h)
      (hr p S hS) rfl rfl (fun _ h => h) (fun _ h => h) (fun _ _ _ h => h)

/-- Entering children that were constructed together with their parent. -/
theorem LInv.enter {s s' : St} {rc rc' : Path → Nat} {m : LMem} (h : LInv s rc m) (x : Ctx s rc) {p : Path} {n : Nat}
    {f : Nat → Snd} {S : Snd} (hS : s.snd p = some S) (hl : m.live p = true) (h0 : s.nx p = 0)
    (hsn : ∀ r, s'.snd r = if isKid p n r then some (f (r.headD 0)) else s.snd r)
    (hph : ∀ r, s'.phase r = if isKid p n r then .conn else s.phase r) (hnx : s'.nx = updP s.nx p (n + 1))
    (hrc : ∀ q k, rc' (k :: q) = rc (k :: q)) (hnb : S.boxed = false)
    (F : ∀ k, k ≤ n → Fresh m (f k) (k :: p))
    (hsh : (∀ k, k ≤ n → m.live (k :: p) = true) → (s'.nx p = n + 1) → Shape s rc m p S → Shape s' rc' m p S) :
    LInv s' rc' m := by
  have hpn : p ≠ [] := x.ne_nil (x.snd_ne hS)
  have hk0 : ∀ k, s.phase (k :: p) = .none := x.kid_none hpn h0
  have kid : ∀ r, isKid p n r → ∃ k, r = k :: p ∧ k ≤ n := by
    intro r hr
    cases r with
    | nil => exact absurd rfl hr.2.1
    | cons k q => exact ⟨k, by rw [← hr.1]; simp, by simpa using hr.2.2⟩
  constructor
  · exact h.bad
  · intro t ht
    apply h.out t
    have := hph [t]
    split at this
    · rw [this] at ht; cases ht
    · rw [← this]; exact ht
  · intro r hr1 hr2 hr3
    have := hph r
    split at this
    · rename_i hk
      obtain ⟨k, rfl, hkn⟩ := kid r hk
      rw [(F k hkn).live] at hr3
      cases hr3
    · rw [this] at hr2 ⊢
      exact h.gone r hr1 hr2 hr3
  · intro r S' hS' hl'
    have h1 := hsn r
    split at h1
    · rename_i hk
      obtain ⟨k, rfl, hkn⟩ := kid r hk
      rw [h1] at hS'
      cases hS'
      have hne : ∀ j, ¬ isKid p n (j :: k :: p) := by
        intro j hj
        have := hj.1
        simp only [List.tail_cons] at this
        have := congrArg List.length this
        rw [List.length_cons] at this
        omega
      refine (F k hkn).shape ?_ ?_ ?_
      · rw [hnx, updP_apply, if_neg (by intro e; have := congrArg List.length e; rw [List.length_cons] at this; omega)]
        exact x.fre _ (by simp) (.inl (hk0 k))
      · intro j
        rw [hph, if_neg (hne j)]
        exact x.new _ _ (by simp) (by rw [x.fre _ (by simp) (.inl (hk0 k))]; omega)
      · intro j
        rw [hrc]
        apply Classical.byContradiction
        intro hc
        have h2 := x.rn (j :: k :: p) (by omega)
        have h3 := x.new (k :: p) j (by simp) (by rw [x.fre _ (by simp) (.inl (hk0 k))]; omega)
        rw [h2] at h3; cases h3
    · rw [h1] at hS'
      by_cases e : r = p
      · subst e
        rw [hS] at hS'
        cases hS'
        exact hsh (fun k hk => (F k hk).live) (by rw [hnx, updP_apply, if_pos rfl]) (h.shp _ _ hS hl)
      · refine (h.shp r S' hS' hl').mono (by rw [hnx, updP_apply, if_neg e]) (fun k => ?_) (fun k S2 hS2 => ?_)
          (fun hb k => ?_) rfl rfl (fun _ h => h) (fun _ h => h) (fun _ _ _ h => h)
        · rw [hph, if_neg (fun hk => e (by have := hk.1; simpa using this))]
        · rw [hsn, if_neg (fun hk => e (by have := hk.1; simpa using this))]
          exact hS2
        · rw [hph, if_neg (fun hk => e (by have := hk.1; simpa using this)), hrc]

/-- Construction of a child in the box of `p`. -/
theorem LInv.put {s s' : St} {rc rc' : Path → Nat} {m m0 : LMem} (h : LInv s rc m) (x : Ctx s rc) {p : Path} {k : Nat}
    {S S1 : Snd} (hS : s.snd p = some S) (hl : m.live p = true) (hb0 : m.box p = none) (hk0 : s.phase (k :: p) = .none)
    (hd : Dead m (k :: p))
    (hsn : s'.snd = updP s.snd (k :: p) (some S1)) (hph : s'.phase = updP s.phase (k :: p) .conn)
    (hnx : s'.nx = updP s.nx p (k + 1)) (hrc : ∀ q k, rc' (k :: q) = rc (k :: q))
    (m0l : m0.live = m.live) (m0b : m0.box = m.box) (m0i : ∀ r, r ≠ p → m0.imm r = m.imm r) (m0d : m0.bad = m.bad)
    (hsh : (m0.put p k S1).live (k :: p) = true → (∀ j, j ≠ k → Dead m (j :: p) → Dead (m0.put p k S1) (j :: p)) →
      (m0.put p k S1).box p = some k → (m0.put p k S1).imm p = m0.imm p → Shape s rc m p S →
      Shape s' rc' (m0.put p k S1) p S) :
    LInv s' rc' (m0.put p k S1) := by
  have hpn : p ≠ [] := x.ne_nil (x.snd_ne hS)
  let m1 : LMem := { m0 with box := updP m0.box p (some k), bad := m0.bad || (m0.box p).isSome }
  have e1 : m0.put p k S1 = ctor S1 (k :: p) m1 := rfl
  have hm1 : ∀ r, r ≠ p → m1.live r = m.live r ∧ m1.box r = m.box r ∧ m1.imm r = m.imm r := by
    intro r hr
    exact ⟨by simp [m1, m0l], by simp [m1, updP_apply, hr, m0b], by simp [m1, m0i r hr]⟩
  have hm1l : m1.live = m.live := by simp [m1, m0l]
  have hd1 : Dead m1 (k :: p) := by intro r hr; rw [hm1l]; exact hd r hr
  obtain ⟨c1, c2⟩ := ctor_fresh S1 (k :: p) m1 hd1
  have c3 := ctor_only S1 (k :: p) m1
  rw [← e1] at c1 c2 c3
  generalize m0.put p k S1 = m' at *
  have c4 : ∀ r, ¬ k :: p <:+ r → m'.live r = m.live r := by
    intro r hr
    rw [(c3 r hr).1, hm1l]
  have c5 : ∀ r, ¬ k :: p <:+ r → r ≠ p → m'.live r = m.live r ∧ m'.box r = m.box r ∧ m'.imm r = m.imm r := by
    intro r hr hrp
    have a := c3 r hr
    have b := hm1 r hrp
    exact ⟨a.1.trans b.1, a.2.1.trans b.2.1, a.2.2.trans b.2.2⟩
  have cD : ∀ r, ¬ k :: p <:+ r → r ≠ k :: p → Dead m r → Dead m' r := by
    intro r hr1 hr2 hdr r' hr'
    rw [c4]
    · exact hdr r' hr'
    · intro hk
      rcases suf_cmp hr' hk with h' | h'
      · rcases List.suffix_cons_iff.1 h' with h2 | h2
        · exact hr2 h2
        · rw [hdr p h2] at hl; cases hl
      · exact hr1 h'
  have hkp : ∀ r, k :: p <:+ r → s.phase r = .none := by
    intro r hr
    apply Classical.byContradiction
    intro h'
    exact x.anc h' hr (by simp) hk0
  constructor
  · rw [c2]; simp [m1, m0d, h.bad, m0b, hb0]
  · intro t ht
    by_cases e : [t] = k :: p
    · simp at e; exact absurd e.2 hpn
    · rw [hph, updP_apply, if_neg e] at ht
      refine cD _ ?_ e (h.out t ht)
      intro h'
      have := h'.length_le
      cases p with
      | nil => exact hpn rfl
      | cons => simp at this
  · intro r hr1 hr2 hr3
    by_cases e : r = k :: p
    · subst e; rw [c1.live] at hr3; cases hr3
    · rw [hph, updP_apply, if_neg e] at hr2 ⊢
      have hn : ¬ k :: p <:+ r := fun h' => hr2 (hkp r h')
      rw [c4 r hn] at hr3
      have := h.gone r hr1 hr2 hr3
      exact ⟨this.1, cD r hn e this.2⟩
  · intro r S' hS' hl'
    by_cases e : r = k :: p
    · subst e
      rw [hsn, updP_apply, if_pos rfl] at hS'
      cases hS'
      have hn0 := x.fre (k :: p) (by simp) (.inl hk0)
      have hj : ∀ j, s.phase (j :: k :: p) = .none := x.kid_none (by simp) hn0
      refine c1.shape ?_ (fun j => ?_) (fun j => ?_)
      · rw [hnx, updP_apply, if_neg (by intro e; have := congrArg List.length e; rw [List.length_cons] at this; omega)]
        exact hn0
      · rw [hph, updP_apply, if_neg (by intro e; have := congrArg List.length e; simp only [List.length_cons] at this; omega)]
        exact hj j
      · rw [hrc]
        apply Classical.byContradiction
        intro hc
        have h2 := x.rn (j :: k :: p) (by omega)
        rw [hj j] at h2; cases h2
    · rw [hsn, updP_apply, if_neg e] at hS'
      have hrn := x.snd_ne hS'
      have hn : ¬ k :: p <:+ r := fun h' => hrn (hkp r h')
      rw [c4 r hn] at hl'
      by_cases er : r = p
      · subst er
        rw [hS] at hS'
        cases hS'
        exact hsh c1.live (fun j hj hdj => cD (j :: r) (fun h' => by
            rcases List.suffix_cons_iff.1 h' with h2 | h2
            · simp at h2; exact hj h2.symm
            · exact not_suf_self h2) (by simpa using hj) hdj)
          ((c3 r hn).2.1.trans (by simp [m1, updP_apply])) (c3 r hn).2.2 (h.shp _ _ hS hl)
      · have hrj : ∀ j, j :: r ≠ k :: p := by intro j hj; simp at hj; exact er hj.2
        have hrk : ∀ j, ¬ k :: p <:+ j :: r := by
          intro j h'
          rcases List.suffix_cons_iff.1 h' with h2 | h2
          · exact hrj j h2.symm
          · exact hn h2
        refine (h.shp r S' hS' hl').mono (by rw [hnx, updP_apply, if_neg er]) (fun j => ?_) (fun j S2 hS2 => ?_)
          (fun _ j => ?_) (c5 r hn er).2.1 (c5 r hn er).2.2 (fun j => cD _ (hrk j) (hrj j)) (fun j hj => ?_)
          (fun h0 j S2 hF => ?_)
        · rw [hph, updP_apply, if_neg (hrj j)]
        · rw [hsn, updP_apply, if_neg (hrj j)]; exact hS2
        · rw [hph, updP_apply, if_neg (hrj j), hrc]
        · rw [c4 _ (hrk j)]; exact hj
        · refine hF.same (fun r' hr' => ?_)
          have hjn : s.phase (j :: r) = .none := x.kid_none (x.ne_nil hrn) h0 j
          have hjp : ¬ j :: r <:+ p := fun h' => x.anc (x.snd_ne hS) h' (by simp) hjn
          refine c5 r' (fun h' => ?_) (fun h' => hjp (h' ▸ hr'))
          rcases suf_cmp hr' h' with h2 | h2
          · rcases List.suffix_cons_iff.1 h2 with h3 | h3
            · exact hrj j h3
            · exact hjp h3
          · exact hrk j h2

/-- What is destroyed when operation `p` is destroyed. -/
theorem LInv.tidy {s : St} {rc : Path → Nat} {m : LMem} (h : LInv s rc m) (x : Ctx s rc)
    (hdn : ∀ p v, .done p v ∈ s.log → s.phase p = .done)
    (hdo : ∀ p, s.phase p = .done → ∃ v S, s.snd p = some S ∧ DoneOk s.log p v S)
    (hcl : ∀ p w v, .call p w v ∈ s.log → ∃ u, .done (0 :: p) u ∈ s.log)
    (hr0 : ∀ q k, q ≠ [] → s.phase q = .done → rc (k :: q) = 0) (S : Snd) :
    ∀ p, s.snd p = some S → s.phase p = .done → m.live p = true → Tidy m S p := by
  have kidDone : ∀ p k, s.phase p = .done → s.phase (k :: p) ≠ .none → s.phase (k :: p) = .done := by
    intro p k hp hk
    have hpn : p ≠ [] := x.ne_nil (by rw [hp]; simp)
    have := x.par p k hpn
    cases e : s.phase (k :: p) with
    | none => exact absurd e hk
    | done => rfl
    | conn | started => have := this (by simp [e]); rw [hp] at this; cases this
  have kidNx : ∀ p k, s.phase p = .done → s.phase (k :: p) ≠ .none → 0 < s.nx p := by
    intro p k hp hk
    have hpn : p ≠ [] := x.ne_nil (by rw [hp]; simp)
    apply Classical.byContradiction
    intro h0
    exact hk (x.kid_none hpn (by omega) k)
  have kidSnd : ∀ p k S, s.snd p = some S → s.phase (k :: p) ≠ .none → KidOk s.snd s.log k p S := by
    intro p k S hS hk
    obtain ⟨S', h1, h2⟩ := x.kd p k (x.ne_nil (x.snd_ne hS)) hk
    rw [hS] at h1; cases h1; exact h2
  have ne : ∀ p, s.phase p = .done → s.phase p ≠ .none := by intro p hp; rw [hp]; simp
  induction S with
  | leaf | inv => intro p hS hp hl; exact ⟨hl, h.shp p _ hS hl⟩
  | seq n f ih | rep c f ih =>
    intro p hS hp hl
    have sh := h.shp p _ hS hl
    refine ⟨hl, fun k => sh.1 k (fun e => ?_)⟩
    have h1 := (sh.2 k).2.1 e
    have h2 := hr0 p k (x.ne_nil (ne p hp)) hp
    rw [h2] at h1
    have h3 := kidDone p k hp
    rcases h1 with h1 | h1
    · cases e' : s.phase (k :: p) with
      | none | done => rw [e'] at h1; simp at h1
      | conn | started => rw [e'] at h3; simp at h3
    · omega
  | xform S g ih =>
    intro p hS hp hl
    have sh := h.shp p _ hS hl
    obtain ⟨v, S', h1, h2⟩ := hdo p hp
    rw [hS] at h1; cases h1
    obtain ⟨w, hw⟩ := h2
    obtain ⟨u, hu⟩ := hcl p w v hw
    have hk := hdn _ _ hu
    exact ⟨hl, ih _ (kidSnd p 0 _ hS (ne _ hk)).2 hk (sh.2.1 (kidNx p 0 hp (ne _ hk))), sh.2.2⟩
  | lam S ih =>
    intro p hS hp hl
    have sh := h.shp p _ hS hl
    obtain ⟨v, S', h1, h2⟩ := hdo p hp
    rw [hS] at h1; cases h1
    have hk := hdn _ _ h2
    exact ⟨hl, ih _ (kidSnd p 0 _ hS (ne _ hk)).2 hk (sh.2.1 (kidNx p 0 hp (ne _ hk))), sh.2.2⟩
  | ite c a b iha ihb =>
    intro p hS hp hl
    have sh := h.shp p _ hS hl
    have hk : ∀ k, m.box p = some k → s.phase (k :: p) ≠ .none := fun k e => (sh.2.1 k).2.1 e
    refine ⟨hl, fun e => ?_, fun e => ?_, fun k e => ?_, sh.1⟩
    · have := kidSnd p 0 _ hS (hk 0 e)
      simp only [KidOk] at this
      exact iha _ (by grind) (kidDone p 0 hp (hk 0 e)) ((sh.2.1 0).1 e)
    · have := kidSnd p 1 _ hS (hk 1 e)
      simp only [KidOk] at this
      exact ihb _ (by grind) (kidDone p 1 hp (hk 1 e)) ((sh.2.1 1).1 e)
    · have := kidSnd p k _ hS (hk k e)
      simp only [KidOk] at this
      omega
  | letS g f ih =>
    intro p hS hp hl
    have sh := h.shp p _ hS hl
    obtain ⟨v, S', h1, h2⟩ := hdo p hp
    rw [hS] at h1; cases h1
    have hk := hdn _ _ h2
    have h3 := sh.2.2 (kidNx p 0 hp (ne _ hk))
    refine ⟨hl, h3.1, ih _ _ h3.2.2 hk h3.2.1, fun k hk => sh.1 k (by rw [h3.1]; simp; omega)⟩
  | all n f ih | race n f ih =>
    intro p hS hp hl
    have sh := h.shp p _ hS hl
    obtain ⟨v, S', h1, h2⟩ := hdo p hp
    rw [hS] at h1; cases h1
    have hk : ∀ k, k ≤ n → s.phase (k :: p) = .done := fun k hk => by
      obtain ⟨u, hu⟩ := h2 k hk
      exact hdn _ _ hu
    exact ⟨hl, fun k hkn => ih k _ (kidSnd p k _ hS (ne _ (hk k hkn))).2 (hk k hkn)
      (sh.2.1 (kidNx p k hp (ne _ (hk k hkn))) k hkn), sh.2.2⟩

/-- Children are objects of their parent, unless they are destroyed by hand. -/
theorem LInv.kid {s : St} {rc : Path → Nat} {m : LMem} (h : LInv s rc m) (x : Ctx s rc) {q : Path} {k : Nat} {S : Snd}
    (hS : s.snd q = some S) (hb : S.boxed = false) (hl : m.live q = true) (hk : s.phase (k :: q) ≠ .none) :
    m.live (k :: q) = true := by
  have sh := h.shp q S hS hl
  obtain ⟨S', h1, h2⟩ := x.kd q k (x.ne_nil (x.snd_ne hS)) hk
  rw [hS] at h1; cases h1
  have hn : 0 < s.nx q := by
    apply Classical.byContradiction
    intro h0
    exact hk (x.kid_none (x.ne_nil (x.snd_ne hS)) (by omega) k)
  cases S with
  | leaf | inv => exact absurd h2 id
  | seq | rep => simp [Snd.boxed] at hb
  | xform | lam => obtain ⟨rfl, _⟩ := h2; exact sh.2.1 hn
  | letS => obtain ⟨rfl, _⟩ := h2; exact (sh.2.2 hn).2.1
  | ite => exact (sh.2.1 k).1 ((sh.2.1 k).2.2 hk)
  | all | race => exact sh.2.1 hn k h2.1

/-- Destruction of the object at `p`, which has completed. -/
theorem LInv.kill {s : St} {rc rc' : Path → Nat} {m m' : LMem} (h : LInv s rc m) (x : Ctx s rc) {p : Path}
    (hp : s.phase p = .done) (hD : Dead m' p) (hO : ∀ r, ¬ p <:+ r → m'.live r = m.live r ∧ m'.imm r = m.imm r)
    (hB : ∀ r, ¬ p <:+ r → r ≠ p.tail → m'.box r = m.box r) (hb : m'.bad = m.bad)
    (hrc : ∀ q k, q ≠ p.tail → rc' (k :: q) = rc (k :: q))
    (hsh : ∀ S, s.snd p.tail = some S → m.live p.tail = true → (∀ k, Dead m (k :: p.tail) → Dead m' (k :: p.tail)) →
      (∀ k, k :: p.tail ≠ p → m'.live (k :: p.tail) = m.live (k :: p.tail)) → Shape s rc m p.tail S →
      Shape s rc' m' p.tail S) : LInv s rc' m' := by
  have hpn : p ≠ [] := x.ne_nil (by rw [hp]; simp)
  have le : ∀ r, Dead m r → Dead m' r := by
    intro r hr r' hr'
    by_cases e : p <:+ r'
    · exact hD r' e
    · rw [(hO r' e).1]; exact hr r' hr'
  constructor
  · rw [hb]; exact h.bad
  · exact fun t ht => le _ (h.out t ht)
  · intro r hr1 hr2 hr3
    by_cases e : p <:+ r
    · refine ⟨?_, fun r' hr' => hD r' (e.trans hr')⟩
      have : ∀ r, p <:+ r → s.phase r ≠ .none → s.phase r = .done := by
        intro r
        induction r with
        | nil => intro e' _; exact absurd (List.suffix_nil.1 e') hpn
        | cons k q ih =>
          intro e' hn
          rcases List.suffix_cons_iff.1 e' with h2 | h2
          · rw [← h2]; exact hp
          · have hq : q ≠ [] := by rintro rfl; exact hpn (List.suffix_nil.1 h2)
            obtain ⟨S, hS, _⟩ := x.kd q k hq hn
            have := ih h2 (x.snd_ne hS)
            have hpar := x.par q k hq
            cases e3 : s.phase (k :: q) with
            | none => exact absurd e3 hn
            | done => rfl
            | conn | started => have := hpar (by simp [e3]); simp_all
      exact this r e hr2
    · rw [(hO r e).1] at hr3
      have := h.gone r hr1 hr2 hr3
      exact ⟨this.1, le r this.2⟩
  · intro r S hS hl
    by_cases e : p <:+ r
    · rw [hD r e] at hl; cases hl
    · rw [(hO r e).1] at hl
      by_cases er : r = p.tail
      · subst er
        refine hsh S hS hl (fun k => le _) (fun k hk => (hO _ (fun h' => ?_)).1) (h.shp _ _ hS hl)
        rcases List.suffix_cons_iff.1 h' with h2 | h2
        · exact hk h2.symm
        · exact e h2
      · have hrj : ∀ j, ¬ p <:+ j :: r := by
          intro j h'
          rcases List.suffix_cons_iff.1 h' with h2 | h2
          · exact er (by rw [h2]; rfl)
          · exact e h2
        refine (h.shp r S hS hl).mono rfl (fun _ => .rfl) (fun _ _ h => h) (fun _ j => by rw [hrc r j er])
          (hB r e er) (hO r e).2 (fun j => le _) (fun j hj => by rw [(hO _ (hrj j)).1]; exact hj) (fun h0 j S2 hF => ?_)
        have hjn : s.phase (j :: r) = .none := x.kid_none (x.ne_nil (x.snd_ne hS)) h0 j
        have hjp : ¬ j :: r <:+ p := fun h' => x.anc (by rw [hp]; simp) h' (by simp) hjn
        refine hF.same (fun r' hr' => ?_)
        have hpr : ¬ p <:+ r' := fun h' => by
          rcases suf_cmp hr' h' with h2 | h2
          · exact hjp h2
          · exact hrj j h2
        refine ⟨(hO r' hpr).1, hB r' hpr (fun e' => ?_), (hO r' hpr).2⟩
        subst e'
        cases p with
        | nil => exact hpn rfl
        | cons a p => exact hjp (hr'.trans (List.suffix_cons a p))

end Verif.Tree
