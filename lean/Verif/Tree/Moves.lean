import Verif.Tree.Proof

/-! # The effects that instructions have on the invariant -/

namespace Verif.Tree

theorem kids_same {ph : Path → Phase} {p : Path} {x : Phase} (h : (ph p).act = x.act) (q : Path) :
    kids (updP ph p x) q = kids ph q := by
  funext m
  have := kids_upd ph p x q m
  rw [h] at this
  omega

set_option maxHeartbeats 2000000

theorem mv_start {s : St} {w w' : Wt} (h : InvW s w) (l : w.Le) {p : Path} (hp : s.phase p = .conn)
    (O : ∀ i, w'.o i = w.o i) (R : ∀ i, w'.r i = w.r i) (B : ∀ i, w'.bg i = w.bg i + if p = i then 1 else 0)
    (L : ∀ i j, w'.lp i j = w.lp i j) (C : ∀ i, w'.rc i = w.rc i) (ev : List Ev) :
    InvW { s with phase := updP s.phase p .started, log := ev } w' := by
  obtain ⟨root, sn, off, con, fre, sta, nil, new, par, fit, cur, bg, lp, rc⟩ := h
  obtain ⟨bl, ll, rl⟩ := l
  constructor
  all_goals simp only [updP_apply]
  case sta =>
    intro i hi hp2 S hS
    simp only [O, R]
    rw [kids_same (by rw [hp]; rfl)]
    have := con i hi
    have := fre i hi
    by_cases e : i = p
    · subst e
      have : kids s.phase i = fun _ => 0 := by funext m; exact kids_zero (by grind)
      cases S <;> simp [Load, *]
    · exact sta i hi (by simpa [e] using hp2) S hS
  all_goals grind

theorem mv_log {s : St} {w w' : Wt} (h : InvW s w) (O : ∀ i, w'.o i = w.o i)
    (R : ∀ i, i ≠ [] → w'.r i = w.r i) (B : ∀ i, w'.bg i ≤ w.bg i)
    (L : ∀ p k, 0 < w'.lp p k → 0 < w.lp p k ∨ s.phase p = .started ∧ s.nx p = k) (C : ∀ i, w'.rc i ≤ w.rc i)
    (ev : List Ev) : InvW { s with log := ev } w' := by
  obtain ⟨root, sn, off, con, fre, sta, nil, new, par, fit, cur, bg, lp, rc⟩ := h
  constructor
  case sta =>
    intro i hi
    simp only [O, R i hi]
    exact sta i hi
  all_goals grind

theorem mv_pass {s : St} {w w' : Wt} (h : InvW s w) (l : w.Le) {p : Path} {S : Snd} (hS : s.snd p = some S)
    (hs : S.single = true) (O : ∀ i, w'.o i = w.o i + if p = i then 1 else 0)
    (R : ∀ i, w'.r i + (if p = i then 1 else 0) = w.r i) (B : ∀ i, w'.bg i ≤ w.bg i)
    (L : ∀ p k, 0 < w'.lp p k → 0 < w.lp p k ∨ s.phase p = .started ∧ s.nx p = k) (C : ∀ i, w'.rc i ≤ w.rc i)
    (ev : List Ev) : InvW { s with log := ev } w' := by
  obtain ⟨root, sn, off, con, fre, sta, nil, new, par, fit, cur, bg, lp, rc⟩ := h
  obtain ⟨bl, ll, rl⟩ := l
  constructor
  case sta =>
    intro i hi hp S' hS'
    have h1 := O i
    have h2 := R i
    have h3 := sta i hi hp S' hS'
    by_cases e : p = i
    · subst e
      rw [hS] at hS'
      cases hS'
      cases S <;> simp [Snd.single, Load] at * <;> grind
    · simp [e] at h1 h2
      simp only [h1, h2]
      exact h3
  all_goals grind

theorem mv_leaf {s : St} {w w' : Wt} (h : InvW s w) (l : w.Le) {p : Path} (hS : s.snd p = some .leaf)
    (hb : 0 < w.bg p) (O : ∀ i, w'.o i + (if p = i then 1 else 0) = w.o i)
    (R : ∀ i, w'.r i = w.r i) (B : ∀ i, w'.bg i ≤ w.bg i)
    (L : ∀ i j, w'.lp i j = w.lp i j) (C : ∀ i, w'.rc i = w.rc i) :
    InvW { s with rdy := updP s.rdy p true } w' := by
  obtain ⟨root, sn, off, con, fre, sta, nil, new, par, fit, cur, bg, lp, rc⟩ := h
  obtain ⟨bl, ll, rl⟩ := l
  constructor
  all_goals simp only [updP_apply]
  case sta =>
    intro i hi hp S' hS'
    have h1 := O i
    have h2 := R i
    have h3 := sta i hi hp S' hS'
    by_cases e : p = i
    · subst e
      rw [hS] at hS'
      cases hS'
      have := bl p
      simp [Load] at *
      grind
    · simp [e] at h1 h2
      simp only [h1, h2, Ne.symm e, if_false]
      exact h3
  all_goals grind

theorem mv_setv {s : St} {w w' : Wt} (h : InvW s w) (l : w.Le) (l' : w'.Le) {p : Path} (hp : s.phase p = .started)
    (ho : 0 < w.o p) (O : ∀ i, w'.o i + (if p = i then 1 else 0) = w.o i)
    (R : ∀ i, w'.r i = w.r i + if p.tail = i then 1 else 0) (B : ∀ i, w'.bg i = w.bg i)
    (L : ∀ i j, w'.lp i j = w.lp i j) (C : ∀ i, w'.rc i = w.rc i + if p = i then 1 else 0) (ev : List Ev) :
    InvW { s with phase := updP s.phase p .done, cur := updP s.cur p.tail none, log := ev } w' := by
  obtain ⟨root, sn, off, con, fre, sta, nil, new, par, fit, cur, bg, lp, rc⟩ := h
  obtain ⟨bl, ll, rl⟩ := l
  obtain ⟨bl', ll', rl'⟩ := l'
  have hn : p ≠ [] := by intro e; subst e; rw [root] at hp; cases hp
  obtain ⟨k, q, rfl⟩ := List.exists_cons_of_ne_nil hn
  -- no children
  obtain ⟨S, hS⟩ : ∃ S, s.snd (k :: q) = some S := by
    cases h : s.snd (k :: q) with
    | none => rw [(sn _).1 h] at hp; cases hp
    | some S => exact ⟨S, rfl⟩
  have hl := sta _ hn hp S hS
  have hno : ∀ j, s.phase (j :: k :: q) = .none ∨ s.phase (j :: k :: q) = .done := by
    intro j
    apply Classical.byContradiction
    intro hc
    have ha : s.phase (j :: k :: q) = .conn ∨ s.phase (j :: k :: q) = .started := by
      cases h : s.phase (j :: k :: q) <;> simp_all
    have hf := fit _ _ hn ha S hS
    have hk := fun m (hm : j < m) => kids_pos (ph := s.phase) (q := k :: q) hm (act_pos.2 ha)
    cases S <;> simp [Load, Fits] at hl hf <;> try grind
  have hz : s.cur (k :: q) = none ∧ w.r (k :: q) = 0 ∧ s.rdy (k :: q) = false ∧ w.o (k :: q) = 1 := by
    cases S <;> simp [Load] at hl <;> grind
  obtain ⟨hcur, hr0, hrd, ho1⟩ := hz
  -- the parent
  have hpa : q ≠ [] → s.phase q = .started := fun hq => par q k hq (.inr hp)
  have hsi : ∀ S', q ≠ [] → s.snd q = some S' → S'.single = true →
      s.cur q = some k ∧ w.o q = 0 ∧ w.r q = 0 ∧ s.nx q = k + 1 := by
    intro S' hq hS' hs
    have h1 := fit q k hq (.inr hp) S' hS'
    have h2 := sta q hq (hpa hq) S' hS'
    have h3 := cur q k
    cases S' <;> simp [Snd.single, Load, Fits] at * <;> grind
  have hfa : ∀ S' j, q ≠ [] → s.snd q = some S' → s.phase (j :: q) = .conn ∨ s.phase (j :: q) = .started → j ≠ k →
      S'.single = false := by
    intro S' j hq hS' ha hj
    have h1 := fit q k hq (.inr hp) S' hS'
    have h2 := fit q j hq ha S' hS'
    cases S' <;> simp [Snd.single, Fits] at * <;> grind
  have hmu : ∀ S', q ≠ [] → s.snd q = some S' → S'.single = false → s.cur q = none := by
    intro S' hq hS' hs
    have h2 := sta q hq (hpa hq) S' hS'
    cases S' <;> simp [Snd.single, Load] at * <;> grind
  have hqs : q ≠ [] → ∃ S', s.snd q = some S' := by
    intro hq
    cases h : s.snd q with
    | none => have := hpa hq; rw [(sn _).1 h] at this; cases this
    | some S => exact ⟨S, rfl⟩
  have hpq : (k :: q) ≠ q := by
    intro e
    have := congrArg List.length e
    simp at this
  constructor
  all_goals simp only [updP_apply, List.tail_cons] at *
  case sta =>
    intro i hi hp2 S' hS'
    have h1 := O i
    have h2 := R i
    have hik : k :: q ≠ i := by intro e; subst e; simp at hp2
    rw [if_neg (Ne.symm hik)] at hp2
    have h3 := sta i hi hp2 S' hS'
    have h4 := kids_upd s.phase (k :: q) .done i
    simp only [hp, List.tail_cons, act_done, act_started, ite_self, Nat.add_zero] at h4
    rw [if_neg hik] at h1
    by_cases e : q = i
    · subst e
      have h5 := hsi S' hi hS'
      have h6 := fit q k hi (.inr hp) S' hS'
      cases S' <;> simp [Snd.single, Load, Fits] at * <;> try grind
    · have e2 : i ≠ q := Ne.symm e
      have h7 : kids (updP s.phase (k :: q) .done) i = kids s.phase i := by
        funext m
        have := h4 m
        simp [e] at this
        exact this
      simp only [e, e2, if_false, Nat.add_zero] at h1 h2 ⊢
      rw [h7, show w'.o i = w.o i from h1, h2]
      exact h3
  case fit =>
    intro q' j hq' ha S' hS'
    have h1 := fit q' j hq'
    have h2 := hfa S' j
    have h3 := hmu S'
    by_cases e : q' = q
    · subst e
      have hj : j ≠ k := by intro e; subst e; simp at ha
      simp [hj] at ha
      have := h1 ha S' hS'
      have h4 := h2 hq' hS' ha hj
      cases S' <;> simp [Snd.single, Fits] at * <;> grind
    · simp only [e, if_false]
      have : j :: q' ≠ k :: q := by intro e2; simp at e2; exact e e2.2
      simp only [this, if_false] at ha
      exact h1 ha S' hS'
  all_goals grind

theorem mv_box {s : St} {w w' : Wt} (h : InvW s w) (l' : w'.Le) {p : Path} {S0 S : Snd} {k a b : Nat}
    (hS : s.snd p = some S0) (hs : S0.single = true) (hp : s.phase p = .started) (hnx : s.nx p ≤ k) (hab : a + b = 1)
    (hk : ∀ n f, S0 = .seq n f → k ≤ n)
    (O : ∀ i, w'.o i + (if p = i then a else 0) = w.o i + if k :: p = i then 1 else 0)
    (R : ∀ i, w'.r i + (if p = i then b else 0) = w.r i) (B : ∀ i, w'.bg i ≤ w.bg i)
    (L : ∀ i j, w'.lp i j ≤ w.lp i j) (C : ∀ i, w'.rc i ≤ w.rc i) (ev : List Ev) :
    InvW ({ s with log := ev }.box p k S) w' := by
  obtain ⟨root, sn, off, con, fre, sta, nil, new, par, fit, cur, bg, lp, rc⟩ := h
  obtain ⟨bl', ll', rl'⟩ := l'
  have hn : p ≠ [] := by intro e; subst e; rw [root] at hp; cases hp
  have hl := sta p hn hp S0 hS
  have hpq : (k :: p) ≠ p := by
    intro e
    have := congrArg List.length e
    simp at this
  have ho := O p
  have hr := R p
  simp only [if_true, hpq, if_false, Nat.add_zero] at ho hr
  have h0 : s.cur p = none ∧ w'.o p = 0 ∧ w'.r p = 0 ∧ w.o p = a ∧ w.r p = b ∧ s.rdy p = false := by
    cases S0 <;> simp [Snd.single, Load] at * <;> grind
  obtain ⟨hc0, ho0, hr0, hoa, hrb, hrd⟩ := h0
  have hnw : s.phase (k :: p) = .none := new p k hn hnx
  have hsi : ∀ j, s.phase (j :: p) = .none ∨ s.phase (j :: p) = .done := by
    intro j
    apply Classical.byContradiction
    intro hc
    have ha : s.phase (j :: p) = .conn ∨ s.phase (j :: p) = .started := by
      cases h : s.phase (j :: p) <;> simp_all
    have hf := fit _ _ hn ha S0 hS
    cases S0 <;> simp [Snd.single, Fits] at * <;> grind
  have hof := off (k :: p) (by simp) (.inl hnw)
  unfold St.box
  constructor
  all_goals simp only [updP_apply]
  case sta =>
    intro i hi hp2 S' hS'
    have h1 := O i
    have h2 := R i
    have hik : k :: p ≠ i := by intro e; subst e; simp at hp2
    rw [if_neg (Ne.symm hik)] at hp2 hS'
    have h3 := sta i hi hp2 S' hS'
    have h4 := kids_upd s.phase (k :: p) .conn i
    rw [if_neg hik] at h1
    by_cases e : p = i
    · subst e
      rw [hS] at hS'
      cases hS'
      cases S0 <;> simp [Snd.single, Load] at * <;> grind
    · have e2 : i ≠ p := Ne.symm e
      have h7 : kids (updP s.phase (k :: p) .conn) i = kids s.phase i := by
        funext m
        have := h4 m
        simp [e] at this
        exact this
      simp only [e, e2, if_false, Nat.add_zero] at h1 h2 ⊢
      rw [h7, h1, h2]
      exact h3
  case fit =>
    intro q' j hq' ha S' hS'
    have h1 := fit q' j hq'
    have hqk : q' ≠ k :: p := by
      intro e
      subst e
      have := new (k :: p) j (by simp)
      have := fre (k :: p) (by simp)
      simp at ha
      grind
    rw [if_neg hqk] at hS'
    by_cases e : q' = p
    · subst e
      rw [hS] at hS'
      cases hS'
      have := hsi j
      have hj : j = k := by grind
      subst hj
      cases S0 <;> simp [Snd.single, Fits] at *
    · simp only [e, if_false]
      have : j :: q' ≠ k :: p := by intro e2; simp at e2; exact e e2.2
      simp only [this, if_false] at ha
      exact h1 ha S' hS'
  all_goals grind

theorem isKid_cons {q : Path} {n k : Nat} {p : Path} : isKid q n (k :: p) ↔ p = q ∧ k ≤ n := by
  simp [isKid]

theorem not_isKid_self (q : Path) (n : Nat) : ¬ isKid q n q := by
  intro h
  cases q with
  | nil => exact h.2.1 rfl
  | cons k q =>
    have := congrArg List.length h.1
    simp at this

theorem isKid_ne {q : Path} {n : Nat} {p : Path} (h : isKid q n p) : ∃ k, p = k :: q ∧ k ≤ n := by
  cases p with
  | nil => exact absurd rfl h.2.1
  | cons k p => obtain ⟨rfl, h2⟩ := isKid_cons.1 h; exact ⟨k, rfl, h2⟩

theorem mv_kids {s : St} {w w' : Wt} (h : InvW s w) (l : w.Le) (l' : w'.Le) {p : Path} {S0 : Snd} {n : Nat}
    {f : Nat → Snd} (hS : s.snd p = some S0) (hs : S0 = .all n f ∨ S0 = .race n f) (hb : 0 < w.bg p)
    (O : ∀ i, w'.o i + (if p = i then 1 else 0) = w.o i + if isKid p n i then 1 else 0)
    (R : ∀ i, w'.r i = w.r i) (B : ∀ i, w'.bg i ≤ w.bg i)
    (L : ∀ i j, w'.lp i j ≤ w.lp i j) (C : ∀ i, w'.rc i ≤ w.rc i) :
    InvW (s.kids p n f) w' := by
  obtain ⟨root, sn, off, con, fre, sta, nil, new, par, fit, cur, bg, lp, rc⟩ := h
  obtain ⟨bl, ll, rl⟩ := l
  obtain ⟨bl', ll', rl'⟩ := l'
  obtain ⟨hp, hnx, hcu, hct⟩ := bg p hb
  have hn : p ≠ [] := by intro e; subst e; rw [root] at hp; cases hp
  have hl := sta p hn hp S0 hS
  have hno : ∀ j, s.phase (j :: p) = .none := fun j => new p j hn (by omega)
  have ho := O p
  have hns := not_isKid_self p n
  simp only [if_true, hns, if_false, Nat.add_zero] at ho
  have hk0 : kids s.phase p = fun _ => 0 := by funext m; exact kids_zero hno
  have h0 : w'.o p = 0 ∧ w.r p = 0 ∧ w.o p = 1 ∧ s.rdy p = false := by
    rcases hs with rfl | rfl <;> simp [Load, hct, hk0] at hl <;> grind
  obtain ⟨ho0, hr0, ho1, hrd⟩ := h0
  have hkd := fun i => @isKid_ne p n i
  have hkc := fun i k => @isKid_cons p n k i
  unfold St.kids
  constructor
  all_goals simp only [updP_apply]
  case sta =>
    intro i hi hp2 S' hS'
    have h1 := O i
    have h2 := R i
    have hik : ¬ isKid p n i := by intro e; simp [e] at hp2
    rw [if_neg hik] at hp2 hS' h1
    have h3 := sta i hi hp2 S' hS'
    have h4 := kids_new s.phase p n i
    by_cases e : p = i
    · subst e
      rw [hS] at hS'
      cases hS'
      rcases hs with rfl | rfl <;> simp [Load, h4] at * <;> grind
    · have e2 : i ≠ p := Ne.symm e
      have h7 : kids (fun r => if isKid p n r then Phase.conn else s.phase r) i = kids s.phase i := by
        funext m
        have := h4 m
        simp [e2] at this
        exact this
      simp only [e, e2, if_false, Nat.add_zero] at h1 h2 ⊢
      rw [h7, h1, h2]
      exact h3
  case fit =>
    intro q' j hq' ha S' hS'
    have h1 := fit q' j hq'
    have hqk : ¬ isKid p n q' := by
      intro e
      obtain ⟨k, rfl, hk⟩ := hkd _ e
      have := new (k :: p) j (by simp)
      have := fre (k :: p) (by simp)
      have : ¬ isKid p n (j :: k :: p) := by
        rw [hkc]
        rintro ⟨h, _⟩
        have := congrArg List.length h
        simp at this
      simp [this] at ha
      grind
    rw [if_neg hqk] at hS'
    by_cases e : isKid p n (j :: q')
    · obtain ⟨rfl, hj⟩ := (hkc _ _).1 e
      rw [hS] at hS'
      cases hS'
      rcases hs with rfl | rfl <;> simpa [Fits] using hj
    · rw [if_neg e] at ha
      exact h1 ha S' hS'
  all_goals grind

theorem mv_dec {s : St} {w w' : Wt} (h : InvW s w) {p : Path} {S0 : Snd} {n : Nat}
    {f : Nat → Snd} (hn : p ≠ []) (hS : s.snd p = some S0) (hs : S0 = .all n f ∨ S0 = .race n f)
    (hc : s.ctr p ≠ 0) (O : ∀ i, w'.o i = w.o i + if p = i ∧ s.ctr p = 1 then 1 else 0)
    (R : ∀ i, w'.r i + (if p = i then 1 else 0) = w.r i) (B : ∀ i, w'.bg i ≤ w.bg i)
    (L : ∀ i j, w'.lp i j ≤ w.lp i j) (C : ∀ i, w'.rc i ≤ w.rc i) :
    InvW { s with ctr := updP s.ctr p (s.ctr p - 1) } w' := by
  obtain ⟨root, sn, off, con, fre, sta, nil, new, par, fit, cur, bg, lp, rc⟩ := h
  have hp : s.phase p = .started := by
    have h1 := R p
    simp at h1
    have h2 := off p hn
    have h3 := con p hn
    cases h : s.phase p <;> simp_all
  constructor
  all_goals simp only [updP_apply]
  case sta =>
    intro i hi hp2 S' hS'
    have h1 := O i
    have h2 := R i
    have h3 := sta i hi hp2 S' hS'
    by_cases e : p = i
    · subst e
      rw [hS] at hS'
      cases hS'
      rcases hs with rfl | rfl <;> simp [Load] at * <;> grind
    · have e2 : i ≠ p := Ne.symm e
      simp only [e, e2, if_false, Nat.add_zero, false_and] at h1 h2 ⊢
      rw [h1, h2]
      exact h3
  all_goals grind

theorem mv_root {s : St} {w w' : Wt} (h : InvW s w) (l : w.Le) {t : Nat} {S : Snd} (hp : s.phase [t] = .none)
    (O : ∀ i, w'.o i = w.o i + if [t] = i then 1 else 0) (R : ∀ i, w'.r i = w.r i) (B : ∀ i, w'.bg i = w.bg i)
    (L : ∀ i j, w'.lp i j = w.lp i j) (C : ∀ i, w'.rc i = w.rc i) :
    InvW { s with snd := updP s.snd [t] (some S), phase := updP s.phase [t] .conn } w' := by
  obtain ⟨root, sn, off, con, fre, sta, nil, new, par, fit, cur, bg, lp, rc⟩ := h
  obtain ⟨bl, ll, rl⟩ := l
  have hc : ∀ j, s.phase [j, t] = .none := fun j => new [t] j (by simp) (by
    have := (fre [t] (by simp) (.inl hp)).1; omega)
  constructor
  all_goals simp only [updP_apply]
  case sta =>
    intro i hi hp2 S' hS'
    have h1 := O i
    have h2 := R i
    have e : i ≠ [t] := by intro e; subst e; simp at hp2
    have e2 : [t] ≠ i := Ne.symm e
    rw [if_neg e] at hp2 hS'
    have h3 := sta i hi hp2 S' hS'
    have h7 : kids (updP s.phase [t] .conn) i = kids s.phase i := by
      funext m
      have := kids_upd s.phase [t] .conn i m
      simp [Ne.symm hi] at this
      exact this
    rw [if_neg e2] at h1
    rw [h7, h1, h2]
    exact h3
  all_goals grind

theorem mv_finish {s : St} {w w' : Wt} (h : InvW s w) {p : Path} (hr : s.rdy p = true)
    (O : ∀ i, w'.o i = w.o i + if p = i then 1 else 0) (R : ∀ i, w'.r i = w.r i) (B : ∀ i, w'.bg i = w.bg i)
    (L : ∀ i j, w'.lp i j = w.lp i j) (C : ∀ i, w'.rc i = w.rc i) :
    InvW { s with rdy := updP s.rdy p false } w' := by
  obtain ⟨root, sn, off, con, fre, sta, nil, new, par, fit, cur, bg, lp, rc⟩ := h
  constructor
  all_goals simp only [updP_apply]
  case sta =>
    intro i hi hp2 S' hS'
    have h1 := O i
    have h2 := R i
    have h3 := sta i hi hp2 S' hS'
    by_cases e : p = i
    · subst e
      cases S' <;> simp [Load] at * <;> grind
    · have e2 : i ≠ p := Ne.symm e
      simp only [e, e2, if_false, Nat.add_zero] at h1 h2 ⊢
      rw [h1, h2]
      exact h3
  all_goals grind

end Verif.Tree
