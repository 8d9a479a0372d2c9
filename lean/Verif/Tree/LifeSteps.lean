import Verif.Tree.LifeInv
import Verif.Tree.Once

/-! # Invariants of the lifetimes of operation objects: all executions -/

namespace Verif.Tree

set_option maxHeartbeats 2000000

theorem use_eq {m : LMem} {p : Path} (h : m.live p = true) : m.use p = m := by
  simp [LMem.use, h]

/-- Counter of the completions that were not received so far. -/
abbrev rcs (acts : List (List Instr)) : Path → Nat := fun p => ws (rcw p) acts

theorem LInv.alive {s : St} {rc : Path → Nat} {m : LMem} (h : LInv s rc m) {p : Path} (hp : p ≠ [])
    (hn : s.phase p ≠ .none) (ha : alive s p = true) : m.live p = true := by
  cases e : m.live p with
  | true => rfl
  | false => exact absurd (h.gone p hp hn e).1 (alive_phase ha hp)

theorem tidy_of {s : St} {acts : List (List Instr)} {m : LMem} (h : Inv s acts) (h2 : Inv2 s acts) (h3 : Inv3 s acts)
    (hh : Hist (Ok s.snd) s.log) (hl : LInv s (rcs acts) m) {p : Path} {S : Snd} (hS : s.snd p = some S)
    (hp : s.phase p = .done) (hlv : m.live p = true) : Tidy m S p := by
  refine hl.tidy (.of h h2 h3) h2.s2 (fun p hp => ?_) (fun p w v hc => ?_) (fun q k hq hp => ?_) S p hS hp hlv
  · obtain ⟨v, hv⟩ := h2.s3 p hp
    obtain ⟨l1, l2, e, hok⟩ := hh.mem hv
    obtain ⟨_, _, _, S, hS, hd⟩ := hok
    exact ⟨v, S, hS, by rw [e]; exact hd.mono⟩
  · obtain ⟨l1, l2, e, hok⟩ := hh.mem hc
    exact ⟨w, by rw [e]; simp [hok.2.1]⟩
  · have h4 := (h.off q hq (.inr hp)).2.1
    have h5 := (Wt.of_le acts).rc q k
    simp only [Wt.of] at h4 h5
    show ws (rcw (k :: q)) acts = 0
    omega

/-- `take` of a child that has completed. -/
theorem LInv.take {s : St} {rc rc' : Path → Nat} {m : LMem} (h : LInv s rc m) (x : Ctx s rc) {k : Nat} {q : Path} {S S1 : Snd}
    (hS : s.snd q = some S) (hb : S.boxed = true) (hl : m.live q = true)
    (hbx : m.box q = some k) (hd : s.phase (k :: q) = .done) (hG : Tidy m S1 (k :: q)) (hq : q ≠ [])
    (hrc : ∀ r j, rc' (j :: r) = if j :: r = k :: q then 0 else rc (j :: r)) :
    LInv s rc' (m.take q k S1) ∧ (m.take q k S1).live q = true ∧ (m.take q k S1).box q = none ∧
      ∀ j, Dead (m.take q k S1) (j :: q) := by
  let m1 : LMem := { m with bad := m.bad || decide (m.box q ≠ some k) }
  have hm : m1 = m := by simp [m1, hbx]
  have e : m.take q k S1 = { dtor S1 (k :: q) m with box := updP (dtor S1 (k :: q) m).box q none } := by
    show (let m2 := dtor S1 (k :: q) m1; ({ m2 with box := updP m2.box q none } : LMem)) = _
    rw [hm]
  obtain ⟨g1, g2⟩ := dtor_tidy S1 (k :: q) m hG
  have g3 := dtor_only S1 (k :: q) m
  have sh := h.shp q S hS hl
  have shD : (∀ k, m.box q ≠ some k → Dead m (k :: q)) ∧
      ∀ k, (m.box q = some k → m.live (k :: q) = true) ∧
        (m.box q = some k ↔ (s.phase (k :: q)).act = 1 ∨ 0 < rc (k :: q)) := by
    cases S <;> simp [Snd.boxed] at hb <;> exact sh
  have hlq : (m.take q k S1).live q = true := by rw [e]; exact (g3 q not_suf_self).1.trans hl
  have hbq : (m.take q k S1).box q = none := by rw [e]; simp [updP_apply]
  have hlv : (m.take q k S1).live = (dtor S1 (k :: q) m).live := by rw [e]
  have hDk : Dead (m.take q k S1) (k :: q) := fun r hr => by rw [hlv]; exact g1 r hr
  have hDj : ∀ j, Dead (m.take q k S1) (j :: q) := by
    intro j
    by_cases ej : j = k
    · subst ej; exact hDk
    · intro r hr
      rw [hlv]
      exact (g3.sib ej).dead (shD.1 j (by rw [hbx]; simpa using fun e => ej e.symm)) r hr
  refine ⟨?_, hlq, hbq, hDj⟩
  refine h.kill x hd hDk (fun r hr => ?_) (fun r hr hrq => ?_) ?_ (fun r j hr => ?_) ?_
  · rw [e]; exact ⟨(g3 r hr).1, (g3 r hr).2.2⟩
  · rw [e]; simp only [List.tail_cons] at hrq; simp [updP_apply, hrq]; exact (g3 r hr).2.1
  · rw [e]; exact g2
  · simp only [List.tail_cons] at hr
    rw [hrc, if_neg (by simp [hr])]
  · intro S' hS' _ _ _ _
    simp only [List.tail_cons] at hS' ⊢
    rw [hS] at hS'
    cases hS'
    have : (∀ j, (m.take q k S1).box q ≠ some j → Dead (m.take q k S1) (j :: q)) ∧
      ∀ j, ((m.take q k S1).box q = some j → (m.take q k S1).live (j :: q) = true) ∧
        ((m.take q k S1).box q = some j ↔ (s.phase (j :: q)).act = 1 ∨ 0 < rc' (j :: q)) := by
      refine ⟨fun j _ => hDj j, fun j => ⟨fun hj => (by rw [hbq] at hj; cases hj), ?_⟩⟩
      rw [hbq, hrc]
      constructor
      · intro h'; cases h'
      · intro h'
        exfalso
        by_cases ej : j = k
        · subst ej; simp [hd] at h'
        · have := (shD.2 j).2.2 (by simpa [ej] using h')
          rw [hbx] at this
          simp at this
          exact ej this.symm
    cases S <;> simp [Snd.boxed] at hb <;> exact this

theorem isKid_zero {p r : Path} : isKid p 0 r ↔ r = 0 :: p := by
  constructor
  · rintro ⟨h1, h2, h3⟩
    cases r with
    | nil => exact absurd rfl h2
    | cons a q => simp at h1 h3; rw [h1, h3]
  · rintro rfl
    exact ⟨rfl, by simp, by simp⟩

theorem run_linv {s s' : St} {acts : List (List Instr)} {m : LMem} {n0 : Nat} {x : Instr} {r p' : List Instr} {b : Bool}
    (h : Inv s acts) (h2 : Inv2 s acts) (h3 : Inv3 s acts) (hh : Hist (Ok s.snd) s.log) (hl : LInv s (rcs acts) m)
    (hk : acts[n0]? = some (x :: r)) (he : exec s x b = .ok s' p') : LInv s' (rcs (acts.set n0 (p' ++ r))) (life s m x) := by
  have C := fun i => ws_set (rcw i) p' hk
  have pr := pre h hk
  have pr2 := pre2 h h2 h3 hk
  have ctx := Ctx.of h h2 h3
  have Cx := fun i => ws_pos (w := rcw i) hk
  have root := h.root
  have live : ∀ q, alive s q = true → q ≠ [] → s.phase q ≠ .none → m.live q = true :=
    fun q h1 h2 h3 => hl.alive h2 h3 h1
  have sn := h.sn
  cases x with
  | start p =>
    simp only [exec] at he
    split at he <;> simp only [Out.ok.injEq, reduceCtorEq] at he
    obtain ⟨rfl, rfl⟩ := he
    simp only [rcw, wl_cons, wl_nil, Nat.add_zero] at C
    rename_i hg
    have ha : alive s p = true := by cases e : alive s p <;> simp_all
    have hc : s.phase p = .conn := Classical.byContradiction fun e => hg (.inr e)
    have hpn : p ≠ [] := by rintro rfl; rw [root] at hc; cases hc
    rw [life, use_eq (live p ha hpn (by rw [hc]; simp))]
    refine hl.keep rfl rfl (fun q => ?_) (fun q hq => ?_) (fun q S _ _ j => ?_)
    · simp only [updP_apply]; split <;> simp_all
    · simp only [updP_apply]; split <;> simp_all
    · simp only [updP_apply, rcs, C]; split <;> simp_all
  | «begin» p =>
    have hb := pr.bg p rfl
    have hpn : p ≠ [] := by rintro rfl; rw [root] at hb; cases hb.1
    have hne : s.phase p ≠ .none := by rw [hb.1]; simp
    have hr0 : ∀ j, rcs acts (j :: p) = 0 := by
      intro j
      apply Classical.byContradiction
      intro hc
      have := h2.rn (j :: p) (Nat.pos_of_ne_zero hc)
      rw [hb.2.2.1 j] at this; cases this
    simp only [exec] at he
    split at he
    · cases he
    rename_i ha
    have ha : alive s p = true := by simpa using ha
    have hlv := live p ha hpn hne
    rw [life]
    split at he
    · cases he
    · -- leaf
      rename_i hS
      simp only [Out.ok.injEq] at he
      obtain ⟨rfl, rfl⟩ := he
      simp only [rcw, wl_nil, Nat.add_zero] at C
      simp only [hS, use_eq hlv]
      exact hl.keep rfl rfl (fun q => .rfl) (fun q hq => hq) (fun q S _ _ j => by simp only [rcs, C])
    · -- invocable
      rename_i hS
      simp only [Out.ok.injEq] at he
      obtain ⟨rfl, rfl⟩ := he
      simp only [rcw, wl_cons, wl_nil, Nat.add_zero] at C
      simp only [hS, use_eq hlv]
      exact hl.keep rfl rfl (fun q => .rfl) (fun q hq => hq) (fun q S _ _ j => by simp only [rcs, C, St.ev])
    · -- transform
      rename_i S g hS
      simp only [Out.ok.injEq] at he
      obtain ⟨rfl, rfl⟩ := he
      simp only [rcw, wl_cons, wl_nil, Nat.add_zero] at C
      simp only [hS, use_eq hlv]
      have sh := hl.shp p _ hS hlv
      refine hl.enter ctx (n := 0) (f := fun _ => S) hS hlv hb.2.1 (fun r => ?_) (fun r => ?_) rfl (fun q j => by simp only [rcs, C]) rfl
        (fun k hk => ?_) (fun hlk hn sh => ?_)
      · simp only [St.box, updP_apply, isKid_zero]
      · simp only [St.box, updP_apply, isKid_zero]
      · obtain rfl : k = 0 := by omega
        exact sh.1 hb.2.1
      · exact ⟨fun h0 => by omega, fun _ => hlk 0 (by omega), sh.2.2⟩
    · -- ite
      rename_i c A B hS
      have sh := hl.shp p _ hS hlv
      have hbx : m.box p = none := sh.2.2.2 hb.2.1
      simp only [hS, use_eq hlv]
      split at he <;> rename_i hc
      all_goals
        simp only [Out.ok.injEq] at he
        obtain ⟨rfl, rfl⟩ := he
        simp only [rcw, wl_cons, wl_nil, Nat.add_zero] at C
      · rw [if_pos hc]
        refine hl.put ctx (m0 := m) hS hlv hbx (hb.2.2.1 _) (sh.1 _ (by rw [hbx]; simp)) rfl rfl rfl (fun q j => by simp only [rcs, C])
          rfl rfl (fun _ _ => rfl) rfl (fun a1 a2 a3 a4 _ => ?_)
        refine ⟨fun j hj => ?_, fun j => ⟨fun hj => ?_, ?_⟩, ?_⟩
        · rw [a3] at hj
          have : j ≠ 0 := fun e => hj (by rw [e])
          exact a2 j this (sh.1 j (by rw [hbx]; simp))
        · rw [a3] at hj; simp only [Option.some.injEq] at hj; subst hj
          exact a1
        · rw [a3]
          have := hb.2.2.1 j
          simp only [St.box, St.ev, updP_apply, List.cons.injEq, and_true]
          split <;> simp_all <;> omega
        · rw [a3]; simp [St.box, updP_apply]
      · rw [if_neg hc]
        refine hl.put ctx (m0 := m) hS hlv hbx (hb.2.2.1 _) (sh.1 _ (by rw [hbx]; simp)) rfl rfl rfl (fun q j => by simp only [rcs, C])
          rfl rfl (fun _ _ => rfl) rfl (fun a1 a2 a3 a4 _ => ?_)
        refine ⟨fun j hj => ?_, fun j => ⟨fun hj => ?_, ?_⟩, ?_⟩
        · rw [a3] at hj
          have : j ≠ 1 := fun e => hj (by rw [e])
          exact a2 j this (sh.1 j (by rw [hbx]; simp))
        · rw [a3] at hj; simp only [Option.some.injEq] at hj; subst hj
          exact a1
        · rw [a3]
          have := hb.2.2.1 j
          simp only [St.box, St.ev, updP_apply, List.cons.injEq, and_true]
          split <;> simp_all <;> omega
        · rw [a3]; simp [St.box, updP_apply]
    · -- let
      rename_i g f hS
      have sh := hl.shp p _ hS hlv
      have hbx : m.box p = none := sh.2.1 hb.2.1
      simp only [Out.ok.injEq] at he
      obtain ⟨rfl, rfl⟩ := he
      simp only [rcw, wl_cons, wl_nil, Nat.add_zero] at C
      simp only [hS, use_eq hlv]
      refine hl.put ctx (m0 := { m with imm := updP m.imm p (g s.log) }) hS hlv hbx (hb.2.2.1 _) (sh.1 _ (by rw [hbx]; simp))
        rfl rfl rfl (fun q j => by simp only [rcs, C])
        rfl rfl (fun r hr => by simp [updP_apply, hr]) rfl (fun a1 a2 a3 a4 _ => ?_)
      refine ⟨fun j hj => ?_, fun hn => ?_, fun _ => ⟨a3, a1, ?_⟩⟩
      · rw [a3] at hj
        have : j ≠ 0 := fun e => hj (by rw [e])
        exact a2 j this (sh.1 j (by rw [hbx]; simp))
      · simp [St.box, updP_apply] at hn
      · rw [a4]; simp [St.box, updP_apply]
    · -- lambda
      rename_i S hS
      simp only [Out.ok.injEq] at he
      obtain ⟨rfl, rfl⟩ := he
      simp only [rcw, wl_cons, wl_nil, Nat.add_zero] at C
      simp only [hS, use_eq hlv]
      have sh := hl.shp p _ hS hlv
      refine hl.enter ctx (n := 0) (f := fun _ => S) hS hlv hb.2.1 (fun r => ?_) (fun r => ?_) rfl (fun q j => by simp only [rcs, C]) rfl
        (fun k hk => ?_) (fun hlk hn sh => ?_)
      · simp only [St.box, updP_apply, isKid_zero]
      · simp only [St.box, updP_apply, isKid_zero]
      · obtain rfl : k = 0 := by omega
        exact sh.1 hb.2.1
      · exact ⟨fun h0 => by omega, fun _ => hlk 0 (by omega), sh.2.2⟩
    · -- sequence
      rename_i n f hS
      have sh := hl.shp p _ hS hlv
      have hbx : m.box p = none := by
        cases e : m.box p with
        | none => rfl
        | some j => have := (sh.2 j).2.1 e; simp [hb.2.2.1 j, hr0 j] at this
      simp only [Out.ok.injEq] at he
      obtain ⟨rfl, rfl⟩ := he
      simp only [rcw, wl_cons, wl_nil, Nat.add_zero] at C
      simp only [hS, use_eq hlv]
      refine hl.put ctx (m0 := m) hS hlv hbx (hb.2.2.1 _) (sh.1 _ (by rw [hbx]; simp)) rfl rfl rfl (fun q j => by simp only [rcs, C])
        rfl rfl (fun _ _ => rfl) rfl (fun a1 a2 a3 a4 _ => ?_)
      refine ⟨fun j hj => ?_, fun j => ⟨fun hj => ?_, ?_⟩⟩
      · rw [a3] at hj
        have : j ≠ 0 := fun e => hj (by rw [e])
        exact a2 j this (sh.1 j (by rw [hbx]; simp))
      · rw [a3] at hj; simp only [Option.some.injEq] at hj; subst hj; exact a1
      · rw [a3]
        have := hr0 j
        simp only [St.box, updP_apply, List.cons.injEq, and_true, rcs, C] at *
        by_cases ej : j = 0
        · simp [ej]
        · simp [ej, hb.2.2.1 j, Ne.symm ej]; omega
    · -- repeat_while
      rename_i hS
      simp only [Out.ok.injEq] at he
      obtain ⟨rfl, rfl⟩ := he
      simp only [rcw, wl_cons, wl_nil, Nat.add_zero] at C
      simp only [hS, use_eq hlv]
      exact hl.keep rfl rfl (fun q => .rfl) (fun q hq => hq) (fun q S _ _ j => by simp only [rcs, C])
    · -- when_all
      rename_i n f hS
      simp only [Out.ok.injEq] at he
      obtain ⟨rfl, rfl⟩ := he
      simp only [rcw, wl_cons, wl_nil, wl_append, rcw_starts, Nat.add_zero] at C
      simp only [hS, use_eq hlv]
      have sh := hl.shp p _ hS hlv
      refine hl.enter ctx (n := n) (f := f) hS hlv hb.2.1 (fun r => rfl) (fun r => rfl) rfl (fun q j => by simp only [rcs, C]) rfl
        (sh.1 hb.2.1) (fun hlk hn sh => ?_)
      exact ⟨fun h0 => by omega, fun _ => hlk, sh.2.2⟩
    · -- race_and_cancel
      rename_i n f hS
      simp only [Out.ok.injEq] at he
      obtain ⟨rfl, rfl⟩ := he
      simp only [rcw, wl_cons, wl_nil, wl_append, rcw_starts, Nat.add_zero] at C
      simp only [hS, use_eq hlv]
      have sh := hl.shp p _ hS hlv
      refine hl.enter ctx (n := n) (f := f) hS hlv hb.2.1 (fun r => rfl) (fun r => rfl) rfl (fun q j => by simp only [rcs, C]) rfl
        (sh.1 hb.2.1) (fun hlk hn sh => ?_)
      exact ⟨fun h0 => by omega, fun _ => hlk, sh.2.2⟩
  | setv p v =>
    simp only [exec] at he
    split at he <;> simp only [Out.ok.injEq, reduceCtorEq] at he
    obtain ⟨rfl, rfl⟩ := he
    simp only [rcw, wl_cons, wl_nil, Nat.add_zero] at C
    rename_i hg
    have ha : alive s p = true := by cases e : alive s p <;> simp_all
    have hc : s.phase p = .started := Classical.byContradiction fun e => hg (.inr e)
    have hpn := (pr.sv p v rfl).1
    rw [life, use_eq (live p ha hpn (by rw [hc]; simp))]
    refine hl.keep rfl rfl (fun q => ?_) (fun q hq => ?_) (fun q S _ _ j => ?_)
    · simp only [updP_apply]; split <;> simp_all
    · simp only [updP_apply]; split <;> simp_all
    · simp only [updP_apply, rcs, C]
      by_cases e : j :: q = p
      · subst e; simp [hc]
      · simp [e, Ne.symm e]
  | recv p v =>
    match p, he with
    | [], he => simp [exec] at he
    | [t], he =>
      simp only [exec, Out.ok.injEq] at he
      obtain ⟨rfl, rfl⟩ := he
      simp only [rcw, wl_nil, Nat.add_zero] at C
      rw [life]
      refine hl.keep rfl rfl (fun q => .rfl) (fun q hq => hq) (fun q S hS _ j => ?_)
      have hq : q ≠ [] := ctx.ne_nil (ctx.snd_ne hS)
      have := C (j :: q)
      have e : ¬ [t] = j :: q := by intro e; simp at e; exact hq e.2
      simp only [e, if_false, Nat.add_zero] at this
      simp only [rcs, this]
    | k :: i :: q, he =>
      simp only [exec] at he
      split at he
      · cases he
      rename_i ha
      have ha : alive s (i :: q) = true := by simpa using ha
      have hd := (pr2.rc _ _ rfl).2
      have hrp := Cx (k :: i :: q)
      simp only [rcw, if_true] at hrp
      have hne : s.phase (i :: q) ≠ .none := by
        obtain ⟨S, hS, _⟩ := ctx.kd (i :: q) k (by simp) (by rw [hd]; simp)
        exact ctx.snd_ne hS
      have hlv := live (i :: q) ha (by simp) hne
      have e1 : ∀ j r', ¬ j :: r' = k :: i :: q → wl (rcw (j :: r')) p' = 0 →
          ws (rcw (j :: r')) (acts.set n0 (p' ++ r)) = ws (rcw (j :: r')) acts := by
        intro j r' hne h0
        have := C (j :: r')
        simp only [rcw, Ne.symm hne, if_false, Nat.add_zero, h0] at this
        exact this
      have keep : ∀ S s', s.snd (i :: q) = some S → S.boxed = false →
          s'.snd = s.snd → s'.nx = s.nx → s'.phase = s.phase →
          (∀ i, wl (rcw i) p' = 0) →
          LInv s' (rcs (acts.set n0 (p' ++ r))) ((m.use (k :: i :: q)).use (i :: q)) := by
        intro S s' hS hnb a1 a2 a3 a4
        rw [use_eq (hl.kid ctx hS hnb hlv (by rw [hd]; simp)), use_eq hlv]
        refine hl.keep a1 a2 (fun q => by rw [a3]) (fun q hq => by rw [a3]; exact hq) (fun q' S' hS' hb' j => ?_)
        rw [a3]
        simp only [rcs]
        rw [e1 _ _ _ (a4 _)]
        intro e
        simp at e
        obtain ⟨_, rfl⟩ := e
        rw [hS] at hS'
        cases hS'
        rw [hnb] at hb'
        cases hb'
      have take : ∀ S S1, s.snd (i :: q) = some S → S.boxed = true → s.snd (k :: i :: q) = some S1 →
          (∀ i, wl (rcw i) p' = 0) →
          m.live (k :: i :: q) = true ∧ Ctx s (rcs (acts.set n0 (p' ++ r))) ∧
          LInv s (rcs (acts.set n0 (p' ++ r))) (m.take (i :: q) k S1) ∧ (m.take (i :: q) k S1).live (i :: q) = true ∧
          (m.take (i :: q) k S1).box (i :: q) = none ∧ ∀ j, Dead (m.take (i :: q) k S1) (j :: i :: q) := by
        intro S S1 hS hb hS1 a4
        have sh := hl.shp _ _ hS hlv
        have sh1 : ∀ k, (m.box (i :: q) = some k → m.live (k :: i :: q) = true) ∧
            (m.box (i :: q) = some k ↔ (s.phase (k :: i :: q)).act = 1 ∨ 0 < rcs acts (k :: i :: q)) := by
          cases S <;> simp [Snd.boxed] at hb <;> exact sh.2
        have hbx := (sh1 k).2.2 (.inr hrp)
        have hlk := (sh1 k).1 hbx
        have hone : ws (rcw (k :: i :: q)) acts = 1 := by
          have hst := pr.rc _ _ _ _ rfl (by rw [hS]; simp)
          have h4 := h.sta (i :: q) (by simp) hst _ hS
          have h5 := (Wt.of_le acts).rc (i :: q) k
          simp only [Wt.of] at h4 h5
          cases S <;> simp [Snd.boxed] at hb <;> simp only [Load] at h4 <;> omega
        have hz : ws (rcw (k :: i :: q)) (acts.set n0 (p' ++ r)) = 0 := by
          have h4 := C (k :: i :: q)
          have h5 := a4 (k :: i :: q)
          simp only [rcw, if_true, h5, hone] at h4
          omega
        have hrc : ∀ r' j, rcs (acts.set n0 (p' ++ r)) (j :: r') = if j :: r' = k :: i :: q then 0 else rcs acts (j :: r') := by
          intro r' j
          split
          · rename_i e
            rw [e]; exact hz
          · rename_i e
            exact e1 _ _ e (a4 _)
        obtain ⟨b1, b2, b3, b4⟩ := hl.take ctx hS hb hlv hbx hd (tidy_of h h2 h3 hh hl hS1 hd hlk) (by simp) hrc
        refine ⟨hlk, ⟨ctx.root, ctx.sn, ctx.new, ctx.fre, ctx.par, ctx.kd, fun p hp => ?_⟩, b1, b2, b3, b4⟩
        cases p with
        | nil =>
          have := C []
          simp only [rcw, reduceCtorEq, if_false, a4] at this
          exact ctx.rn [] (by simp only [rcs] at hp; omega)
        | cons j r' =>
          rw [hrc] at hp
          split at hp
          · omega
          · exact ctx.rn _ hp
      rw [life]
      split at he
      · cases he
      · cases he
      · cases he
      · -- transform
        rename_i hS
        simp only [Out.ok.injEq] at he
        obtain ⟨rfl, rfl⟩ := he
        simp only [hS]
        exact keep _ _ hS rfl rfl rfl rfl (fun _ => by simp [rcw])
      · rename_i hS
        simp only [Out.ok.injEq] at he
        obtain ⟨rfl, rfl⟩ := he
        simp only [hS]
        exact keep _ _ hS rfl rfl rfl rfl (fun _ => by simp [rcw])
      · rename_i hS
        simp only [Out.ok.injEq] at he
        obtain ⟨rfl, rfl⟩ := he
        simp only [hS]
        exact keep _ _ hS rfl rfl rfl rfl (fun _ => by simp [rcw])
      · rename_i hS
        simp only [Out.ok.injEq] at he
        obtain ⟨rfl, rfl⟩ := he
        simp only [hS]
        exact keep _ _ hS rfl rfl rfl rfl (fun _ => by simp [rcw])
      · -- sequence
        rename_i n f hS
        have hS1 : s.snd (k :: i :: q) = some (f k) := by
          obtain ⟨S', h4, h5⟩ := ctx.kd (i :: q) k (by simp) (by rw [hd]; simp)
          rw [hS] at h4; cases h4
          exact h5.2.1
        simp only [hS]
        split at he <;> rename_i hkn
        · simp only [Out.ok.injEq] at he
          obtain ⟨rfl, rfl⟩ := he
          obtain ⟨t1, _, t3, t4, _⟩ := take _ _ hS rfl hS1 (fun _ => by simp [rcw])
          rw [if_pos hkn, use_eq t1, use_eq t4]
          exact t3
        · simp only [Out.ok.injEq] at he
          obtain ⟨rfl, rfl⟩ := he
          obtain ⟨t1, t2, t3, t4, t5, t6⟩ := take _ _ hS rfl hS1 (fun _ => by simp [rcw])
          rw [if_neg hkn, use_eq t1, use_eq t4]
          have hk1 := (pr.rs _ _ _ _ rfl _ hS rfl).2.2.1
          have sh := t3.shp _ _ hS t4
          refine t3.put t2 (m0 := m.take (i :: q) k (f k)) hS t4 t5 hk1 (t6 _) rfl rfl rfl (fun _ _ => rfl) rfl rfl (fun _ _ => rfl) rfl
            (fun a1 a2 a3 a4 _ => ?_)
          refine ⟨fun j hj => ?_, fun j => ⟨fun hj => ?_, ?_⟩⟩
          · rw [a3] at hj
            have : j ≠ k + 1 := fun e => hj (by rw [e])
            exact a2 j this (t6 j)
          · rw [a3] at hj; simp only [Option.some.injEq] at hj; subst hj; exact a1
          · rw [a3]
            have := (sh.2 j).2
            rw [t5] at this
            simp only [St.box, updP_apply, List.cons.injEq, and_true]
            by_cases ej : j = k + 1
            · simp [ej]
            · simp only [ej, if_false, ← this]; simp [Ne.symm ej]
      · -- repeat_while
        rename_i c f hS
        obtain ⟨S1, hS1⟩ : ∃ S1, s.snd (k :: i :: q) = some S1 := by
          obtain ⟨S', h4, h5⟩ := ctx.kd (i :: q) k (by simp) (by rw [hd]; simp)
          rw [hS] at h4; cases h4
          obtain ⟨_, _, _, h6⟩ := h5
          exact ⟨_, h6⟩
        simp only [Out.ok.injEq] at he
        obtain ⟨rfl, rfl⟩ := he
        obtain ⟨t1, _, t3, t4, _⟩ := take _ _ hS rfl hS1 (fun _ => by simp [rcw])
        simp only [hS, hS1]
        rw [use_eq t1, use_eq t4]
        exact t3
      · -- when_all
        rename_i hS
        split at he
        · cases he
        simp only [Out.ok.injEq] at he
        obtain ⟨rfl, rfl⟩ := he
        simp only [hS]
        exact keep _ _ hS rfl rfl rfl rfl (fun _ => by split <;> simp [rcw])
      · -- race_and_cancel
        rename_i hS
        split at he
        · cases he
        simp only [Out.ok.injEq] at he
        obtain ⟨rfl, rfl⟩ := he
        simp only [hS]
        exact keep _ _ hS rfl rfl rfl rfl (fun _ => by split <;> split <;> simp [rcw])
  | loop p k =>
    have hb := pr.lp p k rfl
    have hpn : p ≠ [] := by rintro rfl; rw [root] at hb; cases hb.1
    simp only [exec] at he
    split at he
    case h_2 => cases he
    rename_i c f hS
    split at he
    · cases he
    rename_i ha
    have ha : alive s p = true := by simpa using ha
    have hlv := live p ha hpn (by rw [hb.1]; simp)
    have sh := hl.shp _ _ hS hlv
    rw [life]
    simp only [hS, use_eq hlv]
    have hact : ∀ j, (s.phase (j :: p)).act = 0 ∧ rcs acts (j :: p) = 0 := by
      intro j
      have h4 := h.sta p hpn hb.1 _ hS
      have h5 := (Wt.of_le acts).rc p j
      have h6 := (Wt.of_le acts).lp p k
      have h7 := ws_pos (w := lpw p k) hk
      simp only [lpw, and_self, if_true] at h7
      simp only [Wt.of, Load] at h4 h5 h6
      have hc : s.cur p = none := by
        cases e : s.cur p with
        | none => rfl
        | some j => simp [e] at h4; omega
      refine ⟨?_, by simp only [rcs]; omega⟩
      have h8 := h.fit p j hpn
      cases e : s.phase (j :: p) with
      | none | done => rfl
      | conn | started =>
        have := h8 (by simp [e]) _ hS
        simp only [Fits, hc] at this
        cases this
    have hbx : m.box p = none := by
      cases e : m.box p with
      | none => rfl
      | some j => have h4 := (sh.2 j).2.1 e; have h5 := hact j; omega
    split at he <;> rename_i hc
    · simp only [Out.ok.injEq] at he
      obtain ⟨rfl, rfl⟩ := he
      simp only [rcw, wl_cons, wl_nil, Nat.add_zero] at C
      rw [if_pos hc]
      refine hl.put ctx (m0 := m) hS hlv hbx hb.2.2.1 (sh.1 _ (by rw [hbx]; simp)) rfl rfl rfl (fun q j => by simp only [rcs, C])
        rfl rfl (fun _ _ => rfl) rfl (fun a1 a2 a3 a4 _ => ?_)
      refine ⟨fun j hj => ?_, fun j => ⟨fun hj => ?_, ?_⟩⟩
      · rw [a3] at hj
        have : j ≠ k := fun e => hj (by rw [e])
        exact a2 j this (sh.1 j (by rw [hbx]; simp))
      · rw [a3] at hj; simp only [Option.some.injEq] at hj; subst hj; exact a1
      · rw [a3]
        have := hact j
        simp only [St.box, St.ev, updP_apply, List.cons.injEq, and_true, rcs, C] at *
        by_cases ej : j = k
        · simp [ej]
        · simp only [ej, if_false]; simp [Ne.symm ej]; omega
    · simp only [Out.ok.injEq] at he
      obtain ⟨rfl, rfl⟩ := he
      simp only [rcw, wl_cons, wl_nil, Nat.add_zero] at C
      rw [if_neg hc]
      exact hl.keep rfl rfl (fun q => .rfl) (fun q hq => hq) (fun q S _ _ j => by simp only [rcs, C, St.ev])
  | trail p =>
    simp only [exec] at he
    split at he
    · cases he
    rename_i hg
    simp only [Out.ok.injEq] at he
    obtain ⟨rfl, rfl⟩ := he
    simp only [rcw, wl_nil, Nat.add_zero] at C
    have ha : alive s p = true := by cases e : alive s p <;> simp_all
    obtain ⟨n, f, hS⟩ := h2.tr p (by have := ws_pos (w := trw p) hk; simp [trw] at this; omega)
    have hne := ctx.snd_ne hS
    rw [life, use_eq (live p ha (ctx.ne_nil hne) hne)]
    exact hl.keep rfl rfl (fun q => .rfl) (fun q hq => hq) (fun q S _ _ j => by simp only [rcs, C])
  | cancel p j =>
    obtain ⟨n, f, hS⟩ := pr2.cn p j rfl
    have hne := ctx.snd_ne hS
    simp only [exec] at he
    split at he
    · cases he
    rename_i ha
    have ha : alive s p = true := by simpa using ha
    simp only [Out.ok.injEq] at he
    obtain ⟨rfl, rfl⟩ := he
    simp only [rcw, wl_nil, Nat.add_zero] at C
    rw [life, use_eq (live p ha (ctx.ne_nil hne) hne)]
    exact hl.keep rfl rfl (fun q => .rfl) (fun q hq => hq) (fun q S _ _ j => by simp only [rcs, C, St.ev])

theorem env_linv {s s' : St} {acts : List (List Instr)} {m : LMem} {a : Act} {p : List Instr} (h : Inv s acts)
    (h2 : Inv2 s acts) (h3 : Inv3 s acts) (hl : LInv s (rcs acts) m) (he : env s acts a = some (s', p)) :
    LInv s' (rcs (acts ++ [p])) (match a with | .start t S => ctor S [t] m | .finish _ _ => m) := by
  have ctx := Ctx.of h h2 h3
  cases a with
  | finish q v =>
    simp only [env] at he
    split at he <;> simp only [Option.some.injEq, Prod.mk.injEq, reduceCtorEq] at he
    obtain ⟨rfl, rfl⟩ := he
    exact hl.keep rfl rfl (fun q => .rfl) (fun q hq => hq) (fun q S _ _ j => by simp [rcs, rcw])
  | start t S1 =>
    simp only [env] at he
    split at he <;> simp only [Option.some.injEq, Prod.mk.injEq, reduceCtorEq] at he
    obtain ⟨rfl, rfl⟩ := he
    rename_i hn
    have hrc : ∀ i, ws (rcw i) (acts ++ [[.start [t]]]) = ws (rcw i) acts := by intro i; simp [rcw]
    obtain ⟨c1, c2⟩ := ctor_fresh S1 [t] m (hl.out t hn)
    have c3 := ctor_only S1 [t] m
    have hkp : ∀ r, [t] <:+ r → s.phase r = .none := by
      intro r hr
      apply Classical.byContradiction
      intro h'
      exact ctx.anc h' hr (by simp) hn
    have hsub : ∀ r, r ≠ [] → ¬ [t] <:+ r → Dead m r → Dead (ctor S1 [t] m) r := by
      intro r hr hr1 hd r' hr'
      rw [(c3 r' ?_).1]
      · exact hd r' hr'
      · intro h'
        rcases suf_cmp hr' h' with h4 | h4
        · rcases List.suffix_cons_iff.1 h4 with h5 | h5
          · exact hr1 (by rw [h5]; exact List.suffix_rfl)
          · exact hr (List.suffix_nil.1 h5)
        · exact hr1 h4
    constructor
    · rw [c2]; exact hl.bad
    · intro u hu
      by_cases e : u = t
      · subst e; simp [updP_apply] at hu
      · simp only [updP_apply, List.cons.injEq, and_true, e, if_false] at hu
        refine hsub [u] (by simp) (fun h' => ?_) (hl.out u hu)
        rcases List.suffix_cons_iff.1 h' with h5 | h5
        · simp at h5; exact e h5.symm
        · simp at h5
    · intro r hr1 hr2 hr3
      by_cases e : r = [t]
      · subst e; rw [c1.live] at hr3; cases hr3
      · simp only [updP_apply, e, if_false] at hr2 ⊢
        have hs : ¬ [t] <:+ r := fun h' => hr2 (hkp r h')
        rw [(c3 r hs).1] at hr3
        have := hl.gone r hr1 hr2 hr3
        exact ⟨this.1, hsub r hr1 hs this.2⟩
    · intro r S hS hlr
      by_cases e : r = [t]
      · subst e
        simp only [updP_apply, if_true, Option.some.injEq] at hS
        subst hS
        have hn0 := ctx.fre [t] (by simp) (.inl hn)
        refine c1.shape hn0 (fun j => ?_) (fun j => ?_)
        · simp only [updP_apply, List.cons.injEq, reduceCtorEq, and_false, if_false]
          exact ctx.kid_none (by simp) hn0 j
        · simp only [rcs, hrc]
          apply Classical.byContradiction
          intro hc
          have := ctx.rn (j :: [t]) (by omega)
          rw [ctx.kid_none (by simp) hn0 j] at this
          cases this
      · simp only [updP_apply, e, if_false] at hS
        have hrn := ctx.snd_ne hS
        have hr0 := ctx.ne_nil hrn
        have hs : ¬ [t] <:+ r := fun h' => hrn (hkp r h')
        have hj : ∀ j, ¬ [t] <:+ j :: r := by
          intro j h'
          rcases List.suffix_cons_iff.1 h' with h5 | h5
          · simp at h5; exact hr0 h5.2
          · exact hs h5
        have hj' : ∀ j, ¬ j :: r = [t] := fun j e => hj j (by rw [e]; exact List.suffix_rfl)
        rw [(c3 r hs).1] at hlr
        refine (hl.shp r S hS hlr).mono rfl (fun j => ?_) (fun j S2 hS2 => ?_) (fun _ j => ?_) (c3 r hs).2.1 (c3 r hs).2.2
          (fun j => hsub _ (by simp) (hj j)) (fun j hj2 => by rw [(c3 _ (hj j)).1]; exact hj2) (fun _ j S2 hF => ?_)
        · simp only [updP_apply, hj' j, if_false]
        · simp only [updP_apply, hj' j, if_false]; exact hS2
        · simp only [updP_apply, hj' j, if_false, rcs, hrc]
        · exact hF.same (c3.same (hj j) (fun h' => by
            rcases List.suffix_cons_iff.1 h' with h5 | h5
            · exact hj' j h5
            · simp at h5))

theorem init_linv : LInv init (rcs []) .init := by
  constructor
  · rfl
  · intro t _ r _; rfl
  · intro p _ h; exact absurd rfl h
  · intro p S h; cases h

/-- As long as the machine does not fault. -/
theorem reach_linv {c : Conf mach} {m : LMem} (h : LReach c m) : c.bad = false → LInv c.sh (rcs c.acts) m := by
  induction h with
  | init => exact fun _ => init_linv
  | @step c c' m l hr hs ih =>
    intro hb
    have hR := hr.reach
    have i1 := reach_inv hR
    have i2 := reach_inv2 hR
    have i3 := reach_inv3 hR
    cases l with
    | env a =>
      simp only [Mach.step] at hs
      split at hs
      · cases hs
      rename_i hcb
      have hl := ih (by simpa using hcb)
      split at hs
      · rename_i s' p he
        simp only [Option.some.injEq] at hs
        subst hs
        have := env_linv i1 i2 i3 hl he
        cases a <;> exact this
      · cases hs
    | run k b =>
      simp only [Mach.step] at hs
      split at hs
      · cases hs
      rename_i hcb
      have hl := ih (by simpa using hcb)
      split at hs
      · rename_i x r hk
        split at hs
        · rename_i s' p he
          simp only [Option.some.injEq] at hs
          subst hs
          have := run_linv i1 i2 i3 (reach_hist hR) hl hk he
          simp only [LMem.next, hk]
          exact this
        · cases hs
        · simp only [Option.some.injEq] at hs
          subst hs
          cases hb
      · cases hs
  | @destroy c m t v S hr hd hS hlv ih =>
    intro hb
    have hl := ih hb
    have hR := hr.reach
    have i1 := reach_inv hR
    have i2 := reach_inv2 hR
    have i3 := reach_inv3 hR
    have hp := i2.s2 _ _ hd
    have hG := tidy_of i1 i2 i3 (reach_hist hR) hl hS hp hlv
    obtain ⟨g1, g2⟩ := dtor_tidy S [t] m hG
    have g3 := dtor_only S [t] m
    refine hl.kill (.of i1 i2 i3) hp g1 (fun r hr => ⟨(g3 r hr).1, (g3 r hr).2.2⟩) (fun r hr _ => (g3 r hr).2.1) g2
      (fun _ _ _ => rfl) (fun S' hS' => ?_)
    have := (i1.sn []).2 i1.root
    simp [this] at hS'

end Verif.Tree
