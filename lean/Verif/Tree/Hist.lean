import Verif.Tree.Log
import Verif.Tree.Spec

/-! # Every event is justified by the events before it -/

namespace Verif.Tree

set_option maxHeartbeats 2000000

theorem exec_ext {s s' : St} {acts : List (List Instr)} {k : Nat} {x : Instr} {r p : List Instr} {b : Bool}
    (h : Inv s acts) (hk : acts[k]? = some (x :: r)) (he : exec s x b = .ok s' p) :
    (∀ p S, s.snd p = some S → s'.snd p = some S) ∧ ∃ l, s'.log = s.log ++ l := by
  have pr := pre h hk
  have sn := h.sn
  have hkd := fun p n i => @isKid_ne p n i
  clear h hk
  exec_cases he
  all_goals (try (replace pr := pr.bg _ rfl))
  all_goals (try (replace pr := pr.lp _ _ rfl))
  all_goals (try (replace pr := pr.rs _ _ _ _ rfl _ (by assumption) rfl))
  all_goals refine ⟨?_, by simp [St.ev, St.box, St.kids]⟩
  all_goals (try simp only [St.ev, St.box, St.kids, updP_apply])
  all_goals grind

theorem env_ext {s s' : St} {acts : List (List Instr)} {a : Act} {p : List Instr}
    (h : Inv s acts) (he : env s acts a = some (s', p)) :
    (∀ p S, s.snd p = some S → s'.snd p = some S) ∧ s'.log = s.log := by
  have sn := h.sn
  env_cases he <;> simp only [updP_apply] <;> grind

structure Inv3 (s : St) (acts : List (List Instr)) : Prop where
  sv : ∀ p v, 0 < ws (svw p v) acts → ∃ S, s.snd p = some S ∧ DoneOk s.log p v S
  lo : ∀ p j, 0 < ws (lpw p (j + 1)) acts → .cond p j true ∈ s.log ∧ ∃ v, .done (j :: p) v ∈ s.log
  kd : ∀ q k, q ≠ [] → s.phase (k :: q) ≠ .none → ∃ S, s.snd q = some S ∧ KidOk s.snd s.log k q S
  fan : ∀ q n f, s.snd q = some (.all n f) ∨ s.snd q = some (.race n f) →
    s.phase q = .started ∨ s.phase q = .done →
    0 < ws (bgw q) acts ∨ (s.nx q = n + 1 ∧ ∀ k, k ≤ n → s.phase (k :: q) ≠ .none)

theorem kd_box {s s' : St} {p : Path} {k0 : Nat} {S0 S1 : Snd}
    (kd : ∀ q k, q ≠ [] → s.phase (k :: q) ≠ .none → ∃ S, s.snd q = some S ∧ KidOk s.snd s.log k q S)
    (X : ∀ p S, s.snd p = some S → s'.snd p = some S)
    (K : ∀ k q S, KidOk s.snd s.log k q S → KidOk s'.snd s'.log k q S)
    (hs : s.snd p = some S0) (hph : s'.phase = updP s.phase (k0 :: p) .conn)
    (hsn : s'.snd = updP s.snd (k0 :: p) (some S1))
    (hn : s'.snd (k0 :: p) = some S1 → KidOk s'.snd s'.log k0 p S0) :
    ∀ q k, q ≠ [] → s'.phase (k :: q) ≠ .none → ∃ S, s'.snd q = some S ∧ KidOk s'.snd s'.log k q S := by
  intro q k hq hp
  by_cases e : k :: q = k0 :: p
  · simp at e
    obtain ⟨rfl, rfl⟩ := e
    exact ⟨S0, X _ _ hs, hn (by simp [hsn, updP_apply])⟩
  · rw [hph, updP_apply, if_neg e] at hp
    obtain ⟨S, h1, h2⟩ := kd q k hq hp
    exact ⟨S, X _ _ h1, K _ _ _ h2⟩

theorem run_inv3 {s s' : St} {acts : List (List Instr)} {k : Nat} {x : Instr} {r p : List Instr} {b : Bool}
    (h : Inv s acts) (h2 : Inv2 s acts) (h3 : Inv3 s acts)
    (hk : acts[k]? = some (x :: r)) (he : exec s x b = .ok s' p) : Inv3 s' (acts.set k (p ++ r)) := by
  have V := fun i v => ws_set (svw i v) p hk
  have B := fun i => ws_set (bgw i) p hk
  have L := fun i j => ws_set (lpw i j) p hk
  have hx := exec_ext h hk he
  have D : ∀ p v S, DoneOk s.log p v S → DoneOk s'.log p v S := by
    obtain ⟨_, l, hl⟩ := hx
    intro p v S hd; rw [hl]; exact hd.mono
  have K : ∀ k q S, KidOk s.snd s.log k q S → KidOk s'.snd s'.log k q S := by
    obtain ⟨hs, l, hl⟩ := hx
    intro k q S hd; rw [hl]; exact hd.mono hs
  have X := hx.1
  clear hx
  have sn := h.sn
  have hkd := fun p n i => @isKid_ne p n i
  have hkc := fun p n k i => @isKid_cons p n k i
  have pr := pre h hk
  -- the operation that has just been completed
  have hr : ∀ p v, x = .recv p v → .done p v ∈ s.log ∧ s.phase p = .done := by
    rintro p v rfl
    have h4 := ws_pos (w := rvw p v) hk
    have h5 := ws_pos (w := rcw p) hk
    simp only [rvw, rcw, and_self, if_true] at h4 h5
    exact ⟨h2.rv p v h4, h2.rn p h5⟩
  have hfan : ∀ k i q v n f, x = .recv (k :: i :: q) v →
      s.snd (i :: q) = some (.all n f) ∨ s.snd (i :: q) = some (.race n f) → s.ctr (i :: q) = 1 →
      ∀ j, j ≤ n → ∃ u, .done (j :: i :: q) u ∈ s.log := by
    rintro k i q v n f rfl hs hc j hj
    have hq : i :: q ≠ [] := by simp
    have h0 : s.phase (i :: q) = .started := pr.rc _ _ _ _ rfl (by rcases hs with hs | hs <;> simp [hs])
    have h4 := ws_pos (w := recw (i :: q)) hk
    simp [recw] at h4
    apply h2.s3
    have h5 : kids s.phase (i :: q) (n + 1) = 0 := by
      rcases hs with hs | hs
      all_goals
        have h6 := h.sta _ hq h0 _ hs
        simp only [Load, hc, Wt.of] at h6
        omega
    have h6 := @kids_pos s.phase (i :: q) j (n + 1) (by omega)
    rcases h3.fan (i :: q) n f hs (.inl h0) with h7 | ⟨_, h7⟩
    · have := (h.bg _ h7).2.2.2
      omega
    · have := h7 j hj
      cases hph : s.phase (j :: i :: q) <;> simp [hph] at h6 this ⊢ <;> omega
  clear h h2 hk
  generalize acts.set k (p ++ r) = acts' at *
  obtain ⟨sv, lo, kd, fan⟩ := h3
  constructor
  case kd =>
    exec_cases he
    case h_4 | h_5.isTrue | h_5.isFalse | h_6 | h_7 | h_8 =>
      exact kd_box kd X K (by assumption) rfl rfl (by intro h; simp [KidOk, St.box, St.ev, updP_apply])
    case h_8.isFalse =>
      replace hr := hr _ _ rfl
      have := kd _ _ (List.cons_ne_nil _ _) (fun e => nomatch hr.2.symm.trans e)
      refine kd_box kd X K (by assumption) rfl rfl (fun h => ?_)
      obtain ⟨S, h1, h2⟩ := this
      simp only [*, Option.some.injEq] at h1
      subst h1
      simp only [KidOk] at h2
      refine ⟨by omega, h, fun j hj => ?_⟩
      cases hj
      exact ⟨_, hr.1⟩
    case h_1.isFalse.isTrue =>
      refine kd_box kd X K (by assumption) rfl rfl (fun h => ?_)
      exact ⟨s.log, [], rfl, h⟩
    all_goals (try simp only [St.ev, St.box, St.kids, updP_apply, List.mem_append, List.mem_cons, List.not_mem_nil,
      or_false, reduceCtorEq, Ev.cond.injEq, Ev.done.injEq])
    all_goals (try simp only [St.ev, St.box, St.kids, updP_apply] at K X)
    all_goals (try (replace pr := pr.bg _ rfl))
    all_goals clear D lo fan sv hfan V B L
    all_goals grind [KidOk]
  case sv =>
    exec_cases he
    all_goals (try (replace hr := hr _ _ rfl))
    all_goals simp only [svw, wl_cons, wl_nil, wl_append, svw_starts, svw_cancels, Nat.add_zero, Nat.zero_add] at V
    case h_10.isFalse.isTrue | h_11.isFalse.isFalse.isTrue | h_11.isFalse.isTrue.isTrue =>
      intro p v hv
      replace hfan := hfan _ _ _ _ _ _ rfl (by first | exact .inl (by assumption) | exact .inr (by assumption)) (by assumption)
      by_cases hp : 0 < ws (svw p v) acts
      · exact sv p v hp
      · have h1 := V p v
        split at h1
        · rename_i e
          obtain ⟨rfl, rfl⟩ := e
          exact ⟨_, X _ _ (by assumption), by simpa only [DoneOk] using hfan⟩
        · omega
    all_goals (try simp only [St.ev, St.box, St.kids, updP_apply, List.mem_append, List.mem_cons, List.not_mem_nil,
      or_false, reduceCtorEq, Ev.cond.injEq, Ev.done.injEq])
    all_goals (try simp only [St.ev, St.box, St.kids, updP_apply] at D X)
    all_goals clear hfan B L K
    all_goals grind [DoneOk, KidOk]
  case lo =>
    exec_cases he
    all_goals (try (replace hr := hr _ _ rfl))
    all_goals simp only [lpw, wl_cons, wl_nil, wl_append, lpw_starts, lpw_cancels, Nat.add_zero, Nat.zero_add] at L
    all_goals (try simp only [St.ev, St.box, St.kids, updP_apply, List.mem_append, List.mem_cons, List.not_mem_nil,
      or_false, reduceCtorEq, Ev.cond.injEq, Ev.done.injEq])
    all_goals clear hfan B V D K
    all_goals grind [KidOk]
  case fan =>
    exec_cases he
    all_goals (try (replace pr := pr.bg _ rfl))
    all_goals (try (replace pr := pr.lp _ _ rfl))
    all_goals (try (replace pr := pr.rs _ _ _ _ rfl _ (by assumption) rfl))
    all_goals simp only [bgw, wl_cons, wl_nil, wl_append, bgw_starts, bgw_cancels, Nat.add_zero, Nat.zero_add] at B
    all_goals (try simp only [St.ev, St.box, St.kids, updP_apply, List.mem_append, List.mem_cons, List.not_mem_nil,
      or_false, reduceCtorEq, Ev.cond.injEq, Ev.done.injEq])
    all_goals clear hfan L V D K
    all_goals grind

theorem env_inv3 {s s' : St} {acts : List (List Instr)} {a : Act} {p : List Instr}
    (h : Inv s acts) (h3 : Inv3 s acts) (he : env s acts a = some (s', p)) : Inv3 s' (acts ++ [p]) := by
  have hx := env_ext h he
  have K : ∀ k q S, KidOk s.snd s.log k q S → KidOk s'.snd s'.log k q S := by
    intro k q S hd; rw [hx.2]; simpa using hd.mono (l := []) hx.1
  have sn := h.sn
  have sta := h.sta
  have hrd : ∀ p, s.rdy p = true → s.phase p = .started ∧ s.snd p = some .leaf := by
    intro p hp
    have hq : p ≠ [] := by intro e; subst e; have := h.nil.2; simp [this] at hp
    cases hph : s.phase p
    · have := (h.off p hq (.inl hph)).2.2.1; simp [this] at hp
    · have := (h.con p hq hph).2.2.1; simp [this] at hp
    · refine ⟨rfl, ?_⟩
      cases hs : s.snd p with
      | none => have := (sn p).1 hs; simp [this] at hph
      | some S =>
        have := h.sta p hq hph S hs
        cases S <;> simp [Load, hp] at this ⊢
    · have := (h.off p hq (.inr hph)).2.2.1; simp [this] at hp
  obtain ⟨sv, lo, kd, fan⟩ := h3
  obtain ⟨X, hl⟩ := hx
  clear h sta
  constructor
  case kd =>
    env_cases he <;> (try simp only [updP_apply] at *) <;> clear sv lo fan <;> grind
  case sv =>
    env_cases he <;> simp only [ws_append, ws_cons, ws_nil, wl_cons, wl_nil, svw, Nat.add_zero] <;> (try simp only [updP_apply] at *)
      <;> clear K lo fan kd <;> grind [DoneOk]
  case lo =>
    env_cases he <;> simp only [ws_append, ws_cons, ws_nil, wl_cons, wl_nil, lpw, Nat.add_zero] <;> exact lo
  case fan =>
    env_cases he <;> simp only [ws_append, ws_cons, ws_nil, wl_cons, wl_nil, bgw, Nat.add_zero] <;> (try simp only [updP_apply] at *)
      <;> clear K lo sv kd <;> grind

theorem init_inv3 : Inv3 init [] := by constructor <;> simp [init, ws_nil]

theorem reach_inv3 {c : Conf mach} (h : Reach mach init c) : Inv3 c.sh c.acts :=
  Reach.inv_with (M := mach) (P := fun s acts => Inv s acts ∧ Inv2 s acts) (Q := Inv3)
    (fun _ hc => ⟨reach_inv hc, reach_inv2 hc⟩) init_inv3
    (fun _ _ _ _ _ h _ h2 he => env_inv3 h.1 h2 he)
    (fun _ _ _ _ _ _ _ _ h _ h2 hk he => run_inv3 h.1 h.2 h2 hk he) h

end Verif.Tree
