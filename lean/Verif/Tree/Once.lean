import Verif.Tree.Hist

/-! # Events happen once, and the history is as prescribed -/

namespace Verif.Tree

set_option maxHeartbeats 2000000

def sow (p : Path) : Instr → Nat
  | .setv q _ => if q = p then 1 else 0
  | _ => 0

@[simp] theorem sow_starts (i q : Path) (n : Nat) : wl (sow i) (starts q n) = 0 := wl_starts q n (fun _ => rfl)
@[simp] theorem sow_cancels (i q : Path) (n k : Nat) : wl (sow i) (cancels q n k) = 0 :=
  wl_cancels q n k (fun _ => rfl)

theorem sow_zero {p : Path} {acts : List (List Instr)} (h : ∀ v, ws (svw p v) acts = 0) : ws (sow p) acts = 0 := by
  apply Classical.byContradiction
  intro h1
  obtain ⟨a, ha, x, hx, h2⟩ := exists_of_ws_pos (Nat.pos_of_ne_zero h1)
  cases x <;> simp [sow] at h2
  rename_i q v
  split at h2 <;> simp at h2
  rename_i e
  subst e
  have := ws_pos_of_mem (w := svw q v) ha hx
  simp [svw, h v] at this

structure Inv4 (s : St) (acts : List (List Instr)) : Prop where
  cnd : ∀ p j b, .cond p j b ∈ s.log → j < s.nx p ∨ 0 < ws (sow p) acts ∨ s.phase p = .done
  ivk : ∀ p v, .invoke p v ∈ s.log → 0 < ws (sow p) acts ∨ s.phase p = .done
  cal : ∀ p w v, .call p w v ∈ s.log → 0 < ws (sow p) acts ∨ s.phase p = .done
  bnd : ∀ p v, .bind p v ∈ s.log → 0 < s.nx p
  ub : ∀ p n f, s.snd p = some (.race n f) → s.ctr p ≤ n + 1
  tn : ∀ p, 0 < ws (trw p) acts → 0 < s.nx p
  dz : ∀ p n f, s.snd p = some (.race n f) → s.phase p = .done → s.ctr p = 0
  cc : ∀ p j, ws (cnw p j) acts + s.log.count (.cancel (j :: p)) ≤ 1
  cp : ∀ p j, 0 < ws (cnw p j) acts + s.log.count (.cancel (j :: p)) → ∃ n f, s.snd p = some (.race n f) ∧ j ≤ n ∧
    s.nx p = n + 1 ∧ s.ctr p ≤ n ∧ ∃ k v, k ≤ n ∧ k ≠ j ∧ .done (k :: p) v ∈ s.log
  cq : ∀ p n f, s.snd p = some (.race n f) → s.nx p = n + 1 → s.ctr p ≤ n →
    ∃ k v, k ≤ n ∧ .done (k :: p) v ∈ s.log ∧
      ∀ j, j ≤ n → j ≠ k → 0 < ws (cnw p j) acts + s.log.count (.cancel (j :: p))

/-- What is known about the instruction that is executed. -/
structure Pre2 (s : St) (x : Instr) : Prop where
  rc : ∀ p v, x = .recv p v → .done p v ∈ s.log ∧ s.phase p = .done
  race : ∀ k i q v n f, x = .recv (k :: i :: q) v → s.snd (i :: q) = some (.race n f) →
      k ≤ n ∧ (s.ctr (i :: q) ≠ 0 → s.nx (i :: q) = n + 1)
  cn : ∀ p j, x = .cancel p j → ∃ n f, s.snd p = some (.race n f)
  sv : ∀ p v n f, x = .setv p v → s.snd p = some (.race n f) → s.ctr p = 0

theorem pre2 {s : St} {acts : List (List Instr)} {k : Nat} {x : Instr} {r : List Instr}
    (h : Inv s acts) (h2 : Inv2 s acts) (h3 : Inv3 s acts) (hk : acts[k]? = some (x :: r)) : Pre2 s x := by
  have pr := pre h hk
  have hr : ∀ p v, x = .recv p v → .done p v ∈ s.log ∧ s.phase p = .done := by
    rintro p v rfl
    have h4 := ws_pos (w := rvw p v) hk
    have h5 := ws_pos (w := rcw p) hk
    simp only [rvw, rcw, and_self, if_true] at h4 h5
    exact ⟨h2.rv p v h4, h2.rn p h5⟩
  refine ⟨hr, ?_, ?_, ?_⟩
  · rintro k i q v n f rfl hs
    obtain ⟨S, h5, h6⟩ := h3.kd (i :: q) k (by simp) (by rw [(hr _ _ rfl).2]; simp)
    rw [hs] at h5
    cases h5
    have h7 := pr.rc _ _ _ _ rfl (by simp [hs])
    refine ⟨h6.1, fun hc => ?_⟩
    rcases h3.fan (i :: q) n f (.inr hs) (.inl h7) with h7 | ⟨h7, _⟩
    · have := (h.bg _ h7).2.2.2
      omega
    · exact h7
  · rintro p j rfl
    have h4 := ws_pos (w := cnw p j) hk
    simp only [cnw, and_self, if_true] at h4
    obtain ⟨n, f, h5, _⟩ := h2.cn p j h4
    exact ⟨n, f, h5⟩
  · rintro p v n f rfl hs
    have h4 := ws_pos (w := svw p v) hk
    have h5 := ws_pos (w := own p) hk
    simp only [svw, own, and_self, if_true] at h4 h5
    have h6 := h.sta p (pr.sv p v rfl).1 (h2.sv p v h4) _ hs
    simp only [Load, Wt.of] at h6
    have h7 := h6.1
    split at h7
    · assumption
    · omega

/-- Nothing that matters to the cancellation loop happens. -/
theorem keep_cp {s s' : St} {acts acts' : List (List Instr)} (X : ∀ p S, s.snd p = some S → s'.snd p = some S)
    (hc : ∀ p j, 0 < ws (cnw p j) acts' + s'.log.count (.cancel (j :: p)) → 0 < ws (cnw p j) acts + s.log.count (.cancel (j :: p)))
    (hn : ∀ p n f, s.snd p = some (.race n f) → s.nx p = n + 1 → s'.nx p = n + 1 ∧ s'.ctr p ≤ s.ctr p)
    (hl : ∀ e, e ∈ s.log → e ∈ s'.log)
    (cp : ∀ p j, 0 < ws (cnw p j) acts + s.log.count (.cancel (j :: p)) → ∃ n f, s.snd p = some (.race n f) ∧ j ≤ n ∧
      s.nx p = n + 1 ∧ s.ctr p ≤ n ∧ ∃ k v, k ≤ n ∧ k ≠ j ∧ .done (k :: p) v ∈ s.log) :
    ∀ p j, 0 < ws (cnw p j) acts' + s'.log.count (.cancel (j :: p)) → ∃ n f, s'.snd p = some (.race n f) ∧ j ≤ n ∧
      s'.nx p = n + 1 ∧ s'.ctr p ≤ n ∧ ∃ k v, k ≤ n ∧ k ≠ j ∧ .done (k :: p) v ∈ s'.log := by
  intro p j h
  obtain ⟨n, f, h1, h2, h3, h4, k, v, h5, h6, h7⟩ := cp p j (hc p j h)
  obtain ⟨h8, h9⟩ := hn p n f h1 h3
  exact ⟨n, f, X _ _ h1, h2, h8, by omega, k, v, h5, h6, hl _ h7⟩

theorem keep_cq {s s' : St} {acts acts' : List (List Instr)}
    (hc : ∀ p j, 0 < ws (cnw p j) acts + s.log.count (.cancel (j :: p)) → 0 < ws (cnw p j) acts' + s'.log.count (.cancel (j :: p)))
    (hn : ∀ p n f, s'.snd p = some (.race n f) → s'.nx p = n + 1 → s'.ctr p ≤ n →
      s.snd p = some (.race n f) ∧ s.nx p = n + 1 ∧ s.ctr p ≤ n)
    (hl : ∀ e, e ∈ s.log → e ∈ s'.log)
    (cq : ∀ p n f, s.snd p = some (.race n f) → s.nx p = n + 1 → s.ctr p ≤ n →
      ∃ k v, k ≤ n ∧ .done (k :: p) v ∈ s.log ∧ ∀ j, j ≤ n → j ≠ k → 0 < ws (cnw p j) acts + s.log.count (.cancel (j :: p))) :
    ∀ p n f, s'.snd p = some (.race n f) → s'.nx p = n + 1 → s'.ctr p ≤ n →
      ∃ k v, k ≤ n ∧ .done (k :: p) v ∈ s'.log ∧ ∀ j, j ≤ n → j ≠ k → 0 < ws (cnw p j) acts' + s'.log.count (.cancel (j :: p)) := by
  intro p n f h1 h2 h3
  obtain ⟨h4, h5, h6⟩ := hn p n f h1 h2 h3
  obtain ⟨k, v, h7, h8, h9⟩ := cq p n f h4 h5 h6
  exact ⟨k, v, h7, hl _ h8, fun j hj hk => hc _ _ (h9 j hj hk)⟩

/-- A child of `race_and_cancel` has completed. -/
theorem race_cp {s : St} {acts acts' : List (List Instr)} {q : Path} {n k v : Nat} {f : Nat → Snd}
    (hs : s.snd q = some (.race n f)) (hk : k ≤ n) (hd : .done (k :: q) v ∈ s.log) (hx : s.nx q = n + 1)
    (ub : s.ctr q ≤ n + 1) (h0 : s.ctr q ≠ 0)
    (C : ∀ i j, ws (cnw i j) acts' = ws (cnw i j) acts + if s.ctr q = n + 1 ∧ q = i ∧ j ≤ n ∧ j ≠ k then 1 else 0)
    (cp : ∀ p j, 0 < ws (cnw p j) acts + s.log.count (.cancel (j :: p)) → ∃ n f, s.snd p = some (.race n f) ∧ j ≤ n ∧
      s.nx p = n + 1 ∧ s.ctr p ≤ n ∧ ∃ k v, k ≤ n ∧ k ≠ j ∧ .done (k :: p) v ∈ s.log) :
    ∀ p j, 0 < ws (cnw p j) acts' + s.log.count (.cancel (j :: p)) → ∃ n f, s.snd p = some (.race n f) ∧ j ≤ n ∧
      s.nx p = n + 1 ∧ updP s.ctr q (s.ctr q - 1) p ≤ n ∧ ∃ k v, k ≤ n ∧ k ≠ j ∧ .done (k :: p) v ∈ s.log := by
  intro p j hj
  by_cases e : 0 < ws (cnw p j) acts + s.log.count (.cancel (j :: p))
  · obtain ⟨n', f', h1, h2, h3, h4, h5⟩ := cp p j e
    refine ⟨n', f', h1, h2, h3, ?_, h5⟩
    rw [updP_apply]
    split
    · rename_i e1
      subst e1
      omega
    · omega
  · have h1 := C p j
    split at h1
    · rename_i h2
      obtain ⟨h2, rfl, h3, h4⟩ := h2
      exact ⟨n, f, hs, h3, hx, by rw [updP_apply, if_pos rfl]; omega, k, v, hk, Ne.symm h4, hd⟩
    · omega

theorem race_cq {s : St} {acts acts' : List (List Instr)} {q : Path} {n k v : Nat} {f : Nat → Snd}
    (hs : s.snd q = some (.race n f)) (hk : k ≤ n) (hd : .done (k :: q) v ∈ s.log) (ub : s.ctr q ≤ n + 1)
    (C : ∀ i j, ws (cnw i j) acts' = ws (cnw i j) acts + if s.ctr q = n + 1 ∧ q = i ∧ j ≤ n ∧ j ≠ k then 1 else 0)
    (cq : ∀ p n f, s.snd p = some (.race n f) → s.nx p = n + 1 → s.ctr p ≤ n →
      ∃ k v, k ≤ n ∧ .done (k :: p) v ∈ s.log ∧
        ∀ j, j ≤ n → j ≠ k → 0 < ws (cnw p j) acts + s.log.count (.cancel (j :: p))) :
    ∀ p n f, s.snd p = some (.race n f) → s.nx p = n + 1 → updP s.ctr q (s.ctr q - 1) p ≤ n →
      ∃ k v, k ≤ n ∧ .done (k :: p) v ∈ s.log ∧
        ∀ j, j ≤ n → j ≠ k → 0 < ws (cnw p j) acts' + s.log.count (.cancel (j :: p)) := by
  intro p n' f' h1 h2 h3
  by_cases e : s.ctr p ≤ n'
  · obtain ⟨m, u, h4, h5, h6⟩ := cq p n' f' h1 h2 e
    refine ⟨m, u, h4, h5, fun j hj hm => ?_⟩
    have h7 := h6 j hj hm
    have h8 := C p j
    split at h8 <;> omega
  · rw [updP_apply] at h3
    split at h3
    · rename_i e1
      subst e1
      rw [hs] at h1
      cases h1
      refine ⟨k, v, hk, hd, fun j hj hm => ?_⟩
      have h8 := C p j
      rw [if_pos ⟨by omega, rfl, hj, hm⟩] at h8
      omega
    · omega

section
variable {s s' : St} {acts : List (List Instr)} {k : Nat} {x : Instr} {r p' : List Instr} {b : Bool}

theorem run_cnd (h : Inv s acts) (h2 : Inv2 s acts) (h3 : Inv3 s acts) (h4 : Inv4 s acts)
    (hk : acts[k]? = some (x :: r)) (he : exec s x b = .ok s' p') :
    ∀ p j b, .cond p j b ∈ s'.log → j < s'.nx p ∨ 0 < ws (sow p) (acts.set k (p' ++ r)) ∨ s'.phase p = .done := by
  have V := fun i => ws_set (sow i) p' hk
  have C := fun i j => ws_set (cnw i j) p' hk
  have sz := fun p => @sow_zero p acts
  have sn := h.sn
  have hkd := fun p n i => @isKid_ne p n i
  have hkc := fun p n k i => @isKid_cons p n k i
  have pr := pre h hk
  have X := (exec_ext h hk he).1
  have fre := h.fre
  have root := h.root
  obtain ⟨hr, hrace, hcn, hz⟩ := pre2 h h2 h3 hk
  clear h h2 h3 hk
  generalize acts.set k (p' ++ r) = acts' at *
  obtain ⟨cnd, ivk, cal, bnd, ub, tn, dz, cc, cp, cq⟩ := h4
  exec_cases he
  all_goals (try (replace pr := pr.bg _ rfl))
  all_goals (try (replace pr := pr.lp _ _ rfl))
  all_goals (try (replace hr := hr _ _ rfl))
  all_goals (try (replace hcn := hcn _ _ rfl))
  all_goals (try (replace hrace := hrace _ _ _ _ _ _ rfl (by assumption)))
  all_goals (try (replace pr := pr.rs _ _ _ _ rfl _ (by assumption) rfl))
  all_goals simp only [sow, cnw, wl_cons, wl_nil, wl_append, sow_starts, sow_cancels, cnw_starts, cnw_cancels,
    Nat.add_zero, Nat.zero_add] at C V
  all_goals (try simp only [St.ev, St.box, St.kids, updP_apply, List.mem_append, List.mem_cons, List.not_mem_nil,
    or_false, reduceCtorEq, Ev.cond.injEq, Ev.done.injEq, Ev.bind.injEq, Ev.invoke.injEq, Ev.call.injEq,
    List.count_append, List.count_cons, List.count_nil, beq_iff_eq, Ev.cancel.injEq, List.cons.injEq, if_false,
    Nat.add_zero])
  all_goals clear ub cc cp cq hrace hcn hr C
  all_goals grind

theorem run_ivk (h : Inv s acts) (h2 : Inv2 s acts) (h3 : Inv3 s acts) (h4 : Inv4 s acts)
    (hk : acts[k]? = some (x :: r)) (he : exec s x b = .ok s' p') :
    ∀ p v, .invoke p v ∈ s'.log → 0 < ws (sow p) (acts.set k (p' ++ r)) ∨ s'.phase p = .done := by
  have V := fun i => ws_set (sow i) p' hk
  have C := fun i j => ws_set (cnw i j) p' hk
  have sz := fun p => @sow_zero p acts
  have sn := h.sn
  have hkd := fun p n i => @isKid_ne p n i
  have hkc := fun p n k i => @isKid_cons p n k i
  have pr := pre h hk
  have X := (exec_ext h hk he).1
  have fre := h.fre
  have root := h.root
  obtain ⟨hr, hrace, hcn, hz⟩ := pre2 h h2 h3 hk
  clear h h2 h3 hk
  generalize acts.set k (p' ++ r) = acts' at *
  obtain ⟨cnd, ivk, cal, bnd, ub, tn, dz, cc, cp, cq⟩ := h4
  exec_cases he
  all_goals (try (replace pr := pr.bg _ rfl))
  all_goals (try (replace pr := pr.lp _ _ rfl))
  all_goals (try (replace hr := hr _ _ rfl))
  all_goals (try (replace hcn := hcn _ _ rfl))
  all_goals (try (replace hrace := hrace _ _ _ _ _ _ rfl (by assumption)))
  all_goals (try (replace pr := pr.rs _ _ _ _ rfl _ (by assumption) rfl))
  all_goals simp only [sow, cnw, wl_cons, wl_nil, wl_append, sow_starts, sow_cancels, cnw_starts, cnw_cancels,
    Nat.add_zero, Nat.zero_add] at C V
  all_goals (try simp only [St.ev, St.box, St.kids, updP_apply, List.mem_append, List.mem_cons, List.not_mem_nil,
    or_false, reduceCtorEq, Ev.cond.injEq, Ev.done.injEq, Ev.bind.injEq, Ev.invoke.injEq, Ev.call.injEq,
    List.count_append, List.count_cons, List.count_nil, beq_iff_eq, Ev.cancel.injEq, List.cons.injEq, if_false,
    Nat.add_zero])
  all_goals clear ub cc cp cq hrace hcn hr C
  all_goals grind

theorem run_cal (h : Inv s acts) (h2 : Inv2 s acts) (h3 : Inv3 s acts) (h4 : Inv4 s acts)
    (hk : acts[k]? = some (x :: r)) (he : exec s x b = .ok s' p') :
    ∀ p w v, .call p w v ∈ s'.log → 0 < ws (sow p) (acts.set k (p' ++ r)) ∨ s'.phase p = .done := by
  have V := fun i => ws_set (sow i) p' hk
  have C := fun i j => ws_set (cnw i j) p' hk
  have sz := fun p => @sow_zero p acts
  have sn := h.sn
  have hkd := fun p n i => @isKid_ne p n i
  have hkc := fun p n k i => @isKid_cons p n k i
  have pr := pre h hk
  have X := (exec_ext h hk he).1
  have fre := h.fre
  have root := h.root
  obtain ⟨hr, hrace, hcn, hz⟩ := pre2 h h2 h3 hk
  clear h h2 h3 hk
  generalize acts.set k (p' ++ r) = acts' at *
  obtain ⟨cnd, ivk, cal, bnd, ub, tn, dz, cc, cp, cq⟩ := h4
  exec_cases he
  all_goals (try (replace pr := pr.bg _ rfl))
  all_goals (try (replace pr := pr.lp _ _ rfl))
  all_goals (try (replace hr := hr _ _ rfl))
  all_goals (try (replace hcn := hcn _ _ rfl))
  all_goals (try (replace hrace := hrace _ _ _ _ _ _ rfl (by assumption)))
  all_goals (try (replace pr := pr.rs _ _ _ _ rfl _ (by assumption) rfl))
  all_goals simp only [sow, cnw, wl_cons, wl_nil, wl_append, sow_starts, sow_cancels, cnw_starts, cnw_cancels,
    Nat.add_zero, Nat.zero_add] at C V
  all_goals (try simp only [St.ev, St.box, St.kids, updP_apply, List.mem_append, List.mem_cons, List.not_mem_nil,
    or_false, reduceCtorEq, Ev.cond.injEq, Ev.done.injEq, Ev.bind.injEq, Ev.invoke.injEq, Ev.call.injEq,
    List.count_append, List.count_cons, List.count_nil, beq_iff_eq, Ev.cancel.injEq, List.cons.injEq, if_false,
    Nat.add_zero])
  all_goals clear ub cc cp cq hrace hcn hr C
  all_goals grind

theorem run_bnd (h : Inv s acts) (h2 : Inv2 s acts) (h3 : Inv3 s acts) (h4 : Inv4 s acts)
    (hk : acts[k]? = some (x :: r)) (he : exec s x b = .ok s' p') :
    ∀ p v, .bind p v ∈ s'.log → 0 < s'.nx p := by
  have V := fun i => ws_set (sow i) p' hk
  have C := fun i j => ws_set (cnw i j) p' hk
  have sz := fun p => @sow_zero p acts
  have sn := h.sn
  have hkd := fun p n i => @isKid_ne p n i
  have hkc := fun p n k i => @isKid_cons p n k i
  have pr := pre h hk
  have X := (exec_ext h hk he).1
  have fre := h.fre
  have root := h.root
  obtain ⟨hr, hrace, hcn, hz⟩ := pre2 h h2 h3 hk
  clear h h2 h3 hk
  generalize acts.set k (p' ++ r) = acts' at *
  obtain ⟨cnd, ivk, cal, bnd, ub, tn, dz, cc, cp, cq⟩ := h4
  exec_cases he
  all_goals (try (replace pr := pr.bg _ rfl))
  all_goals (try (replace pr := pr.lp _ _ rfl))
  all_goals (try (replace hr := hr _ _ rfl))
  all_goals (try (replace hcn := hcn _ _ rfl))
  all_goals (try (replace hrace := hrace _ _ _ _ _ _ rfl (by assumption)))
  all_goals (try (replace pr := pr.rs _ _ _ _ rfl _ (by assumption) rfl))
  all_goals simp only [sow, cnw, wl_cons, wl_nil, wl_append, sow_starts, sow_cancels, cnw_starts, cnw_cancels,
    Nat.add_zero, Nat.zero_add] at C V
  all_goals (try simp only [St.ev, St.box, St.kids, updP_apply, List.mem_append, List.mem_cons, List.not_mem_nil,
    or_false, reduceCtorEq, Ev.cond.injEq, Ev.done.injEq, Ev.bind.injEq, Ev.invoke.injEq, Ev.call.injEq,
    List.count_append, List.count_cons, List.count_nil, beq_iff_eq, Ev.cancel.injEq, List.cons.injEq, if_false,
    Nat.add_zero])
  all_goals clear ub cc cp cq hrace hcn hr C
  all_goals grind

theorem run_ub (h : Inv s acts) (h2 : Inv2 s acts) (h3 : Inv3 s acts) (h4 : Inv4 s acts)
    (hk : acts[k]? = some (x :: r)) (he : exec s x b = .ok s' p') :
    ∀ p n f, s'.snd p = some (.race n f) → s'.ctr p ≤ n + 1 := by
  have V := fun i => ws_set (sow i) p' hk
  have C := fun i j => ws_set (cnw i j) p' hk
  have sz := fun p => @sow_zero p acts
  have sn := h.sn
  have hkd := fun p n i => @isKid_ne p n i
  have hkc := fun p n k i => @isKid_cons p n k i
  have pr := pre h hk
  have X := (exec_ext h hk he).1
  have fre := h.fre
  have root := h.root
  obtain ⟨hr, hrace, hcn, hz⟩ := pre2 h h2 h3 hk
  clear h h2 h3 hk
  generalize acts.set k (p' ++ r) = acts' at *
  obtain ⟨cnd, ivk, cal, bnd, ub, tn, dz, cc, cp, cq⟩ := h4
  exec_cases he
  all_goals (try (replace pr := pr.bg _ rfl))
  all_goals (try (replace pr := pr.lp _ _ rfl))
  all_goals (try (replace hr := hr _ _ rfl))
  all_goals (try (replace hcn := hcn _ _ rfl))
  all_goals (try (replace hrace := hrace _ _ _ _ _ _ rfl (by assumption)))
  all_goals (try (replace pr := pr.rs _ _ _ _ rfl _ (by assumption) rfl))
  all_goals simp only [sow, cnw, wl_cons, wl_nil, wl_append, sow_starts, sow_cancels, cnw_starts, cnw_cancels,
    Nat.add_zero, Nat.zero_add] at C V
  all_goals (try simp only [St.ev, St.box, St.kids, updP_apply, List.mem_append, List.mem_cons, List.not_mem_nil,
    or_false, reduceCtorEq, Ev.cond.injEq, Ev.done.injEq, Ev.bind.injEq, Ev.invoke.injEq, Ev.call.injEq,
    List.count_append, List.count_cons, List.count_nil, beq_iff_eq, Ev.cancel.injEq, List.cons.injEq, if_false,
    Nat.add_zero])
  all_goals clear cnd ivk cal bnd cc cp cq hrace hcn hr C V sz
  all_goals grind

theorem run_tn (h : Inv s acts) (h2 : Inv2 s acts) (h3 : Inv3 s acts) (h4 : Inv4 s acts)
    (hk : acts[k]? = some (x :: r)) (he : exec s x b = .ok s' p') :
    ∀ p, 0 < ws (trw p) (acts.set k (p' ++ r)) → 0 < s'.nx p := by
  have T := fun i => ws_set (trw i) p' hk
  have sn := h.sn
  have hkd := fun p n i => @isKid_ne p n i
  have hkc := fun p n k i => @isKid_cons p n k i
  have pr := pre h hk
  have X := (exec_ext h hk he).1
  have fre := h.fre
  have root := h.root
  obtain ⟨hr, hrace, hcn, hz⟩ := pre2 h h2 h3 hk
  clear h h2 h3 hk
  generalize acts.set k (p' ++ r) = acts' at *
  obtain ⟨cnd, ivk, cal, bnd, ub, tn, dz, cc, cp, cq⟩ := h4
  exec_cases he
  all_goals (try (replace pr := pr.bg _ rfl))
  all_goals (try (replace pr := pr.lp _ _ rfl))
  all_goals (try (replace hr := hr _ _ rfl))
  all_goals (try (replace hcn := hcn _ _ rfl))
  all_goals (try (replace hrace := hrace _ _ _ _ _ _ rfl (by assumption)))
  all_goals (try (replace pr := pr.rs _ _ _ _ rfl _ (by assumption) rfl))
  all_goals simp only [trw, wl_cons, wl_nil, wl_append, trw_starts, trw_cancels, Nat.add_zero, Nat.zero_add] at T
  all_goals (try simp only [St.ev, St.box, St.kids, updP_apply, List.mem_append, List.mem_cons, List.not_mem_nil,
    or_false, reduceCtorEq, Ev.cond.injEq, Ev.done.injEq, Ev.bind.injEq, Ev.invoke.injEq, Ev.call.injEq,
    List.count_append, List.count_cons, List.count_nil, beq_iff_eq, Ev.cancel.injEq, List.cons.injEq, if_false,
    Nat.add_zero])
  all_goals clear cnd ivk cal bnd cc cp cq hrace hcn hr ub
  all_goals grind

theorem run_dz (h : Inv s acts) (h2 : Inv2 s acts) (h3 : Inv3 s acts) (h4 : Inv4 s acts)
    (hk : acts[k]? = some (x :: r)) (he : exec s x b = .ok s' p') :
    ∀ p n f, s'.snd p = some (.race n f) → s'.phase p = .done → s'.ctr p = 0 := by
  have V := fun i => ws_set (sow i) p' hk
  have C := fun i j => ws_set (cnw i j) p' hk
  have sz := fun p => @sow_zero p acts
  have sn := h.sn
  have hkd := fun p n i => @isKid_ne p n i
  have hkc := fun p n k i => @isKid_cons p n k i
  have pr := pre h hk
  have X := (exec_ext h hk he).1
  have fre := h.fre
  have root := h.root
  obtain ⟨hr, hrace, hcn, hz⟩ := pre2 h h2 h3 hk
  clear h h2 h3 hk
  generalize acts.set k (p' ++ r) = acts' at *
  obtain ⟨cnd, ivk, cal, bnd, ub, tn, dz, cc, cp, cq⟩ := h4
  exec_cases he
  all_goals (try (replace hz := hz _ _ _ _ rfl))
  all_goals (try (replace pr := pr.rc _ _ _ _ rfl (by simp [*])))
  all_goals (try (replace pr := pr.bg _ rfl))
  all_goals (try (replace pr := pr.lp _ _ rfl))
  all_goals (try (replace hr := hr _ _ rfl))
  all_goals (try (replace hcn := hcn _ _ rfl))
  all_goals (try (replace hrace := hrace _ _ _ _ _ _ rfl (by assumption)))
  all_goals (try (replace pr := pr.rs _ _ _ _ rfl _ (by assumption) rfl))
  all_goals simp only [sow, cnw, wl_cons, wl_nil, wl_append, sow_starts, sow_cancels, cnw_starts, cnw_cancels,
    Nat.add_zero, Nat.zero_add] at C V
  all_goals (try simp only [St.ev, St.box, St.kids, updP_apply, List.mem_append, List.mem_cons, List.not_mem_nil,
    or_false, reduceCtorEq, Ev.cond.injEq, Ev.done.injEq, Ev.bind.injEq, Ev.invoke.injEq, Ev.call.injEq,
    List.count_append, List.count_cons, List.count_nil, beq_iff_eq, Ev.cancel.injEq, List.cons.injEq, if_false,
    Nat.add_zero])
  all_goals clear cnd ivk cal bnd cc cp cq hrace hcn hr C V sz
  all_goals grind

theorem run_cc (h : Inv s acts) (h2 : Inv2 s acts) (h3 : Inv3 s acts) (h4 : Inv4 s acts)
    (hk : acts[k]? = some (x :: r)) (he : exec s x b = .ok s' p') :
    ∀ p j, ws (cnw p j) (acts.set k (p' ++ r)) + s'.log.count (.cancel (j :: p)) ≤ 1 := by
  have V := fun i => ws_set (sow i) p' hk
  have C := fun i j => ws_set (cnw i j) p' hk
  have sz := fun p => @sow_zero p acts
  have sn := h.sn
  have hkd := fun p n i => @isKid_ne p n i
  have hkc := fun p n k i => @isKid_cons p n k i
  have pr := pre h hk
  have X := (exec_ext h hk he).1
  have fre := h.fre
  have root := h.root
  obtain ⟨hr, hrace, hcn, hz⟩ := pre2 h h2 h3 hk
  clear h h2 h3 hk
  generalize acts.set k (p' ++ r) = acts' at *
  obtain ⟨cnd, ivk, cal, bnd, ub, tn, dz, cc, cp, cq⟩ := h4
  exec_cases he
  all_goals (try (replace pr := pr.bg _ rfl))
  all_goals (try (replace pr := pr.lp _ _ rfl))
  all_goals (try (replace hr := hr _ _ rfl))
  all_goals (try (replace hcn := hcn _ _ rfl))
  all_goals (try (replace hrace := hrace _ _ _ _ _ _ rfl (by assumption)))
  all_goals (try (replace pr := pr.rs _ _ _ _ rfl _ (by assumption) rfl))
  all_goals simp only [sow, cnw, wl_cons, wl_nil, wl_append, sow_starts, sow_cancels, cnw_starts, cnw_cancels,
    Nat.add_zero, Nat.zero_add] at C V
  all_goals (try simp only [St.ev, St.box, St.kids, updP_apply, List.mem_append, List.mem_cons, List.not_mem_nil,
    or_false, reduceCtorEq, Ev.cond.injEq, Ev.done.injEq, Ev.bind.injEq, Ev.invoke.injEq, Ev.call.injEq,
    List.count_append, List.count_cons, List.count_nil, beq_iff_eq, Ev.cancel.injEq, List.cons.injEq, if_false,
    Nat.add_zero])
  all_goals clear cnd ivk cal bnd cq V sz
  all_goals grind

theorem run_cp (h : Inv s acts) (h2 : Inv2 s acts) (h3 : Inv3 s acts) (h4 : Inv4 s acts)
    (hk : acts[k]? = some (x :: r)) (he : exec s x b = .ok s' p') :
    ∀ p j, 0 < ws (cnw p j) (acts.set k (p' ++ r)) + s'.log.count (.cancel (j :: p)) → ∃ n f, s'.snd p = some (.race n f) ∧ j ≤ n ∧
    s'.nx p = n + 1 ∧ s'.ctr p ≤ n ∧ ∃ k v, k ≤ n ∧ k ≠ j ∧ .done (k :: p) v ∈ s'.log := by
  have V := fun i => ws_set (sow i) p' hk
  have C := fun i j => ws_set (cnw i j) p' hk
  have sz := fun p => @sow_zero p acts
  have sn := h.sn
  have hkd := fun p n i => @isKid_ne p n i
  have hkc := fun p n k i => @isKid_cons p n k i
  have pr := pre h hk
  have X := (exec_ext h hk he).1
  have fre := h.fre
  have root := h.root
  obtain ⟨hr, hrace, hcn, hz⟩ := pre2 h h2 h3 hk
  clear h h2 h3 hk
  generalize acts.set k (p' ++ r) = acts' at *
  obtain ⟨cnd, ivk, cal, bnd, ub, tn, dz, cc, cp, cq⟩ := h4
  exec_cases he
  all_goals (try (replace pr := pr.bg _ rfl))
  all_goals (try (replace pr := pr.lp _ _ rfl))
  all_goals (try (replace hr := hr _ _ rfl))
  all_goals (try (replace hcn := hcn _ _ rfl))
  all_goals (try (replace hrace := hrace _ _ _ _ _ _ rfl (by assumption)))
  all_goals (try (replace pr := pr.rs _ _ _ _ rfl _ (by assumption) rfl))
  all_goals simp only [sow, cnw, wl_cons, wl_nil, wl_append, sow_starts, sow_cancels, cnw_starts, cnw_cancels,
    Nat.add_zero, Nat.zero_add] at C V
  case h_11.isFalse.isTrue.isTrue | h_11.isFalse.isTrue.isFalse | h_11.isFalse.isFalse.isTrue | h_11.isFalse.isFalse.isFalse =>
    refine race_cp (by assumption) hrace.1 hr.1 (hrace.2 (by assumption)) (ub _ _ _ (by assumption)) (by assumption) (fun i j => ?_) cp
    have := C i j
    clear cp cq cnd ivk cal bnd V sz X hkd hkc fre root ub cc C hr hrace hcn sn pr
    grind
  all_goals refine keep_cp X ?_ ?_ ?_ cp
  all_goals (try simp only [St.ev, St.box, St.kids, updP_apply, List.mem_append, List.mem_cons, List.not_mem_nil,
    or_false, reduceCtorEq, Ev.cond.injEq, Ev.done.injEq, Ev.bind.injEq, Ev.invoke.injEq, Ev.call.injEq,
    List.count_append, List.count_cons, List.count_nil, beq_iff_eq, Ev.cancel.injEq, List.cons.injEq, if_false,
    Nat.add_zero])
  all_goals clear cnd ivk cal bnd V sz cc cp cq
  all_goals grind

theorem run_cq (h : Inv s acts) (h2 : Inv2 s acts) (h3 : Inv3 s acts) (h4 : Inv4 s acts)
    (hk : acts[k]? = some (x :: r)) (he : exec s x b = .ok s' p') :
    ∀ p n f, s'.snd p = some (.race n f) → s'.nx p = n + 1 → s'.ctr p ≤ n →
    ∃ m v, m ≤ n ∧ .done (m :: p) v ∈ s'.log ∧
      ∀ j, j ≤ n → j ≠ m → 0 < ws (cnw p j) (acts.set k (p' ++ r)) + s'.log.count (.cancel (j :: p)) := by
  have V := fun i => ws_set (sow i) p' hk
  have C := fun i j => ws_set (cnw i j) p' hk
  have sz := fun p => @sow_zero p acts
  have sn := h.sn
  have hkd := fun p n i => @isKid_ne p n i
  have hkc := fun p n k i => @isKid_cons p n k i
  have pr := pre h hk
  have X := (exec_ext h hk he).1
  have fre := h.fre
  have root := h.root
  obtain ⟨hr, hrace, hcn, hz⟩ := pre2 h h2 h3 hk
  clear h h2 h3 hk
  generalize acts.set k (p' ++ r) = acts' at *
  obtain ⟨cnd, ivk, cal, bnd, ub, tn, dz, cc, cp, cq⟩ := h4
  exec_cases he
  all_goals (try (replace pr := pr.bg _ rfl))
  all_goals (try (replace pr := pr.lp _ _ rfl))
  all_goals (try (replace hr := hr _ _ rfl))
  all_goals (try (replace hcn := hcn _ _ rfl))
  all_goals (try (replace hrace := hrace _ _ _ _ _ _ rfl (by assumption)))
  all_goals (try (replace pr := pr.rs _ _ _ _ rfl _ (by assumption) rfl))
  all_goals simp only [sow, cnw, wl_cons, wl_nil, wl_append, sow_starts, sow_cancels, cnw_starts, cnw_cancels,
    Nat.add_zero, Nat.zero_add] at C V
  case h_11.isFalse.isTrue.isTrue | h_11.isFalse.isTrue.isFalse | h_11.isFalse.isFalse.isTrue | h_11.isFalse.isFalse.isFalse =>
    refine race_cq (by assumption) hrace.1 hr.1 (ub _ _ _ (by assumption)) (fun i j => ?_) cq
    have := C i j
    clear cp cq cnd ivk cal bnd V sz X hkd hkc fre root ub cc C hr hrace hcn sn pr
    grind
  all_goals refine keep_cq ?_ ?_ ?_ cq
  all_goals (try simp only [St.ev, St.box, St.kids, updP_apply, List.mem_append, List.mem_cons, List.not_mem_nil,
    or_false, reduceCtorEq, Ev.cond.injEq, Ev.done.injEq, Ev.bind.injEq, Ev.invoke.injEq, Ev.call.injEq,
    List.count_append, List.count_cons, List.count_nil, beq_iff_eq, Ev.cancel.injEq, List.cons.injEq, if_false,
    Nat.add_zero])
  all_goals clear cnd ivk cal bnd V sz cc cp cq
  all_goals grind

theorem run_inv4 (h : Inv s acts) (h2 : Inv2 s acts) (h3 : Inv3 s acts) (h4 : Inv4 s acts)
    (hk : acts[k]? = some (x :: r)) (he : exec s x b = .ok s' p') : Inv4 s' (acts.set k (p' ++ r)) :=
  ⟨run_cnd h h2 h3 h4 hk he, run_ivk h h2 h3 h4 hk he, run_cal h h2 h3 h4 hk he, run_bnd h h2 h3 h4 hk he,
    run_ub h h2 h3 h4 hk he, run_tn h h2 h3 h4 hk he,
    run_dz h h2 h3 h4 hk he, run_cc h h2 h3 h4 hk he, run_cp h h2 h3 h4 hk he, run_cq h h2 h3 h4 hk he⟩

end

theorem env_inv4 {s s' : St} {acts : List (List Instr)} {a : Act} {p : List Instr}
    (h : Inv s acts) (h4 : Inv4 s acts) (he : env s acts a = some (s', p)) : Inv4 s' (acts ++ [p]) := by
  have sn := h.sn
  have fre := h.fre
  have root := h.root
  obtain ⟨cnd, ivk, cal, bnd, ub, tn, dz, cc, cp, cq⟩ := h4
  constructor
  case cp =>
    have X := (env_ext h he).1
    clear h
    env_cases he
    all_goals refine keep_cp X ?_ ?_ ?_ cp
    all_goals simp only [ws_append, ws_cons, ws_nil, cnw, wl_cons, wl_nil, Nat.add_zero, Nat.zero_add, updP_apply]
    all_goals grind
  case cq =>
    clear h
    env_cases he
    all_goals refine keep_cq ?_ ?_ ?_ cq
    all_goals simp only [ws_append, ws_cons, ws_nil, cnw, wl_cons, wl_nil, Nat.add_zero, Nat.zero_add, updP_apply]
    all_goals grind
  all_goals clear h
  all_goals env_cases he
  all_goals simp only [ws_append, ws_cons, ws_nil, sow, cnw, trw, wl_cons, wl_nil, Nat.add_zero, Nat.zero_add, updP_apply]
  all_goals grind

theorem init_inv4 : Inv4 init [] := by constructor <;> simp [init, ws_nil]

theorem reach_inv4 {c : Conf mach} (h : Reach mach init c) : Inv4 c.sh c.acts :=
  Reach.inv_with (M := mach) (P := fun s acts => Inv s acts ∧ Inv2 s acts ∧ Inv3 s acts) (Q := Inv4)
    (fun _ hc => ⟨reach_inv hc, reach_inv2 hc, reach_inv3 hc⟩) init_inv4
    (fun _ _ _ _ _ h _ h2 he => env_inv4 h.1 h2 he)
    (fun _ _ _ _ _ _ _ _ h _ h2 hk he => run_inv4 h.1 h.2.1 h.2.2 h2 hk he) h

theorem Hist.imp {ε : Type} {P Q : List ε → ε → Prop} (hpq : ∀ b e, P b e → Q b e) {l : List ε} (h : Hist P l) :
    Hist Q l :=
  fun l1 w l2 e => hpq _ _ (h l1 w l2 e)

/-- One step extends the history by an event that is justified. -/
theorem run_ok {s s' : St} {acts : List (List Instr)} {k : Nat} {x : Instr} {r p' : List Instr} {b : Bool}
    (h : Inv s acts) (h2 : Inv2 s acts) (h3 : Inv3 s acts) (h4 : Inv4 s acts)
    (hk : acts[k]? = some (x :: r)) (he : exec s x b = .ok s' p') :
    s'.log = s.log ∨ ∃ e, s'.log = s.log ++ [e] ∧ Ok s.snd s.log e := by
  obtain ⟨hr, hrace, hcn, hz⟩ := pre2 h h2 h3 hk
  have pr := pre h hk
  have sz := fun p => @sow_zero p acts
  have hsv : ∀ p v, x = .setv p v → ∃ S, s.snd p = some S ∧ DoneOk s.log p v S := by
    rintro p v rfl
    have := ws_pos (w := svw p v) hk
    simp only [svw, and_self, if_true] at this
    exact h3.sv p v this
  have hlo : ∀ p j, x = .loop p j → ∀ i, j = i + 1 → .cond p i true ∈ s.log ∧ ∃ v, .done (i :: p) v ∈ s.log := by
    rintro p j rfl i rfl
    have := ws_pos (w := lpw p (i + 1)) hk
    simp only [lpw, and_self, if_true] at this
    exact h3.lo p i this
  have hcc : ∀ p j, x = .cancel p j → .cancel (j :: p) ∉ s.log ∧ ∃ n f, s.snd p = some (.race n f) ∧ j ≤ n ∧
      ∃ k v, k ≤ n ∧ k ≠ j ∧ .done (k :: p) v ∈ s.log := by
    rintro p j rfl
    have := ws_pos (w := cnw p j) hk
    simp only [cnw, and_self, if_true] at this
    obtain ⟨n, f, h6, h7, _, _, h8⟩ := h4.cp p j (by omega)
    refine ⟨fun h9 => ?_, n, f, h6, h7, h8⟩
    have h9 := List.count_pos_iff.2 h9
    have := h4.cc p j
    omega
  have par := h.par
  have s1 := h2.s1
  have s2 := h2.s2
  have hal : ∀ p, alive s p = true → p ≠ [] → s.phase p ≠ .done := by
    intro p h1 h2
    cases p with
    | nil => exact absurd rfl h2
    | cons a p => simp [alive] at h1; exact h1.1
  have root := h.root
  have sn := h.sn
  obtain ⟨sv, lo, kd, fan⟩ := h3
  obtain ⟨cnd, ivk, cal, bnd, ub, tn, dz, cc, cp, cq⟩ := h4
  clear h h2 hk ub cc cp cq fan hrace hcn
  exec_cases he
  all_goals (try exact .inl rfl)
  all_goals refine .inr ⟨_, rfl, ?_⟩
  all_goals (try (replace pr := pr.bg _ rfl))
  all_goals (try (replace pr := pr.lp _ _ rfl))
  all_goals (try (replace hr := hr _ _ rfl))
  all_goals (try (have ks := kd _ _ (List.cons_ne_nil _ _) (fun e => nomatch hr.2.symm.trans e)))
  all_goals (try (replace pr := pr.rs _ _ _ _ rfl _ (by assumption) rfl))
  all_goals (try (replace hsv := hsv _ _ rfl))
  all_goals (try (replace hlo := hlo _ _ rfl))
  all_goals (try (replace hcc := hcc _ _ rfl))
  all_goals simp only [Ok]
  case h_1.isFalse.isTrue | h_1.isFalse.isFalse =>
    refine ⟨?_, ?_, ?_, .inr ⟨_, _, by assumption, by simp_all, hlo⟩⟩
    all_goals clear sv lo kd ivk cal bnd hlo hr hsv hcc par root sn
    all_goals grind
  case h_9.isFalse =>
    obtain ⟨h1, n, f, h2, h3, h4⟩ := hcc
    refine ⟨h1, _, _, n, f, rfl, h2, h3, fun u hu => ?_, h4⟩
    have h5 := s2 _ _ hu
    refine hal _ (by simp_all) (fun e => ?_) h5
    rw [e, root] at h5
    cases h5
  all_goals clear hlo hcc
  all_goals grind [KidOk]

/-- **The order of effects**: every event of every history is justified by the events before it. -/
theorem reach_hist {c : Conf mach} (h : Reach mach init c) : Hist (Ok c.sh.snd) c.sh.log :=
  Reach.inv_with (M := mach) (P := fun s acts => Inv s acts ∧ Inv2 s acts ∧ Inv3 s acts ∧ Inv4 s acts)
    (Q := fun s _ => Hist (Ok s.snd) s.log)
    (fun _ hc => ⟨reach_inv hc, reach_inv2 hc, reach_inv3 hc, reach_inv4 hc⟩) Hist.nil
    (fun _ _ _ _ _ h _ h2 he => by
      obtain ⟨h3, h4⟩ := env_ext h.1 he
      rw [h4]
      exact Hist.imp (fun _ _ => Ok.mono h3) h2)
    (fun s _ _ _ _ _ s' _ h _ h2 hk he => by
      have h3 := (exec_ext h.1 hk he).1
      have h2 : Hist (Ok s'.snd) s.log := Hist.imp (fun _ _ => Ok.mono h3) h2
      rcases run_ok h.1 h.2.1 h.2.2.1 h.2.2.2 hk he with h4 | ⟨e, h4, h5⟩
      · rw [h4]; exact h2
      · rw [h4, Hist.snoc]
        exact ⟨h2, h5.mono h3⟩) h

end Verif.Tree
