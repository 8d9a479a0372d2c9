import Verif.Promise.OwnerProof

/-! # Invariant of the promise object: actions of the user, and absence of faults -/

namespace Verif.Promise.Owner

theorem Wt.env (acts : List (List Instr)) (x : Instr) : Wt acts (acts ++ [[x]]) .freeF [.freeF, x] := by
  constructor <;> (try intro) <;> simp <;> omega

theorem ref_free {acts : List (List Instr)} {h : Hd}
    (ha : acts.all (fun a => a.all fun | .ref h' _ => decide (h' ≠ h) | _ => true) = true) : ws (wRef h) acts = 0 := by
  rcases Nat.eq_zero_or_pos (ws (wRef h) acts) with e | e
  · exact e
  obtain ⟨a, ham, x, hx, hw⟩ := exists_of_ws_pos e
  rw [List.all_eq_true] at ha
  have := ha a ham
  rw [List.all_eq_true] at this
  have := this x hx
  cases x <;> simp [wRef] at hw this
  rw [if_neg this] at hw; omega

set_option maxHeartbeats 2000000 in
theorem Inv.env {s s' : St} {acts : List (List Instr)} (h : Inv s acts) {a : Act} {p : List Instr}
    (he : env true s acts a = some (s', p)) : Inv s' (acts ++ [p]) := by
  have hT := h.one_tok
  have T := tok acts
  obtain ⟨tS, tD, tG, ex, exG, al, sc, wk, un, fp, en, kl, hv, hc, np, ic, ctr, fr, fin, op, one, outs, rf, log⟩ := h
  have hrf := @ref_free acts
  simp only [Owner.env] at he
  cases a with
  | drop x =>
    simp only at he
    split at he
    · rename_i hb
      obtain ⟨b1, b2, b3⟩ := hb
      replace b3 := hrf b3
      simp at he; obtain ⟨rfl, rfl⟩ := he
      obtain ⟨S, D, G, SC, Wk, Un, W', E, UF, Fr, FP, Fn, Op, Rf⟩ := Wt.env acts (.unrefF x)
      generalize acts ++ [[Instr.unrefF x]] = acts' at *
      clear hrf
      simp [wS, wD, wG, wSC, wWk, wUn, wW, wE, wUF, wFr, wFP, wFin, wOp, wRef] at S D G SC Wk Un W' E UF Fr FP Fn Op Rf
      have hl := List.length_erase_of_mem b1
      have hp := List.length_pos_of_mem b1
      have he : ∀ y ∈ s.own, y ≠ x → y ∈ s.own.erase x := fun y hy hn => (List.mem_erase_of_ne hn).2 hy
      constructor
      all_goals first | (simp only [S, D, G, SC, Wk, Un, W', E, UF, Fr, FP, Fn, Op, Rf]; assumption) | grind
    · simp at he
  | _ =>
    clear hrf
    simp only at he
    split at he
    · rename_i hb
      simp at he hb; obtain ⟨rfl, rfl⟩ := he
      obtain ⟨S, D, G, SC, Wk, Un, W', E, UF, Fr, FP, Fn, Op, Rf⟩ := Wt.env acts _
      generalize acts ++ _ = acts' at *
      simp [wS, wD, wG, wSC, wWk, wUn, wW, wE, wUF, wFr, wFP, wFin, wOp, wRef] at S D G SC Wk Un W' E UF Fr FP Fn Op Rf
      constructor
      all_goals first | (simp only [S, D, G, SC, Wk, Un, W', E, UF, Fr, FP, Fn, Op, Rf]; assumption) | grind
    · simp at he

theorem Inv.init : Inv .init [] := by
  constructor <;> simp [St.init]

theorem Inv.no_fault {s : St} {acts : List (List Instr)} (h : Inv s acts) {k : Nat} {x : Instr} {r : List Instr} (b : Bool)
    (hk : acts[k]? = some (x :: r)) : exec s x b ≠ .fault := by
  have hT := h.one_tok
  have T := tok acts
  have p1 := ws_pos (w := wS) hk
  have p2 := ws_pos (w := wD) hk
  have p3 := ws_pos (w := wG) hk
  have p4 := ws_pos (w := wSC) hk
  have p5 := ws_pos (w := wWk) hk
  have p6 := ws_pos (w := wUn) hk
  have p7 := ws_pos (w := wW) hk
  have p8 := ws_pos (w := wUF) hk
  have p9 := ws_pos (w := wFr) hk
  have p10 := ws_pos (w := wFP) hk
  have p11 := ws_pos (w := wFin) hk
  have p12 := fun i => ws_pos (w := wOp i) hk
  have p13 := fun i => ws_pos (w := wRef i) hk
  obtain ⟨tS, tD, tG, ex, exG, al, sc, wk, un, fp, en, kl, hv, hc, np, ic, ctr, fr, fin, op, one, outs, rf, log⟩ := h
  have hl : ∀ h ∈ s.own, 0 < s.own.length := fun _ hm => List.length_pos_of_mem hm
  have ho : ∀ i, 0 < s.out.countP (·.1 = i) → 0 < s.own.length := by
    intro i hi
    rw [List.countP_pos_iff] at hi
    obtain ⟨o, ho, -⟩ := hi
    exact hl _ (outs o ho)
  have hfr : 0 < ws wFr acts → s.ctr = 0 ∧ s.freed = false := by
    intro h0
    have := toNat_le s.freed
    cases hf : s.freed <;> rw [hf] at fr <;> grind
  cases x with
  | disR d | unrefP d | freeP d | disW d =>
    cases d <;>
    simp [wS, wD, wG, wSC, wWk, wUn, wW, wE, wUF, wFr, wFP, wFin, wOp, wRef] at p1 p2 p3 p4 p5 p6 p7 p8 p9 p10 p11 p12 p13 <;>
    simp only [exec] <;> grind
  | start i | fin i =>
    have p14 := p12 i
    have h1 := op i
    have h2 := ho i
    simp [wS, wD, wG, wSC, wWk, wUn, wW, wE, wUF, wFr, wFP, wFin, wOp, wRef] at p1 p2 p3 p4 p5 p6 p7 p8 p9 p10 p11 p12 p13 p14
    simp only [exec]; grind
  | ref h g =>
    have p14 := p13 h
    simp [wS, wD, wG, wSC, wWk, wUn, wW, wE, wUF, wFr, wFP, wFin, wOp, wRef] at p1 p2 p3 p4 p5 p6 p7 p8 p9 p10 p11 p12 p13 p14
    simp only [exec]; grind
  | _ =>
    simp [wS, wD, wG, wSC, wWk, wUn, wW, wE, wUF, wFr, wFP, wFin, wOp, wRef] at p1 p2 p3 p4 p5 p6 p7 p8 p9 p10 p11 p12 p13
    simp only [exec]; grind

theorem inv {c : Conf (mach true)} (hc : Reach (mach true) .init c) : Inv c.sh c.acts ∧ c.bad = false :=
  have h : ∀ {c : Conf (mach true)}, Reach (mach true) .init c → Inv c.sh c.acts := fun hc =>
    Reach.inv (P := fun s acts => Inv s acts) Inv.init (fun _ _ _ _ _ h he => h.env he)
      (fun _ _ _ _ _ b _ _ h hk he => h.run (b := b) hk he) hc
  ⟨h hc, Reach.no_fault (P := fun s acts => Inv s acts) (fun _ hc => h hc)
    (fun _ _ _ _ _ b h hk => h.no_fault b hk) hc⟩

end Verif.Promise.Owner
