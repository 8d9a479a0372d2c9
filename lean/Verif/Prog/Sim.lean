import Verif.Prog.Link

/-! # The two parts of an execution of a program -/

namespace Verif.Prog

open Verif.Resolver (DS RSt OpId EvId Lawful)
open Verif.Tree (Path Snd)
open Verif.Result (Id Body awaited completed Sent)
open Verif.Joint (Glue JSt JInstr TC)

variable {S : DS} {B : Body} {W : Wire S B} {d0 : S.D}

abbrev CC (B : Body) := Conf (Result.mach B)
abbrev QC (W : Wire S B) := Conf (Joint.mach W.G)

/-- The execution consists of executions `t` of the coroutines and `q` of expressions and library. -/
structure Parts (W : Wire S B) (d0 : S.D) (s : PSt S B) (acts : List (List (PInstr S))) (t : CC B) (q : QC W) : Prop where
  treach : Reach (Result.mach B) Result.init t
  qreach : Joint.JReach W.G d0 q
  tsh : t.sh = s.1
  qsh : q.sh = s.2
  qbad : q.bad = false
  stacks : ∃ T R, Splits acts T R ∧ Same t.acts T ∧ Same q.acts R
  linkA : LinkA W t.sh q.sh.1
  linkB : LinkB W t.sh q.sh.1 (fun z => Pending q.acts (.inl z))
  linkC : LinkC W t.sh.log

variable {s : PSt S B} {acts : List (List (PInstr S))} {t : CC B} {q : QC W}

theorem Parts.pending_left (h : Parts W d0 s acts t q) (x : Result.Instr) : Pending acts (.inl x) ↔ Pending t.acts x := by
  obtain ⟨T, R, h1, h2, h3⟩ := h.stacks
  rw [h1.mem_left, h2.pending]

theorem Parts.pending_right (h : Parts W d0 s acts t q) (x : JInstr S) : Pending acts (.inr x) ↔ Pending q.acts x := by
  obtain ⟨T, R, h1, h2, h3⟩ := h.stacks
  rw [h1.mem_right, h3.pending]

theorem Parts.rest (h : Parts W d0 s acts t q) (hq : ∀ a ∈ acts, a = []) : Quiescent t ∧ Quiescent q := by
  have h0 := not_pending_iff.2 hq
  exact ⟨not_pending_iff.1 (fun x hx => h0 _ ((h.pending_left x).2 hx)),
    not_pending_iff.1 (fun x hx => h0 _ ((h.pending_right x).2 hx))⟩

theorem mach_run {M : Mach} {c : Conf M} (hb : c.bad = false) {k : Nat} {x : M.ι} {l ps : List M.ι} {b : Bool} {s' : M.σ}
    (hk : c.acts[k]? = some (x :: l)) (he : M.exec c.sh x b = .ok s' ps) :
    M.step c (.run k b) = some ⟨s', c.acts.set k (ps ++ l), false⟩ := by
  simp only [Mach.step, hb, hk, he]; rfl

theorem mach_env {M : Mach} {c : Conf M} (hb : c.bad = false) {a : M.α} {ps : List M.ι} {s' : M.σ}
    (he : M.env c.sh c.acts a = some (s', ps)) : M.step c (.env a) = some ⟨s', c.acts ++ [ps], false⟩ := by
  simp only [Mach.step, hb, he]; rfl

theorem same_skip {ι : Type} {A R R' : List (List ι)} (h : Same A R) (hp : R'.Perm ([] :: R)) : Same A R' := by
  refine (h : Same _ _).trans (?_ : Same R R')
  unfold Same
  refine ((hp.filter _).trans ?_).symm
  simp

theorem same_snoc {ι : Type} {A R : List (List ι)} (h : Same A R) (p : List ι) : Same (A ++ [p]) (R ++ [p]) :=
  (h.add p).trans_perm (by
    have := (List.perm_append_comm (l₁ := [p]) (l₂ := R))
    simpa using this)

/-- The awaited expressions do not see a step of a coroutine that does not start one. -/
theorem linkA_co {t : Result.St B} {t' : Result.St B} {u : Tree.St} (h : LinkA W t u) {A : List (List Result.Instr)}
    (h1 : Result.Inv1 t A) {k : Nat} {x : Result.Instr} {l ps : List Result.Instr} (hk : A[k]? = some (x :: l)) {b : Bool}
    (he : Result.exec t x b = .ok t' ps)
    (hx : ∀ i, x = .awStart i → (awaited i t.log).getLast?.bind W.expr = none) : LinkA W t' u := by
  refine h.keep (fun n i k a hn => ?_) (fun n i k a hn _ => by rw [Result.exec_completed he]) (fun _ _ _ _ _ => rfl)
    (fun _ _ _ _ _ _ => Iff.rfl)
  rw [Result.exec_sent h1 hk he]
  constructor
  · rintro (h2 | ⟨h2, h3, h4⟩)
    · exact h2
    · exfalso
      have h5 := hx i h2
      have h6 : (awaited i t.log).getLast? = some a := by
        rw [List.getLast?_eq_getElem?, ← h4]; simpa using h3
      have h7 := (W.site_root _ _ _ _ hn).2
      rw [h6] at h5
      simp at h5
      rw [h5] at h7; cases h7
  · exact .inl

theorem down_none {t : Result.St B} {x : Result.Instr} (h : down W t x = none) :
    (∀ i, x = .awStart i → (awaited i t.log).getLast?.bind W.expr = none) ∧
    ∀ j, x = .setv j → W.leaf j = none ∨ t.obj j = none := by
  constructor
  · rintro i rfl
    simp only [down] at h
    split at h
    · rename_i a ha
      simp at h
      simp [ha, h]
    · rename_i ha; simp [ha]
  · rintro j rfl
    simp only [down] at h
    split at h
    · cases h
    · rename_i hn
      cases h1 : W.leaf j with
      | none => exact .inl rfl
      | some p =>
        cases h2 : t.obj j with
        | none => exact .inr rfl
        | some v => exact absurd h2 (hn _ _ h1)

theorem down_some {t : Result.St B} {x : Result.Instr} {a : Joint.Act S} (h : down W t x = some a) :
    (∃ i c E, x = .awStart i ∧ (awaited i t.log).getLast? = some c ∧ W.expr c = some E ∧
      a = .start (W.root i ((awaited i t.log).length - 1) c) E) ∨
    (∃ j p v, x = .setv j ∧ W.leaf j = some p ∧ t.obj j = some v ∧ a = .finish p v) := by
  cases x <;> simp only [down, reduceCtorEq] at h
  · left
    rename_i i
    split at h
    · rename_i c hc
      simp at h
      obtain ⟨E, h1, h2⟩ := h
      exact ⟨i, c, E, rfl, hc, h1, h2.symm⟩
    · cases h
  · right
    rename_i j
    split at h
    · rename_i p v h1 h2
      cases h
      exact ⟨j, p, v, rfl, h1, h2, rfl⟩
    · cases h

/-- Steps of the coroutines. -/
theorem parts_left (L : Lawful S d0) (h : Parts W d0 s acts t q) {k : Nat} {x : Result.Instr} {l : List (PInstr S)}
    (hk : acts[k]? = some (.inl x :: l)) (b : Bool) :
    ∃ s' ps, exec W s (.inl x) b = .ok s' ps ∧ ∃ t' q', Parts W d0 s' (acts.set k (ps ++ l)) t' q' := by
  obtain ⟨T, R, hS, hT, hR⟩ := h.stacks
  obtain ⟨a, T0, hp, hnew⟩ := hS.top_left hk
  obtain ⟨j0, hj0, _⟩ := (hT.trans_perm hp).run []
  have hbad := Result.no_fault h.treach
  have h1 := Result.reach_inv1 h.treach
  have h2 := Result.reach_inv2 h.treach
  have hex : ∃ t1 ps1, Result.exec t.sh x b = .ok t1 ps1 := by
    cases he : Result.exec t.sh x b with
    | ok r1 qs => exact ⟨r1, qs, rfl⟩
    | block =>
      exfalso
      revert he
      cases x <;> simp only [Result.exec] <;> (repeat' split) <;> simp
    | fault => exact absurd he (Result.not_fault h1 hj0 b)
  obtain ⟨t1, ps1, he⟩ := hex
  have he' : Result.exec s.1 x b = .ok t1 ps1 := by rw [← h.tsh]; exact he
  obtain ⟨j, hj, hSame⟩ := (hT.trans_perm hp).run ps1
  have step := mach_run (M := Result.mach B) hbad hj he
  have ht1 : Reach (Result.mach B) Result.init _ := .step h.treach step
  obtain ⟨lg, hlg, hlg1, hlg2⟩ := Result.exec_events he
  have hmem : ∀ e ∈ t.sh.log, e ∈ t1.log := fun e he => by rw [hlg]; simp [he]
  have hC : LinkC W t1.log := by rw [hlg]; exact h.linkC.add hlg1
  obtain ⟨c, hv⟩ := view L h.qreach
  cases hd : down W t.sh x with
  | none =>
    obtain ⟨hd1, hd2⟩ := down_none hd
    obtain ⟨T', R', h3, h4, h5⟩ := hnew [] ps1
    refine ⟨(t1, s.2), ps1.map .inl, ?_, _, q, ht1, h.qreach, rfl, h.qsh, h.qbad,
      ⟨T', R', by simpa using h3, hSame.trans_perm h4.symm, same_skip hR h5⟩, linkA_co h.linkA h1 hj he hd1, ?_, hC⟩
    · rw [h.tsh] at hd
      simp only [exec, he', hd]
    · refine h.linkB.co (fun i p hi => ?_) hmem (fun _ h => h)
      rw [Result.exec_phase he]
      split
      · rename_i e
        subst e
        rcases hd2 i rfl with h6 | h6
        · rw [h6] at hi; cases hi
        · obtain ⟨_, v, hv'⟩ := Result.setv_obj h1 hj
          rw [h6] at hv'; cases hv'
      · rfl
  | some y =>
    have hd' := hd
    rw [h.tsh] at hd'
    rcases down_some hd with ⟨i, c0, E, rfl, hc0, hE, rfl⟩ | ⟨i, p, v, rfl, hlf, hob, rfl⟩
    · -- an expression is started
      obtain ⟨htag, _, _, hpos⟩ := Result.connected h1 h2 hj
      have hget : (awaited i t.sh.log)[(awaited i t.sh.log).length - 1]? = some c0 := by
        rw [← List.getLast?_eq_getElem?]; exact hc0
      have hsite := W.root_site i ((awaited i t.sh.log).length - 1) c0 (by rw [hE]; rfl)
      generalize hn : W.root i ((awaited i t.sh.log).length - 1) c0 = n at *
      have hnone : q.sh.1.snd [n] = none := by
        cases hs : q.sh.1.snd [n] with
        | none => rfl
        | some E' =>
          exfalso
          obtain ⟨⟨_, h7⟩, _⟩ := (h.linkA.a1 n _ _ _ hsite E').1 hs
          exact h7 ⟨htag, by omega⟩
      have hph : q.sh.1.phase [n] = .none := by
        rw [← hv.sh] at hnone ⊢
        exact ((Tree.reach_inv hv.reach).sn [n]).1 hnone
      obtain ⟨u1, het, hul, hus⟩ := Tree.enter_ok hph E
      have hej : Joint.env W.G q.sh [] (.start n E) = some ((u1, q.sh.2), [.inl (.start [n])]) := by
        simp only [Joint.env, het]; rfl
      have hej2 : Joint.env W.G q.sh q.acts (.start n E) = some ((u1, q.sh.2), [.inl (.start [n])]) := hej
      have step2 := mach_env (M := Joint.mach W.G) (a := .start n E) h.qbad hej2
      obtain ⟨T', R', h3, h4, h5⟩ := hnew [.inl (.start [n])] ps1
      refine ⟨(t1, (u1, q.sh.2)), .inr (.inl (.start [n])) :: ps1.map .inl, ?_, _, _, ht1, .step h.qreach step2, rfl, rfl, rfl,
        ⟨T', R', by simpa using h3, hSame.trans_perm h4.symm, (hR.add _).trans_perm h5.symm⟩, ?_, ?_, hC⟩
      · rw [h.qsh] at hej
        simp only [exec, he', hd', hej, h.qsh]
        rfl
      · refine ⟨fun m i' k' a' hm E' => ?_, fun m i' k' a' hm v => ?_⟩
        · simp only [hus]
          rw [Result.exec_sent h1 hj he]
          by_cases e : m = n
          · subst e
            rw [hsite] at hm; cases hm
            rw [if_pos rfl, hE]
            have : (awaited i t.sh.log).length - 1 + 1 = (awaited i t.sh.log).length := by omega
            simp [hget, this]
          · rw [if_neg e, h.linkA.a1 m i' k' a' hm E']
            constructor
            · rintro ⟨h6, h7⟩; exact ⟨.inl h6, h7⟩
            · rintro ⟨h6 | ⟨h6, h8, h9⟩, h7⟩
              · exact ⟨h6, h7⟩
              · exfalso
                cases h6
                have hk' : k' = (awaited i t.sh.log).length - 1 := by omega
                subst hk'
                rw [hget] at h8; cases h8
                have := (W.site_root _ _ _ _ hm).1
                exact e (this.symm.trans hn)
        · simp only [hul]
          rw [h.linkA.a2 m i' k' a' hm v, Result.exec_sent h1 hj he, Result.exec_completed he]
          constructor
          · rintro ⟨h6, h7⟩; exact ⟨.inl h6, h7⟩
          · rintro ⟨h6 | ⟨h6, h8, h9⟩, h7⟩
            · exact ⟨h6, h7⟩
            · exfalso
              cases h6
              have := h2.aw i
              rw [htag] at this
              simp at this
              rw [List.getElem?_eq_none (by omega)] at h7
              cases h7
      · have hB2 := h.linkB
        rw [← hv.sh] at hB2
        have het2 := het
        rw [← hv.sh] at het2
        have hB : LinkB W t.sh u1 (fun z => Pending (q.acts ++ [[.inl (.start [n])]]) (.inl z)) := by
          refine hB2.enter hv.pend hv.reach het2 (fun z hz => ?_)
          rcases pending_append hz with h6 | h6
          · left; simpa using h6
          · exact .inr h6
        refine hB.co (fun i' p hi => ?_) hmem (fun _ h => h)
        rw [Result.exec_phase he, if_neg (by simp)]
    · -- a coroutine that is a leaf returns
      obtain ⟨b0, hco⟩ := W.leaf_co _ _ hlf
      obtain ⟨hph, _⟩ := Result.setv_obj h1 hj
      have hrd := (h.linkB.b2 p i b0 hco).2 hph
      have hop := W.co_user _ _ hco
      obtain ⟨hb1, hb2, hb3, hb4⟩ := h.linkB.b1 p i b0 hco (by rw [hph]; simp)
      have het : Tree.env q.sh.1 [] (.finish p v) = some ({ q.sh.1 with rdy := Tree.updP q.sh.1.rdy p false }, [.setv p v]) := by
        simp only [Tree.env, hrd, if_true]
      have hej : Joint.env W.G q.sh [] (.finish p v) =
          some (({ q.sh.1 with rdy := Tree.updP q.sh.1.rdy p false }, q.sh.2), [.inl (.setv p v)]) := by
        simp only [Joint.env, het, hop]; rfl
      have hej2 : Joint.env W.G q.sh q.acts (.finish p v) =
          some (({ q.sh.1 with rdy := Tree.updP q.sh.1.rdy p false }, q.sh.2), [.inl (.setv p v)]) := hej
      have step2 := mach_env (M := Joint.mach W.G) (a := .finish p v) h.qbad hej2
      obtain ⟨T', R', h3, h4, h5⟩ := hnew [.inl (.setv p v)] ps1
      refine ⟨(t1, ({ q.sh.1 with rdy := Tree.updP q.sh.1.rdy p false }, q.sh.2)), .inr (.inl (.setv p v)) :: ps1.map .inl, ?_,
        _, _, ht1, .step h.qreach step2, rfl, rfl, rfl,
        ⟨T', R', by simpa using h3, hSame.trans_perm h4.symm, (hR.add _).trans_perm h5.symm⟩, ?_, ?_, hC⟩
      · rw [h.qsh] at hej
        simp only [exec, he', hd', hej, h.qsh]
        rfl
      · exact (linkA_co h.linkA h1 hj he (by rintro _ ⟨⟩)).keep (fun _ _ _ _ _ => Iff.rfl) (fun _ _ _ _ _ _ => rfl)
          (fun _ _ _ _ _ => rfl) (fun _ _ _ _ _ _ => Iff.rfl)
      · refine h.linkB.done het hco (fun z hz => ?_) (fun i' => ?_) hmem ?_ hb4 ⟨hb1, hb2, hb3⟩
        · rcases pending_append hz with h6 | h6
          · left; simpa using h6
          · exact .inr h6
        · rw [Result.exec_phase he]
          simp [eq_comm]
        · simp only [hlg, List.mem_append]
          exact .inr ((hlg2 i v).2 ⟨rfl, hob⟩)

theorem up_none {q : JSt S} {x : JInstr S} (h : up W q x = none) :
    (∀ p, x = .inl (.begin p) → q.1.snd p = some .leaf → W.co p = none) ∧
    ∀ n v, x = .inl (.setv [n] v) → W.site n = none := by
  constructor
  · rintro p rfl hs
    simp only [up, hs] at h
    simpa using h
  · rintro n v rfl
    simp only [up] at h
    simpa using h

theorem up_some {q : JSt S} {x : JInstr S} {a : Result.Act B} (h : up W q x = some a) :
    (∃ p j b, x = .inl (.begin p) ∧ q.1.snd p = some .leaf ∧ W.co p = some (j, b) ∧ a = .start j b) ∨
    (∃ n v i k c, x = .inl (.setv [n] v) ∧ W.site n = some (i, k, c) ∧ a = .complete i v) := by
  unfold up at h
  split at h
  · left
    rename_i p
    split at h
    · rename_i hs
      simp at h
      obtain ⟨j, b, h1, h2⟩ := h
      exact ⟨p, j, b, rfl, hs, h1, h2.symm⟩
    · cases h
  · right
    rename_i n v
    simp at h
    obtain ⟨i, ⟨k, c, h1⟩, h2⟩ := h
    exact ⟨n, v, i, k, c, rfl, h1, h2.symm⟩
  · cases h

/-- The awaited expressions after a step of the algorithms that completes none of them. -/
theorem linkA_tree {t : Result.St B} {c : TC} {u' : Tree.St} (h : LinkA W t c.sh) (hc : Tree.TReach c) {k : Nat}
    {y : Tree.Instr} {l ps : List Tree.Instr} (hk : c.acts[k]? = some (y :: l)) {b : Bool}
    (he : Tree.exec c.sh y b = .ok u' ps) (hy : ∀ n v, y = .setv [n] v → W.site n = none) : LinkA W t u' := by
  have hext := Tree.exec_ext (Tree.reach_inv hc) hk he
  have hlog := Tree.exec_log he
  refine h.keep (fun _ _ _ _ _ => Iff.rfl) (fun _ _ _ _ _ _ => rfl)
    (fun n _ _ _ _ => Tree.exec_root (Tree.reach_inv hc) hk he n) (fun n i k a hn v => ⟨fun h1 => ?_, fun h1 => ?_⟩)
  · rcases hlog.2.1 _ _ h1 with h2 | h2
    · exact h2
    · rw [hy n v h2] at hn; cases hn
  · obtain ⟨_, l', hl'⟩ := hext
    rw [hl']; simp [h1]

/-- Steps of expressions and library. -/
theorem parts_right (L : Lawful S d0) (h : Parts W d0 s acts t q) {k : Nat} {x : JInstr S} {l : List (PInstr S)}
    (hk : acts[k]? = some (.inr x :: l)) (b : Bool) :
    (∃ s' ps, exec W s (.inr x) b = .ok s' ps ∧ ∃ t' q', Parts W d0 s' (acts.set k (ps ++ l)) t' q') ∨
    (exec W s (.inr x) b = .block ∧ Joint.exec W.G s.2 x b = .block) ∨
    (exec W s (.inr x) b = .fault ∧ ∃ (j : Nat) (l' : List (JInstr S)), q.acts[j]? = some (x :: l') ∧
      Joint.exec W.G q.sh x b = .fault) := by
  obtain ⟨T, R, hS, hT, hR⟩ := h.stacks
  obtain ⟨a, R0, hp, hnew⟩ := hS.top_right hk
  have hbad := Result.no_fault h.treach
  have h1 := Result.reach_inv1 h.treach
  have h2 := Result.reach_inv2 h.treach
  cases he : Joint.exec W.G q.sh x b with
  | block =>
    right; left
    have he' := he
    rw [h.qsh] at he'
    exact ⟨by simp only [exec, he'], he'⟩
  | fault =>
    right; right
    obtain ⟨j, hj, _⟩ := (hR.trans_perm hp).run []
    have he' := he
    rw [h.qsh] at he'
    exact ⟨by simp only [exec, he'], j, a, hj, rfl⟩
  | ok q1 qs =>
  left
  have he' : Joint.exec W.G s.2 x b = .ok q1 qs := by rw [← h.qsh]; exact he
  obtain ⟨j, hj, hSame⟩ := (hR.trans_perm hp).run qs
  have step := mach_run (M := Joint.mach W.G) h.qbad hj he
  have hq1 : Joint.JReach W.G d0 ⟨q1, q.acts.set j (qs ++ a), false⟩ := .step h.qreach step
  obtain ⟨c, hv⟩ := view L h.qreach
  obtain ⟨c', hv'⟩ := view L hq1
  have hB2 := h.linkB
  rw [← hv.sh] at hB2
  have hA2 := h.linkA
  rw [← hv.sh] at hA2
  have hnewP : ∀ z : Tree.Instr, Pending (q.acts.set j (qs ++ a)) (.inl z) → .inl z ∈ qs ∨ Pending q.acts (.inl z) :=
    fun z hz => pending_set hj hz
  cases hu : up W q.sh x with
  | none =>
    obtain ⟨hu1, hu2⟩ := up_none hu
    obtain ⟨T', R', h3, h4, h5⟩ := hnew [] qs
    have hAB : LinkA W t.sh q1.1 ∧ LinkB W t.sh q1.1 (fun z => Pending (q.acts.set j (qs ++ a)) (.inl z)) := by
      rcases joint_exec he with ⟨y, ps, rfl, hy1, hy2⟩ | ⟨y, rfl, ⟨hy1, hy2⟩ | ⟨p, v, i, hy1, hy2, hy3⟩⟩
      · obtain ⟨j', l', hj'⟩ := hv.top _ _ _ hj
        rw [← hv.sh] at hy1
        refine ⟨linkA_tree hA2 hv.reach hj' hy1 (fun n v e => hu2 n v (by rw [e])), ?_⟩
        refine hB2.exec hv.pend hv.reach hj' hy1 (fun z hz => ?_) (fun p e hs => hu1 p (by rw [e]) (by rw [← hv.sh]; exact hs))
        rcases hnewP z hz with h6 | h6
        · exact .inl ((hy2 z).1 h6)
        · exact .inr h6
      · rw [hy1]
        refine ⟨h.linkA, h.linkB.co (fun _ _ _ => rfl) (fun _ h => h) (fun z hz => ?_)⟩
        rcases hnewP z hz with h6 | h6
        · exact absurd h6 (hy2 z)
        · exact h6
      · have hcn : W.co p = none := by
          cases hcp : W.co p with
          | none => rfl
          | some x =>
            have := W.co_user _ _ hcp
            obtain ⟨_, _, h6⟩ := W.G.leaf_op _ _ hy1
            rw [this] at h6; cases h6
        obtain ⟨_, hf, _⟩ := Joint.tree_finish hy2
        refine ⟨?_, h.linkB.other hy2 hcn (fun z hz => ?_)⟩
        · rw [hf]
          exact h.linkA.keep (fun _ _ _ _ _ => Iff.rfl) (fun _ _ _ _ _ _ => rfl) (fun _ _ _ _ _ => rfl) (fun _ _ _ _ _ _ => Iff.rfl)
        · rcases hnewP z hz with h6 | h6
          · left; simpa using (hy3 z).1 h6
          · exact .inr h6
    refine ⟨(s.1, q1), qs.map .inr, ?_, t, _, h.treach, hq1, h.tsh, rfl, rfl,
      ⟨T', R', by simpa using h3, same_skip hT h5, hSame.trans_perm h4.symm⟩, hAB.1, hAB.2, h.linkC⟩
    rw [h.qsh] at hu
    simp only [exec, he', hu]
  | some y =>
    have hu' := hu
    rw [h.qsh] at hu'
    rcases up_some hu with ⟨p, i, b0, rfl, hs, hco, rfl⟩ | ⟨n, v, i, k0, c0, rfl, hn, rfl⟩
    · -- a leaf that is a coroutine is started
      obtain ⟨y, ps, hy0, hy1, hy2⟩ | ⟨y, hy0, _⟩ := joint_exec he
      rotate_left
      · cases hy0
      cases hy0
      obtain ⟨j', l', hj'⟩ := hv.top _ _ _ hj
      rw [← hv.sh] at hy1 hs
      have hfr : t.sh.phase i = .fresh := by
        cases hph : t.sh.phase i with
        | fresh => rfl
        | _ =>
          exfalso
          exact (h.linkB.b1 p i b0 hco (by rw [hph]; simp)).2.2.1 (pending_top hj)
      have hej : ∃ t1, Result.env t.sh [] (.start i b0) = some (t1, [.link i, .exStart i]) := by
        simp only [Result.env, hfr, if_true]
        exact ⟨_, rfl⟩
      obtain ⟨t1, hej⟩ := hej
      obtain ⟨_, hlg, hph, hsent, _⟩ := Result.env_start h1 h2 hej
      have hej2 : Result.env t.sh t.acts (.start i b0) = some (t1, [.link i, .exStart i]) := hej
      have step2 := mach_env (M := Result.mach B) (a := .start i b0) hbad hej2
      obtain ⟨T', R', h3, h4, h5⟩ := hnew [.link i, .exStart i] qs
      refine ⟨(t1, q1), .inl (.link i) :: .inl (.exStart i) :: qs.map .inr, ?_, _, _, .step h.treach step2, hq1, rfl, rfl, rfl,
        ⟨T', R', by simpa using h3, (hT.add _).trans_perm h5.symm, hSame.trans_perm h4.symm⟩, ?_, ?_, ?_⟩
      · rw [h.tsh] at hej
        simp only [exec, he', hu', hej]
        rfl
      · exact (linkA_tree hA2 hv.reach hj' hy1 (by rintro _ _ ⟨⟩)).keep (fun _ _ _ _ _ => hsent _ _ _)
          (fun n i' k a hn _ => by simp only [hlg, Result.completed_snoc, List.append_nil]) (fun _ _ _ _ _ => rfl)
          (fun _ _ _ _ _ _ => Iff.rfl)
      · have e1 : q1.1 = c'.sh := hv'.sh.symm
        rw [e1] at hy1
        simp only [e1]
        refine hB2.start hv.pend hv'.pend hv.reach hv'.reach hj' hy1 (fun z hz => ?_) hs hco hph hlg
        rcases hnewP z hz with h6 | h6
        · exact .inl ((hy2 z).1 h6)
        · exact .inr h6
      · rw [hlg]
        rintro l1 e l2 hl j b rfl i' k' a' hpar
        rcases List.append_eq_append_iff.1 hl with ⟨m, rfl, h7⟩ | ⟨m, hm, h7⟩
        · -- the new event
          have : m = [] ∧ j = i := by
            cases m with
            | nil => simp at h7; exact ⟨rfl, h7.1.1.symm⟩
            | cons x m => simp at h7
          obtain ⟨rfl, rfl⟩ := this
          obtain ⟨n', hn1, hn2⟩ := Tree.root_exists hv.reach hs
          have : W.site n' = some (i', k', a') := by
            simp only [parent, W.co_leaf _ _ _ hco, Option.bind_some, hn1] at hpar
            exact hpar
          obtain ⟨E, hE⟩ := Option.ne_none_iff_exists'.1 hn2
          obtain ⟨⟨h8, _⟩, _⟩ := (hA2.a1 n' _ _ _ this E).1 hE
          have h9 : a' ∈ awaited i' t.sh.log := List.mem_of_getElem? h8
          simp only [awaited, List.mem_filterMap] at h9
          obtain ⟨ev, h10, h11⟩ := h9
          have h12 : t.sh.phase i' ≠ .fresh := by
            have := h2.evs ev h10
            cases ev <;> simp at h11
            rw [← h11.1]; exact this
          obtain ⟨s0, h13⟩ := h2.sta i' h12
          exact ⟨s0, by simpa using h13⟩
        · cases m with
          | nil =>
            simp at h7 hm
            obtain ⟨⟨rfl, rfl⟩, _⟩ := h7
            subst hm
            obtain ⟨n', hn1, hn2⟩ := Tree.root_exists hv.reach hs
            have : W.site n' = some (i', k', a') := by
              simp only [parent, W.co_leaf _ _ _ hco, Option.bind_some, hn1] at hpar
              exact hpar
            obtain ⟨E, hE⟩ := Option.ne_none_iff_exists'.1 hn2
            obtain ⟨⟨h8, _⟩, _⟩ := (hA2.a1 n' _ _ _ this E).1 hE
            have h9 : a' ∈ awaited i' t.sh.log := List.mem_of_getElem? h8
            simp only [awaited, List.mem_filterMap] at h9
            obtain ⟨ev, h10, h11⟩ := h9
            have h12 : t.sh.phase i' ≠ .fresh := by
              have := h2.evs ev h10
              cases ev <;> simp at h11
              rw [← h11.1]; exact this
            exact h2.sta i' h12
          | cons x m =>
            simp at h7
            obtain ⟨rfl, _⟩ := h7
            exact h.linkC l1 _ m hm j b rfl i' k' a' hpar
    · -- an awaited expression completes
      obtain ⟨y, ps, hy0, hy1, hy2⟩ | ⟨y, hy0, _⟩ := joint_exec he
      rotate_left
      · cases hy0
      cases hy0
      obtain ⟨j', l', hj'⟩ := hv.top _ _ _ hj
      rw [← hv.sh] at hy1
      have hcp : c.sh.phase [n] = .started := by
        have hw := ws_pos (w := Tree.svw [n] v) hj'
        simp only [Tree.svw, and_self, if_true] at hw
        exact (Tree.reach_inv2 hv.reach).sv [n] v hw
      have hnd : ∀ w, .done [n] w ∉ c.sh.log := fun w hw => by
        have := (Tree.reach_inv2 hv.reach).s2 [n] w hw
        rw [hcp] at this; cases this
      obtain ⟨E, hE⟩ : ∃ E, c.sh.snd [n] = some E := by
        cases hs : c.sh.snd [n] with
        | some E => exact ⟨E, rfl⟩
        | none =>
          have := ((Tree.reach_inv hv.reach).sn [n]).1 hs
          rw [hcp] at this; cases this
      obtain ⟨hsn, hex⟩ := (hA2.a1 n i k0 c0 hn E).1 hE
      have hlt : k0 < (awaited i t.sh.log).length := by
        rcases Nat.lt_or_ge k0 (awaited i t.sh.log).length with h6 | h6
        · exact h6
        · have := hsn.1; rw [List.getElem?_eq_none h6] at this; cases this
      have hge : (completed i t.sh.log).length ≤ k0 := by
        rcases Nat.lt_or_ge k0 (completed i t.sh.log).length with h6 | h6
        · exact absurd ((hA2.a2 n i k0 c0 hn _).2 ⟨hsn, List.getElem?_eq_getElem h6⟩) (hnd _)
        · exact h6
      have haw := h2.aw i
      have htag : Result.tag (t.sh.frame i) = 4 ∧ k0 = (completed i t.sh.log).length := by
        split at haw
        · rename_i h6
          refine ⟨?_, by omega⟩
          rcases h6 with h6 | h6
          · exact absurd ⟨h6, by omega⟩ hsn.2
          · exact h6
        · omega
      obtain ⟨t1, pse, hej⟩ := Result.env_complete_ok htag.1 v
      obtain ⟨_, hlg, hph, hsent, rfl⟩ := Result.env_complete h2 hej
      have hej2 : Result.env t.sh t.acts (.complete i v) = some (t1, [.emplace i v]) := hej
      have step2 := mach_env (M := Result.mach B) (a := .complete i v) hbad hej2
      obtain ⟨T', R', h3, h4, h5⟩ := hnew [.emplace i v] qs
      refine ⟨(t1, q1), .inl (.emplace i v) :: qs.map .inr, ?_, _, _, .step h.treach step2, hq1, rfl, rfl, rfl,
        ⟨T', R', by simpa using h3, (hT.add _).trans_perm h5.symm, hSame.trans_perm h4.symm⟩, ?_, ?_, ?_⟩
      · rw [h.tsh] at hej
        simp only [exec, he', hu', hej]
        rfl
      · have hext := Tree.exec_ext (Tree.reach_inv hv.reach) hj' hy1
        have hlog := Tree.exec_log hy1
        have hin : .done [n] v ∈ q1.1.log := by
          simp only [Tree.exec] at hy1
          split at hy1
          · cases hy1
          · simp at hy1; rw [← hy1.1]; simp
        refine ⟨fun m i' k' a' hm E' => ?_, fun m i' k' a' hm w => ?_⟩
        · rw [Tree.exec_root (Tree.reach_inv hv.reach) hj' hy1 m, hsent]
          exact hA2.a1 m i' k' a' hm E'
        · rw [hsent]
          simp only [hlg, Result.completed_snoc]
          constructor
          · intro hw
            rcases hlog.2.1 _ _ hw with h6 | h6
            · obtain ⟨h7, h8⟩ := (hA2.a2 m i' k' a' hm w).1 h6
              refine ⟨h7, ?_⟩
              rw [List.getElem?_append_left]
              · exact h8
              · rcases Nat.lt_or_ge k' (completed i' t.sh.log).length with h9 | h9
                · exact h9
                · rw [List.getElem?_eq_none h9] at h8; cases h8
            · cases h6
              rw [hn] at hm; cases hm
              refine ⟨hsn, ?_⟩
              rw [if_pos rfl, List.getElem?_append_right (by omega), ← htag.2]
              simp
          · rintro ⟨h7, h8⟩
            rcases Nat.lt_or_ge k' (completed i' t.sh.log).length with h9 | h9
            · rw [List.getElem?_append_left h9] at h8
              have := (hA2.a2 m i' k' a' hm w).2 ⟨h7, h8⟩
              obtain ⟨_, lx, hlx⟩ := hext
              rw [hlx]; simp [this]
            · rw [List.getElem?_append_right h9] at h8
              by_cases e : i = i'
              · subst e
                rw [if_pos rfl] at h8
                have h10 : k' = k0 := by
                  rcases Nat.eq_zero_or_pos (k' - (completed i t.sh.log).length) with h11 | h11
                  · omega
                  · rw [List.getElem?_eq_none (by simp; omega)] at h8; cases h8
                subst h10
                have h12 : a' = c0 := by
                  have := h7.1.symm.trans hsn.1
                  exact Option.some.inj this
                subst h12
                have h13 : m = n := by
                  rw [← (W.site_root _ _ _ _ hm).1, ← (W.site_root _ _ _ _ hn).1]
                subst h13
                have h14 : w = v := by
                  rw [htag.2] at h8
                  simpa using h8.symm
                subst h14
                exact hin
              · rw [if_neg e] at h8
                simp at h8
      · have hB3 : LinkB W t.sh q1.1 (fun z => Pending (q.acts.set j (qs ++ a)) (.inl z)) := by
          refine hB2.exec hv.pend hv.reach hj' hy1 (fun z hz => ?_) (by rintro p ⟨⟩)
          rcases hnewP z hz with h6 | h6
          · exact .inl ((hy2 z).1 h6)
          · exact .inr h6
        exact hB3.co (fun _ _ _ => by rw [hph]) (fun e he => by rw [hlg]; simp [he]) (fun _ h => h)
      · rw [hlg]
        exact h.linkC.add (by simp)

/-! ## What the user does -/

theorem pending_lib {acts : List (List (PInstr S))} (x : JInstr S) : Pending (lib acts) x ↔ Pending acts (.inr x) := by
  simp only [Pending, lib, List.mem_map]
  constructor
  · rintro ⟨a, ⟨b, hb, rfl⟩, hx⟩
    obtain ⟨y, hy, h⟩ := List.mem_filterMap.1 hx
    cases y with
    | inl y => cases h
    | inr y => cases h; exact ⟨b, hb, hy⟩
  · rintro ⟨b, hb, hx⟩
    exact ⟨_, ⟨b, hb, rfl⟩, List.mem_filterMap.2 ⟨_, hx, rfl⟩⟩

theorem joint_env_congr {G : Glue S} {s : JSt S} {A A' : List (List (JInstr S))} (h : ∀ x, Pending A x ↔ Pending A' x)
    (a : Joint.Act S) : Joint.env G s A a = Joint.env G s A' a := by
  cases a with
  | start n E => rfl
  | finish p v => rfl
  | user a =>
    simp only [Joint.env]
    rw [Joint.env_congr (A := Joint.lib A) (B := Joint.lib A') (fun x => by rw [Joint.pending_lib, Joint.pending_lib, h])]

theorem parts_env (L : Lawful S d0) (h : Parts W d0 s acts t q) {a : Act S B} {s' : PSt S B} {ps : List (PInstr S)}
    (he : env W s acts a = some (s', ps)) : ∃ t' q', Parts W d0 s' (acts ++ [ps]) t' q' := by
  obtain ⟨T, R, hS, hT, hR⟩ := h.stacks
  have hbad := Result.no_fault h.treach
  have h1 := Result.reach_inv1 h.treach
  have h2 := Result.reach_inv2 h.treach
  have hleft : ∀ qs : List Result.Instr, Splits (acts ++ [qs.map .inl]) (T ++ [qs]) R := fun qs => by
    have := hS.snoc (Split.left qs (.nil (κ := JInstr S)))
    simpa using this
  have hright : ∀ qs : List (JInstr S), Splits (acts ++ [qs.map .inr]) T (R ++ [qs]) := fun qs => by
    have := hS.snoc (Split.right qs (.nil (ι := Result.Instr)))
    simpa using this
  cases a with
  | start i b =>
    simp only [env] at he
    split at he
    · cases he
    rename_i hl
    split at he
    · cases he
    rename_i t1 ps1 he1
    cases he
    rw [← h.tsh] at he1
    obtain ⟨_, hlg, hph, hsent, rfl⟩ := Result.env_start h1 h2 he1
    have he2 : Result.env t.sh t.acts (.start i b) = some (t1, [.link i, .exStart i]) := he1
    have step := mach_env (M := Result.mach B) (a := .start i b) hbad he2
    refine ⟨_, q, .step h.treach step, h.qreach, rfl, h.qsh, h.qbad, ⟨_, R, hleft _, same_snoc hT _, hR⟩, ?_, ?_, ?_⟩
    · exact h.linkA.keep (fun _ _ _ _ _ => hsent _ _ _)
        (fun n i' k a hn _ => by simp only [hlg, Result.completed_snoc, List.append_nil]) (fun _ _ _ _ _ => rfl)
        (fun _ _ _ _ _ _ => Iff.rfl)
    · refine h.linkB.co (fun j p hj => ?_) (fun e he => by rw [hlg]; simp [he]) (fun _ h => h)
      simp only [hph]
      rw [upd_ne]
      rintro rfl
      rw [hj] at hl; exact hl rfl
    · rw [hlg]
      rintro l1 e l2 hl' j b' rfl i' k' a' hpar
      rcases List.append_eq_append_iff.1 hl' with ⟨m, rfl, h7⟩ | ⟨m, hm, h7⟩
      · exfalso
        have hji : j = i := by
          cases m with
          | nil => simp at h7; exact h7.1.1.symm
          | cons x m => simp at h7
        subst hji
        simp only [parent] at hpar
        cases hlj : W.leaf j with
        | none => rw [hlj] at hpar; simp at hpar
        | some p => rw [hlj] at hl; exact hl rfl
      · cases m with
        | nil =>
          exfalso
          simp at h7
          obtain ⟨⟨rfl, rfl⟩, _⟩ := h7
          simp only [parent] at hpar
          cases hlj : W.leaf j with
          | none => rw [hlj] at hpar; simp at hpar
          | some p => rw [hlj] at hl; exact hl rfl
        | cons x m =>
          simp at h7
          obtain ⟨rfl, _⟩ := h7
          exact h.linkC l1 _ m hm j b' rfl i' k' a' hpar
  | complete i v =>
    simp only [env] at he
    split at he
    · cases he
    rename_i hx
    split at he
    · cases he
    rename_i t1 ps1 he1
    cases he
    rw [← h.tsh] at he1 hx
    obtain ⟨htag, hlg, hph, hsent, rfl⟩ := Result.env_complete h2 he1
    have he2 : Result.env t.sh t.acts (.complete i v) = some (t1, [.emplace i v]) := he1
    have step := mach_env (M := Result.mach B) (a := .complete i v) hbad he2
    have haw := h2.aw i
    rw [htag] at haw
    simp at haw
    refine ⟨_, q, .step h.treach step, h.qreach, rfl, h.qsh, h.qbad, ⟨_, R, hleft _, same_snoc hT _, hR⟩, ?_, ?_, ?_⟩
    · refine h.linkA.keep (fun _ _ _ _ _ => hsent _ _ _) (fun n i' k a hn hse => ?_) (fun _ _ _ _ _ => rfl)
        (fun _ _ _ _ _ _ => Iff.rfl)
      simp only [hlg, Result.completed_snoc]
      by_cases e : i = i'
      · subst e
        rw [if_pos rfl]
        have hlt : k < (awaited i t.sh.log).length := by
          rcases Nat.lt_or_ge k (awaited i t.sh.log).length with h6 | h6
          · exact h6
          · have := hse.1; rw [List.getElem?_eq_none h6] at this; cases this
        have hne : k + 1 ≠ (awaited i t.sh.log).length := by
          intro hk
          have h6 : (awaited i t.sh.log).getLast? = some a := by
            rw [List.getLast?_eq_getElem?, ← hk]; simpa using hse.1
          rw [h6] at hx
          exact hx (W.site_root _ _ _ _ hn).2
        rw [List.getElem?_append_left (by omega)]
      · rw [if_neg e, List.append_nil]
    · exact h.linkB.co (fun _ _ _ => by rw [hph]) (fun e he => by rw [hlg]; simp [he]) (fun _ h => h)
    · rw [hlg]
      exact h.linkC.add (by simp)
  | code a =>
    simp only [env] at he
    split at he
    case isFalse => cases he
    rename_i hu
    split at he
    · cases he
    rename_i q1 qs he1
    cases he
    have he2 : Joint.env W.G q.sh q.acts a = some (q1, qs) := by
      rw [h.qsh, ← he1]
      exact joint_env_congr (fun x => by rw [pending_lib, h.pending_right]) a
    have step := mach_env (M := Joint.mach W.G) (a := a) h.qbad he2
    obtain ⟨c, hv⟩ := view L h.qreach
    have hB2 := h.linkB
    rw [← hv.sh] at hB2
    have hnewP : ∀ z : Tree.Instr, Pending (q.acts ++ [qs]) (.inl z) → .inl z ∈ qs ∨ Pending q.acts (.inl z) :=
      fun z hz => pending_append hz
    suffices hs : LinkA W t.sh q1.1 ∧ LinkB W t.sh q1.1 (fun z => Pending (q.acts ++ [qs]) (.inl z)) from
      ⟨t, _, h.treach, .step h.qreach step, h.tsh, rfl, rfl, ⟨T, _, hright _, hT, same_snoc hR _⟩, hs.1, hs.2, h.linkC⟩
    cases a with
    | start n E =>
      simp only [Joint.env] at he2
      split at he2
      · cases he2
      rename_i u1 ps1 he3
      cases he2
      have hn : W.site n = none := by simpa [userOk] using hu
      have hph : q.sh.1.phase [n] = .none := by
        simp only [Tree.env] at he3
        split at he3
        · assumption
        · cases he3
      obtain ⟨u2, he4, hul, hus⟩ := Tree.enter_ok hph E
      rw [he4] at he3
      cases he3
      constructor
      · refine h.linkA.keep (fun _ _ _ _ _ => Iff.rfl) (fun _ _ _ _ _ _ => rfl) (fun m i k a hm => ?_) (fun m i k a hm v => by rw [hul])
        have e : m ≠ n := by rintro rfl; rw [hn] at hm; cases hm
        rw [hus, if_neg e]
      · rw [← hv.sh] at he4
        refine hB2.enter hv.pend hv.reach he4 (fun z hz => ?_)
        rcases hnewP z hz with h6 | h6
        · left; simpa using h6
        · exact .inr h6
    | finish p v =>
      simp only [Joint.env] at he2
      split at he2
      · cases he2
      split at he2
      · cases he2
      rename_i u1 ps1 he3
      cases he2
      have hn : W.co p = none := by simpa [userOk] using hu
      refine ⟨?_, h.linkB.other he3 hn (fun z hz => ?_)⟩
      · obtain ⟨_, rfl, _⟩ := Joint.tree_finish he3
        exact h.linkA.keep (fun _ _ _ _ _ => Iff.rfl) (fun _ _ _ _ _ _ => rfl) (fun _ _ _ _ _ => rfl) (fun _ _ _ _ _ _ => Iff.rfl)
      · rcases hnewP z hz with h6 | h6
        · left; simpa using h6
        · exact .inr h6
    | user a =>
      simp only [Joint.env] at he2
      split at he2
      case isFalse => cases he2
      split at he2
      · cases he2
      cases he2
      refine ⟨h.linkA, h.linkB.co (fun _ _ _ => rfl) (fun _ h => h) (fun z hz => ?_)⟩
      rcases hnewP z hz with h6 | h6
      · simp at h6
      · exact h6

theorem parts_init : Parts W d0 (init d0) [] ⟨Result.init, [], false⟩ ⟨Joint.init d0, [], false⟩ := by
  refine ⟨.init, .init, rfl, rfl, rfl, ⟨[], [], .nil, .refl _, .refl _⟩, ⟨?_, ?_⟩, ⟨?_, ?_, ?_⟩, ?_⟩
  · intro n i k a _ E
    simp [Joint.init, Tree.init, Sent, Result.init, awaited]
  · intro n i k a _ E
    simp [Joint.init, Tree.init, Sent, Result.init, awaited]
  · intro p j b _ h; simp [Result.init] at h
  · intro p j b _; simp [Result.init, Joint.init, Tree.init]
  · intro p j b _ h; simp [Joint.init, Tree.init] at h
  · intro l1 e l2 h; simp [Result.init] at h

/-- Every execution of a program consists of an execution of its coroutines and an execution of expressions and library. A fault
is a fault of the latter. -/
theorem parts (L : Lawful S d0) {c : Conf (mach W)} (hc : PReach W d0 c) :
    (∃ t q, Parts W d0 c.sh c.acts t q) ∧
    (c.bad = true → ∃ q, Joint.JReach W.G d0 q ∧ q.sh = c.sh.2 ∧ q.bad = true) := by
  induction hc with
  | init => exact ⟨⟨_, _, parts_init⟩, by intro h; cases h⟩
  | @step c c' lb _ hs ih =>
    obtain ⟨⟨t, q, hP⟩, _⟩ := ih
    cases lb with
    | env a =>
      simp only [Mach.step] at hs
      split at hs
      · cases hs
      · split at hs
        · rename_i s' p he
          cases hs
          exact ⟨parts_env L hP he, by intro h; cases h⟩
        · cases hs
    | run k b =>
      simp only [Mach.step] at hs
      split at hs
      · cases hs
      · split at hs
        · rename_i x l hk
          cases x with
          | inl x =>
            obtain ⟨s', ps, he, h1⟩ := parts_left L hP hk b
            split at hs
            · rename_i s2 p2 he2
              rw [he] at he2
              cases he2
              cases hs
              exact ⟨h1, by intro h; cases h⟩
            · rename_i he2; rw [he] at he2; cases he2
            · rename_i he2; rw [he] at he2; cases he2
          | inr x =>
            rcases parts_right L hP hk b with ⟨s', ps, he, h1⟩ | ⟨he, _⟩ | ⟨he, j, l', hj, hf⟩
            · rw [he] at hs
              cases hs
              exact ⟨h1, by intro h; cases h⟩
            · rw [he] at hs; cases hs
            · rw [he] at hs
              cases hs
              refine ⟨⟨t, q, hP⟩, fun _ => ⟨⟨q.sh, q.acts, true⟩, .step (l := .run j b) hP.qreach ?_, hP.qsh, rfl⟩⟩
              simp only [Mach.step, hP.qbad, hj, hf]; rfl
        · cases hs

end Verif.Prog
