import Verif.Compose.Joint

/-! # The two parts of a joint execution -/

namespace Verif.Joint

open Verif.Resolver (DS RSt OpId EvId completions cancelled Lawful)
open Verif.Tree (Path Snd)

variable {S : DS}

theorem pending_lib {acts : List (List (JInstr S))} (x : Resolver.Instr S) :
    Pending (lib acts) x ↔ Pending acts (.inr x) := by
  simp only [Pending, lib, List.mem_map]
  constructor
  · rintro ⟨a, ⟨b, hb, rfl⟩, hx⟩
    obtain ⟨y, hy, h⟩ := List.mem_filterMap.1 hx
    cases y with
    | inl y => cases h
    | inr y => cases h; exact ⟨b, hb, hy⟩
  · rintro ⟨b, hb, hx⟩
    exact ⟨_, ⟨b, hb, rfl⟩, List.mem_filterMap.2 ⟨_, hx, rfl⟩⟩

theorem resetOk_congr {s : RSt S} {A B : List (List (Resolver.Instr S))} (h : ∀ x, Pending A x ↔ Pending B x) (e : EvId) :
    Resolver.resetOk s A e = Resolver.resetOk s B e := by
  unfold Resolver.resetOk
  congr 1
  rw [Bool.eq_iff_iff]
  simp only [List.all_eq_true]
  constructor
  · intro h1 b hb x hx
    obtain ⟨a, ha, hx'⟩ := (h x).2 ⟨b, hb, hx⟩
    exact h1 a ha x hx'
  · intro h1 b hb x hx
    obtain ⟨a, ha, hx'⟩ := (h x).1 ⟨b, hb, hx⟩
    exact h1 a ha x hx'

theorem env_congr {s : RSt S} {A B : List (List (Resolver.Instr S))} (h : ∀ x, Pending A x ↔ Pending B x)
    (a : Resolver.Act S) : Resolver.env s A a = Resolver.env s B a := by
  cases a <;> simp only [Resolver.env]
  rw [resetOk_congr h]

/-- `c` consists of executions `t` of the algorithms and `r` of the library. -/
structure Parts (G : Glue S) (d0 : S.D) (s : JSt S) (acts : List (List (JInstr S))) (t : TC) (r : RC S) : Prop where
  treach : Tree.TReach t
  rreach : Reach (Resolver.mach S) (RSt.init d0) r
  tsh : t.sh = s.1
  rsh : r.sh = s.2
  tbad : t.bad = false
  stacks : ∃ T R, Splits acts T R ∧ Same t.acts T ∧ Same r.acts R
  link0 : Link0 G t r
  link1 : Link1 G t r

theorem Parts.pending_left {G : Glue S} {d0 : S.D} {s : JSt S} {acts : List (List (JInstr S))} {t : TC} {r : RC S}
    (h : Parts G d0 s acts t r) (x : Tree.Instr) : Pending acts (.inl x) ↔ Pending t.acts x := by
  obtain ⟨T, R, h1, h2, h3⟩ := h.stacks
  rw [h1.mem_left, h2.pending]

theorem Parts.pending_right {G : Glue S} {d0 : S.D} {s : JSt S} {acts : List (List (JInstr S))} {t : TC} {r : RC S}
    (h : Parts G d0 s acts t r) (x : Resolver.Instr S) : Pending acts (.inr x) ↔ Pending r.acts x := by
  obtain ⟨T, R, h1, h2, h3⟩ := h.stacks
  rw [h1.mem_right, h3.pending]

theorem Parts.rest {G : Glue S} {d0 : S.D} {s : JSt S} {acts : List (List (JInstr S))} {t : TC} {r : RC S}
    (h : Parts G d0 s acts t r) (hq : ∀ a ∈ acts, a = []) : Quiescent t ∧ Quiescent r := by
  have h0 := not_pending_iff.2 hq
  exact ⟨not_pending_iff.1 (fun x hx => h0 _ ((h.pending_left x).2 hx)),
    not_pending_iff.1 (fun x hx => h0 _ ((h.pending_right x).2 hx))⟩

theorem tree_step {t : TC} (hb : t.bad = false) {k : Nat} {x : Tree.Instr} {l ps : List Tree.Instr} {b : Bool} {s' : Tree.St}
    (hk : t.acts[k]? = some (x :: l)) (he : Tree.exec t.sh x b = .ok s' ps) :
    Tree.mach.step t (.run k b) = some ⟨s', t.acts.set k (ps ++ l), false⟩ := by
  simp only [Mach.step, hb, hk, he]; rfl

theorem res_step {r : RC S} (hb : r.bad = false) {k : Nat} {x : Resolver.Instr S} {l ps : List (Resolver.Instr S)} {b : Bool}
    {s' : RSt S} (hk : r.acts[k]? = some (x :: l)) (he : Resolver.exec r.sh x b = .ok s' ps) :
    (Resolver.mach S).step r (.run k b) = some ⟨s', r.acts.set k (ps ++ l), false⟩ := by
  simp only [Mach.step, hb, hk, he]; rfl

theorem tree_env {t : TC} (hb : t.bad = false) {a : Tree.Act} {ps : List Tree.Instr} {s' : Tree.St}
    (he : Tree.env t.sh t.acts a = some (s', ps)) :
    Tree.mach.step t (.env a) = some ⟨s', t.acts ++ [ps], false⟩ := by
  simp only [Mach.step, hb, he]; rfl

theorem res_env {r : RC S} (hb : r.bad = false) {a : Resolver.Act S} {ps : List (Resolver.Instr S)} {s' : RSt S}
    (he : Resolver.env r.sh r.acts a = some (s', ps)) :
    (Resolver.mach S).step r (.env a) = some ⟨s', r.acts ++ [ps], false⟩ := by
  simp only [Mach.step, hb, he]; rfl

theorem zero_of_not_started {d0 : S.D} (L : Lawful S d0) {r : RC S} (hr : Reach (Resolver.mach S) (RSt.init d0) r) {i : OpId}
    (h : r.sh.started i = false) : completions i r.sh.log = 0 := by
  apply Classical.byContradiction
  intro hn
  obtain ⟨ct, p, hb⟩ := Resolver.begin_of_done L hr (Nat.pos_of_ne_zero hn)
  obtain ⟨ph, _, hC⟩ := Resolver.reach_inv L hr
  exact hC.gl.g5 i h ct p hb

theorem link1_pend {G : Glue S} {t : TC} {r : RC S} (hl : Link1 G t r) {s' : RSt S} {acts' : List (List (Resolver.Instr S))}
    {bb : Bool} (hreq : ∀ p, r.sh.req (G.ev p) = true → s'.req (G.ev p) = true)
    (hp : ∀ e, Pending r.acts (.cancel e) → Pending acts' (.cancel e) ∨ s'.req e = true) : Link1 G t ⟨s', acts', bb⟩ := by
  intro q hq
  rcases hl q hq with h | h
  · exact hp _ h
  · exact .inr (hreq _ h)

theorem pending_keep {ι : Type} {acts : List (List ι)} {k : Nat} {x y : ι} {l ps : List ι} (hk : acts[k]? = some (x :: l))
    (hy : Pending acts y) (hne : y ≠ x) : Pending (acts.set k (ps ++ l)) y := by
  obtain ⟨a, ha, hm⟩ := hy
  obtain ⟨j, hj, e⟩ := List.getElem_of_mem ha
  by_cases h : j = k
  · subst h
    rw [List.getElem?_eq_getElem hj, e] at hk
    cases hk
    refine ⟨ps ++ l, List.mem_of_getElem? (i := j) (by simp [hj]), ?_⟩
    rcases List.mem_cons.1 hm with h1 | h1
    · exact absurd h1 hne
    · simp [h1]
  · exact ⟨a, List.mem_of_getElem? (i := j) (by rw [List.getElem?_set_ne (Ne.symm h), List.getElem?_eq_getElem hj, e]), hm⟩

theorem pending_new {ι : Type} {acts : List (List ι)} {p : List ι} {y : ι} (hy : Pending acts y) : Pending (acts ++ [p]) y := by
  obtain ⟨a, ha, hm⟩ := hy
  exact ⟨a, by simp [ha], hm⟩

variable {G : Glue S} {d0 : S.D}

theorem down_start {t : Tree.St} {x : Tree.Instr} {i : OpId} {ct : Option EvId} {a : S.P}
    (h : down G t x = some (.start i ct a)) : ∃ p, x = .begin p ∧ t.snd p = some .leaf ∧ G.op p = some (i, ct, a) := by
  cases x <;> simp only [down, reduceCtorEq, Option.some.injEq] at h
  rename_i p
  split at h
  · rename_i hs
    simp only [Option.map_eq_some_iff] at h
    obtain ⟨⟨j, ct', a'⟩, h1, h2⟩ := h
    simp at h2
    obtain ⟨rfl, rfl, rfl⟩ := h2
    exact ⟨p, rfl, hs, h1⟩
  · cases h

theorem down_cancel {t : Tree.St} {x : Tree.Instr} {e : EvId} (h : down G t x = some (.cancel e)) :
    ∃ p j, x = .cancel p j ∧ e = G.ev (j :: p) := by
  cases x <;> simp only [down, reduceCtorEq, Option.some.injEq] at h
  · split at h
    · simp at h
    · cases h
  · simp at h
    exact ⟨_, _, rfl, h.symm⟩

theorem down_none {t : Tree.St} {x : Tree.Instr} (h : down G t x = none) :
    (∀ p, x = .begin p → t.snd p = some .leaf → G.op p = none) ∧ ∀ p j, x ≠ .cancel p j := by
  constructor
  · rintro p rfl hs
    simp only [down, hs, Option.map_eq_none_iff] at h
    exact h
  · rintro p j rfl
    simp [down] at h

/-- Steps of the algorithms. -/
theorem parts_left {s : JSt S} {acts : List (List (JInstr S))} {t : TC} {r : RC S} (L : Lawful S d0)
    (h : Parts G d0 s acts t r) {k : Nat} {x : Tree.Instr} {l : List (JInstr S)} (hk : acts[k]? = some (.inl x :: l)) (b : Bool) :
    (∀ s' ps, exec G s (.inl x) b = .ok s' ps → ∃ t' r', Parts G d0 s' (acts.set k (ps ++ l)) t' r') ∧
    (exec G s (.inl x) b = .fault → ∃ (j : Nat) (l' : List Tree.Instr), t.acts[j]? = some (x :: l') ∧ Tree.exec t.sh x b = .fault) := by
  obtain ⟨T, R, hS, hT, hR⟩ := h.stacks
  obtain ⟨a, T0, hp, hnew⟩ := hS.top_left hk
  have hrun0 := fun ps => (hT.trans_perm hp).run ps
  obtain ⟨j, hj, _⟩ := hrun0 []
  have hbad := Resolver.bad_false L h.rreach
  -- with the position of the call fixed
  have hrun : ∀ ps, Same (t.acts.set j (ps ++ a)) ((ps ++ a) :: T0) := by
    intro ps
    obtain ⟨j', hj', hs'⟩ := hrun0 ps
    have e : ∀ {i : Nat}, t.acts[i]? = some (x :: a) → (t.acts.set i (ps ++ a)).Perm
        ((ps ++ a) :: t.acts.erase (x :: a)) := by
      intro i hi
      have hi2 : i < t.acts.length := by
        rcases Nat.lt_or_ge i t.acts.length with h | h
        · exact h
        · rw [List.getElem?_eq_none h] at hi; cases hi
      have h1 : (t.acts.set i (ps ++ a)) = t.acts.take i ++ (ps ++ a) :: t.acts.drop (i + 1) := by
        rw [List.set_eq_take_append_cons_drop, if_pos hi2]
      have h2 : t.acts = t.acts.take i ++ (x :: a) :: t.acts.drop (i + 1) := by
        rw [List.getElem?_eq_getElem hi2] at hi
        rw [← Option.some.inj hi, List.getElem_cons_drop, List.take_append_drop]
      rw [h1]
      refine List.perm_middle.trans (List.Perm.cons _ ?_)
      have h3 : ((x :: a) :: (t.acts.take i ++ t.acts.drop (i + 1))).Perm t.acts := by
        conv => rhs; rw [h2]
        exact List.perm_middle.symm
      have h4 := h3.erase (x :: a)
      simpa using h4
    exact ((e hj).trans (e hj').symm).filter _ |>.trans hs'
  constructor
  · intro s' ps he
    simp only [exec] at he
    split at he
    · cases he
    · cases he
    rename_i t1 ps1 he1
    rw [← h.tsh] at he1
    have step := tree_step h.tbad hj he1
    have ht1 : Tree.TReach _ := .step h.treach step
    have hlog := Tree.exec_log he1
    split at he
    · -- no call
      rename_i hd
      rw [← h.tsh] at hd
      obtain ⟨hd1, hd2⟩ := down_none hd
      cases he
      obtain ⟨T', R', h1, h2, h3⟩ := hnew [] ps1
      refine ⟨_, r, ht1, h.rreach, rfl, h.rsh, rfl, ⟨T', R', by simpa using h1, (hrun ps1).trans_perm h2.symm, ?_⟩,
        link0_tree h.treach h.link0 hj he1 hd1, ?_⟩
      · refine (hR : Same _ _).trans (?_ : Same R R')
        unfold Same
        refine ((h3.filter _).trans ?_).symm
        simp
      · intro q hq
        rcases hlog.2.2 q hq with h4 | ⟨p, i, _, h4⟩
        · exact h.link1 q h4
        · exact absurd h4 (hd2 p i)
    · -- `cancel()`
      rename_i e hd
      rw [← h.tsh] at hd
      obtain ⟨p, i, rfl, rfl⟩ := down_cancel hd
      cases he
      obtain ⟨T', R', h1, h2, h3⟩ := hnew [.cancel (G.ev (i :: p))] ps1
      have he2 : Resolver.env r.sh r.acts (.cancel (G.ev (i :: p))) = some (r.sh, [.cancel (G.ev (i :: p))]) := rfl
      have step2 := res_env hbad he2
      refine ⟨_, _, ht1, .step h.rreach step2, rfl, h.rsh, rfl, ⟨T', R', by simpa using h1,
        (hrun ps1).trans_perm h2.symm, (hR.add _).trans_perm h3.symm⟩, ?_, ?_⟩
      · refine link0_res (link0_tree h.treach h.link0 hj he1 ?_) (fun _ _ _ => rfl) (fun _ h => h) (fun _ _ _ => rfl)
        rintro _ ⟨⟩
      · intro q hq
        rcases hlog.2.2 q hq with h4 | ⟨p', i', rfl, h4⟩
        · rcases h.link1 q h4 with h5 | h5
          · exact .inl (pending_new h5)
          · exact .inr h5
        · cases h4
          exact .inl ⟨[.cancel (G.ev (i :: p))], List.mem_append_right _ (List.mem_singleton.2 rfl), List.mem_singleton.2 rfl⟩
    · -- `start()`
      rename_i i ct a' hd
      rw [← h.tsh] at hd
      obtain ⟨p, rfl, hs, ho⟩ := down_start hd
      split at he
      · cases he
      rename_i hst
      rw [← h.rsh] at hst
      split at he
      · cases he
      rename_i r1 qs he2
      cases he
      rw [← h.rsh] at he2
      obtain ⟨T', R', h1, h2, h3⟩ := hnew qs ps1
      have hz := zero_of_not_started L h.rreach (i := i) (by simpa using hst)
      have he3 : Resolver.env r.sh r.acts (.newOp i ct a') = some (r1, qs) := he2
      have step2 := res_env hbad he3
      refine ⟨_, _, ht1, .step h.rreach step2, rfl, rfl, rfl, ⟨T', R', by simpa [List.append_assoc] using h1,
        (hrun ps1).trans_perm h2.symm, (hR.add _).trans_perm h3.symm⟩,
        link0_start h.treach h.link0 hj he1 h.tbad hs ho hz he2, ?_⟩
      have hreq : r1.req = r.sh.req := by
        simp only [Resolver.env] at he2
        split at he2
        · cases he2
        · split at he2
          · simp at he2; obtain ⟨rfl, _⟩ := he2; rfl
          · cases he2
      intro q hq
      rcases hlog.2.2 q hq with h4 | ⟨p', i', _, h4⟩
      · rcases h.link1 q h4 with h5 | h5
        · exact .inl (pending_new h5)
        · exact .inr (by simpa [hreq] using h5)
      · cases h4
  · intro he
    refine ⟨j, a, hj, ?_⟩
    simp only [exec] at he
    split at he
    · rename_i he1; rw [h.tsh]; exact he1
    · cases he
    rename_i t1 ps1 he1
    exfalso
    split at he
    · cases he
    · cases he
    rename_i i ct a' hd
    rw [← h.tsh] at hd
    obtain ⟨p, rfl, hs, ho⟩ := down_start hd
    split at he
    · rename_i hst
      rw [← h.rsh] at hst
      exact (h.link0.beg p i ct a' ho hst).2.2.1 (pending_top hj)
    · split at he <;> cases he

/-- Steps of the library. -/
theorem parts_right {s : JSt S} {acts : List (List (JInstr S))} {t : TC} {r : RC S} (L : Lawful S d0)
    (h : Parts G d0 s acts t r) {k : Nat} {x : Resolver.Instr S} {l : List (JInstr S)}
    (hk : acts[k]? = some (.inr x :: l)) (b : Bool) :
    ∃ s' ps, exec G s (.inr x) b = .ok s' ps ∧ ∃ t' r', Parts G d0 s' (acts.set k (ps ++ l)) t' r' := by
  obtain ⟨T, R, hS, hT, hR⟩ := h.stacks
  obtain ⟨a, R0, hp, hnew⟩ := hS.top_right hk
  have hbad := Resolver.bad_false L h.rreach
  obtain ⟨j0, hj0, _⟩ := (hR.trans_perm hp).run []
  obtain ⟨_, hstep, _⟩ := Resolver.can_run L h.rreach hj0 b
  have hex : ∃ r1 qs, Resolver.exec r.sh x b = .ok r1 qs := by
    cases he : Resolver.exec r.sh x b with
    | ok r1 qs => exact ⟨r1, qs, rfl⟩
    | block =>
      simp only [Mach.step, hbad, hj0, he] at hstep; cases hstep
    | fault =>
      have h1 : (Resolver.mach S).step r (.run j0 b) = some ⟨r.sh, r.acts, true⟩ := by
        simp only [Mach.step, hbad, hj0, he]; rfl
      have := Resolver.bad_false L (.step h.rreach h1)
      cases this
  obtain ⟨r1, qs, he⟩ := hex
  obtain ⟨j, hj, hSame⟩ := (hR.trans_perm hp).run qs
  have step := res_step hbad hj he
  have hr1 : Reach (Resolver.mach S) (RSt.init d0) _ := .step h.rreach step
  have hst := res_started he
  obtain ⟨hkeep, hreq⟩ := Resolver.exec_keeps he
  have hl1 : Link1 G t ⟨r1, r.acts.set j (qs ++ a), false⟩ := by
    refine link1_pend h.link1 (fun p => hreq _) (fun e hp => ?_)
    by_cases e1 : Resolver.Instr.cancel e = x
    · subst e1; exact .inr (res_cancel he)
    · exact .inl (pending_keep hj hp e1)
  have he' : Resolver.exec s.2 x b = .ok r1 qs := by rw [← h.rsh]; exact he
  cases hc : completes r.sh x with
  | none =>
    obtain ⟨T', R', h1, h2, h3⟩ := hnew [] qs
    refine ⟨(s.1, r1), qs.map .inr, ?_, t, _, h.treach, hr1, h.tsh, rfl, h.tbad,
      ⟨T', R', by simpa using h1, ?_, hSame.trans_perm h2.symm⟩,
      link0_res h.link0 (fun i _ _ => by rw [hst]) hkeep (fun i _ _ => res_none he hc i), hl1⟩
    · rw [h.rsh] at hc
      simp only [exec, he', hc]
    · refine (hT : Same _ _).trans (?_ : Same T T')
      unfold Same
      refine ((h3.filter _).trans ?_).symm
      simp
  | some iv =>
    obtain ⟨i, v⟩ := iv
    obtain ⟨hlog, hop⟩ := res_some he hc
    cases hlf : G.leaf i with
    | none =>
      obtain ⟨T', R', h1, h2, h3⟩ := hnew [] qs
      refine ⟨(s.1, r1), qs.map .inr, ?_, t, _, h.treach, hr1, h.tsh, rfl, h.tbad,
        ⟨T', R', by simpa using h1, ?_, hSame.trans_perm h2.symm⟩,
        link0_res h.link0 (fun i _ _ => by rw [hst]) hkeep (fun i' p' hl => ?_), hl1⟩
      · rw [h.rsh] at hc
        simp only [exec, he', hc, hlf]
      · refine (hT : Same _ _).trans (?_ : Same T T')
        unfold Same
        refine ((h3.filter _).trans ?_).symm
        simp
      · rw [hlog, completions_append_done, if_neg]
        · rfl
        · rintro rfl; rw [hlf] at hl; cases hl
    | some p =>
      obtain ⟨ct, a', ho⟩ := G.leaf_op p i hlf
      obtain ⟨ph, _, hC⟩ := Resolver.reach_inv L h.rreach
      have hsti : r.sh.started i = true := hC.op_started (pending_top hj) hop
      have hz : completions i r.sh.log = 0 := by
        have := Resolver.completions_le_one L hr1 i
        simp only [hlog, completions_append_done, if_true] at this
        omega
      have hrd : t.sh.rdy p = true := (h.link0.rdy p i ct a' ho).2 ⟨hsti, hz⟩
      have hfin : Tree.env t.sh [] (.finish p (G.val v)) =
          some ({ t.sh with rdy := Tree.updP t.sh.rdy p false }, [.setv p (G.val v)]) := by
        simp only [Tree.env, hrd, if_true]
      have hfin2 : Tree.env t.sh t.acts (.finish p (G.val v)) =
          some ({ t.sh with rdy := Tree.updP t.sh.rdy p false }, [.setv p (G.val v)]) := hfin
      have step2 := tree_env h.tbad hfin2
      obtain ⟨T', R', h1, h2, h3⟩ := hnew [.setv p (G.val v)] qs
      refine ⟨({ t.sh with rdy := Tree.updP t.sh.rdy p false }, r1), .inl (.setv p (G.val v)) :: qs.map .inr, ?_,
        _, _, .step h.treach step2, hr1, rfl, rfl, rfl,
        ⟨T', R', by simpa using h1, (hT.add _).trans_perm h3.symm, hSame.trans_perm h2.symm⟩,
        link0_done h.link0 ho hfin hst hlog, hl1⟩
      rw [h.rsh] at hc
      rw [h.tsh] at hfin ⊢
      simp only [exec, he', hc, hlf, hfin]
      rfl

theorem parts_env {s : JSt S} {acts : List (List (JInstr S))} {t : TC} {r : RC S} (L : Lawful S d0)
    (h : Parts G d0 s acts t r) {a : Act S} {s' : JSt S} {ps : List (JInstr S)} (he : env G s acts a = some (s', ps)) :
    ∃ t' r', Parts G d0 s' (acts ++ [ps]) t' r' := by
  obtain ⟨T, R, hS, hT, hR⟩ := h.stacks
  have hbad := Resolver.bad_false L h.rreach
  have tree : ∀ (a : Tree.Act) (t1 : Tree.St) (ps1 : List Tree.Instr), Tree.env s.1 [] a = some (t1, ps1) →
      (∀ p v, a = .finish p v → G.op p = none) → ∃ t' r', Parts G d0 (t1, s.2) (acts ++ [ps1.map .inl]) t' r' := by
    intro a t1 ps1 he1 ha
    have he2 : Tree.env t.sh t.acts a = some (t1, ps1) := by
      rw [h.tsh, ← he1]; cases a <;> rfl
    have step := tree_env h.tbad he2
    have hsp : Splits (acts ++ [ps1.map .inl]) (T ++ [ps1]) R := by
      have := hS.snoc (Split.left ps1 (.nil (κ := Resolver.Instr S)))
      simpa using this
    refine ⟨_, r, .step h.treach step, h.rreach, rfl, h.rsh, rfl, ⟨_, _, hsp,
      (hT.add ps1).trans_perm (List.perm_append_comm (l₁ := [ps1]) (l₂ := T)), hR⟩,
      link0_env h.treach h.link0 he2 ha, ?_⟩
    intro q hq
    simp only [(Tree.env_ext (Tree.reach_inv h.treach) he2).2] at hq
    exact h.link1 q hq
  cases a with
  | start n E =>
    simp only [env] at he
    split at he
    · cases he
    · rename_i t1 ps1 he1
      cases he
      exact tree _ _ _ he1 (by simp)
  | finish p v =>
    simp only [env] at he
    split at he
    · cases he
    · rename_i hn
      split at he
      · cases he
      · rename_i t1 ps1 he1
        cases he
        refine tree _ _ _ he1 ?_
        rintro p' v' ⟨⟩
        simpa using hn
  | user a =>
    simp only [env] at he
    split at he
    · rename_i hu
      split at he
      · cases he
      · rename_i r1 qs he1
        cases he
        have he2 : Resolver.env r.sh r.acts a = some (r1, qs) := by
          rw [h.rsh, ← he1]
          exact env_congr (fun x => by rw [pending_lib, h.pending_right]) a
        have step := res_env hbad he2
        have hsp : Splits (acts ++ [qs.map .inr]) T (R ++ [qs]) := by
          have := hS.snoc (Split.right qs (.nil (ι := Tree.Instr)))
          simpa using this
        have facts : (∀ i p, G.leaf i = some p → r1.started i = r.sh.started i) ∧ (∀ v, v ∈ r.sh.log → v ∈ r1.log) ∧
            (∀ i, completions i r1.log = completions i r.sh.log) ∧
            (∀ p, r.sh.req (G.ev p) = true → r1.req (G.ev p) = true) := by
          cases a with
          | newOp i ct p =>
            simp only [Resolver.env] at he2
            simp only [userOk, Option.isNone_iff_eq_none] at hu
            split at he2
            · cases he2
            · split at he2
              · simp at he2; obtain ⟨rfl, _⟩ := he2
                refine ⟨fun j q hq => ?_, fun v hv => by simp [hv], fun j => ?_, fun _ h => h⟩
                · simp only; rw [upd_ne]
                  rintro rfl; rw [hu] at hq; cases hq
                · simp [completions, Resolver.doneCnt, List.countP_append, Resolver.isDone]
              · cases he2
          | cancel e =>
            simp only [Resolver.env] at he2
            simp at he2; obtain ⟨rfl, _⟩ := he2
            exact ⟨fun _ _ _ => rfl, fun _ h => h, fun _ => rfl, fun _ h => h⟩
          | call x =>
            simp only [Resolver.env] at he2
            split at he2
            · simp at he2; obtain ⟨rfl, _⟩ := he2
              exact ⟨fun _ _ _ => rfl, fun _ h => h, fun _ => rfl, fun _ h => h⟩
            · cases he2
          | reset e =>
            simp only [Resolver.env] at he2
            simp only [userOk, Bool.not_eq_true'] at hu
            split at he2
            · simp at he2; obtain ⟨rfl, _⟩ := he2
              refine ⟨fun _ _ _ => rfl, fun v hv => by simp [hv], fun j => ?_, fun p hp => ?_⟩
              · simp [completions, Resolver.doneCnt, List.countP_append, Resolver.isDone]
              · simp only; rw [upd_ne]
                · exact hp
                · rintro rfl; rw [G.ev_priv] at hu; cases hu
            · cases he2
        refine ⟨t, _, h.treach, .step h.rreach step, h.tsh, rfl, h.tbad, ⟨_, _, hsp, hT,
          (hR.add qs).trans_perm (List.perm_append_comm (l₁ := [qs]) (l₂ := R))⟩,
          link0_res h.link0 facts.1 facts.2.1 (fun i _ _ => facts.2.2.1 i),
          link1_pend h.link1 facts.2.2.2 (fun e hp => .inl (pending_new hp))⟩
    · cases he

theorem parts_init : Parts G d0 (init d0) [] (Tree.mach.init Tree.init) ((Resolver.mach S).init (RSt.init d0)) := by
  refine ⟨.init, .init, rfl, rfl, rfl, ⟨[], [], .nil, .refl _, .refl _⟩, ⟨?_, ?_, ?_⟩, ?_⟩
  · intro p i ct a _ h; cases h
  · intro p i ct a _
    simp [Mach.init, Tree.init, RSt.init]
  · intro p i ct a _ h; cases h
  · intro q hq; simp [Mach.init, Tree.init] at hq

/-- Every joint execution consists of an execution of the algorithms and an execution of the library. A fault is a fault of the
algorithms. -/
theorem parts (L : Lawful S d0) {c : Conf (mach G)} (hc : JReach G d0 c) :
    (∃ t r, Parts G d0 c.sh c.acts t r) ∧
    (c.bad = true → ∃ t, Tree.TReach t ∧ t.sh = c.sh.1 ∧ t.bad = true) := by
  induction hc with
  | init => exact ⟨⟨_, _, parts_init⟩, by intro h; cases h⟩
  | @step c c' lb _ hs ih =>
    obtain ⟨⟨t, r, hP⟩, _⟩ := ih
    cases lb with
    | env a =>
      simp only [Mach.step] at hs
      split at hs
      · cases hs
      · split at hs
        · rename_i s' p he
          cases hs
          exact ⟨parts_env L hP he, by intro h; cases h⟩
        · cases hs
    | run k b =>
      simp only [Mach.step] at hs
      split at hs
      · cases hs
      · split at hs
        · rename_i x l hk
          cases x with
          | inl x =>
            obtain ⟨h1, h2⟩ := parts_left L hP hk b
            split at hs
            · rename_i s' p he
              cases hs
              exact ⟨h1 _ _ he, by intro h; cases h⟩
            · cases hs
            · rename_i he
              cases hs
              refine ⟨⟨t, r, hP⟩, fun _ => ?_⟩
              obtain ⟨j, l', hj, hf⟩ := h2 he
              refine ⟨⟨t.sh, t.acts, true⟩, .step (l := .run j b) hP.treach ?_, hP.tsh, rfl⟩
              simp only [Mach.step, hP.tbad, hj, hf]; rfl
          | inr x =>
            obtain ⟨s', ps, he, h1⟩ := parts_right L hP hk b
            split at hs
            · rename_i s2 p2 he2
              rw [he] at he2
              cases he2
              cases hs
              exact ⟨h1, by intro h; cases h⟩
            · rename_i he2; rw [he] at he2; cases he2
            · rename_i he2; rw [he] at he2; cases he2
        · cases hs

end Verif.Joint
