import Verif.Resolver.Core

/-!
# The invariant holds in every reachable configuration
-/

namespace Verif.Resolver

variable {S : DS}

set_option linter.unusedTactic false
set_option linter.unusedSimpArgs false

/-- Weight equations for one step, for operation `i`; `Q` is `fun w => ws_set w p hk`. -/
syntax "wts " term ", " term : tactic
set_option hygiene false in
macro_rules
  | `(tactic| wts $i, $Q) => `(tactic| (
    have q1 := $Q (W.sta $i); have q2 := $Q (W.fas $i); have q3 := $Q (W.lis $i)
    have q4 := $Q (W.reg $i); have q5 := $Q (W.tryL $i); have q6 := $Q (W.tryC $i)
    have q7 := $Q (W.trL $i); have q8 := $Q (W.trC $i); have q9 := $Q (W.trX $i)
    have q10 := $Q (W.un $i); have q11 := $Q (W.res $i); have q12 := $Q (W.co $i)
    simp only [W.sta, wl_cons, wl_nil, if_true, Nat.add_zero, Nat.zero_add] at q1
    simp only [W.fas, wl_cons, wl_nil, if_true, Nat.add_zero, Nat.zero_add] at q2
    simp only [W.lis, wl_cons, wl_nil, if_true, Nat.add_zero, Nat.zero_add] at q3
    simp only [W.reg, wl_cons, wl_nil, if_true, Nat.add_zero, Nat.zero_add] at q4
    simp only [W.tryL, wl_cons, wl_nil, if_true, Nat.add_zero, Nat.zero_add, Bool.toNat_true, Bool.toNat_false, Bool.not_true, Bool.not_false] at q5
    simp only [W.tryC, wl_cons, wl_nil, if_true, Nat.add_zero, Nat.zero_add, Bool.toNat_true, Bool.toNat_false, Bool.not_true, Bool.not_false] at q6
    simp only [W.trL, wl_cons, wl_nil, if_true, Nat.add_zero, Nat.zero_add, Bool.toNat_true, Bool.toNat_false] at q7
    simp only [W.trC, wl_cons, wl_nil, if_true, Nat.add_zero, Nat.zero_add, Bool.toNat_true, Bool.toNat_false] at q8
    simp only [W.trX, wl_cons, wl_nil, if_true, Nat.add_zero, Nat.zero_add, Bool.toNat_true, Bool.toNat_false] at q9
    simp only [W.un, wl_cons, wl_nil, if_true, Nat.add_zero, Nat.zero_add] at q10
    simp only [W.res, wl_cons, wl_nil, if_true, Nat.add_zero, Nat.zero_add] at q11
    simp only [W.co, wl_cons, wl_nil, if_true, Nat.add_zero, Nat.zero_add] at q12))

/-- What an instruction does to the invariant. -/
def Good {d0 : S.D} (L : Lawful S d0) (s : RSt S) (acts : List (List (Instr S)))
    (k : Nat) (x : Instr S) (r : List (Instr S)) (b : Bool) : Prop :=
  ∃ s' p, exec s x b = .ok s' p ∧ RInv L s' (acts.set k (p ++ r))

variable {d0 : S.D} {L : Lawful S d0} {s : RSt S} {acts : List (List (Instr S))}
  {k : Nat} {r : List (Instr S)} {ph : OpId → Phase S.V}

/-- Pending instructions of the data structure when neither `x` nor `p` contains one. -/
theorem inv_same {x : Instr S} {p : List (Instr S)} {d : S.D} {log : List (Ev S)}
    (hk : acts[k]? = some (x :: r)) (hx : dsl [x] = []) (hp : dsl p = [])
    (h : L.Inv d ph log (dsPend acts)) : L.Inv d ph log (dsPend (acts.set k (p ++ r))) := by
  obtain ⟨rest, h1, h2⟩ := dsPend_set p hk
  rw [hx] at h1; rw [hp] at h2
  exact L.perm h (h1.trans h2.symm)


theorem view_ph (s : RSt S) (acts : List (List (Instr S))) (ph : OpId → Phase S.V) (i : OpId) :
    (view s acts ph i).ph = (ph i).code := rfl

theorem reqd_some {i : OpId} {e : EvId} (h : s.ct i = some e) : reqd s i = (s.req e).toNat := by
  simp [reqd, h]

theorem good_transition {j : OpId} {nb : Bits} (b : Bool)
    (hI : L.Inv s.d ph s.log (dsPend acts)) (hC : Core s acts ph)
    (hk : acts[k]? = some (.transition j nb :: r)) : Good L s acts k (.transition j nb) r b := by
  have hv := hC.op j
  have hpend := pending_top hk
  obtain ⟨hnull, hne⟩ := hC.gl.g7 _ _ hpend
  have mL := ws_pos (w := W.trL j) hk
  have mC := ws_pos (w := W.trC j) hk
  have mX := ws_pos (w := W.trX j) hk
  simp only [W.trL, W.trC, W.trX, if_true] at mL mC mX
  have hpos : nb.listen.toNat ≤ (view s acts ph j).trL ∧ nb.compl.toNat ≤ (view s acts ph j).trC ∧
      nb.canc.toNat ≤ (view s acts ph j).trX := ⟨mL, mC, mX⟩
  have hne' : 0 < nb.listen.toNat + nb.compl.toNat + nb.canc.toNat := by
    rcases nb with ⟨_ | _, _ | _, _ | _⟩ <;> simp at hne ⊢
  have hnull' : (view s acts ph j).hasEv = 0 → nb.listen.toNat = nb.canc.toNat := by
    intro h
    have : s.ct j = none := by
      cases h1 : s.ct j with
      | none => rfl
      | some e => simp [view, h1] at h
    rw [hnull this]
  have hp3 : 3 ≤ (view s acts ph j).ph := by
    have a2 := hv.a2
    clear * - a2 hpos hne'
    omega
  have f1 := hv.e1 hp3
  have f2 := hv.e2
  have f3 := hv.e3 hp3
  have l1 : (view s acts ph j).l = (s.bits j).listen.toNat := rfl
  have l2 : (view s acts ph j).c = (s.bits j).compl.toNat := rfl
  have l3 : (view s acts ph j).x = (s.bits j).canc.toNat := rfl
  have hsum : (s.bits j).listen.toNat + nb.listen.toNat ≤ 1 ∧
      (s.bits j).compl.toNat + nb.compl.toNat ≤ 1 ∧
      (s.bits j).canc.toNat + nb.canc.toNat ≤ 1 := by
    clear * - f1 f2 f3 l1 l2 l3 hpos hp3
    omega
  have hm : (s.bits j).meets nb = false := by
    revert hsum
    generalize s.bits j = ob
    rcases ob with ⟨_ | _, _ | _, _ | _⟩ <;> rcases nb with ⟨_ | _, _ | _, _ | _⟩ <;>
      simp [Bits.meets]
  have hor : ((s.bits j).or nb).listen.toNat = (s.bits j).listen.toNat + nb.listen.toNat ∧
      ((s.bits j).or nb).compl.toNat = (s.bits j).compl.toNat + nb.compl.toNat ∧
      ((s.bits j).or nb).canc.toNat = (s.bits j).canc.toNat + nb.canc.toNat := by
    revert hsum
    generalize s.bits j = ob
    rcases ob with ⟨_ | _, _ | _, _ | _⟩ <;> rcases nb with ⟨_ | _, _ | _, _ | _⟩ <;>
      simp [Bits.or]
  generalize hst : (s.bits j).or nb = st at hor
  unfold Good
  simp only [exec, hm, hst, Bool.false_eq_true, if_false]
  have hoff : ∀ i, i ≠ j → ∀ p : List (Instr S), (∀ y ∈ p, y.op = some j) →
      view { s with bits := upd s.bits j st } (acts.set k (p ++ r)) ph i = view s acts ph i := by
    intro i hij p hp
    refine view_frame (samePool_set hk (by simp [off, Instr.op, Ne.symm hij]) ?_) ?_ rfl rfl rfl
      rfl rfl rfl rfl
    · intro y hy; simp [off, hp y hy, Ne.symm hij]
    · simp [upd, hij]
  have hglob : ∀ p : List (Instr S), (p = [] ∨ p = [.unregister j] ∨ p = [.resume j]) →
      Glob { s with bits := upd s.bits j st } (acts.set k (p ++ r)) ph := by
    intro p hp
    refine hC.gl.run hk ?_ rfl rfl ?_ ?_ ?_ ?_ ?_
    · intro e he; exact .inl he
    · intro v hv; exact hv
    · intro i ct p h; exact h
    · intro e i hi; exact .inl hi
    · intro i v _ h; exact h
    · rcases hp with rfl | rfl | rfl <;> simp [pushOk]
  split
  · rename_i hc
    refine ⟨_, [], rfl, ph, inv_same hk rfl rfl hI, fun i => ?_, hglob [] (by simp)⟩
    by_cases hij : i = j
    · subst hij
      have key := hv.trans0 hpos hne' hnull' (by
        have h0 : st.listen.toNat = 0 ∨ st.compl.toNat = 0 := by
          clear * - hc
          rcases st with ⟨_ | _, _ | _, _ | _⟩ <;> simp at hc ⊢
        clear * - hor h0 l1 l2; omega)
      have Q := fun w => ws_set w [] hk
      wts i, Q
      refine (?_ : view _ _ _ _ = _) ▸ key
      clear * - q1 q2 q3 q4 q5 q6 q7 q8 q9 q10 q11 q12 hor hpos
      apply View.ext <;> simp only [view, upd_same] at * <;> first | rfl | omega
    · rw [hoff i hij [] (by simp)]; exact hC.op i
  · rename_i hc
    split
    · rename_i hx
      refine ⟨_, [.unregister j], rfl, ph, inv_same hk rfl rfl hI, fun i => ?_, hglob _ (by simp)⟩
      by_cases hij : i = j
      · subst hij
        have key := hv.transU hpos hne' hnull' (by
          have h0 : st.listen.toNat = 1 ∧ st.compl.toNat = 1 ∧ st.canc.toNat = 0 := by
            clear * - hc hx
            rcases st with ⟨_ | _, _ | _, _ | _⟩ <;> simp at hc hx ⊢
          clear * - hor h0 l1 l2 l3; omega)
        have Q := fun w => ws_set w [.unregister i] hk
        wts i, Q
        refine (?_ : view _ _ _ _ = _) ▸ key
        clear * - q1 q2 q3 q4 q5 q6 q7 q8 q9 q10 q11 q12 hor hpos
        apply View.ext <;> simp only [view, upd_same] at * <;> first | rfl | omega
      · rw [hoff i hij _ (by simp [Instr.op])]; exact hC.op i
    · rename_i hx
      refine ⟨_, [.resume j], rfl, ph, inv_same hk rfl rfl hI, fun i => ?_, hglob _ (by simp)⟩
      by_cases hij : i = j
      · subst hij
        have key := hv.transR hpos hne' hnull' (by
          have h0 : st.listen.toNat = 1 ∧ st.compl.toNat = 1 ∧ st.canc.toNat = 1 := by
            clear * - hc hx
            rcases st with ⟨_ | _, _ | _, _ | _⟩ <;> simp at hc hx ⊢
          clear * - hor h0 l1 l2 l3; omega)
        have Q := fun w => ws_set w [.resume i] hk
        wts i, Q
        refine (?_ : view _ _ _ _ = _) ▸ key
        clear * - q1 q2 q3 q4 q5 q6 q7 q8 q9 q10 q11 q12 hor hpos
        apply View.ext <;> simp only [view, upd_same] at * <;> first | rfl | omega
      · rw [hoff i hij _ (by simp [Instr.op])]; exact hC.op i


/-- Frame for operations other than `j`. -/
theorem off_ok {s' : RSt S} {ph' : OpId → Phase S.V} {j i : OpId} {x : Instr S}
    {p : List (Instr S)} (hC : Core s acts ph)
    (hk : acts[k]? = some (x :: r)) (hij : i ≠ j) (hx : x.op = some j)
    (hp : ∀ y ∈ p, y.op = some j)
    (hb : s'.bits i = s.bits i) (he : s'.evt i = s.evt i) (hc : s'.ct i = s.ct i)
    (hs : s'.started i = s.started i) (hi : inC s' i = inC s i) (hr : reqd s' i = reqd s i)
    (hph : ph' i = ph i) (hd : doneCnt i s'.log = doneCnt i s.log) :
    OK (view s' (acts.set k (p ++ r)) ph' i) := by
  rw [view_frame (samePool_set hk (by simp [off, hx, Ne.symm hij]) (by
    intro y hy; simp [off, hp y hy, Ne.symm hij])) hb he hc hs hi hr hph hd]
  exact hC.op i

theorem good_start {j : OpId} (b : Bool)
    (hI : L.Inv s.d ph s.log (dsPend acts)) (hC : Core s acts ph)
    (hk : acts[k]? = some (.start j :: r)) : Good L s acts k (.start j) r b := by
  have hv := hC.op j
  have m := ws_pos (w := W.sta j) hk
  simp only [W.sta, if_true] at m
  have hpos : 1 ≤ (view s acts ph j).sta := m
  have hph0 : (view s acts ph j).ph = 0 := by
    have a0 := hv.a0
    clear * - a0 hpos; omega
  have hst : s.started j = true := by
    have a0 := hv.a0.1 hph0
    cases h : s.started j with
    | true => rfl
    | false => simp [view, h] at a0; simp [view] at hpos; omega
  have hph : ph j = .new := by
    rw [view_ph] at hph0
    cases h : ph j <;> simp [h, Phase.code] at hph0 ⊢
  obtain ⟨p0, hbeg⟩ := hC.gl.g4 j hst
  obtain ⟨d', res, es, hs, hI'⟩ := L.start b hI hph hbeg
  unfold Good
  simp only [exec, hs]
  cases res with
  | some v =>
    refine ⟨_, _, rfl, upd ph j (.fast v), inv_same hk rfl rfl hI', fun i => ?_, ?_⟩
    · by_cases hij : i = j
      · subst hij
        have key := hv.startFast hpos
        have Q := fun w => ws_set w [.setFast i v] hk
        wts i, Q
        refine (?_ : view _ _ _ _ = _) ▸ key
        clear * - q1 q2 q3 q4 q5 q6 q7 q8 q9 q10 q11 q12
        apply View.ext <;> simp only [view, upd_same, doneCnt_append, doneCnt_ds, Nat.add_zero, Phase.code] at * <;> first | rfl | omega
      · exact off_ok hC hk hij rfl (by simp [Instr.op]) rfl rfl rfl rfl rfl rfl (by simp [upd, hij])
          (by simp [doneCnt_append])
    · refine hC.gl.run hk ?_ rfl rfl ?_ ?_ ?_ ?_ ?_
      · intro e he; exact .inl he
      · intro v hv; simp [hv]
      · intro i ct p h; simpa using h
      · intro e i hi; exact .inl hi
      · intro i v _ h; by_cases hij : i = j
        · subst hij; simp [hph] at h
        · simp [upd, hij, h]
      · simp [pushOk]
  | none =>
    refine ⟨_, _, rfl, upd ph j .waiting, inv_same hk rfl rfl hI', fun i => ?_, ?_⟩
    · by_cases hij : i = j
      · subst hij
        have key := hv.startSlow hpos
        have Q := fun w => ws_set w [.listen i] hk
        wts i, Q
        refine (?_ : view _ _ _ _ = _) ▸ key
        clear * - q1 q2 q3 q4 q5 q6 q7 q8 q9 q10 q11 q12
        apply View.ext <;> simp only [view, upd_same, doneCnt_append, doneCnt_ds, Nat.add_zero, Phase.code] at * <;> first | rfl | omega
      · exact off_ok hC hk hij rfl (by simp [Instr.op]) rfl rfl rfl rfl rfl rfl (by simp [upd, hij])
          (by simp [doneCnt_append])
    · refine hC.gl.run hk ?_ rfl rfl ?_ ?_ ?_ ?_ ?_
      · intro e he; exact .inl he
      · intro v hv; simp [hv]
      · intro i ct p h; simpa using h
      · intro e i hi; exact .inl hi
      · intro i v _ h; by_cases hij : i = j
        · subst hij; simp [hph] at h
        · simp [upd, hij, h]
      · simp [pushOk]

theorem good_setFast {j : OpId} {v : S.V} (b : Bool)
    (hI : L.Inv s.d ph s.log (dsPend acts)) (hC : Core s acts ph)
    (hk : acts[k]? = some (.setFast j v :: r)) : Good L s acts k (.setFast j v) r b := by
  have hv := hC.op j
  have m := ws_pos (w := W.fas j) hk
  simp only [W.fas, if_true] at m
  have hpos : 1 ≤ (view s acts ph j).fas := m
  have hph := hC.gl.g6 _ _ (pending_top hk)
  have Q := fun w => ws_set w [] hk
  refine ⟨_, [], rfl, upd ph j .finFast, inv_same hk rfl rfl (L.fast hI hph), fun i => ?_, ?_⟩
  · by_cases hij : i = j
    · subst hij
      have key := hv.fastDone hpos
      wts i, Q
      refine (?_ : view _ _ _ _ = _) ▸ key
      clear * - q1 q2 q3 q4 q5 q6 q7 q8 q9 q10 q11 q12
      apply View.ext <;> simp only [view, upd_same, doneCnt_append, doneCnt_done, if_true, Nat.add_zero, Phase.code] at * <;> first | rfl | omega
    · exact off_ok hC hk hij rfl (by simp) rfl rfl rfl rfl rfl rfl (by simp [upd, hij])
        (by simp [doneCnt_append, Ne.symm hij])
  · refine hC.gl.run hk ?_ rfl rfl ?_ ?_ ?_ ?_ ?_
    · intro e he; exact .inl he
    · intro v hv; simp [hv]
    · intro i ct p h; simpa using h
    · intro e i hi; exact .inl hi
    · intro i v' hp h; by_cases hij : i = j
      · subst hij
        exfalso
        have a1 := hv.a1.1 (by rw [view_ph, hph]; rfl)
        have q := Q (W.fas i)
        simp only [W.fas, if_true, wl_nil] at q
        obtain ⟨a, ha, hx⟩ := hp
        have := ws_pos_of_mem (w := W.fas i) ha hx
        simp only [W.fas, if_true] at this
        simp only [view] at a1
        omega
      · simp [upd, hij, h]
    · simp

theorem good_listen {j : OpId} (b : Bool)
    (hI : L.Inv s.d ph s.log (dsPend acts)) (hC : Core s acts ph)
    (hk : acts[k]? = some (.listen j :: r)) : Good L s acts k (.listen j) r b := by
  have hv := hC.op j
  have m := ws_pos (w := W.lis j) hk
  simp only [W.lis, if_true] at m
  have hpos : 1 ≤ (view s acts ph j).lis := m
  unfold Good
  simp only [exec]
  cases hct : s.ct j with
  | none =>
    refine ⟨_, _, rfl, ph, inv_same hk rfl rfl hI, fun i => ?_, ?_⟩
    · by_cases hij : i = j
      · subst hij
        have key := hv.listenNull hpos (by simp [view, hct])
        have Q := fun w => ws_set w [.transition i { listen := true, canc := true }] hk
        wts i, Q
        refine (?_ : view _ _ _ _ = _) ▸ key
        clear * - q1 q2 q3 q4 q5 q6 q7 q8 q9 q10 q11 q12 hct
        apply View.ext <;> simp only [view, upd_same] at * <;> first | rfl | omega | simp [hct]
      · exact off_ok hC hk hij rfl (by simp [Instr.op]) rfl (by simp [upd, hij]) rfl rfl rfl rfl rfl rfl
    · refine hC.gl.run hk ?_ rfl rfl ?_ ?_ ?_ ?_ ?_
      · intro e he; exact .inl he
      · intro v hv; exact hv
      · intro i ct p h; exact h
      · intro e i hi; exact .inl hi
      · intro i v _ h; exact h
      · simp [pushOk]
  | some e =>
    refine ⟨_, _, rfl, ph, inv_same hk rfl rfl hI, fun i => ?_, ?_⟩
    · by_cases hij : i = j
      · subst hij
        have key := hv.listenEv hpos (by simp [view, hct])
        have Q := fun w => ws_set w [.register i] hk
        wts i, Q
        refine (?_ : view _ _ _ _ = _) ▸ key
        clear * - q1 q2 q3 q4 q5 q6 q7 q8 q9 q10 q11 q12 hct
        apply View.ext <;> simp only [view, upd_same] at * <;> first | rfl | omega | simp [hct]
      · exact off_ok hC hk hij rfl (by simp [Instr.op]) rfl (by simp [upd, hij]) rfl rfl rfl rfl rfl rfl
    · refine hC.gl.run hk ?_ rfl rfl ?_ ?_ ?_ ?_ ?_
      · intro e he; exact .inl he
      · intro v hv; exact hv
      · intro i ct p h; exact h
      · intro e i hi; exact .inl hi
      · intro i v _ h; exact h
      · simp [pushOk]

theorem isSome_of_view {j : OpId} (h : (view s acts ph j).hasEv = 1) : ∃ e, s.ct j = some e := by
  cases h1 : s.ct j with
  | none => simp [view, h1] at h
  | some e => exact ⟨e, rfl⟩

theorem evt_of_view {j : OpId} (h : (view s acts ph j).evtOk = 1) : s.evt j = s.ct j := by
  simp only [view] at h
  cases h1 : (s.evt j == s.ct j) with
  | true => simpa using h1
  | false => simp [h1] at h

theorem good_register {j : OpId} (b : Bool)
    (hI : L.Inv s.d ph s.log (dsPend acts)) (hC : Core s acts ph)
    (hk : acts[k]? = some (.register j :: r)) : Good L s acts k (.register j) r b := by
  have hv := hC.op j
  have m := ws_pos (w := W.reg j) hk
  simp only [W.reg, if_true] at m
  have hpos : 1 ≤ (view s acts ph j).reg := m
  obtain ⟨e, hct⟩ := isSome_of_view (hv.e10 (by omega))
  have hp3 : 3 ≤ (view s acts ph j).ph := by
    have a2 := hv.a2
    clear * - a2 hpos; omega
  have hevt := evt_of_view (hv.e9 hp3 (by have := hv.e1 hp3; omega))
  rw [hct] at hevt
  unfold Good
  simp only [exec, hevt]
  have hrq : (view s acts ph j).reqd = (s.req e).toNat := reqd_some hct
  split
  · rename_i hr
    refine ⟨_, _, rfl, ph, inv_same hk rfl rfl hI, fun i => ?_, ?_⟩
    · by_cases hij : i = j
      · subst hij
        have key := hv.regFail hpos (by rw [hrq, hr]; rfl)
        have Q := fun w => ws_set w [.tryCancel i true] hk
        wts i, Q
        refine (?_ : view _ _ _ _ = _) ▸ key
        clear * - q1 q2 q3 q4 q5 q6 q7 q8 q9 q10 q11 q12
        apply View.ext <;> simp only [view] at * <;> first | rfl | omega
      · exact off_ok hC hk hij rfl (by simp [Instr.op]) rfl rfl rfl rfl rfl rfl rfl rfl
    · refine hC.gl.run hk ?_ rfl rfl ?_ ?_ ?_ ?_ ?_
      · intro e he; exact .inl he
      · intro v hv; exact hv
      · intro i ct p h; exact h
      · intro e i hi; exact .inl hi
      · intro i v _ h; exact h
      · simp only [List.mem_singleton, forall_eq, pushOk]
        exact ⟨e, hct, hC.gl.g2 e hr⟩
  · rename_i hr
    simp only [Bool.not_eq_true] at hr
    refine ⟨_, _, rfl, ph, inv_same hk rfl rfl hI, fun i => ?_, ?_⟩
    · by_cases hij : i = j
      · subst hij
        have key := hv.regOk hpos (by rw [hrq, hr]; rfl)
        have Q := fun w => ws_set w [.transition i { listen := true }] hk
        wts i, Q
        refine (?_ : view _ _ _ _ = _) ▸ key
        clear * - q1 q2 q3 q4 q5 q6 q7 q8 q9 q10 q11 q12 hct
        apply View.ext <;> simp only [view] at * <;> first | rfl | omega | skip
        simp [inC, hct]
      · refine off_ok hC hk hij rfl (by simp [Instr.op]) rfl rfl rfl rfl ?_ rfl rfl rfl
        simp only [inC]
        cases hci : s.ct i with
        | none => rfl
        | some e' =>
          by_cases he : e' = e
          · subst he; simp [List.count_singleton, Ne.symm hij]
          · simp [upd, he]
    · refine hC.gl.run hk ?_ rfl rfl ?_ ?_ ?_ ?_ ?_
      · intro e he; exact .inl he
      · intro v hv; exact hv
      · intro i ct p h; exact h
      · intro e' i hi
        by_cases he : e' = e
        · subst he; simp at hi
          rcases hi with h | h
          · exact .inl h
          · subst h; exact .inr hct
        · simp [upd, he] at hi; exact .inl hi
      · intro i v _ h; exact h
      · simp only [List.mem_singleton, forall_eq, pushOk]
        simp [hct]

theorem good_tryCancel {j : OpId} {l : Bool} (b : Bool)
    (hI : L.Inv s.d ph s.log (dsPend acts)) (hC : Core s acts ph)
    (hk : acts[k]? = some (.tryCancel j l :: r)) : Good L s acts k (.tryCancel j l) r b := by
  have hv := hC.op j
  have m1 := ws_pos (w := W.tryL j) hk
  have m2 := ws_pos (w := W.tryC j) hk
  simp only [W.tryL, W.tryC, if_true] at m1 m2
  have hpos : l.toNat ≤ (view s acts ph j).tryL ∧ (!l).toNat ≤ (view s acts ph j).tryC := ⟨m1, m2⟩
  have hsum : 1 ≤ (view s acts ph j).tryL + (view s acts ph j).tryC := by
    cases l <;> simp at hpos <;> omega
  have hp3 : 3 ≤ (view s acts ph j).ph := by
    have a2 := hv.a2
    clear * - a2 hsum; omega
  have hph : (view s acts ph j).ph = 3 ∨ (view s acts ph j).ph = 4 := by
    have b0 := hv.b0
    have e11 := hv.e11; have e3 := hv.e3 hp3; have e3b := hv.e3b
    clear * - b0 e11 e3 e3b hp3 hsum; omega
  obtain ⟨e, hct, hcan⟩ := hC.gl.g8 _ _ (pending_top hk)
  have hst : s.started j = true := by
    cases h : s.started j with
    | true => rfl
    | false =>
      have := hv.a3 (by simp [view, h])
      omega
  obtain ⟨p0, hbeg⟩ := hC.gl.g4 j hst
  rw [hct] at hbeg
  unfold Good
  simp only [exec]
  rcases hph with hph | hph
  · have hphj : ph j = .waiting := by
      rw [view_ph] at hph
      cases h : ph j <;> simp [h, Phase.code] at hph ⊢
    obtain ⟨d', es, ht, hI'⟩ := L.tryWaiting hI hphj hbeg hcan
    simp only [ht]
    refine ⟨_, _, rfl, upd ph j .gone, inv_same hk rfl rfl hI', fun i => ?_, ?_⟩
    · by_cases hij : i = j
      · subst hij
        have Q := fun w => ws_set w [.transition i { listen := l, compl := true, canc := true }] hk
        cases l with
        | true =>
          have key := hv.tryLT hpos.1 hph
          wts i, Q
          refine (?_ : view _ _ _ _ = _) ▸ key
          clear * - q1 q2 q3 q4 q5 q6 q7 q8 q9 q10 q11 q12
          apply View.ext <;> simp only [view, upd_same, doneCnt_append, doneCnt_ds, Nat.add_zero, Phase.code] at * <;> first | rfl | omega
        | false =>
          have key := hv.tryCT hpos.2 hph
          wts i, Q
          refine (?_ : view _ _ _ _ = _) ▸ key
          clear * - q1 q2 q3 q4 q5 q6 q7 q8 q9 q10 q11 q12
          apply View.ext <;> simp only [view, upd_same, doneCnt_append, doneCnt_ds, Nat.add_zero, Phase.code] at * <;> first | rfl | omega
      · exact off_ok hC hk hij rfl (by simp [Instr.op]) rfl rfl rfl rfl rfl rfl (by simp [upd, hij])
          (by simp [doneCnt_append])
    · refine hC.gl.run hk ?_ rfl rfl ?_ ?_ ?_ ?_ ?_
      · intro e he; exact .inl he
      · intro v hv; simp [hv]
      · intro i ct p h; simpa using h
      · intro e i hi; exact .inl hi
      · intro i v _ h; by_cases hij : i = j
        · subst hij; simp [hphj] at h
        · simp [upd, hij, h]
      · simp only [List.mem_singleton, forall_eq, pushOk]
        simp [hct]
  · have hphj : ph j = .taken := by
      rw [view_ph] at hph
      cases h : ph j <;> simp [h, Phase.code] at hph ⊢
    obtain ⟨d', es, ht, hI'⟩ := L.tryTaken hI hphj hbeg hcan
    simp only [ht]
    refine ⟨_, _, rfl, ph, inv_same hk rfl rfl hI', fun i => ?_, ?_⟩
    · by_cases hij : i = j
      · subst hij
        have Q := fun w => ws_set w [.transition i { listen := l, compl := false, canc := true }] hk
        cases l with
        | true =>
          have key := hv.tryLF hpos.1 hph
          wts i, Q
          refine (?_ : view _ _ _ _ = _) ▸ key
          clear * - q1 q2 q3 q4 q5 q6 q7 q8 q9 q10 q11 q12
          apply View.ext <;> simp only [view, doneCnt_append, doneCnt_ds, Nat.add_zero] at * <;> first | rfl | omega
        | false =>
          have key := hv.tryCF hpos.2 hph
          wts i, Q
          refine (?_ : view _ _ _ _ = _) ▸ key
          clear * - q1 q2 q3 q4 q5 q6 q7 q8 q9 q10 q11 q12
          apply View.ext <;> simp only [view, doneCnt_append, doneCnt_ds, Nat.add_zero] at * <;> first | rfl | omega
      · exact off_ok hC hk hij rfl (by simp [Instr.op]) rfl rfl rfl rfl rfl rfl rfl
          (by simp [doneCnt_append])
    · refine hC.gl.run hk ?_ rfl rfl ?_ ?_ ?_ ?_ ?_
      · intro e he; exact .inl he
      · intro v hv; simp [hv]
      · intro i ct p h; simpa using h
      · intro e i hi; exact .inl hi
      · intro i v _ h; exact h
      · simp only [List.mem_singleton, forall_eq, pushOk]
        simp [hct]

theorem good_unregister {j : OpId} (b : Bool)
    (hI : L.Inv s.d ph s.log (dsPend acts)) (hC : Core s acts ph)
    (hk : acts[k]? = some (.unregister j :: r)) : Good L s acts k (.unregister j) r b := by
  have hv := hC.op j
  have m := ws_pos (w := W.un j) hk
  simp only [W.un, if_true] at m
  have hpos : 1 ≤ (view s acts ph j).un := m
  have hun : (view s acts ph j).un = 1 := by have := hv.b0; omega
  obtain ⟨e, hct⟩ := isSome_of_view (hv.e7a hun)
  have hp3 : 3 ≤ (view s acts ph j).ph := by
    have a2 := hv.a2
    clear * - a2 hpos; omega
  have hl : (view s acts ph j).l = 1 ∧ (view s acts ph j).c = 1 := by
    have e4b := hv.e4b; have b0 := hv.b0
    clear * - e4b b0 hun; omega
  have f1 := hv.e1 hp3
  have hevt := evt_of_view (hv.e9 hp3 (by omega))
  rw [hct] at hevt
  have hrq : (view s acts ph j).reqd = (s.req e).toNat := reqd_some hct
  unfold Good
  simp only [exec, hevt]
  split
  · rename_i hr
    refine ⟨_, [], rfl, ph, inv_same hk rfl rfl hI, fun i => ?_, ?_⟩
    · by_cases hij : i = j
      · subst hij
        have key := hv.unReq hpos (by rw [hrq, hr]; rfl)
        have Q := fun w => ws_set w [] hk
        wts i, Q
        refine (?_ : view _ _ _ _ = _) ▸ key
        clear * - q1 q2 q3 q4 q5 q6 q7 q8 q9 q10 q11 q12
        apply View.ext <;> simp only [view] at * <;> first | rfl | omega
      · exact off_ok hC hk hij rfl (by simp) rfl rfl rfl rfl rfl rfl rfl rfl
    · refine hC.gl.run hk ?_ rfl rfl ?_ ?_ ?_ ?_ ?_
      · intro e he; exact .inl he
      · intro v hv; exact hv
      · intro i ct p h; exact h
      · intro e i hi; exact .inl hi
      · intro i v _ h; exact h
      · simp
  · rename_i hr
    simp only [Bool.not_eq_true] at hr
    have hin : 1 ≤ (view s acts ph j).inC := by
      have e3a := hv.e3a hp3; have e7 := hv.e7 hun; have e8 := hv.e8 (by simp [view, hct]) (.inr hun)
      have e7' := hv.e3 hp3
      rw [hr] at hrq
      simp only [Bool.toNat_false] at hrq
      clear * - e3a e7 e8 hl f1 hrq
      omega
    have hmem : j ∈ s.cbs e := by
      simp only [view, inC, hct] at hin
      exact List.count_pos_iff.1 hin
    have hc : (s.cbs e).contains j = true := by simpa using hmem
    simp only [hc, if_true]
    refine ⟨_, _, rfl, ph, inv_same hk rfl rfl hI, fun i => ?_, ?_⟩
    · by_cases hij : i = j
      · subst hij
        have key := hv.unOk hpos (by rw [hrq, hr]; rfl) hin
        have Q := fun w => ws_set w [.resume i] hk
        wts i, Q
        refine (?_ : view _ _ _ _ = _) ▸ key
        clear * - q1 q2 q3 q4 q5 q6 q7 q8 q9 q10 q11 q12 hct
        apply View.ext <;> simp only [view] at * <;> first | rfl | omega | skip
        simp [inC, hct, List.count_erase]
      · refine off_ok hC hk hij rfl (by simp [Instr.op]) rfl rfl rfl rfl ?_ rfl rfl rfl
        simp only [inC]
        cases hci : s.ct i with
        | none => rfl
        | some e' =>
          by_cases he : e' = e
          · subst he; simp [List.count_erase, Ne.symm hij]
          · simp [upd, he]
    · refine hC.gl.run hk ?_ rfl rfl ?_ ?_ ?_ ?_ ?_
      · intro e he; exact .inl he
      · intro v hv; exact hv
      · intro i ct p h; exact h
      · intro e' i hi
        by_cases he : e' = e
        · subst he; simp at hi; exact .inl (List.mem_of_mem_erase hi)
        · simp [upd, he] at hi; exact .inl hi
      · intro i v _ h; exact h
      · simp [pushOk]

theorem good_resume {j : OpId} (b : Bool)
    (hI : L.Inv s.d ph s.log (dsPend acts)) (hC : Core s acts ph)
    (hk : acts[k]? = some (.resume j :: r)) : Good L s acts k (.resume j) r b := by
  have hv := hC.op j
  have m := ws_pos (w := W.res j) hk
  simp only [W.res, if_true] at m
  have hpos : 1 ≤ (view s acts ph j).res := m
  have hp3 : 3 ≤ (view s acts ph j).ph := by
    have a2 := hv.a2
    clear * - a2 hpos; omega
  have hph : (view s acts ph j).ph = 4 ∨ (view s acts ph j).ph = 5 := by
    have b0 := hv.b0; have e4b := hv.e4b; have e2 := hv.e2; have e4a := hv.e4a
    clear * - b0 e4b e2 e4a hp3 hpos; omega
  have hphj : ph j = .taken ∨ ph j = .gone := by
    rw [view_ph] at hph
    cases h : ph j <;> simp [h, Phase.code] at hph ⊢
  refine ⟨_, [], rfl, upd ph j .fin, inv_same hk rfl rfl (L.resume hI hphj), fun i => ?_, ?_⟩
  · by_cases hij : i = j
    · subst hij
      have key := hv.resume hpos
      have Q := fun w => ws_set w [] hk
      wts i, Q
      refine (?_ : view _ _ _ _ = _) ▸ key
      clear * - q1 q2 q3 q4 q5 q6 q7 q8 q9 q10 q11 q12
      apply View.ext <;> simp only [view, upd_same, doneCnt_append, doneCnt_done, if_true, Nat.add_zero, Phase.code] at * <;> first | rfl | omega
    · exact off_ok hC hk hij rfl (by simp) rfl rfl rfl rfl rfl rfl (by simp [upd, hij])
        (by simp [doneCnt_append, Ne.symm hij])
  · refine hC.gl.run hk ?_ rfl rfl ?_ ?_ ?_ ?_ ?_
    · intro e he; exact .inl he
    · intro v hv; simp [hv]
    · intro i ct p h; simpa using h
    · intro e i hi; exact .inl hi
    · intro i v' hp h; by_cases hij : i = j
      · subst hij; rcases hphj with h1 | h1 <;> simp [h1] at h
      · simp [upd, hij, h]
    · simp

theorem good_complete {j : OpId} (b : Bool)
    (hI : L.Inv s.d ph s.log (dsPend acts)) (hC : Core s acts ph)
    (hk : acts[k]? = some (.complete j :: r)) : Good L s acts k (.complete j) r b := by
  have hv := hC.op j
  have m := ws_pos (w := W.co j) hk
  simp only [W.co, if_true] at m
  have hpos : 1 ≤ (view s acts ph j).co := m
  refine ⟨_, _, rfl, ph, inv_same hk rfl rfl hI, fun i => ?_, ?_⟩
  · by_cases hij : i = j
    · subst hij
      have key := hv.complete hpos
      have Q := fun w => ws_set w [.transition i { compl := true }] hk
      wts i, Q
      refine (?_ : view _ _ _ _ = _) ▸ key
      clear * - q1 q2 q3 q4 q5 q6 q7 q8 q9 q10 q11 q12
      apply View.ext <;> simp only [view] at * <;> first | rfl | omega
    · exact off_ok hC hk hij rfl (by simp [Instr.op]) rfl rfl rfl rfl rfl rfl rfl rfl
  · refine hC.gl.run hk ?_ rfl rfl ?_ ?_ ?_ ?_ ?_
    · intro e he; exact .inl he
    · intro v hv; exact hv
    · intro i ct p h; exact h
    · intro e i hi; exact .inl hi
    · intro i v _ h; exact h
    · simp [pushOk]


theorem frame_ok {s' : RSt S} {acts' : List (List (Instr S))} {ph' : OpId → Phase S.V}
    {i : OpId} (h : OK (view s acts ph i)) (q : samePool i acts acts')
    (hb : s'.bits i = s.bits i) (he : s'.evt i = s.evt i) (hc : s'.ct i = s.ct i)
    (hs : s'.started i = s.started i) (hi : inC s' i = inC s i) (hr : reqd s' i = reqd s i)
    (hp : ph' i = ph i) (hd : doneCnt i s'.log = doneCnt i s.log) :
    OK (view s' acts' ph' i) := by
  rw [view_frame q hb he hc hs hi hr hp hd]; exact h

theorem wl_map_try (i : OpId) (l : List OpId) (w : Instr S → Nat)
    (hw : ∀ j, w (.tryCancel j false) = if j = i then 1 else 0) :
    wl w (l.map fun j => .tryCancel j false) = l.count i := by
  induction l with
  | nil => rfl
  | cons a l ih =>
    simp only [List.map_cons, wl_cons, ih, hw, List.count_cons, beq_iff_eq]
    omega

theorem good_cancel {e : EvId} (b : Bool)
    (hI : L.Inv s.d ph s.log (dsPend acts)) (hC : Core s acts ph)
    (hk : acts[k]? = some (.cancel e :: r)) : Good L s acts k (.cancel e) r b := by
  refine ⟨_, _, rfl, ph, inv_same hk rfl ?_ (L.cancel e hI), fun i => ?_, ?_⟩
  · induction s.cbs e with
    | nil => rfl
    | cons a l ih => simpa [dsl] using ih
  · by_cases hct : s.ct i = some e
    · have key := (hC.op i).cancel (by simp [view, hct])
      have hz : ∀ w : Instr S → Nat, (∀ j, w (.tryCancel j false) = 0) →
          wl w ((s.cbs e).map fun j => .tryCancel j false) = 0 := by
        intro w hw; apply wl_zero; intro x hx; simp at hx; obtain ⟨j, _, rfl⟩ := hx; exact hw j
      have Q := fun w => ws_set w ((s.cbs e).map fun j => .tryCancel j false) hk
      have q1 := Q (W.sta i); have q2 := Q (W.fas i); have q3 := Q (W.lis i)
      have q4 := Q (W.reg i); have q5 := Q (W.tryL i); have q6 := Q (W.tryC i)
      have q7 := Q (W.trL i); have q8 := Q (W.trC i); have q9 := Q (W.trX i)
      have q10 := Q (W.un i); have q11 := Q (W.res i); have q12 := Q (W.co i)
      rw [hz _ (by intro; rfl)] at q1 q2 q3 q4 q7 q8 q9 q10 q11 q12
      rw [hz _ (by intro; simp [W.tryL])] at q5
      rw [wl_map_try i _ _ (by intro; simp [W.tryC])] at q6
      simp only [W.sta] at q1
      simp only [W.fas] at q2
      simp only [W.lis] at q3
      simp only [W.reg] at q4
      simp only [W.tryL] at q5
      simp only [W.tryC] at q6
      simp only [W.trL] at q7
      simp only [W.trC] at q8
      simp only [W.trX] at q9
      simp only [W.un] at q10
      simp only [W.res] at q11
      simp only [W.co] at q12
      refine (?_ : view _ _ _ _ = _) ▸ key
      clear * - q1 q2 q3 q4 q5 q6 q7 q8 q9 q10 q11 q12 hct
      apply View.ext <;> simp only [view, inC, reqd, hct, upd_same, doneCnt_append, doneCnt_cancel, List.count_nil, Nat.add_zero, Bool.toNat_true] at * <;> first | rfl | omega
    · have hni : i ∉ s.cbs e := fun h => hct (hC.gl.g3 e i h)
      refine frame_ok (hC.op i) (samePool_set hk (by simp [off, Instr.op]) (by
        intro y hy; simp at hy; obtain ⟨j, hj, rfl⟩ := hy
        simp [off, Instr.op]; rintro rfl; exact hni hj)) rfl rfl rfl rfl ?_ ?_ rfl
          (by simp [doneCnt_append])
      · simp only [inC]
        cases hci : s.ct i with
        | none => rfl
        | some e' => simp [upd, show e' ≠ e from fun h => hct (h ▸ hci)]
      · simp only [reqd]
        cases hci : s.ct i with
        | none => rfl
        | some e' => simp [upd, show e' ≠ e from fun h => hct (h ▸ hci)]
  · refine hC.gl.run hk ?_ rfl rfl ?_ ?_ ?_ ?_ ?_
    · intro e' he
      by_cases h : e' = e
      · subst h; simp
      · simp [upd, h] at he; exact .inl he
    · intro v hv; simp [hv]
    · intro i ct p h; simpa using h
    · intro e' i hi
      by_cases h : e' = e
      · subst h; simp at hi
      · simp [upd, h] at hi; exact .inl hi
    · intro i v _ h; exact h
    · intro y hy
      simp at hy
      obtain ⟨j, hj, rfl⟩ := hy
      exact ⟨e, hC.gl.g3 e j hj, by simp⟩

theorem dsl_follow (ps : List (OpId ⊕ S.I)) : dsl (ps.map follow) = insts ps := by
  induction ps with
  | nil => rfl
  | cons a ps ih => cases a <;> simp [follow, dsl, insts, ih]

theorem wl_follow_co (i : OpId) (ps : List (OpId ⊕ S.I)) :
    wl (W.co i) (ps.map (follow (S := S))) = (ops ps).count i := by
  induction ps with
  | nil => rfl
  | cons a ps ih =>
    cases a with
    | inl j =>
      simp only [List.map_cons, follow, wl_cons, W.co, ih, ops, List.count_cons, beq_iff_eq]
      omega
    | inr x => simp [follow, W.co, ih, ops]

theorem good_ds {x : S.I} (b : Bool)
    (hI : L.Inv s.d ph s.log (dsPend acts)) (hC : Core s acts ph)
    (hk : acts[k]? = some (.ds x :: r)) : Good L s acts k (.ds x) r b := by
  obtain ⟨rest, hp1, _⟩ := dsPend_set [] hk
  obtain ⟨d', ps, es, he, hnd, hw, hI'⟩ := L.exec b (L.perm hI hp1)
  have hpush : (dsPend (acts.set k (ps.map follow ++ r))).Perm (insts ps ++ rest) := by
    obtain ⟨rest', h1, h2⟩ := dsPend_set (ps.map (follow (S := S))) hk
    have : rest'.Perm rest := by
      have := h1.symm.trans hp1
      exact (List.perm_append_left_iff _).1 this
    rw [dsl_follow] at h2
    exact h2.trans (List.Perm.append_left _ this)
  unfold Good
  simp only [exec, he]
  refine ⟨_, _, rfl, _, L.perm hI' hpush.symm, fun i => ?_, ?_⟩
  · have Q := fun w => ws_set w (ps.map (follow (S := S))) hk
    have hz : ∀ w : Instr S → Nat, (∀ j, w (.complete j) = 0) → (∀ y, w (.ds y) = 0) →
        wl w (ps.map (follow (S := S))) = 0 := by
      intro w hw hw2; apply wl_zero; intro x hx
      rw [List.mem_map] at hx
      obtain ⟨y, _, rfl⟩ := hx
      cases y with
      | inl j => exact hw j
      | inr j => exact hw2 j
    have q1 := Q (W.sta i); have q2 := Q (W.fas i); have q3 := Q (W.lis i)
    have q4 := Q (W.reg i); have q5 := Q (W.tryL i); have q6 := Q (W.tryC i)
    have q7 := Q (W.trL i); have q8 := Q (W.trC i); have q9 := Q (W.trX i)
    have q10 := Q (W.un i); have q11 := Q (W.res i); have q12 := Q (W.co i)
    rw [hz _ (by intro; rfl) (by intro; rfl)] at q1 q2 q3 q4 q5 q6 q7 q8 q9 q10 q11
    rw [wl_follow_co] at q12
    simp only [W.sta] at q1
    simp only [W.fas] at q2
    simp only [W.lis] at q3
    simp only [W.reg] at q4
    simp only [W.tryL] at q5
    simp only [W.tryC] at q6
    simp only [W.trL] at q7
    simp only [W.trC] at q8
    simp only [W.trX] at q9
    simp only [W.un] at q10
    simp only [W.res] at q11
    simp only [W.co] at q12
    by_cases hi : i ∈ ops ps
    · have hphi := hw i hi
      have hcnt : (ops ps).count i = 1 := by
        have h1 := List.nodup_iff_count.1 hnd i
        have h2 := List.count_pos_iff.2 hi
        omega
      have key := (hC.op i).take (by rw [view_ph, hphi]; rfl)
      refine (?_ : view _ _ _ _ = _) ▸ key
      clear * - q1 q2 q3 q4 q5 q6 q7 q8 q9 q10 q11 q12 hi hcnt
      apply View.ext <;> simp only [view, inC, reqd, hi, if_true, Phase.code, doneCnt_append, doneCnt_ds, Nat.add_zero] at * <;> first | rfl | omega
    · have hcnt : (ops ps).count i = 0 := List.count_eq_zero.2 hi
      refine (?_ : view _ _ _ _ = _) ▸ hC.op i
      clear * - q1 q2 q3 q4 q5 q6 q7 q8 q9 q10 q11 q12 hi hcnt
      apply View.ext <;> simp only [view, inC, reqd, hi, if_false, doneCnt_append, doneCnt_ds, Nat.add_zero] at * <;> first | rfl | omega
  · refine hC.gl.run hk ?_ rfl rfl ?_ ?_ ?_ ?_ ?_
    · intro e he; exact .inl he
    · intro v hv; simp [hv]
    · intro i ct p h; simpa using h
    · intro e i hi; exact .inl hi
    · intro i v _ h
      by_cases hi : i ∈ ops ps
      · rw [hw i hi] at h; simp at h
      · simp [hi, h]
    · intro y hy
      rw [List.mem_map] at hy
      obtain ⟨z, _, rfl⟩ := hy
      cases z <;> simp [pushOk, follow]

/-- Every instruction that is on top of an activity succeeds and keeps the invariant. -/
theorem good {x : Instr S} (b : Bool) (h : RInv L s acts) (hk : acts[k]? = some (x :: r)) :
    Good L s acts k x r b := by
  obtain ⟨ph, hI, hC⟩ := h
  cases x with
  | start j => exact good_start b hI hC hk
  | setFast j v => exact good_setFast b hI hC hk
  | listen j => exact good_listen b hI hC hk
  | register j => exact good_register b hI hC hk
  | tryCancel j l => exact good_tryCancel b hI hC hk
  | transition j nb => exact good_transition b hI hC hk
  | unregister j => exact good_unregister b hI hC hk
  | resume j => exact good_resume b hI hC hk
  | complete j => exact good_complete b hI hC hk
  | cancel e => exact good_cancel b hI hC hk
  | ds x => exact good_ds b hI hC hk

/-! ## Actions of the user -/

theorem OK.evtOk_ {v : View} (h : OK v) (hp : v.ph = 0) (y : Nat) : OK { v with evtOk := y } := by
  obtain ⟨b0, a0, a1, a2, a3, e1, e2, e3, e3a, e3b, e4, e4a, e4b, e6, e7, e7a, e8, e9, e10, e11, e13, e14, e15, d1⟩ := h
  constructor <;> first | assumption | (intro h; exfalso; simp only at h; omega)

theorem Glob.env {s s' : RSt S} {p : List (Instr S)} (h : Glob s acts ph)
    (hreq : ∀ e, s'.req e = true → s.req e = true)
    (hct : ∀ i, s.started i = true → s'.ct i = s.ct i)
    (hst : ∀ i, s.started i = true → s'.started i = true)
    (hnew : ∀ i, s'.started i = true → s.started i = false → ∃ p, Ev.begin i (s'.ct i) p ∈ s'.log)
    (hlog : ∀ v, v ∈ s.log → v ∈ s'.log)
    (hbeg : ∀ i ct p, Ev.begin i ct p ∈ s'.log → Ev.begin i ct p ∈ s.log ∨ s'.started i = true)
    (hcbs : s'.cbs = s.cbs)
    (hop : ∀ i x, Pending acts x → x.op = some i → s.started i = true)
    (hmem : ∀ e i, i ∈ s.cbs e → s.started i = true)
    (hp : ∀ y ∈ p, pushOk s' ph y) : Glob s' (acts ++ [p]) ph where
  g2 e he := hlog _ (h.g2 e (hreq e he))
  g3 e i hi := by
    rw [hcbs] at hi
    rw [hct i (hmem e i hi)]; exact h.g3 e i hi
  g4 i hi := by
    cases hs : s.started i with
    | true =>
      obtain ⟨p, hp⟩ := h.g4 i hs
      rw [hct i hs]; exact ⟨p, hlog _ hp⟩
    | false => exact hnew i hi hs
  g5 i hi ct p hm := by
    have hs : s.started i = false := by
      cases hs : s.started i with
      | true => rw [hst i hs] at hi; simp at hi
      | false => rfl
    rcases hbeg i ct p hm with h1 | h1
    · exact h.g5 i hs ct p h1
    · rw [h1] at hi; simp at hi
  g6 i v hy := by
    rcases pending_append hy with h1 | h1
    · exact hp _ h1
    · exact h.g6 i v h1
  g7 i b hy := by
    rcases pending_append hy with h1 | h1
    · exact hp _ h1
    · rw [hct i (hop i _ h1 rfl)]; exact h.g7 i b h1
  g8 i b hy := by
    rcases pending_append hy with h1 | h1
    · exact hp _ h1
    · rw [hct i (hop i _ h1 rfl)]
      obtain ⟨e, h2, h3⟩ := h.g8 i b h1
      exact ⟨e, h2, hlog _ h3⟩

/-- Sum of all the weights of operation `i`. -/
theorem op_weight {x : Instr S} {i : OpId} (h : x.op = some i)
    (ht : ∀ b, x = .transition i b → b ≠ {}) :
    0 < W.sta i x + W.fas i x + W.lis i x + W.reg i x + W.tryL i x + W.tryC i x + W.trL i x +
      W.trC i x + W.trX i x + W.un i x + W.res i x + W.co i x := by
  cases x with
  | transition j b =>
    simp [Instr.op] at h; subst h
    have := ht b rfl
    simp [W.sta, W.fas, W.lis, W.reg, W.tryL, W.tryC, W.trL, W.trC, W.trX, W.un, W.res, W.co]
    rcases b with ⟨_ | _, _ | _, _ | _⟩ <;> simp at this ⊢
  | tryCancel j b =>
    simp [Instr.op] at h; subst h
    simp [W.sta, W.fas, W.lis, W.reg, W.tryL, W.tryC, W.trL, W.trC, W.trX, W.un, W.res, W.co]
    cases b <;> simp
  | _ => simp_all [Instr.op, W.sta, W.fas, W.lis, W.reg, W.tryL, W.tryC, W.trL, W.trC, W.trX, W.un, W.res, W.co]

theorem Core.weight (hC : Core s acts ph) {x : Instr S} {i : OpId} (hx : Pending acts x)
    (h : x.op = some i) : 0 < (view s acts ph i).sta + (view s acts ph i).fas +
      (view s acts ph i).lis + (view s acts ph i).reg + (view s acts ph i).tryL +
      (view s acts ph i).tryC + (view s acts ph i).trL + (view s acts ph i).trC +
      (view s acts ph i).trX + (view s acts ph i).un + (view s acts ph i).res +
      (view s acts ph i).co := by
  have h1 := op_weight h (by rintro b rfl; exact (hC.gl.g7 _ _ hx).2)
  obtain ⟨a, ha, hxa⟩ := hx
  have Q := fun w : Instr S → Nat => ws_pos_of_mem (w := w) ha hxa
  have q1 := Q (W.sta i); have q2 := Q (W.fas i); have q3 := Q (W.lis i)
  have q4 := Q (W.reg i); have q5 := Q (W.tryL i); have q6 := Q (W.tryC i)
  have q7 := Q (W.trL i); have q8 := Q (W.trC i); have q9 := Q (W.trX i)
  have q10 := Q (W.un i); have q11 := Q (W.res i); have q12 := Q (W.co i)
  simp only [view]
  omega

theorem OK.idle {v : View} (h : OK v) (hs : v.started = 0) : v.sta + v.fas + v.lis + v.reg +
    v.tryL + v.tryC + v.trL + v.trC + v.trX + v.un + v.res + v.co + v.inC = 0 := by
  have h1 := h.a3 hs
  have h2 := h.a2; have h3 := h.a0; have h4 := h.a1
  clear * - h1 h2 h3 h4 hs; omega

theorem Core.op_started (hC : Core s acts ph) {x : Instr S} {i : OpId} (hx : Pending acts x)
    (h : x.op = some i) : s.started i = true := by
  cases hs : s.started i with
  | true => rfl
  | false =>
    have h1 := hC.weight hx h
    have h2 := (hC.op i).idle (by simp [view, hs])
    omega

theorem Core.cbs_started (hC : Core s acts ph) {e : EvId} {i : OpId} (hi : i ∈ s.cbs e) :
    s.started i = true := by
  cases hs : s.started i with
  | true => rfl
  | false =>
    have h2 := (hC.op i).a3 (by simp [view, hs])
    have := hC.gl.g3 e i hi
    simp [view, this] at h2

theorem doneCnt_pos {i : OpId} {log : List (Ev S)} : 0 < doneCnt i log ↔ log.any (isDone i) = true := by
  simp [doneCnt, List.countP_pos_iff]

theorem env_ok {a : Act S} {s' : RSt S} {p : List (Instr S)} (h : RInv L s acts)
    (he : env s acts a = some (s', p)) : RInv L s' (acts ++ [p]) := by
  obtain ⟨ph, hI, hC⟩ := h
  cases a with
  | newOp j ct pr =>
    simp only [env] at he
    split at he
    · simp at he
    · rename_i hns
      simp only [Bool.not_eq_true] at hns
      split at he
      · rename_i d' had
        simp only [Option.some.injEq, Prod.mk.injEq] at he
        obtain ⟨rfl, rfl⟩ := he
        have hv := hC.op j
        have hs0 : (view s acts ph j).started = 0 := by simp [view, hns]
        have hz := hv.idle hs0
        obtain ⟨hp0, hev0⟩ := hv.a3 hs0
        have hphj : ph j = .new := by
          rw [view_ph] at hp0
          cases h : ph j <;> simp [h, Phase.code] at hp0 ⊢
        have hno : ∀ e, j ∉ s.cbs e := by
          intro e hj; have := hC.cbs_started hj; simp [this] at hns
        refine ⟨ph, L.perm (L.begin hI hphj (hC.gl.g5 j hns) had) ?_, fun i => ?_, ?_⟩
        · exact (dsPend_append acts [.start j]).symm
        · by_cases hij : i = j
          · subst hij
            have key := (hv.begin_ hs0 ct.isSome.toNat
              (match ct with | none => 0 | some e => (s.req e).toNat) (by
                cases ct with
                | none => simp
                | some e => simp; exact Bool.toNat_le _)).evtOk_ hp0 ((s.evt i == ct).toNat)
            refine (?_ : view _ _ _ _ = _) ▸ key
            clear * - hno hz
            apply View.ext <;> simp only [view, inC, reqd, upd_same, ws_append, ws_cons, ws_nil, wl_cons, wl_nil, W.sta, W.fas, W.lis, W.reg, W.tryL, W.tryC, W.trL, W.trC, W.trX, W.un, W.res, W.co, if_true, doneCnt_append, doneCnt_begin, Bool.toNat_true, Nat.add_zero] at * <;> first | rfl | omega | skip
            cases ct with
            | none => simp; omega
            | some e => simp [List.count_eq_zero.2 (hno e)]; omega
          · exact frame_ok (hC.op i) (samePool_append (by simp [off, Instr.op, Ne.symm hij])) rfl rfl
              (by simp [hij]) (by simp [hij]) (by simp [inC, hij]) (by simp [reqd, hij]) rfl
              (by simp [doneCnt_append])
        · refine hC.gl.env ?_ ?_ ?_ ?_ ?_ ?_ rfl ?_ ?_ ?_
          · intro e he; exact he
          · intro i hi; by_cases hij : i = j
            · subst hij; simp [hns] at hi
            · simp [hij]
          · intro i hi; by_cases hij : i = j
            · subst hij; simp
            · simp [hij, hi]
          · intro i hi hni
            by_cases hij : i = j
            · subst hij; exact ⟨pr, by simp⟩
            · simp [hij, hni] at hi
          · intro v hv; simp [hv]
          · intro i c p h
            simp at h
            rcases h with h | ⟨rfl, _⟩
            · exact .inl h
            · right; simp
          · intro i x hx h; exact hC.op_started hx h
          · intro e i hi; exact hC.cbs_started hi
          · simp [pushOk]
      · simp at he
  | cancel e =>
    simp only [env, Option.some.injEq, Prod.mk.injEq] at he
    obtain ⟨rfl, rfl⟩ := he
    refine ⟨ph, L.perm hI (dsPend_append acts [.cancel e]).symm, fun i => ?_, ?_⟩
    · rw [view_frame (samePool_append (by simp [off, Instr.op])) rfl rfl rfl rfl rfl rfl rfl rfl]
      exact hC.op i
    · refine hC.gl.env ?_ ?_ ?_ ?_ ?_ ?_ rfl ?_ ?_ ?_
      · intro e he; exact he
      · intro i hi; rfl
      · intro i hi; exact hi
      · intro i hi hni; exact absurd (hi.symm.trans hni) (by simp)
      · intro v hv; exact hv
      · intro i c p h; exact .inl h
      · intro i x hx h; exact hC.op_started hx h
      · intro e i hi; exact hC.cbs_started hi
      · simp [pushOk]
  | call x =>
    simp only [env] at he
    split at he
    · rename_i d' hcall
      simp only [Option.some.injEq, Prod.mk.injEq] at he
      obtain ⟨rfl, rfl⟩ := he
      refine ⟨ph, L.perm (L.call hI hcall) (dsPend_append acts [.ds x]).symm, fun i => ?_, ?_⟩
      · rw [view_frame (samePool_append (by simp [off, Instr.op])) rfl rfl rfl rfl rfl rfl rfl rfl]
        exact hC.op i
      · refine hC.gl.env ?_ ?_ ?_ ?_ ?_ ?_ rfl ?_ ?_ ?_
        · intro e he; exact he
        · intro i hi; rfl
        · intro i hi; exact hi
        · intro i hi hni; exact absurd (hi.symm.trans hni) (by simp)
        · intro v hv; exact hv
        · intro i c p h; exact .inl h
        · intro i x hx h; exact hC.op_started hx h
        · intro e i hi; exact hC.cbs_started hi
        · simp [pushOk]
    · simp at he
  | reset e =>
    simp only [env] at he
    split at he
    · rename_i hok
      simp only [Option.some.injEq, Prod.mk.injEq] at he
      obtain ⟨rfl, rfl⟩ := he
      simp only [resetOk, Bool.and_eq_true, List.all_eq_true] at hok
      obtain ⟨hlog, hacts⟩ := hok
      refine ⟨ph, L.perm (L.reset e hI) (dsPend_append acts []).symm, fun i => ?_, ?_⟩
      · by_cases hct : s.ct i = some e
        · have hz : ¬ 0 < (view s acts ph i).sta + (view s acts ph i).fas +
              (view s acts ph i).lis + (view s acts ph i).reg + (view s acts ph i).tryL +
              (view s acts ph i).tryC + (view s acts ph i).trL + (view s acts ph i).trC +
              (view s acts ph i).trX + (view s acts ph i).un + (view s acts ph i).res +
              (view s acts ph i).co := by
            intro hpos
            have : ∃ x, Pending acts x ∧ x.op = some i := by
              have key : ∀ w : Instr S → Nat, (∀ x, 0 < w x → x.op = some i) → 0 < ws w acts →
                  ∃ x, Pending acts x ∧ x.op = some i := by
                intro w hw hpos
                obtain ⟨a, ha, x, hx, hwx⟩ := exists_of_ws_pos hpos
                exact ⟨x, ⟨a, ha, hx⟩, hw x hwx⟩
              simp only [view, Nat.add_pos_iff_pos_or_pos, or_assoc] at hpos
              have hw : ∀ x : Instr S, ¬ off i x → x.op = some i := by
                intro x hx; simpa [off] using hx
              rcases hpos with h | h | h | h | h | h | h | h | h | h | h | h <;>
                refine key _ (fun x hx => hw x (fun ho => ?_)) h <;>
                have := W.off ho <;> omega
            obtain ⟨x, ⟨a, ha, hxa⟩, hop⟩ := this
            have := hacts a ha
            have := this x hxa
            simp [hop, hct] at this
          have hst : s.started i = true := by
            cases hs : s.started i with
            | true => rfl
            | false =>
              have := ((hC.op i).a3 (by simp [view, hs])).2
              simp [view, hct] at this
          obtain ⟨pr, hb⟩ := hC.gl.g4 i hst
          have hd := hlog _ hb
          simp [hct] at hd
          have hd' : 0 < doneCnt i s.log := by
            rw [doneCnt_pos]; simpa using hd
          have key := (hC.op i).reset (by omega) (by
            have d1 := (hC.op i).d1
            have : (view s acts ph i).done = doneCnt i s.log := rfl
            clear * - d1 this hd'; omega)
          refine (?_ : view _ _ _ _ = _) ▸ key
          clear * - hct
          apply View.ext <;> simp only [view, inC, reqd, hct, upd_same, ws_append, ws_cons, ws_nil, wl_nil, doneCnt_append, doneCnt_reset, Nat.add_zero, Bool.toNat_false] at * <;> first | rfl | omega
        · refine frame_ok (hC.op i) (samePool_append (by simp)) rfl rfl rfl rfl rfl ?_ rfl
            (by simp [doneCnt_append])
          simp only [reqd]
          cases hci : s.ct i with
          | none => rfl
          | some e' => simp [upd, show e' ≠ e from fun h => hct (h ▸ hci)]
      · refine hC.gl.env ?_ ?_ ?_ ?_ ?_ ?_ rfl ?_ ?_ ?_
        · intro e' he
          by_cases h : e' = e
          · subst h; simp at he
          · simpa [upd, h] using he
        · intro i hi; rfl
        · intro i hi; exact hi
        · intro i hi hni; exact absurd (hi.symm.trans hni) (by simp)
        · intro v hv; simp [hv]
        · intro i c p h; simp at h; exact .inl h
        · intro i x hx h; exact hC.op_started hx h
        · intro e i hi; exact hC.cbs_started hi
        · simp
    · simp at he

theorem init_ok {d0 : S.D} (L : Lawful S d0) : RInv L (RSt.init d0) [] := by
  refine ⟨fun _ => .new, L.init, fun i => ?_, ?_⟩
  · constructor <;> simp [view, RSt.init, Phase.code, inC, reqd, doneCnt]
  · constructor <;> simp [RSt.init, Pending]

theorem run_ok {x : Instr S} {b : Bool} {s' : RSt S} {p : List (Instr S)} (h : RInv L s acts)
    (hk : acts[k]? = some (x :: r)) (he : exec s x b = .ok s' p) :
    RInv L s' (acts.set k (p ++ r)) := by
  obtain ⟨s'', p', h1, h2⟩ := good b h hk
  rw [he] at h1
  simp only [Out.ok.injEq] at h1
  obtain ⟨rfl, rfl⟩ := h1
  exact h2

/-- The invariant holds in every reachable configuration. -/
theorem reach_inv {d0 : S.D} (L : Lawful S d0) {c : Conf (mach S)}
    (h : Reach (mach S) (RSt.init d0) c) : RInv L c.sh c.acts :=
  Reach.inv (M := mach S) (P := RInv L) (init_ok L)
    (fun _ _ _ _ _ hP he => env_ok hP he)
    (fun _ _ _ _ _ _ _ _ hP hk he => run_ok hP hk he) h

end Verif.Resolver
