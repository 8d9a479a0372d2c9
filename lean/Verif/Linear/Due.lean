import Verif.Resolver.Facts

/-!
# When the result of a wait operation is settled

Proof support for `Verif/Linear/Resolver.lean`. `Due s acts i v`: the receiver of wait operation `i` was completed with `v`, or it
is settled that it will be. This file does not model code of `/repo`.
-/

set_option linter.unusedSimpArgs false

namespace Verif.Resolver

variable {S : DS} {d0 : S.D} {L : Lawful S d0} {s s' : RSt S} {acts : List (List (Instr S))} {k : Nat}
  {r p : List (Instr S)} {ph : OpId → Phase S.V}

/-- Evidence that the data structure has removed the node. -/
def took (s : RSt S) (acts : List (List (Instr S))) (i : OpId) : Nat :=
  ws (W.co i) acts + ws (W.trC i) acts + (s.bits i).compl.toNat

/-- The result of operation `i` is settled: `v`. -/
def Due (s : RSt S) (acts : List (List (Instr S))) (i : OpId) (v : S.V) : Prop :=
  Pending acts (.setFast i v) ∨ Ev.done i v ∈ s.log ∨ (0 < took s acts i ∧ doneCnt i s.log = 0 ∧ S.val s.d i = v)

/-- The operations settled by an instruction. -/
def news (s : RSt S) (x : Instr S) (b : Bool) : List (OpId × S.V) :=
  match x with
  | .start i => match S.start s.d i b with
    | some (_, some v, _) => [(i, v)]
    | _ => []
  | .tryCancel i _ => match S.tryCancel s.d i with
    | some (d', true, _) => [(i, S.val d' i)]
    | _ => []
  | .ds x => match S.exec s.d x b with
    | some (d', ps, _) => (ops ps).map fun i => (i, S.val d' i)
    | _ => []
  | _ => []

/-- What the values of settled operations have to satisfy: nobody changes them before they are delivered. -/
structure Stable (L : Lawful S d0) : Prop where
  admit : ∀ {d ph log pi i p d' j}, L.Inv d ph log pi → S.admit d i p = some d' → ph j = .taken ∨ ph j = .gone →
    S.val d' j = S.val d j
  call : ∀ {d ph log pi x d' j}, L.Inv d ph log pi → S.call d x = some d' → ph j = .taken ∨ ph j = .gone →
    S.val d' j = S.val d j
  start : ∀ {d ph log pi i b d' v es j}, L.Inv d ph log pi → ph i = .new → S.start d i b = some (d', v, es) →
    ph j = .taken ∨ ph j = .gone → S.val d' j = S.val d j
  try_ : ∀ {d ph log pi i d' v es j}, L.Inv d ph log pi → ph i = .waiting ∨ ph i = .taken →
    S.tryCancel d i = some (d', v, es) → ph j = .taken ∨ ph j = .gone → S.val d' j = S.val d j
  fin : ∀ {d i j}, j ≠ i → S.val (S.fin d i) j = S.val d j
  exec : ∀ {d ph log pi x b d' ps es j}, L.Inv d ph log (x :: pi) → S.exec d x b = some (d', ps, es) →
    ph j = .taken ∨ ph j = .gone → S.val d' j = S.val d j

theorem pending_set_iff {ι : Type} {acts : List (List ι)} {k : Nat} {x : ι} {r p : List ι} {y : ι}
    (h : acts[k]? = some (x :: r)) (hy : y ≠ x) : Pending (acts.set k (p ++ r)) y ↔ y ∈ p ∨ Pending acts y := by
  constructor
  · exact fun hp => pending_set h hp
  · obtain ⟨hlt, hk⟩ := List.getElem?_eq_some_iff.1 h
    rintro (hp | ⟨a, ha, hya⟩)
    · exact ⟨p ++ r, List.mem_set hlt _, by simp [hp]⟩
    · obtain ⟨n, hn, rfl⟩ := List.getElem_of_mem ha
      by_cases hnk : n = k
      · subst hnk; rw [hk] at hya
        exact ⟨p ++ r, List.mem_set hlt _, by simp at hya; simp [hya.resolve_left hy]⟩
      · refine ⟨acts[n], ?_, hya⟩
        have : (acts.set k (p ++ r))[n]'(by simpa using hn) = acts[n] := by
          rw [List.getElem_set_ne (Ne.symm hnk)]
        rw [← this]; exact List.getElem_mem _

theorem took_phase (hC : Core s acts ph) {i : OpId} (h : 0 < took s acts i) (hd : doneCnt i s.log = 0) :
    ph i = .taken ∨ ph i = .gone := by
  have hv := hC.op i
  have b0 := hv.b0; have a2 := hv.a2; have e2 := hv.e2; have d1 := hv.d1
  have h1 : took s acts i = (view s acts ph i).co + (view s acts ph i).trC + (view s acts ph i).c := rfl
  have h2 : (view s acts ph i).done = doneCnt i s.log := rfl
  have : (view s acts ph i).ph = 4 ∨ (view s acts ph i).ph = 5 := by
    rw [h1] at h; rw [← h2] at hd
    clear * - b0 a2 e2 d1 h hd; omega
  rw [view_ph] at this
  cases h : ph i <;> simp [h, Phase.code] at this ⊢

theorem phase_took (hC : Core s acts ph) {i : OpId} (h : ph i = .taken ∨ ph i = .gone) :
    0 < took s acts i ∧ doneCnt i s.log = 0 := by
  have hv := hC.op i
  have b0 := hv.b0; have e2 := hv.e2; have d1 := hv.d1
  have h1 : took s acts i = (view s acts ph i).co + (view s acts ph i).trC + (view s acts ph i).c := rfl
  have h2 : (view s acts ph i).done = doneCnt i s.log := rfl
  have : (view s acts ph i).ph = 4 ∨ (view s acts ph i).ph = 5 := by
    rw [view_ph]; rcases h with h | h <;> simp [h, Phase.code]
  rw [h1, ← h2]
  clear * - b0 e2 d1 this; omega

theorem no_done {i : OpId} {log : List (Ev S)} : doneCnt i log = 0 ↔ ∀ v, Ev.done i v ∉ log := by
  simp only [doneCnt, List.countP_eq_zero]
  constructor
  · intro h v hv; have := h _ hv; simp [isDone] at this
  · intro h v hv hd
    cases v <;> simp [isDone] at hd
    subst hd; exact h _ hv

/-- Nothing is settled about an operation that is new or waiting. -/
theorem not_due (hC : Core s acts ph) {i : OpId} (h : ph i = .new ∨ ph i = .waiting) (v : S.V) : ¬ Due s acts i v := by
  rintro (hp | hd | ⟨ht, hd, -⟩)
  · have := hC.gl.g6 _ _ hp
    rcases h with h | h <;> rw [h] at this <;> simp at this
  · have h1 : 0 < doneCnt i s.log := by
      apply Nat.pos_of_ne_zero; intro h0; exact no_done.1 h0 v hd
    have d1 := (hC.op i).d1
    have h2 : (view s acts ph i).done = doneCnt i s.log := rfl
    have h3 : (view s acts ph i).ph = 0 ∨ (view s acts ph i).ph = 3 := by
      rw [view_ph]; rcases h with h | h <;> simp [h, Phase.code]
    clear * - d1 h1 h2 h3; omega
  · rcases took_phase hC ht hd with h1 | h1 <;> rcases h with h | h <;> rw [h] at h1 <;> simp at h1

theorem started_of_due (hC : Core s acts ph) {i : OpId} {v : S.V} (h : Due s acts i v) : s.started i = true := by
  cases hs : s.started i with
  | true => rfl
  | false =>
    have := ((hC.op i).a3 (by simp [view, hs])).1
    rw [view_ph] at this
    refine absurd h (not_due hC (.inl ?_) v)
    cases h : ph i <;> simp [h, Phase.code] at this ⊢

/-- An instruction that does not touch the fast path and completes no receiver. -/
theorem due_gen {acts' : List (List (Instr S))} {new : List (OpId × S.V)}
    (hP : ∀ i v, Pending acts' (.setFast i v) ↔ Pending acts (.setFast i v))
    (hD : ∀ i v, Ev.done i v ∈ s'.log ↔ Ev.done i v ∈ s.log)
    (hN : ∀ i, 0 < took s' acts' i ↔ 0 < took s acts i ∨ i ∈ new.map (·.1))
    (hval : ∀ i, 0 < took s acts i → doneCnt i s.log = 0 → S.val s'.d i = S.val s.d i)
    (hnew : ∀ i v, (i, v) ∈ new ↔ i ∈ new.map (·.1) ∧ v = S.val s'.d i)
    (hnd : ∀ i, i ∈ new.map (·.1) → doneCnt i s.log = 0) (i : OpId) (v : S.V) :
    Due s' acts' i v ↔ Due s acts i v ∨ (i, v) ∈ new := by
  have e : doneCnt i s'.log = 0 ↔ doneCnt i s.log = 0 := by
    rw [no_done, no_done]; exact ⟨fun h v => by rw [← hD]; exact h v, fun h v => by rw [hD]; exact h v⟩
  simp only [Due, hP, hD, hN, e, hnew]
  constructor
  · rintro (h | h | ⟨h1 | h1, h2, h3⟩)
    · exact .inl (.inl h)
    · exact .inl (.inr (.inl h))
    · exact .inl (.inr (.inr ⟨h1, h2, by rw [← hval i h1 h2]; exact h3⟩))
    · exact .inr ⟨h1, h3.symm⟩
  · rintro ((h | h | ⟨h1, h2, h3⟩) | ⟨h1, h2⟩)
    · exact .inl h
    · exact .inr (.inl h)
    · exact .inr (.inr ⟨.inl h1, h2, by rw [hval i h1 h2]; exact h3⟩)
    · exact .inr (.inr ⟨.inr h1, hnd i h1, h2.symm⟩)

theorem phase_start (hC : Core s acts ph) {j : OpId} (hk : acts[k]? = some (.start j :: r)) :
    ph j = .new := by
  have m := ws_pos (w := W.sta j) hk
  simp only [W.sta, if_true] at m
  have hpos : 1 ≤ (view s acts ph j).sta := m
  have a0 := (hC.op j).a0
  have hph0 : (view s acts ph j).ph = 0 := by clear * - a0 hpos; omega
  rw [view_ph] at hph0
  cases h : ph j <;> simp [h, Phase.code] at hph0 ⊢

theorem phase_resume (hC : Core s acts ph) {j : OpId} (hk : acts[k]? = some (.resume j :: r)) :
    ph j = .taken ∨ ph j = .gone := by
  have hv := hC.op j
  have m := ws_pos (w := W.res j) hk
  simp only [W.res, if_true] at m
  have hpos : 1 ≤ (view s acts ph j).res := m
  have a2 := hv.a2; have b0 := hv.b0; have e4b := hv.e4b; have e2 := hv.e2; have e4a := hv.e4a
  have hph : (view s acts ph j).ph = 4 ∨ (view s acts ph j).ph = 5 := by
    clear * - a2 b0 e4b e2 e4a hpos; omega
  rw [view_ph] at hph
  cases h : ph j <;> simp [h, Phase.code] at hph ⊢

theorem phase_try (hC : Core s acts ph) {j : OpId} {l : Bool} (hk : acts[k]? = some (.tryCancel j l :: r)) :
    ph j = .waiting ∨ ph j = .taken := by
  have hv := hC.op j
  have m1 := ws_pos (w := W.tryL j) hk
  have m2 := ws_pos (w := W.tryC j) hk
  simp only [W.tryL, W.tryC, if_true] at m1 m2
  have hpos : l.toNat ≤ (view s acts ph j).tryL ∧ (!l).toNat ≤ (view s acts ph j).tryC := ⟨m1, m2⟩
  have hsum : 1 ≤ (view s acts ph j).tryL + (view s acts ph j).tryC := by
    cases l <;> simp at hpos <;> omega
  have a2 := hv.a2; have b0 := hv.b0; have e11 := hv.e11; have e3 := hv.e3; have e3b := hv.e3b
  have hph : (view s acts ph j).ph = 3 ∨ (view s acts ph j).ph = 4 := by
    clear * - a2 b0 e11 e3 e3b hsum; omega
  rw [view_ph] at hph
  cases h : ph j <;> simp [h, Phase.code] at hph ⊢

theorem phase_fast (hC : Core s acts ph) {j : OpId} {v : S.V} (hk : acts[k]? = some (.setFast j v :: r)) :
    ph j = .fast v := hC.gl.g6 _ _ (pending_top hk)

theorem try_waiting (hC : Core s acts ph) (hI : L.Inv s.d ph s.log (dsPend acts)) {j : OpId} {l : Bool}
    (hk : acts[k]? = some (.tryCancel j l :: r)) {d' : S.D} {es : List S.E}
    (ht : S.tryCancel s.d j = some (d', true, es)) : ph j = .waiting := by
  rcases phase_try hC hk with h | h
  · exact h
  · obtain ⟨e, hct, hcan⟩ := hC.gl.g8 _ _ (pending_top hk)
    have hst : s.started j = true := hC.op_started (pending_top hk) rfl
    obtain ⟨p0, hbeg⟩ := hC.gl.g4 j hst
    rw [hct] at hbeg
    obtain ⟨d1, es1, h1, -⟩ := L.tryTaken hI h hbeg hcan
    rw [ht] at h1; simp at h1

theorem exec_waiting (hI : L.Inv s.d ph s.log (dsPend acts)) {x : S.I} {b : Bool}
    (hk : acts[k]? = some (.ds x :: r)) {d' : S.D} {ps : List (OpId ⊕ S.I)} {es : List S.E}
    (he : S.exec s.d x b = some (d', ps, es)) : (ops ps).Nodup ∧ ∀ i ∈ ops ps, ph i = .waiting := by
  obtain ⟨rest, hp1, _⟩ := dsPend_set [] hk
  obtain ⟨d1, ps1, es1, h1, hnd, hw, -⟩ := L.exec b (L.perm hI hp1)
  rw [he] at h1; simp at h1; obtain ⟨rfl, rfl, rfl⟩ := h1
  exact ⟨hnd, hw⟩

theorem not_pending_fast_push (q : List (Instr S)) (hq : ∀ i v, Instr.setFast i v ∉ q) {x : Instr S}
    (hk : acts[k]? = some (x :: r)) (hx : ∀ i v, x ≠ .setFast i v) (i : OpId) (v : S.V) :
    Pending (acts.set k (q ++ r)) (.setFast i v) ↔ Pending acts (.setFast i v) := by
  rw [pending_set_iff hk (Ne.symm (hx i v))]
  exact ⟨fun h => h.resolve_left (hq i v), .inr⟩

theorem waiting_no_done (hC : Core s acts ph) {i : OpId} (h : ph i = .waiting) : doneCnt i s.log = 0 := by
  rw [no_done]; intro v hv; exact not_due hC (.inr h) v (.inr (.inl hv))

theorem wl_follow_zero (ps : List (OpId ⊕ S.I)) (w : Instr S → Nat) (h1 : ∀ j, w (.complete j) = 0)
    (h2 : ∀ y, w (.ds y) = 0) : wl w (ps.map (follow (S := S))) = 0 := by
  apply wl_zero; intro x hx
  rw [List.mem_map] at hx
  obtain ⟨y, _, rfl⟩ := hx
  cases y with
  | inl j => exact h1 j
  | inr j => exact h2 j

theorem mem_map_ds {log : List (Ev S)} {es : List S.E} {i : OpId} {v : S.V} :
    Ev.done i v ∈ log ++ es.map .ds ↔ Ev.done i v ∈ log := by simp

/-- Every step settles the operations in `news` and changes nothing about the others. -/
theorem due_run (hS : Stable L) (hI : L.Inv s.d ph s.log (dsPend acts)) (hC : Core s acts ph) {x : Instr S} {b : Bool}
    (hk : acts[k]? = some (x :: r)) (he : exec s x b = .ok s' p) (i : OpId) (v : S.V) :
    Due s' (acts.set k (p ++ r)) i v ↔ Due s acts i v ∨ (i, v) ∈ news s x b := by
  have Q1 := fun i => ws_set (W.co i) p hk
  have Q2 := fun i => ws_set (W.trC i) p hk
  cases x with
  | start j =>
    have hph := phase_start hC hk
    simp only [exec] at he
    cases hs : S.start s.d j b with
    | none => simp [hs] at he
    | some t =>
      obtain ⟨d', o, es⟩ := t
      cases o with
      | none =>
        simp only [hs, Out.ok.injEq] at he; obtain ⟨rfl, rfl⟩ := he
        simp only [W.co, wl_cons, wl_nil, Nat.add_zero] at Q1
        simp only [W.trC, wl_cons, wl_nil, Nat.add_zero] at Q2
        simp only [news, hs]
        refine due_gen (not_pending_fast_push _ (by simp) hk (by simp)) (fun _ _ => mem_map_ds) (fun i => ?_) ?_ (by simp)
          (by simp) i v
        · simp only [took, Q1, Q2, List.map_nil, List.not_mem_nil, or_false, Bool.toNat_false, ite_self, Nat.add_zero]
        · intro j ht hd; exact hS.start hI hph hs (took_phase hC ht hd)
      | some w =>
        simp only [hs, Out.ok.injEq] at he; obtain ⟨rfl, rfl⟩ := he
        simp only [W.co, wl_cons, wl_nil, Nat.add_zero] at Q1
        simp only [W.trC, wl_cons, wl_nil, Nat.add_zero] at Q2
        have e : doneCnt i (s.log ++ es.map Ev.ds) = doneCnt i s.log := by simp [doneCnt_append, doneCnt_ds]
        have ev : 0 < took s acts i ∧ doneCnt i s.log = 0 → S.val d' i = S.val s.d i := fun h =>
          hS.start hI hph hs (took_phase hC h.1 h.2)
        simp only [news, hs, Due, mem_map_ds, e, took, Q1, Q2, pending_set_iff hk (by simp : Instr.setFast i v ≠ (.start j : Instr S)),
          List.mem_singleton, Instr.setFast.injEq, Prod.mk.injEq]
        simp only [took] at ev
        grind
  | setFast j w =>
    have hph := phase_fast hC hk
    simp only [exec, Out.ok.injEq] at he; obtain ⟨rfl, rfl⟩ := he
    simp only [W.co, wl_cons, wl_nil, Nat.add_zero] at Q1
    simp only [W.trC, wl_cons, wl_nil, Nat.add_zero] at Q2
    have hpj : Pending acts (.setFast j w) := pending_top hk
    simp only [news, List.not_mem_nil, or_false]
    by_cases hij : i = j
    · subst hij
      have hz : ¬ (0 < took s acts i ∧ doneCnt i s.log = 0) := fun h => by
        rcases took_phase hC h.1 h.2 with h1 | h1 <;> rw [hph] at h1 <;> simp at h1
      have hn : ∀ v, Ev.done i v ∉ s.log := by
        rw [← no_done]
        have d1 := (hC.op i).d1
        have h2 : (view s acts ph i).done = doneCnt i s.log := rfl
        have h3 : (view s acts ph i).ph = 1 := by rw [view_ph, hph]; rfl
        clear * - d1 h2 h3; omega
      have hu : ∀ v, Pending acts (.setFast i v) → v = w := fun v hp => by
        have := hC.gl.g6 _ _ hp; rw [hph] at this; simp at this; exact this.symm
      have hd : doneCnt i (s.log ++ [.done i w]) ≠ 0 := by simp [doneCnt_append, doneCnt_done]
      constructor
      · rintro (h | h | h)
        · have := pending_set hk h; simp at this; exact .inl this
        · simp [hn] at h; subst h; exact .inl hpj
        · exact absurd h.2.1 hd
      · rintro (h | h | h)
        · have := hu v h; subst this; exact .inr (.inl (by simp))
        · exact absurd h (hn v)
        · exact absurd ⟨h.1, h.2.1⟩ hz
    · have hne : Instr.setFast i v ≠ (.setFast j w : Instr S) := by simp [hij]
      have e : doneCnt i (s.log ++ [.done j w]) = doneCnt i s.log := by
        simp [doneCnt_append, doneCnt_done, Ne.symm hij]
      simp only [Due, pending_set_iff hk hne, e, took, Q1, Q2, hS.fin hij, List.not_mem_nil, false_or, List.mem_append,
        List.mem_singleton, Ev.done.injEq, hij, false_and, or_false]
  | listen j =>
    simp only [exec] at he
    split at he <;> simp only [Out.ok.injEq] at he <;> obtain ⟨rfl, rfl⟩ := he <;>
    · simp only [W.co, wl_cons, wl_nil, Nat.add_zero] at Q1
      simp only [W.trC, wl_cons, wl_nil, Nat.add_zero, Bool.toNat_false, ite_self] at Q2
      simp only [news]
      refine due_gen (not_pending_fast_push _ (by simp) hk (by simp)) (fun _ _ => Iff.rfl) (fun i => ?_) (fun _ _ _ => rfl) (by simp)
          (by simp) i v
      simp only [took, Q1, Q2, List.map_nil, List.not_mem_nil, or_false, Bool.toNat_false, ite_self, Nat.add_zero]
  | register j =>
    simp only [exec] at he
    split at he
    · simp at he
    split at he <;> simp only [Out.ok.injEq] at he <;> obtain ⟨rfl, rfl⟩ := he <;>
    · simp only [W.co, wl_cons, wl_nil, Nat.add_zero] at Q1
      simp only [W.trC, wl_cons, wl_nil, Nat.add_zero, Bool.toNat_false, ite_self] at Q2
      simp only [news]
      refine due_gen (not_pending_fast_push _ (by simp) hk (by simp)) (fun _ _ => Iff.rfl) (fun i => ?_) (fun _ _ _ => rfl) (by simp)
          (by simp) i v
      simp only [took, Q1, Q2, List.map_nil, List.not_mem_nil, or_false, Bool.toNat_false, ite_self, Nat.add_zero]
  | tryCancel j l =>
    have hph := phase_try hC hk
    simp only [exec] at he
    cases hs : S.tryCancel s.d j with
    | none => simp [hs] at he
    | some t =>
      obtain ⟨d', o, es⟩ := t
      simp only [hs, Out.ok.injEq] at he; obtain ⟨rfl, rfl⟩ := he
      simp only [W.co, wl_cons, wl_nil, Nat.add_zero] at Q1
      simp only [W.trC, wl_cons, wl_nil, Nat.add_zero] at Q2
      cases o with
      | false =>
        simp only [news, hs]
        refine due_gen (not_pending_fast_push _ (by simp) hk (by simp)) (fun _ _ => mem_map_ds) (fun i => ?_) ?_ (by simp)
          (by simp) i v
        · simp only [took, Q1, Q2, List.map_nil, List.not_mem_nil, or_false, Bool.toNat_false, ite_self, Nat.add_zero]
        · intro j ht hd; exact hS.try_ hI hph hs (took_phase hC ht hd)
      | true =>
        have hw := try_waiting hC hI hk hs
        simp only [news, hs]
        refine due_gen (not_pending_fast_push _ (by simp) hk (by simp)) (fun _ _ => mem_map_ds) (fun i => ?_) ?_ (by simp; grind)
          ?_ i v
        · simp only [took, Q1, Q2, Bool.toNat_true, List.map_cons, List.map_nil, List.mem_singleton]
          by_cases h : j = i
          · subst h; simp only [if_true, or_true, iff_true]; omega
          · simp [h, Ne.symm h]
        · intro j ht hd; exact hS.try_ hI hph hs (took_phase hC ht hd)
        · simp; exact waiting_no_done hC hw
  | transition j nb =>
    simp only [exec] at he
    split at he
    · simp at he
    rename_i hm
    have key : ∀ (q : List (Instr S)), (∀ i v, Instr.setFast i v ∉ q) → (∀ i, wl (W.co i) q = 0) → (∀ i, wl (W.trC i) q = 0) →
        p = q → s' = { s with bits := upd s.bits j ((s.bits j).or nb) } →
        (Due s' (acts.set k (p ++ r)) i v ↔ Due s acts i v ∨ (i, v) ∈ news s (.transition j nb) b) := by
      rintro q hq hc0 hc1 rfl rfl
      simp only [W.co, hc0, Nat.add_zero] at Q1
      simp only [W.trC, hc1, Nat.add_zero] at Q2
      simp only [news]
      refine due_gen (s := s) (s' := { s with bits := upd s.bits j ((s.bits j).or nb) }) (new := []) (not_pending_fast_push _ hq hk (by simp)) (fun _ _ => Iff.rfl) (fun i => ?_) (fun _ _ _ => rfl) (by simp)
          (by simp) i v
      have q2 := Q2 i
      by_cases h : j = i
      · subst h
        simp only [if_true] at q2
        simp only [took, upd_same, Q1, List.map_nil, List.not_mem_nil, or_false]
        simp only [Bits.meets] at hm
        revert hm q2
        simp only [Bits.or]
        rcases hb1 : (s.bits j).compl <;> rcases hb2 : nb.compl <;> simp <;> omega
      · simp only [h, if_false, Nat.add_zero] at q2
        simp only [took, Q1, q2, upd_ne _ _ (Ne.symm h), List.map_nil, List.not_mem_nil, or_false]
    split at he
    · simp only [Out.ok.injEq] at he; obtain ⟨h1, h2⟩ := he
      exact key [] (by simp) (by simp) (by simp) h2.symm h1.symm
    split at he
    · simp only [Out.ok.injEq] at he; obtain ⟨h1, h2⟩ := he
      exact key [.unregister j] (by simp) (by simp [W.co]) (by simp [W.trC]) h2.symm h1.symm
    · simp only [Out.ok.injEq] at he; obtain ⟨h1, h2⟩ := he
      exact key [.resume j] (by simp) (by simp [W.co]) (by simp [W.trC]) h2.symm h1.symm
  | unregister j =>
    simp only [exec] at he
    split at he
    · simp at he
    split at he
    · simp only [Out.ok.injEq] at he; obtain ⟨rfl, rfl⟩ := he
      simp only [W.co, wl_cons, wl_nil, Nat.add_zero] at Q1
      simp only [W.trC, wl_cons, wl_nil, Nat.add_zero] at Q2
      simp only [news]
      refine due_gen (not_pending_fast_push _ (by simp) hk (by simp)) (fun _ _ => Iff.rfl) (fun i => ?_) (fun _ _ _ => rfl) (by simp)
          (by simp) i v
      simp only [took, Q1, Q2, List.map_nil, List.not_mem_nil, or_false, Bool.toNat_false, ite_self, Nat.add_zero]
    split at he
    · simp only [Out.ok.injEq] at he; obtain ⟨rfl, rfl⟩ := he
      simp only [W.co, wl_cons, wl_nil, Nat.add_zero] at Q1
      simp only [W.trC, wl_cons, wl_nil, Nat.add_zero] at Q2
      simp only [news]
      refine due_gen (not_pending_fast_push _ (by simp) hk (by simp)) (fun _ _ => Iff.rfl) (fun i => ?_) (fun _ _ _ => rfl) (by simp)
          (by simp) i v
      simp only [took, Q1, Q2, List.map_nil, List.not_mem_nil, or_false, Bool.toNat_false, ite_self, Nat.add_zero]
    · simp at he
  | resume j =>
    have hph := phase_resume hC hk
    have ht := phase_took hC hph
    simp only [exec, Out.ok.injEq] at he; obtain ⟨rfl, rfl⟩ := he
    simp only [W.co, wl_cons, wl_nil, Nat.add_zero] at Q1
    simp only [W.trC, wl_cons, wl_nil, Nat.add_zero] at Q2
    simp only [news, List.not_mem_nil, or_false]
    by_cases hij : i = j
    · subst hij
      have hn := no_done.1 ht.2
      have hf : ¬ Pending acts (.setFast i v) := fun hp => by
        have := hC.gl.g6 _ _ hp; rw [this] at hph; simp at hph
      have hd : doneCnt i (s.log ++ [.done i (S.val s.d i)]) ≠ 0 := by simp [doneCnt_append, doneCnt_done]
      constructor
      · rintro (h | h | h)
        · have := pending_set hk h; simp at this; exact absurd this hf
        · simp [hn] at h; subst h; exact .inr (.inr ⟨ht.1, ht.2, rfl⟩)
        · exact absurd h.2.1 hd
      · rintro (h | h | h)
        · exact absurd h hf
        · exact absurd h (hn v)
        · exact .inr (.inl (by simp [h.2.2]))
    · have hne : Instr.setFast i v ≠ (.resume j : Instr S) := by simp
      have e : doneCnt i (s.log ++ [.done j (S.val s.d j)]) = doneCnt i s.log := by
        simp [doneCnt_append, doneCnt_done, Ne.symm hij]
      simp only [Due, pending_set_iff hk hne, e, took, Q1, Q2, hS.fin hij, List.not_mem_nil, false_or, List.mem_append,
        List.mem_singleton, Ev.done.injEq, hij, false_and, or_false]
  | complete j =>
    simp only [exec, Out.ok.injEq] at he; obtain ⟨rfl, rfl⟩ := he
    simp only [W.co, wl_cons, wl_nil, Nat.add_zero] at Q1
    simp only [W.trC, wl_cons, wl_nil, Nat.add_zero, Bool.toNat_true] at Q2
    simp only [news]
    refine due_gen (not_pending_fast_push _ (by simp) hk (by simp)) (fun _ _ => Iff.rfl) (fun i => ?_) (fun _ _ _ => rfl) (by simp)
        (by simp) i v
    have q1 := Q1 i; have q2 := Q2 i
    simp only [took, List.map_nil, List.not_mem_nil, or_false]
    by_cases h : j = i
    · subst h; simp only [if_true] at q1 q2; omega
    · simp only [h, if_false] at q1 q2; omega
  | cancel e =>
    simp only [exec, Out.ok.injEq] at he; obtain ⟨rfl, rfl⟩ := he
    have z1 : ∀ i, wl (W.co i) ((s.cbs e).map (fun i => (.tryCancel i false : Instr S))) = 0 := fun i => by
      apply wl_zero; intro x hx; simp at hx; obtain ⟨_, _, rfl⟩ := hx; rfl
    have z2 : ∀ i, wl (W.trC i) ((s.cbs e).map (fun i => (.tryCancel i false : Instr S))) = 0 := fun i => by
      apply wl_zero; intro x hx; simp at hx; obtain ⟨_, _, rfl⟩ := hx; rfl
    simp only [W.co, z1, Nat.add_zero] at Q1
    simp only [W.trC, z2, Nat.add_zero] at Q2
    simp only [news]
    refine due_gen (s := s) (s' := { s with req := upd s.req e true, cbs := upd s.cbs e [], log := s.log ++ [.cancel e] })
        (new := []) (not_pending_fast_push _ (by simp) hk (by simp)) (fun _ _ => by simp) (fun i => ?_) (fun _ _ _ => rfl) (by simp)
        (by simp) i v
    simp only [took, Q1, Q2, List.map_nil, List.not_mem_nil, or_false, Bool.toNat_false, ite_self, Nat.add_zero]
  | ds x =>
    simp only [exec] at he
    cases hs : S.exec s.d x b with
    | none => simp [hs] at he
    | some t =>
      obtain ⟨d', ps, es⟩ := t
      simp only [hs, Out.ok.injEq] at he; obtain ⟨rfl, rfl⟩ := he
      obtain ⟨hnd, hw⟩ := exec_waiting hI hk hs
      obtain ⟨rest, hp1, _⟩ := dsPend_set [] hk
      simp only [W.co, wl_follow_co, Nat.add_zero] at Q1
      have z2 : ∀ i, wl (W.trC i) (ps.map (follow (S := S))) = 0 := fun i => wl_follow_zero ps (W.trC i) (fun _ => rfl) (fun _ => rfl)
      simp only [W.trC, z2, Nat.add_zero] at Q2
      simp only [news, hs]
      refine due_gen (not_pending_fast_push _ ?_ hk (by simp)) (fun _ _ => mem_map_ds) (fun i => ?_) ?_ ?_ ?_ i v
      · intro i v hm
        rw [List.mem_map] at hm; obtain ⟨y, _, hy⟩ := hm
        cases y <;> simp [follow] at hy
      · have : 0 < (ops ps).count i ↔ i ∈ ops ps := List.count_pos_iff
        simp only [took, Q1, Q2, List.map_map, List.mem_map, Function.comp, exists_eq_right]
        rw [← this]; omega
      · intro j ht hd; exact hS.exec (L.perm hI hp1) hs (took_phase hC ht hd)
      · intro i v; simp; grind
      · intro i hi; simp at hi; exact waiting_no_done hC (hw i hi)

/-- Actions of the user settle nothing. -/
theorem due_env (hS : Stable L) (hI : L.Inv s.d ph s.log (dsPend acts)) (hC : Core s acts ph) {a : Act S}
    (he : env s acts a = some (s', p)) (i : OpId) (v : S.V) :
    Due s' (acts ++ [p]) i v ↔ Due s acts i v := by
  have key : ∀ q : List (Instr S), (∀ i v, Instr.setFast i v ∉ q) → (∀ i, wl (W.co i) q = 0) → (∀ i, wl (W.trC i) q = 0) →
      p = q → (∀ i v, Ev.done i v ∈ s'.log ↔ Ev.done i v ∈ s.log) → s'.bits = s.bits →
      (∀ i, 0 < took s acts i → doneCnt i s.log = 0 → S.val s'.d i = S.val s.d i) →
      (Due s' (acts ++ [p]) i v ↔ Due s acts i v) := by
    rintro q hq h1 h2 rfl hD hb hval
    have := due_gen (s := s) (s' := s') (acts := acts) (acts' := acts ++ [p]) (new := []) ?_ hD ?_ hval (by simp) (by simp) i v
    · simpa using this
    · intro i v; simp only [Pending]
      constructor
      · rintro ⟨a, ha, hm⟩
        rcases List.mem_append.1 ha with ha | ha
        · exact ⟨a, ha, hm⟩
        · simp at ha; subst ha; exact absurd hm (hq i v)
      · rintro ⟨a, ha, hm⟩; exact ⟨a, by simp [ha], hm⟩
    · intro i; simp [took, hb, ws_append, h1, h2]
  cases a with
  | newOp j ct q =>
    simp only [env] at he
    split at he
    · simp at he
    split at he
    · rename_i d' ha
      simp at he; obtain ⟨rfl, rfl⟩ := he
      exact key [.start j] (by simp) (by simp [W.co]) (by simp [W.trC]) rfl (by simp) rfl
        (fun i ht hd => hS.admit hI ha (took_phase hC ht hd))
    · simp at he
  | cancel e =>
    simp [env] at he; obtain ⟨rfl, rfl⟩ := he
    exact key [.cancel e] (by simp) (by simp [W.co]) (by simp [W.trC]) rfl (by simp) rfl (fun _ _ _ => rfl)
  | call x =>
    simp only [env] at he
    split at he
    · rename_i d' ha
      simp at he; obtain ⟨rfl, rfl⟩ := he
      exact key [.ds x] (by simp) (by simp [W.co]) (by simp [W.trC]) rfl (by simp) rfl
        (fun i ht hd => hS.call hI ha (took_phase hC ht hd))
    · simp at he
  | reset e =>
    simp only [env] at he
    split at he
    · simp at he; obtain ⟨rfl, rfl⟩ := he
      exact key [] (by simp) (by simp) (by simp) rfl (by simp) rfl (fun _ _ _ => rfl)
    · simp at he

end Verif.Resolver
