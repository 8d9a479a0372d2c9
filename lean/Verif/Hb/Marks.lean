import Verif.Hb.ResolverProps
import Verif.Hb.Carry

/-!
# Which event decided a completed operation

Every completion of a wait operation was decided by an earlier event of the data structure. The data structure says
which events decide and with which value.
-/

namespace Verif.Resolver

variable {S : DS} {d0 : S.D}

/-- The event at some position of a history has property `P`, given the events before it. -/
def Occurs (P : List (Ev S) → S.E → Prop) (log : List (Ev S)) : Prop :=
  ∃ p v, log[p]? = some (.ds v) ∧ P (log.take p) v

theorem Occurs.mono {P : List (Ev S) → S.E → Prop} {log : List (Ev S)} (h : Occurs P log) (l : List (Ev S)) :
    Occurs P (log ++ l) := by
  obtain ⟨p, v, h1, h2⟩ := h
  have hp := (List.getElem?_eq_some_iff.1 h1).1
  exact ⟨p, v, by rw [List.getElem?_append_left hp]; exact h1, by rwa [List.take_append_of_le_length (by omega)]⟩

theorem Occurs.of_split {P : List (Ev S) → S.E → Prop} {log : List (Ev S)} {l1 l2 : List S.E} {v : S.E}
    (h : P (log ++ l1.map .ds) v) : Occurs P (log ++ (l1 ++ v :: l2).map .ds) := by
  refine ⟨log.length + l1.length, v, ?_, ?_⟩
  · rw [List.getElem?_append_right (by omega)]; simp
  · rw [List.take_append, List.take_of_length_le (by omega)]; simpa using h

/-- How operations are decided. `F v i x`: event `v` is `start()` of `i` completing at once with value `x`.
`T before v i x`: event `v` is the regular completion of `i` with value `x`. `G v i x`: event `v` is the successful
cancellation of `i`, with value `x`. -/
structure Marks (L : Lawful S d0) where
  F : S.E → OpId → S.V → Prop
  T : List (Ev S) → S.E → OpId → S.V → Prop
  G : S.E → OpId → S.V → Prop
  start : ∀ {d i b d' x es}, S.start d i b = some (d', some x, es) → ∃ v ∈ es, F v i x
  cancel : ∀ {d i d' es}, S.tryCancel d i = some (d', true, es) → ∃ v ∈ es, ∃ x, G v i x
  exec : ∀ {d ph log pi x b d' ps es i}, L.Inv d ph log (x :: pi) → S.exec d x b = some (d', ps, es) →
    i ∈ ops ps → ∃ l1 v l2, es = l1 ++ v :: l2 ∧ ∃ x, T (log ++ l1.map .ds) v i x
  valT : ∀ {d ph log pi i x}, L.Inv d ph log pi → ph i = .taken → Occurs (fun b v => T b v i x) log →
    Occurs (fun b v => T b v i (S.val d i)) log
  valG : ∀ {d ph log pi i x}, L.Inv d ph log pi → ph i = .gone → Occurs (fun _ v => G v i x) log →
    Occurs (fun _ v => G v i (S.val d i)) log

variable {L : Lawful S d0}

/-- The decision of an operation with value `x`. -/
def Marks.Dcd (M : Marks L) (i : OpId) (x : S.V) (before : List (Ev S)) (v : S.E) : Prop :=
  M.F v i x ∨ M.T before v i x ∨ M.G v i x

/-- A completion was decided before. -/
def Marks.hist (M : Marks L) (before : List (Ev S)) (v : Ev S) : Prop :=
  ∀ i x, v = .done i x → Occurs (M.Dcd i x) before

structure Marks.Inv (M : Marks L) (d : S.D) (ph : OpId → Phase S.V) (log : List (Ev S)) (pi : List S.I) : Prop where
  inv : L.Inv d ph log pi
  fast : ∀ i x, ph i = .fast x → Occurs (fun _ v => M.F v i x) log
  taken : ∀ i, ph i = .taken → Occurs (fun b v => ∃ x, M.T b v i x) log
  gone : ∀ i, ph i = .gone → Occurs (fun _ v => ∃ x, M.G v i x) log
  hist : Hist M.hist log

theorem Occurs.imp {P Q : List (Ev S) → S.E → Prop} {log : List (Ev S)} (h : Occurs P log)
    (hi : ∀ b v, P b v → Q b v) : Occurs Q log := by
  obtain ⟨p, v, h1, h2⟩ := h
  exact ⟨p, v, h1, hi _ _ h2⟩

theorem Occurs.mem {P : S.E → Prop} {log : List (Ev S)} {es : List S.E} {v : S.E} (hv : v ∈ es) (h : P v) :
    Occurs (fun _ v => P v) (log ++ es.map .ds) := by
  obtain ⟨l1, l2, rfl⟩ := List.append_of_mem hv
  exact Occurs.of_split h

/-- Events other than completions. -/
theorem Marks.hist_append {M : Marks L} {log : List (Ev S)} (h : Hist M.hist log) (l : List (Ev S))
    (hl : ∀ i x, Ev.done i x ∉ l) : Hist M.hist (log ++ l) := by
  induction l generalizing log with
  | nil => simpa using h
  | cons v l ih =>
    have : log ++ v :: l = (log ++ [v]) ++ l := by simp
    rw [this]
    refine ih ?_ fun i x hm => hl i x (by simp [hm])
    rw [Hist.snoc]
    refine ⟨h, ?_⟩
    rintro i x rfl
    exact absurd (List.mem_cons_self ..) (hl i x)

theorem no_done_map (es : List S.E) : ∀ i x, Ev.done i x ∉ es.map (Ev.ds (S := S)) := by simp

/-- A step that changes the phase of an operation `j` at most. -/
theorem Marks.Inv.move {M : Marks L} {d d' : S.D} {ph ph' : OpId → Phase S.V} {log : List (Ev S)} {pi pi' : List S.I}
    (h : M.Inv d ph log pi) (l : List (Ev S)) (hI : L.Inv d' ph' (log ++ l) pi')
    (hl : Hist M.hist (log ++ l))
    (hf : ∀ i x, ph' i = .fast x → ph i = .fast x ∨ Occurs (fun _ v => M.F v i x) (log ++ l))
    (ht : ∀ i, ph' i = .taken → ph i = .taken ∨ Occurs (fun b v => ∃ x, M.T b v i x) (log ++ l))
    (hg : ∀ i, ph' i = .gone → ph i = .gone ∨ Occurs (fun _ v => ∃ x, M.G v i x) (log ++ l)) :
    M.Inv d' ph' (log ++ l) pi' := by
  refine ⟨hI, fun i x hp => ?_, fun i hp => ?_, fun i hp => ?_, hl⟩
  · rcases hf i x hp with h1 | h1
    · exact (h.fast i x h1).mono l
    · exact h1
  · rcases ht i hp with h1 | h1
    · exact (h.taken i h1).mono l
    · exact h1
  · rcases hg i hp with h1 | h1
    · exact (h.gone i h1).mono l
    · exact h1

theorem Marks.Inv.same {M : Marks L} {d d' : S.D} {ph : OpId → Phase S.V} {log : List (Ev S)} {pi pi' : List S.I}
    (h : M.Inv d ph log pi) (l : List (Ev S)) (hl : ∀ i x, Ev.done i x ∉ l) (hI : L.Inv d' ph (log ++ l) pi') :
    M.Inv d' ph (log ++ l) pi' :=
  h.move l hI (Marks.hist_append h.hist l hl) (fun _ _ hp => .inl hp) (fun _ hp => .inl hp) (fun _ hp => .inl hp)

/-- The contract with the deciding events. -/
def Marks.lawful (M : Marks L) : Lawful S d0 where
  Inv := M.Inv
  init := ⟨L.init, by simp, by simp, by simp, Hist.nil⟩
  perm h hp := ⟨L.perm h.inv hp, h.fast, h.taken, h.gone, h.hist⟩
  begin h hp hb ha := h.same _ (by simp) (L.begin h.inv hp hb ha)
  start {d ph log pi i ct p} b h hp hb := by
    obtain ⟨d', r, es, h1, h2⟩ := L.start b h.inv hp hb
    refine ⟨d', r, es, h1, h.move _ h2 (Marks.hist_append h.hist _ (no_done_map es)) ?_ ?_ ?_⟩
    · intro j x hj
      by_cases hij : j = i
      · subst hij
        cases r with
        | none => simp at hj
        | some y =>
          simp at hj; subst hj
          obtain ⟨v, hv, hF⟩ := M.start h1
          exact .inr (Occurs.mem hv hF)
      · rw [upd_apply, if_neg hij] at hj; exact .inl hj
    · intro j hj
      by_cases hij : j = i
      · subst hij; cases r <;> simp at hj
      · rw [upd_apply, if_neg hij] at hj; exact .inl hj
    · intro j hj
      by_cases hij : j = i
      · subst hij; cases r <;> simp at hj
      · rw [upd_apply, if_neg hij] at hj; exact .inl hj
  fast {d ph log pi i v} h hp := by
    refine h.move _ (L.fast h.inv hp) ?_ ?_ ?_ ?_
    · rw [Hist.snoc]
      refine ⟨h.hist, ?_⟩
      intro j x hj
      simp at hj
      obtain ⟨rfl, rfl⟩ := hj
      exact (h.fast _ _ hp).imp fun _ _ hF => .inl hF
    all_goals intro j
    · intro x hj
      by_cases hij : j = i
      · subst hij; simp at hj
      · rw [upd_apply, if_neg hij] at hj; exact .inl hj
    all_goals
      intro hj
      by_cases hij : j = i
      · subst hij; simp at hj
      · rw [upd_apply, if_neg hij] at hj; exact .inl hj
  tryWaiting {d ph log pi i e p} h hp hb hc := by
    obtain ⟨d', es, h1, h2⟩ := L.tryWaiting h.inv hp hb hc
    refine ⟨d', es, h1, h.move _ h2 (Marks.hist_append h.hist _ (no_done_map es)) ?_ ?_ ?_⟩
    · intro j x hj
      by_cases hij : j = i
      · subst hij; simp at hj
      · rw [upd_apply, if_neg hij] at hj; exact .inl hj
    · intro j hj
      by_cases hij : j = i
      · subst hij; simp at hj
      · rw [upd_apply, if_neg hij] at hj; exact .inl hj
    · intro j hj
      by_cases hij : j = i
      · subst hij
        obtain ⟨v, hv, x, hG⟩ := M.cancel h1
        exact .inr (Occurs.mem hv ⟨x, hG⟩)
      · rw [upd_apply, if_neg hij] at hj; exact .inl hj
  tryTaken h hp hb hc := by
    obtain ⟨d', es, h1, h2⟩ := L.tryTaken h.inv hp hb hc
    exact ⟨d', es, h1, h.same _ (no_done_map es) h2⟩
  resume {d ph log pi i} h hp := by
    refine h.move _ (L.resume h.inv hp) ?_ ?_ ?_ ?_
    · rw [Hist.snoc]
      refine ⟨h.hist, ?_⟩
      intro j x hj
      simp at hj
      obtain ⟨rfl, rfl⟩ := hj
      rcases hp with hp | hp
      · obtain ⟨q, v, h1, x, h2⟩ := h.taken _ hp
        exact (M.valT h.inv hp ⟨q, v, h1, h2⟩).imp fun _ _ h => .inr (.inl h)
      · obtain ⟨q, v, h1, x, h2⟩ := h.gone _ hp
        exact (M.valG h.inv hp ⟨q, v, h1, h2⟩).imp fun _ _ h => .inr (.inr h)
    all_goals intro j
    · intro x hj
      by_cases hij : j = i
      · subst hij; simp at hj
      · rw [upd_apply, if_neg hij] at hj; exact .inl hj
    all_goals
      intro hj
      by_cases hij : j = i
      · subst hij; simp at hj
      · rw [upd_apply, if_neg hij] at hj; exact .inl hj
  cancel e h := h.same _ (by simp) (L.cancel e h.inv)
  reset e h := h.same _ (by simp) (L.reset e h.inv)
  call {d ph log pi x d'} h hc := by
    have := h.same [] (by simp) (by simpa using L.call h.inv hc)
    simpa using this
  exec {d ph log pi x} b h := by
    obtain ⟨d', ps, es, h1, h2, h3, h4⟩ := L.exec b h.inv
    refine ⟨d', ps, es, h1, h2, h3, h.move _ h4 (Marks.hist_append h.hist _ (no_done_map es)) ?_ ?_ ?_⟩
    · intro j x hj
      split at hj
      · simp at hj
      · exact .inl hj
    · intro j hj
      split at hj
      · rename_i hi
        obtain ⟨l1, v, l2, rfl, hT⟩ := M.exec h.inv h1 hi
        exact .inr (Occurs.of_split hT)
      · exact .inl hj
    · intro j hj
      split at hj
      · simp at hj
      · exact .inl hj

/-- Every completion was decided by an earlier event, with the value that is delivered. -/
theorem Marks.decided (M : Marks L) {c : Conf (mach S)} (h : Reach (mach S) (RSt.init d0) c) {n : Nat} {i : OpId}
    {x : S.V} (hn : c.sh.log[n]? = some (.done i x)) :
    ∃ p v, p < n ∧ c.sh.log[p]? = some (.ds v) ∧ M.Dcd i x (c.sh.log.take p) v := by
  obtain ⟨ph, hI, _⟩ := reach_inv M.lawful h
  have hl := (List.getElem?_eq_some_iff.1 hn).1
  have hw := (List.getElem?_eq_some_iff.1 hn).2
  obtain ⟨p, v, h1, h2⟩ := hI.hist (c.sh.log.take n) (.done i x) (c.sh.log.drop (n + 1))
    (by rw [← hw, List.getElem_cons_drop, List.take_append_drop]) i x rfl
  have hp := (List.getElem?_eq_some_iff.1 h1).1
  rw [List.length_take] at hp
  have hpn : p < n := by omega
  rw [List.getElem?_take_of_lt hpn] at h1
  rw [List.take_take, Nat.min_eq_left (Nat.le_of_lt hpn)] at h2
  exact ⟨p, v, hpn, h1, h2⟩

/-! ## Operations are decided after they were started -/

variable {o : Ords S} {LE : S.E → Prop} {Dcd : List (Ev S) → S.E → OpId → Prop}

theorem begin_of_decides {s : RSt S} {acts : List (List (Instr S))} (h : RInv L s acts) {k : Nat} {x : Instr S}
    {r : List (Instr S)} {b : Bool} {i : OpId} (hk : acts[k]? = some (x :: r)) (hd : Decides i s x b) :
    ∃ ct p, Ev.begin i ct p ∈ s.log := by
  obtain ⟨ph, hI, hC⟩ := h
  have hpx : Pending acts x := ⟨_, List.mem_of_getElem? hk, by simp⟩
  have key : s.started i = true → ∃ ct p, Ev.begin i ct p ∈ s.log := fun hs => ⟨_, hC.gl.g4 i hs⟩
  cases x <;> simp only [Decides] at hd
  case start j => obtain ⟨rfl, _⟩ := hd; exact key (hC.op_started hpx rfl)
  case tryCancel j l => obtain ⟨rfl, _⟩ := hd; exact key (hC.op_started hpx rfl)
  case ds x =>
    obtain ⟨d', ps, es, he, hi⟩ := hd
    obtain ⟨rest, hp1, _⟩ := dsPend_set [] hk
    obtain ⟨d'', ps', es', he', _, hw, _⟩ := L.exec b (L.perm hI hp1)
    rw [he] at he'
    simp at he'
    obtain ⟨_, rfl, _⟩ := he'
    refine key ?_
    cases hs : s.started i with
    | true => rfl
    | false =>
      have h0 := ((hC.op i).a3 (by simp [view, hs])).1
      simp [view, hw i hi, Phase.code] at h0

/-- The operation was started before the event that decides it. -/
theorem begin_before (H : HLaw o L LE Dcd) {c : Conf (mach S)} (h : Reach (mach S) (RSt.init d0) c) {e : Nat} {v : S.E}
    {i : OpId} (hv : c.sh.log[e]? = some (.ds v)) (hD : Dcd (c.sh.log.take e) v i) :
    ∃ ct p, Ev.begin i ct p ∈ c.sh.log.take e := by
  refine Reach.inv_with (M := mach S) (P := RInv L)
    (Q := fun s _ => ∀ e v i, s.log[e]? = some (.ds v) → Dcd (s.log.take e) v i → ∃ ct p, Ev.begin i ct p ∈ s.log.take e)
    (fun c hc => reach_inv L hc) ?_ ?_ ?_ h e v i hv hD
  · intro e v i hv; simp [RSt.init] at hv
  · intro s acts a s' p _ _ hQ he e v i hv hD
    obtain ⟨h1, h2, evs, h3, h4, h5⟩ := env_log (acts := acts) he
    have hlt : e < s.log.length := by
      apply Classical.byContradiction
      intro hn
      rw [h3, List.getElem?_append_right (by omega)] at hv
      exact h5 v (List.mem_of_getElem? hv)
    rw [h3, List.getElem?_append_left hlt] at hv
    rw [h3, List.take_append_of_le_length (by omega)] at hD ⊢
    exact hQ e v i hv hD
  · intro s acts k x r b s' p hr _ hQ hk he e v i hv hD
    obtain ⟨evs, h3⟩ := exec_log he
    by_cases hlt : e < s.log.length
    · rw [h3, List.getElem?_append_left hlt] at hv
      rw [h3, List.take_append_of_le_length (by omega)] at hD ⊢
      exact hQ e v i hv hD
    · have hge := Nat.le_of_not_lt hlt
      obtain ⟨ct, q, hb⟩ := begin_of_decides hr hk (H.decides hr hk he hv hge hD)
      refine ⟨ct, q, ?_⟩
      rw [h3, List.take_append, List.take_of_length_le hge]
      simp [hb]

/-! ## Atomic variables -/

/-- Events that are appended by instructions which read, modify and write atomic variable `l`, with acquire and release
order, form a chain. -/
structure Chain (o : Ords S) (RE : S.E → Prop) (l : o.A) : Prop where
  start : ∀ {d i b d' r es v}, S.start d i b = some (d', r, es) → v ∈ es → ¬ RE v
  cancel : ∀ {d i d' r es v}, S.tryCancel d i = some (d', r, es) → v ∈ es → ¬ RE v
  exec : ∀ {d x b d' ps es v}, S.exec d x b = some (d', ps, es) → v ∈ es → RE v → .rmw .acqRel l ∈ o.exec d x b
  noStart : ∀ d i b, ∀ a ∈ o.start d i b, a.stores l = false
  noCancel : ∀ d i, ∀ a ∈ o.tryCancel d i, a.stores l = false
  noExec : ∀ d x b, ∀ a ∈ o.exec d x b, a.stores l = false
  noVal : ∀ d i, ∀ a ∈ o.val d i, a.stores l = false

theorem sect_stores_at {A : Type} [DecidableEq A] {b : Bool} {as : List (Acc A)} {l : A}
    (hs : ∀ a ∈ as, a.stores l = false) {a : Acc (Loc A)} (h : a ∈ sect b as) : a.stores (.at l) = false := by
  have hm : ∀ a ∈ as.map (Acc.map Loc.at), a.stores (.at l) = false := by
    intro a ha
    obtain ⟨x, hx, rfl⟩ := List.mem_map.1 ha
    have := hs x hx
    cases x <;> simp_all [Acc.map, Acc.stores]
  unfold sect at h
  split at h
  · simp only [List.mem_cons, List.mem_append, List.mem_nil_iff, or_false] at h
    rcases h with rfl | h | rfl
    · rfl
    · exact hm a h
    · rfl
  · exact hm a h

theorem sect_mem {A : Type} {b : Bool} {as : List (Acc A)} {a : Acc A} (h : a ∈ as) : a.map .at ∈ sect b as := by
  unfold sect
  split
  · simp only [List.mem_cons, List.mem_append]
    exact .inr (.inl (List.mem_map.2 ⟨a, h, rfl⟩))
  · exact List.mem_map.2 ⟨a, h, rfl⟩

theorem Chain.stores {RE : S.E → Prop} {l : o.A} (H : Chain o RE l) {s : RSt S} {x : Instr S} {b : Bool}
    {a : Acc (Loc o.A)} (h : a ∈ eff o s x b) : a.stores (.at l) = false := by
  cases x <;> simp only [eff] at h
  case start i => exact sect_stores_at (H.noStart _ _ _) h
  case tryCancel i l => exact sect_stores_at (H.noCancel _ _) h
  case ds x => exact sect_stores_at (H.noExec _ _ _) h
  case setFast i x => exact sect_stores_at (H.noVal _ _) h
  case resume i => exact sect_stores_at (H.noVal _ _) h
  all_goals first
    | exact evSect_stores h
    | (simp at h; done)
    | (simp at h; subst h; rfl)

theorem Chain.rmw {RE : S.E → Prop} {l : o.A} (H : Chain o RE l) {s s' : RSt S} {x : Instr S} {b : Bool}
    {p : List (Instr S)} {evs : List (Ev S)} (he : Resolver.exec s x b = .ok s' p) (hl : s'.log = s.log ++ evs)
    (hw : ∃ w ∈ evs, ∃ v, w = .ds v ∧ RE v) : Acc.rmw .acqRel (.at l) ∈ eff o s x b := by
  obtain ⟨w, hw, v, rfl, hv⟩ := hw
  have hm : Ev.ds v ∈ s'.log.drop s.log.length := by rw [hl]; simpa using hw
  cases x <;> simp only [Resolver.exec] at he
  case start j =>
    split at he <;> simp at he <;> obtain ⟨rfl, rfl⟩ := he <;> rename_i hs <;> simp at hm <;>
      exact absurd hv (H.start hs hm)
  case tryCancel j l =>
    split at he
    · simp at he
    · rename_i hs
      simp at he; obtain ⟨rfl, rfl⟩ := he
      simp at hm
      exact absurd hv (H.cancel hs hm)
  case ds x =>
    split at he
    · simp at he
    · rename_i hs
      simp at he; obtain ⟨rfl, rfl⟩ := he
      simp at hm
      exact sect_mem (H.exec hs hm hv)
  all_goals
    repeat' split at he
    all_goals simp at he
    all_goals obtain ⟨rfl, rfl⟩ := he
    all_goals simp at hm

/-- The events of a chain are ordered. -/
theorem chain_ordered {entry : RSt S → Act S → Nat → Bool} {RE : S.E → Prop} {l : o.A} (H : Chain o RE l)
    {c : Conf (mach S)} {m : Mem (Loc o.A)} (h : HReach (ann o entry) (RSt.init d0) c m) {a b : Nat} {v w : S.E}
    (ha : c.sh.log[a]? = some (.ds v)) (hv : RE v) (hb : c.sh.log[b]? = some (.ds w)) (hw : RE w) (hab : a < b) :
    m.hb a b := by
  have key : m.msg (.at l) a = true ∧ Done (fun w => ∃ v, w = .ds v ∧ RE v) c.sh.log m a := by
    refine HReach.inv (A := ann o entry) (P := fun c => Reach (mach S) (RSt.init d0) c)
      (Q := fun s _ m => ∀ e v, s.log[e]? = some (.ds v) → RE v →
        m.msg (.at l) e = true ∧ Done (fun w => ∃ v, w = .ds v ∧ RE v) s.log m e)
      (fun c hc => hc) ?_ ?_ ?_ h a v ha hv
    · intro e v hv; simp [RSt.init] at hv
    · intro c m a s' p _ _ hQ he e v hv hL
      obtain ⟨h1, h2, evs, h3, h4, h5⟩ := env_log (acts := c.acts) he
      have hlt : e < c.sh.log.length := by
        apply Classical.byContradiction
        intro hn
        rw [h3, List.getElem?_append_right (by omega)] at hv
        exact h5 v (List.mem_of_getElem? hv)
      rw [h3, List.getElem?_append_left hlt] at hv
      have hs := hQ e v hv hL
      refine ⟨Mem.keep (by simp) hs.1, hs.2.step h3 ?_⟩
      rintro ⟨w, hw, v, rfl, _⟩; exact absurd hw (h5 v)
    · intro c m k x r b s' p hr _ hQ hk he e v hv hL
      obtain ⟨evs, h3⟩ := exec_log he
      by_cases hlt : e < c.sh.log.length
      · rw [h3, List.getElem?_append_left hlt] at hv
        have hs := hQ e v hv hL
        refine ⟨Mem.keep (fun a ha => H.stores ha) hs.1, hs.2.step h3 ?_⟩
        intro hw
        exact m.acquire_msg (H.rmw he h3 hw) (by simp [Acc.acquires]) hs.1
      · have hlt' := (List.getElem?_eq_some_iff.1 hv).1
        have hge := Nat.le_of_not_lt hlt
        have hw : ∃ w ∈ evs, ∃ v, w = .ds v ∧ RE v := by
          rw [h3, List.getElem?_append_right (by omega)] at hv
          exact ⟨_, List.mem_of_getElem? hv, v, rfl, hL⟩
        refine ⟨?_, ?_⟩
        · exact Mem.publish (fun a ha => H.stores ha) (H.rmw he h3 hw) (by simp [Acc.releases])
            (.inr ⟨hge, hlt'⟩)
        · intro n w hn _ hen
          have := (List.getElem?_eq_some_iff.1 hn).1
          rw [Mem.act_past_new _ _ _ _ _ _ (Nat.le_trans hge (Nat.le_of_lt hen)) this]
          simp [hge, hen]
  exact key.2 b _ hb ⟨w, rfl, hw⟩ hab

/-! ## Program order -/

/-- `Carry` for the instructions of the data structure. -/
structure DCarry (S : DS) {κ : Type} (Src : S.E → κ → Prop) (Ins : S.I → κ → Prop) (Tgt : S.E → κ → Prop) : Prop where
  call : ∀ {d x d' q}, S.call d x = some d' → ¬ Ins x q
  start : ∀ {d i b d' r es v q}, S.start d i b = some (d', r, es) → v ∈ es → ¬ Tgt v q
  cancel : ∀ {d i d' r es v q}, S.tryCancel d i = some (d', r, es) → v ∈ es → ¬ Tgt v q
  exec : ∀ {d x b d' ps es}, S.exec d x b = some (d', ps, es) →
    (∀ y q, .inr y ∈ ps → Ins y q → Ins x q ∨ ∃ v ∈ es, Src v q) ∧ ∀ v ∈ es, ∀ q, Tgt v q → Ins x q

theorem DCarry.carry {κ : Type} {Src : S.E → κ → Prop} {Ins : S.I → κ → Prop} {Tgt : S.E → κ → Prop}
    (C : DCarry S Src Ins Tgt) (entry : RSt S → Act S → Nat → Bool) :
    Carry (ann o entry) (fun s => s.log) (fun v q => ∃ w, v = .ds w ∧ Src w q)
      (fun x q => ∃ y, x = .ds y ∧ Ins y q) (fun v q => ∃ w, v = .ds w ∧ Tgt w q) where
  len _ := rfl
  env {s acts a s' p} he := by
    obtain ⟨_, _, evs, h3, _, h5⟩ := env_log (acts := acts) he
    refine ⟨evs, h3, ?_, ?_⟩
    · rintro y hy q ⟨z, rfl, hz⟩
      exfalso
      cases a <;> simp only [Resolver.env] at he <;> repeat' split at he
      all_goals simp at he
      all_goals obtain ⟨rfl, rfl⟩ := he
      all_goals simp at hy
      subst hy
      exact C.call (by assumption) hz
    · rintro w hw q ⟨z, rfl, _⟩
      exact h5 z hw
  run {s x b s' p} he := by
    cases x <;> simp only [Resolver.exec] at he
    case start j =>
      split at he <;> simp at he <;> obtain ⟨rfl, rfl⟩ := he <;> rename_i hs <;> refine ⟨_, rfl, by simp, ?_⟩ <;>
        (rintro w hw q ⟨z, rfl, hz⟩; simp at hw; exact absurd hz (C.start hs hw))
    case tryCancel j l =>
      split at he
      · simp at he
      · rename_i hs
        simp at he; obtain ⟨rfl, rfl⟩ := he
        refine ⟨_, rfl, by simp, ?_⟩
        rintro w hw q ⟨z, rfl, hz⟩; simp at hw; exact absurd hz (C.cancel hs hw)
    case ds x =>
      split at he
      · simp at he
      · rename_i hs
        simp at he; obtain ⟨rfl, rfl⟩ := he
        refine ⟨_, rfl, ?_, ?_⟩
        · rintro y hy q ⟨z, rfl, hz⟩
          obtain ⟨u, hu, hf⟩ := List.mem_map.1 hy
          cases u with
          | inl i => simp [follow] at hf
          | inr u =>
            simp [follow] at hf; subst hf
            rcases (C.exec hs).1 u q hu hz with h | ⟨v, hv, h⟩
            · exact .inl ⟨x, rfl, h⟩
            · exact .inr ⟨.ds v, by simp [hv], v, rfl, h⟩
        · rintro w hw q ⟨z, rfl, hz⟩
          simp at hw
          exact ⟨x, rfl, (C.exec hs).2 z hw q hz⟩
    case cancel e =>
      simp at he; obtain ⟨rfl, rfl⟩ := he
      exact ⟨_, rfl, by simp, by simp⟩
    all_goals
      repeat' split at he
      all_goals simp at he
      all_goals obtain ⟨rfl, rfl⟩ := he
      all_goals first
        | exact ⟨_, rfl, by simp, by simp⟩
        | exact ⟨[], by simp, by simp, by simp⟩

theorem DCarry.knows {κ : Type} {Src : S.E → κ → Prop} {Ins : S.I → κ → Prop} {Tgt : S.E → κ → Prop}
    (C : DCarry S Src Ins Tgt) {entry : RSt S → Act S → Nat → Bool} {c : Conf (mach S)} {m : Mem (Loc o.A)}
    (h : HReach (ann o entry) (RSt.init d0) c m) {n : Nat} {w : S.E} {q : κ} (hn : c.sh.log[n]? = some (.ds w))
    (hw : Tgt w q) : ∃ e v, c.sh.log[e]? = some (.ds v) ∧ Src v q ∧ m.hb e n := by
  obtain ⟨e, v, h1, ⟨w', rfl, h2⟩, h3⟩ := (C.carry entry).knows rfl h hn ⟨w, rfl, hw⟩
  exact ⟨e, w', h1, h2, h3⟩

end Verif.Resolver
