import Verif.Hb.Resolver

/-!
# Happens-before for wait operations, for every data structure
-/

namespace Verif.Resolver

variable {S : DS} {o : Ords S} {d0 : S.D} {L : Lawful S d0} {LE : S.E → Prop}
  {Dcd : List (Ev S) → S.E → OpId → Prop}
  {entry : RSt S → Act S → Nat → Bool}

theorem grows (o : Ords S) (d0 : S.D) (entry : RSt S → Act S → Nat → Bool) : Grows (ann o entry) (RSt.init d0) where
  init := rfl
  env s acts a s' p he := by
    obtain ⟨_, _, evs, h, _⟩ := env_log (acts := acts) he
    simp [h]
  run s x b s' p he := by
    obtain ⟨evs, h⟩ := exec_log he
    simp [h]

/-- The critical sections of the data structure are ordered. -/
theorem sections_ordered (H : HLaw o L LE Dcd) {c : Conf (mach S)} {m : Mem (Loc o.A)}
    (h : HReach (ann o entry) (RSt.init d0) c m) {a b : Nat} {v w : S.E} (ha : c.sh.log[a]? = some (.ds v)) (hv : LE v)
    (hb : c.sh.log[b]? = some (.ds w)) (hw : LE w) (hab : a < b) : m.hb a b :=
  (reach_sec H h ha hv).sec b _ hb ⟨w, rfl, hw⟩ hab

/-- What decides the fate of an operation happens before its completion. -/
theorem completes_after (H : HLaw o L LE Dcd) {c : Conf (mach S)} {m : Mem (Loc o.A)}
    (h : HReach (ann o entry) (RSt.init d0) c m) {a b : Nat} {v : S.E} {i : OpId} {x : S.V}
    (ha : c.sh.log[a]? = some (.ds v)) (hD : Dcd (c.sh.log.take a) v i)
    (hb : c.sh.log[b]? = some (.done i x)) : m.hb a b :=
  (reach_dec H h ha hD).kn.d b _ hb ⟨x, rfl⟩ ((reach_dec H h ha hD).first b x hb)

/-! ## Creation before completion -/

theorem pending_wt {acts : List (List (Instr S))} {x : Instr S} (hx : Pending acts x) (w : Instr S → Nat) :
    w x ≤ ws w acts := by
  obtain ⟨a, ha, hy⟩ := hx; exact ws_pos_of_mem ha hy

/-- As long as `start()` has not run its critical section, nobody else decides. -/
theorem not_start {s : RSt S} {acts : List (List (Instr S))} (h : RInv L s acts) {k : Nat}
    {x : Instr S} {r : List (Instr S)} {b : Bool} {i : OpId} (hk : acts[k]? = some (x :: r)) (hd : Decides i s x b)
    (hx : x ≠ .start i) : ¬ Pending acts (.start i) := by
  intro hp
  obtain ⟨ph, hI, hC⟩ := h
  have hok := hC.op i
  have h1 : 0 < ws (W.sta i) acts := by have := pending_wt hp (W.sta i); simp [W.sta] at this; omega
  have h0 : (ph i).code = 0 := by
    have := hok.a0.2
    simp only [view] at this
    apply Classical.byContradiction
    intro hn; have := this hn; omega
  have hpx : Pending acts x := ⟨_, List.mem_of_getElem? hk, by simp⟩
  cases x <;> simp only [Decides] at hd
  case start j => exact hx (by rw [hd.1])
  case tryCancel j l =>
    obtain ⟨rfl, _⟩ := hd
    have h2 := pending_wt hpx (W.tryL j)
    have h3 := pending_wt hpx (W.tryC j)
    have h4 := hok.a2 (by simp only [view]; omega)
    simp only [view] at h4
    cases l <;> simp [W.tryL, W.tryC] at h2 h3 <;> omega
  case ds x =>
    obtain ⟨d', ps, es, he, hi⟩ := hd
    obtain ⟨rest, hp1, _⟩ := dsPend_set [] hk
    obtain ⟨d'', ps', es', he', _, hw, _⟩ := L.exec b (L.perm hI hp1)
    rw [he] at he'
    simp at he'
    obtain ⟨_, rfl, _⟩ := he'
    rw [hw i hi] at h0
    simp [Phase.code] at h0

/-- The start of operation `i` is event `e`. -/
structure Beg (i : OpId) (e : Nat) (s : RSt S) (acts : List (List (Instr S))) (m : Mem (Loc o.A)) : Prop where
  st : AllKnow (fun x => x = .start i) acts m e
  ms : Pending acts (.start i) ∨ m.msg .ds e = true
  kn : Kn i e s acts m

theorem no_start {s s' : RSt S} {x : Instr S} {b : Bool} {p : List (Instr S)} {i : OpId} (he : exec s x b = .ok s' p) :
    Instr.start i ∉ p := by
  intro hm
  cases x <;> simp only [exec] at he <;> repeat' split at he
  all_goals simp at he
  all_goals obtain ⟨rfl, rfl⟩ := he
  all_goals first
    | (simp at hm; done)
    | (obtain ⟨y, _, hy⟩ := List.mem_map.1 hm; cases y <;> simp [follow] at hy)

theorem no_begin {s s' : RSt S} {x : Instr S} {b : Bool} {p : List (Instr S)} (he : exec s x b = .ok s' p) :
    ∃ evs, s'.log = s.log ++ evs ∧ ∀ i ct q, Ev.begin i ct q ∉ evs := by
  cases x <;> simp only [exec] at he <;> repeat' split at he
  all_goals simp at he
  all_goals obtain ⟨rfl, rfl⟩ := he
  all_goals first
    | exact ⟨_, rfl, by simp⟩
    | exact ⟨[], by simp, by simp⟩

theorem env_start {s s' : RSt S} {acts : List (List (Instr S))} {a : Act S} {p : List (Instr S)} {i : OpId}
    (he : env s acts a = some (s', p)) (hp : Instr.start i ∈ p) : s.started i = false := by
  cases a <;> simp only [env] at he <;> repeat' split at he
  all_goals simp at he
  all_goals obtain ⟨rfl, rfl⟩ := he
  all_goals simp at hp
  subst hp
  simp_all

theorem env_begin {s s' : RSt S} {acts : List (List (Instr S))} {a : Act S} {p : List (Instr S)} {i : OpId}
    {ct : Option EvId} {q : S.P} {e : Nat} (he : env s acts a = some (s', p))
    (hv : s'.log[e]? = some (.begin i ct q)) (hlt : s.log.length ≤ e) :
    s.started i = false ∧ p = [.start i] ∧ e = s.log.length := by
  cases a <;> simp only [env] at he <;> repeat' split at he
  all_goals simp at he
  all_goals obtain ⟨rfl, rfl⟩ := he
  all_goals have hlt' := (List.getElem?_eq_some_iff.1 hv).1
  all_goals try simp at hlt'
  all_goals first
    | (exfalso; omega)
    | skip
  all_goals have hee : e = s.log.length := by omega
  all_goals subst hee
  all_goals simp at hv
  obtain ⟨rfl, _⟩ := hv
  exact ⟨by simp_all, rfl, rfl⟩

theorem not_pending {s : RSt S} {acts : List (List (Instr S))} (h : RInv L s acts) {i : OpId}
    (hp : Pending acts (.start i)) : s.started i = true := by
  obtain ⟨ph, _, hC⟩ := h
  exact hC.op_started hp rfl

/-- An operation that was not started is open. -/
theorem new_open {s : RSt S} {acts : List (List (Instr S))} (h : RInv L s acts) {i : OpId}
    (hs : s.started i = false) : Open i s acts := by
  obtain ⟨ph, _, hC⟩ := h
  have hok := hC.op i
  have h0 := (hok.a3 (by simp [view, hs])).1
  have h2 := hok.a2 (by omega)
  refine ⟨?_, ?_, ?_⟩
  · intro a ha x hx hw
    have : x.op = some i := by cases x <;> simp_all [Wk, Instr.op]
    rw [hC.op_started ⟨a, ha, hx⟩ this] at hs
    simp at hs
  · cases hc : (s.bits i).compl with
    | false => rfl
    | true => simp [view, hc] at h2
  · intro v hv
    have h3 := hok.d1.2 (by omega)
    have : 0 < doneCnt i s.log := by
      rw [doneCnt_pos, List.any_eq_true]; exact ⟨_, hv, by simp [isDone]⟩
    simp only [view] at h3
    omega

theorem reach_beg (H : HLaw o L LE Dcd) {c : Conf (mach S)} {m : Mem (Loc o.A)}
    (h : HReach (ann o entry) (RSt.init d0) c m) {e : Nat} {i : OpId} {ct : Option EvId} {p : S.P}
    (hv : c.sh.log[e]? = some (.begin i ct p)) : Beg i e c.sh c.acts m := by
  refine HReach.inv (A := ann o entry) (P := fun c => RInv L c.sh c.acts)
    (Q := fun s acts m => ∀ e i ct p, s.log[e]? = some (.begin i ct p) → Beg i e s acts m)
    (fun c hc => reach_inv L hc) ?_ ?_ ?_ h e i ct p hv
  · intro e i ct p hv; simp [RSt.init] at hv
  · intro c m a s' p hr hr' hQ he e i ct q hv
    obtain ⟨h1, h2, evs, h3, h4, h5⟩ := env_log (acts := c.acts) he
    by_cases hlt : e < c.sh.log.length
    · rw [h3, List.getElem?_append_left hlt] at hv
      have hs := hQ e i ct q hv
      refine ⟨hs.st.env ?_, ?_, hs.kn.env he⟩
      · rintro ⟨y, hy, rfl⟩
        obtain ⟨ph, _, hC⟩ := hr
        exact absurd (hC.begin_started (List.mem_of_getElem? hv)) (by simp [env_start he hy])
      · rcases hs.ms with h | h
        · obtain ⟨a, ha, hx⟩ := h
          exact .inl ⟨a, by simp [ha], hx⟩
        · exact .inr (Mem.keep (by simp) h)
    · obtain ⟨hs, rfl, hl⟩ := env_begin he hv (Nat.le_of_not_lt hlt)
      have hn := new_open hr hs
      have hlen : c.sh.log.length ≤ e ∧ e < s'.log.length := ⟨Nat.le_of_not_lt hlt, (List.getElem?_eq_some_iff.1 hv).1⟩
      refine ⟨?_, .inl ⟨[.start i], by simp, by simp⟩, ?_, ?_, ?_⟩
      · intro j a hj y hy hy'
        subst hy'
        by_cases hjl : j < c.acts.length
        · rw [List.getElem?_append_left hjl] at hj
          exact absurd hs (by rw [not_pending hr ⟨a, List.mem_of_getElem? hj, hy⟩]; simp)
        · have : j = c.acts.length := by have := (List.getElem?_eq_some_iff.1 hj).1; simp at this; omega
          subst this
          exact Mem.act_view_self (.inr hlen)
      · intro j a hj y hy hw
        by_cases hjl : j < c.acts.length
        · rw [List.getElem?_append_left hjl] at hj
          exact absurd hw (hn.w a (List.mem_of_getElem? hj) y hy)
        · have : j = c.acts.length := by have := (List.getElem?_eq_some_iff.1 hj).1; simp at this; omega
          subst this
          exact Mem.act_view_self (.inr hlen)
      · rw [h1, hn.b]; simp
      · rintro n w hw ⟨v, rfl⟩ _
        rw [h3] at hw
        rcases List.mem_append.1 (List.mem_of_getElem? hw) with hw | hw
        · exact absurd hw (hn.d v)
        · exact absurd hw (h4 i v)
  · intro c m k x r b s' p hr _ hQ hk he e i ct q hv
    obtain ⟨evs, h3, h4⟩ := no_begin he
    have hlt : e < c.sh.log.length := by
      apply Classical.byContradiction
      intro hn
      rw [h3, List.getElem?_append_right (by omega)] at hv
      exact h4 _ _ _ (List.mem_of_getElem? hv)
    rw [h3, List.getElem?_append_left hlt] at hv
    have hs := hQ e i ct q hv
    have hns : Instr.start i ∉ p := no_start he
    refine ⟨hs.st.run hk ?_, ?_, hs.kn.run hk he fun hd => ?_⟩
    · rintro ⟨y, hy, rfl⟩; exact absurd hy hns
    · by_cases hx : x = .start i
      · subst hx
        right
        exact Mem.publish (fun a ha => eff_stores (x := .start i) ha (by simp)) (sect_unlock _) (by simp [Acc.releases])
          (.inl (m.acquire_mono _ (hs.st k _ hk _ (by simp) rfl)))
      · rcases hs.ms with ⟨a, ha, hy⟩ | h
        · left
          obtain ⟨j, hj⟩ := List.getElem?_of_mem ha
          by_cases hjk : j = k
          · subst hjk
            rw [hk] at hj; simp at hj; subst hj
            rcases List.mem_cons.1 hy with hy | hy
            · exact absurd hy.symm hx
            · exact ⟨p ++ r, List.mem_set (List.getElem?_eq_some_iff.1 hk).1 _, by simp [hy]⟩
          · exact ⟨a, List.mem_of_getElem? (i := j) (by rw [List.getElem?_set_ne (Ne.symm hjk)]; exact hj), hy⟩
        · exact .inr (Mem.keep (fun a ha => eff_stores ha (by simp)) h)
    · by_cases hx : x = .start i
      · exact m.acquire_mono _ (hs.st k _ hk x (by simp) hx)
      · rcases hs.ms with h | h
        · exact absurd h (not_start hr hk hd hx)
        · exact m.acquire_msg (lock_of_decides H hd) (by simp [Acc.acquires]) h

/-- Creating and starting an operation happens before its completion. -/
theorem created_before_completion (H : HLaw o L LE Dcd) {c : Conf (mach S)} {m : Mem (Loc o.A)}
    (h : HReach (ann o entry) (RSt.init d0) c m) {a b : Nat} {i : OpId} {ct : Option EvId} {p : S.P} {x : S.V}
    (ha : c.sh.log[a]? = some (.begin i ct p)) (hb : c.sh.log[b]? = some (.done i x)) (hab : a < b) : m.hb a b :=
  (reach_beg H h ha).kn.d b _ hb ⟨x, rfl⟩ hab

/-! ## Cancellation before the withdrawal -/

/-- `CE v i`: event `v` is the withdrawal of operation `i` by cancellation. -/
structure HCanc (S : DS) (CE : S.E → OpId → Prop) : Prop where
  start : ∀ {d i b d' r es}, S.start d i b = some (d', r, es) → ∀ e ∈ es, ∀ j, ¬ CE e j
  exec : ∀ {d x b d' ps es}, S.exec d x b = some (d', ps, es) → ∀ e ∈ es, ∀ j, ¬ CE e j
  cancel : ∀ {d i d' r es}, S.tryCancel d i = some (d', r, es) → ∀ e ∈ es, ∀ j, CE e j → j = i

/-- A cancellation of the event of operation `i` is in the view. -/
def Saw (s : RSt S) (i : OpId) (v : Nat → Bool) : Prop :=
  ∃ ev e, s.ct i = some ev ∧ s.log[e]? = some (.cancel ev) ∧ v e = true

structure Can (CE : S.E → OpId → Prop) (s : RSt S) (acts : List (List (Instr S))) (m : Mem (Loc o.A)) : Prop where
  req : ∀ ev, s.req ev = true → ∃ e, s.log[e]? = some (.cancel ev) ∧ m.msg (.ev ev) e = true
  try_ : ∀ (k : Nat) a, acts[k]? = some a → ∀ i l, Instr.tryCancel i l ∈ a → Saw s i (m.view k)
  unq : ∀ (n : Nat) v i, s.log[n]? = some (.ds v) → CE v i → Saw s i (m.past n)

theorem Saw.mono {s s' : RSt S} {i : OpId} {v w : Nat → Bool} (h : Saw s i v) (hct : s'.ct i = s.ct i)
    {evs : List (Ev S)} (hl : s'.log = s.log ++ evs) (hv : ∀ e, e < s.log.length → v e = true → w e = true) :
    Saw s' i w := by
  obtain ⟨ev, e, h1, h2, h3⟩ := h
  have hlt := (List.getElem?_eq_some_iff.1 h2).1
  exact ⟨ev, e, by rw [hct]; exact h1, by rw [hl, List.getElem?_append_left hlt]; exact h2, hv e hlt h3⟩

theorem evt_ct {s : RSt S} {acts : List (List (Instr S))} (h : RInv L s acts) {i : OpId}
    (hp : Pending acts (.register i)) : s.evt i = s.ct i := by
  obtain ⟨ph, _, hC⟩ := h
  have hok := hC.op i
  have h1 : 0 < (view s acts ph i).reg := by
    have := pending_wt hp (W.reg i); simp [W.reg] at this; simp only [view]; omega
  have h3 : 3 ≤ (view s acts ph i).ph := by
    apply Classical.byContradiction
    intro hn; have := hok.a2 (by omega); omega
  have h4 := hok.e1 h3
  exact evt_of_view (hok.e9 h3 (by omega))

theorem run_ct {s s' : RSt S} {x : Instr S} {b : Bool} {p : List (Instr S)} (he : exec s x b = .ok s' p) :
    s'.ct = s.ct := by
  cases x <;> simp only [exec] at he <;> repeat' split at he
  all_goals simp at he
  all_goals obtain ⟨rfl, rfl⟩ := he
  all_goals rfl

theorem run_req {s s' : RSt S} {x : Instr S} {b : Bool} {p : List (Instr S)} (he : exec s x b = .ok s' p) {ev : EvId}
    (h : s'.req ev = true) : s.req ev = true ∨ x = .cancel ev := by
  cases x <;> simp only [exec] at he <;> repeat' split at he
  all_goals simp at he
  all_goals obtain ⟨rfl, rfl⟩ := he
  all_goals try exact .inl h
  rename_i e
  simp only [upd] at h
  split at h
  · rename_i hh; exact .inr (by rw [hh])
  · exact .inl h

theorem run_try {s s' : RSt S} {x : Instr S} {b : Bool} {p : List (Instr S)} (he : exec s x b = .ok s' p) {i : OpId}
    {l : Bool} (h : Instr.tryCancel i l ∈ p) :
    (x = .register i ∧ ∃ ev, s.evt i = some ev ∧ s.req ev = true) ∨ ∃ ev, x = .cancel ev ∧ i ∈ s.cbs ev := by
  cases x <;> simp only [exec] at he <;> repeat' split at he
  all_goals simp at he
  all_goals obtain ⟨rfl, rfl⟩ := he
  all_goals first
    | (simp at h; done)
    | (obtain ⟨y, _, hy⟩ := List.mem_map.1 h; cases y <;> simp [follow] at hy; done)
    | skip
  · simp at h
    obtain ⟨rfl, rfl⟩ := h
    exact .inl ⟨rfl, _, by assumption, by assumption⟩
  · simp at h
    obtain ⟨a, ha, rfl, _⟩ := h
    exact .inr ⟨_, rfl, ha⟩

theorem run_ce {CE : S.E → OpId → Prop} (HC : HCanc S CE) {s s' : RSt S} {x : Instr S} {b : Bool} {p : List (Instr S)}
    (he : exec s x b = .ok s' p) {evs : List (Ev S)} (hl : s'.log = s.log ++ evs) {v : S.E} {i : OpId}
    (hv : Ev.ds v ∈ evs) (hc : CE v i) : ∃ l, x = .tryCancel i l := by
  have hm : Ev.ds v ∈ s'.log.drop s.log.length := by rw [hl]; simpa using hv
  cases x <;> simp only [exec] at he
  case tryCancel j l =>
    split at he
    · simp at he
    · rename_i d' r es hs
      simp at he; obtain ⟨rfl, rfl⟩ := he
      simp at hm
      exact ⟨l, by rw [HC.cancel hs v hm i hc]⟩
  case start j =>
    split at he <;> simp at he <;> obtain ⟨rfl, rfl⟩ := he <;> rename_i hs <;> simp at hm <;>
      exact absurd hc (HC.start hs v hm i)
  case ds x =>
    split at he
    · simp at he
    · rename_i hs
      simp at he; obtain ⟨rfl, rfl⟩ := he
      simp at hm
      exact absurd hc (HC.exec hs v hm i)
  all_goals
    repeat' split at he
    all_goals simp at he
    all_goals obtain ⟨rfl, rfl⟩ := he
    all_goals simp at hm

theorem env_ct {s s' : RSt S} {acts : List (List (Instr S))} (h : RInv L s acts) {a : Act S}
    {p : List (Instr S)} {i : OpId} (he : env s acts a = some (s', p)) (hi : s.ct i ≠ none) : s'.ct i = s.ct i := by
  cases a <;> simp only [env] at he <;> repeat' split at he
  all_goals simp at he
  all_goals obtain ⟨rfl, rfl⟩ := he
  all_goals try rfl
  rename_i j ct q hs _ _ _
  obtain ⟨ph, _, hC⟩ := h
  by_cases hij : i = j
  · subst hij
    have := ((hC.op i).a3 (by simp [view, hs])).2
    simp [view] at this
    exact absurd this hi
  · simp [hij]

theorem env_req {s s' : RSt S} {acts : List (List (Instr S))} {a : Act S} {p : List (Instr S)} {ev : EvId}
    (he : env s acts a = some (s', p)) (h : s'.req ev = true) : s.req ev = true := by
  cases a <;> simp only [env] at he <;> repeat' split at he
  all_goals simp at he
  all_goals obtain ⟨rfl, rfl⟩ := he
  all_goals try exact h
  simp only [upd] at h
  split at h
  · simp at h
  · exact h

theorem env_try {s s' : RSt S} {acts : List (List (Instr S))} {a : Act S} {p : List (Instr S)} {i : OpId} {l : Bool}
    (he : env s acts a = some (s', p)) : Instr.tryCancel i l ∉ p := by
  cases a <;> simp only [env] at he <;> repeat' split at he
  all_goals simp at he
  all_goals obtain ⟨rfl, rfl⟩ := he
  all_goals simp

theorem reach_can (L : Lawful S d0) {CE : S.E → OpId → Prop} (HC : HCanc S CE) {c : Conf (mach S)}
    {m : Mem (Loc o.A)} (h : HReach (ann o entry) (RSt.init d0) c m) : Can CE c.sh c.acts m := by
  refine HReach.inv (A := ann o entry) (P := fun c => RInv L c.sh c.acts)
    (Q := fun s acts m => Can CE s acts m) (fun c hc => reach_inv L hc) ?_ ?_ ?_ h
  · exact ⟨by simp [RSt.init], by simp, by simp [RSt.init]⟩
  · intro c m a s' p hr hr' hQ he
    obtain ⟨h1, h2, evs, h3, h4, h5⟩ := env_log (acts := c.acts) he
    have hct : ∀ i v, Saw c.sh i v → s'.ct i = c.sh.ct i := by
      rintro i v ⟨ev, e, h1, _, _⟩
      exact env_ct hr he (by simp [h1])
    refine ⟨?_, ?_, ?_⟩
    · intro ev hreq
      obtain ⟨e, h1, h2⟩ := hQ.req ev (env_req he hreq)
      have hlt := (List.getElem?_eq_some_iff.1 h1).1
      exact ⟨e, by rw [h3, List.getElem?_append_left hlt]; exact h1, Mem.keep (by simp) h2⟩
    · intro j a hj i l hm
      by_cases hjl : j < c.acts.length
      · rw [List.getElem?_append_left hjl] at hj
        have hs := hQ.try_ j a hj i l hm
        exact hs.mono (hct i _ hs) h3 (fun e _ hv => by rw [Mem.act_view_ne (by omega)]; exact hv)
      · have : j = c.acts.length := by have := (List.getElem?_eq_some_iff.1 hj).1; simp at this; omega
        subst this
        simp at hj; subst hj
        exact absurd hm (env_try he)
    · intro n v i hn hc
      have hlt : n < c.sh.log.length := by
        apply Classical.byContradiction
        intro hnl
        rw [h3, List.getElem?_append_right (by omega)] at hn
        exact h5 v (List.mem_of_getElem? hn)
      rw [h3, List.getElem?_append_left hlt] at hn
      have hs := hQ.unq n v i hn hc
      exact hs.mono (hct i _ hs) h3 (fun e _ hv => by rw [Mem.act_past_old _ _ _ _ _ _ hlt]; exact hv)
  · intro c m k x r b s' p hr _ hQ hk he
    obtain ⟨evs, h3⟩ := exec_log he
    have hct := run_ct he
    have hxv : ∀ i l, x = .tryCancel i l → Saw c.sh i (m.view k) := fun i l hx =>
      hQ.try_ k _ hk i l (by simp [hx])
    refine ⟨?_, ?_, ?_⟩
    · intro ev hreq
      by_cases hx : x = .cancel ev
      · subst hx
        simp only [exec] at he
        simp at he; obtain ⟨rfl, rfl⟩ := he
        refine ⟨c.sh.log.length, by simp, ?_⟩
        exact Mem.publish (x := .unlock (.ev ev)) (fun a ha => eff_stores (s := c.sh) (x := .cancel ev) (b := b) ha (by simp))
          (by simp [eff, evSect]) (by simp [Acc.releases]) (.inr ⟨Nat.le_refl _, by simp⟩)
      · rcases run_req he hreq with h | h
        · obtain ⟨e, h1, h2⟩ := hQ.req ev h
          have hlt := (List.getElem?_eq_some_iff.1 h1).1
          exact ⟨e, by rw [h3, List.getElem?_append_left hlt]; exact h1,
            Mem.keep (fun a ha => eff_stores ha (by simp)) h2⟩
        · exact absurd h hx
    · intro j a hj i l hm
      rw [List.getElem?_set] at hj
      split at hj
      · rename_i e; subst e
        split at hj
        · simp at hj; subst hj
          rcases List.mem_append.1 hm with hm | hm
          · rcases run_try he hm with ⟨rfl, ev, h1, h2⟩ | ⟨ev, rfl, h1⟩
            · obtain ⟨e, h4, h5⟩ := hQ.req ev h2
              have hlt := (List.getElem?_eq_some_iff.1 h4).1
              refine ⟨ev, e, ?_, by rw [h3, List.getElem?_append_left hlt]; exact h4, Mem.act_view_self (.inl ?_)⟩
              · rw [hct, ← evt_ct hr ⟨_, List.mem_of_getElem? hk, by simp⟩]; exact h1
              · exact m.acquire_msg (a := .lock (.ev ev)) (by simp [eff, evSect, h1]) (by simp [Acc.acquires]) h5
            · obtain ⟨ph, _, hC⟩ := hr
              have h2 := hC.gl.g3 ev i h1
              simp only [exec] at he
              simp at he; obtain ⟨rfl, rfl⟩ := he
              exact ⟨ev, c.sh.log.length, h2, by simp, Mem.act_view_self (.inr ⟨Nat.le_refl _, by simp⟩)⟩
          · exact (hQ.try_ k _ hk i l (by simp [hm])).mono (by rw [hct]) h3
              (fun e _ hv => Mem.act_view_self (.inl (m.acquire_mono _ hv)))
        · simp at hj
      · rename_i hne
        exact (hQ.try_ j a hj i l hm).mono (by rw [hct]) h3 (fun e _ hv => Mem.act_view_mono hv)
    · intro n v i hn hc
      by_cases hlt : n < c.sh.log.length
      · have hn' := hn
        rw [h3, List.getElem?_append_left hlt] at hn'
        exact (hQ.unq n v i hn' hc).mono (by rw [hct]) h3
          (fun e _ hv => by rw [Mem.act_past_old _ _ _ _ _ _ hlt]; exact hv)
      · have hlt' := (List.getElem?_eq_some_iff.1 hn).1
        have hm : Ev.ds v ∈ evs := by
          rw [h3, List.getElem?_append_right (by omega)] at hn
          exact List.mem_of_getElem? hn
        obtain ⟨l, hx⟩ := run_ce HC he h3 hm hc
        refine (hxv i l hx).mono (by rw [hct]) h3 (fun e _ hv => ?_)
        rw [Mem.act_past_new _ _ _ _ _ _ (Nat.le_of_not_lt hlt) hlt', m.acquire_mono _ hv]; rfl

/-- A cancelled operation was withdrawn after a cancellation of its event. -/
theorem withdrawn_after_cancel (L : Lawful S d0) {CE : S.E → OpId → Prop} (HC : HCanc S CE) {c : Conf (mach S)}
    {m : Mem (Loc o.A)} (h : HReach (ann o entry) (RSt.init d0) c m) {n : Nat} {v : S.E} {i : OpId}
    (hn : c.sh.log[n]? = some (.ds v)) (hc : CE v i) :
    ∃ ev e, c.sh.ct i = some ev ∧ c.sh.log[e]? = some (.cancel ev) ∧ m.hb e n :=
  (reach_can L HC h).unq n v i hn hc

end Verif.Resolver
