import Verif.Hb.SharedMutexProof2
import Verif.Hb.Section

/-!
# Lock operations of `async::shared_mutex` and the queue of waiters

The memory orders are those of `Verif/Hb/SharedMutexModel.lean`.
-/

namespace Verif.SharedMutex

/-- Instructions of a critical section of `mutex_`. -/
def critW (x : Instr) : Nat := isC x + isR x + isX x + isE x + isPu x

def crit (x : Instr) : Prop := 0 < critW x

theorem crit_ws {s : St} {acts : List (List Instr)} (h : Inv s acts) : ws critW acts = if s.mtx then 1 else 0 := by
  have := h.ok.crit
  simp only [view] at this
  refine Eq.trans ?_ this
  clear this h
  rw [ws_add (w := critW) (w' := fun x => isC x + isR x + isX x + isE x) (w'' := isPu) (fun x => rfl),
    ws_add (w' := fun x => isC x + isR x + isX x) (w'' := isE) (fun x => rfl),
    ws_add (w' := fun x => isC x + isR x) (w'' := isX) (fun x => rfl),
    ws_add (w' := isC) (w'' := isR) (fun x => rfl)]

theorem crit_mtx {c : Conf mach} (f : Facts' c) {x : Instr} (h : Pending c.acts x) (hx : crit x) :
    c.sh.mtx = true ∧ ws critW c.acts ≤ 1 := by
  have h1 := crit_ws f.inv
  have h2 := h.le critW
  simp only [crit] at hx
  split at h1
  · exact ⟨by assumption, by omega⟩
  · omega

/-- Accesses to `waiters_`. -/
def isQ : Ev → Prop
  | .enq _ | .grant _ _ => True
  | _ => False

/-- Events of acquisition `i` after its start. -/
def evOf (i : Id) : Ev → Prop
  | .fast t | .enq t | .acq t | .fail t => t.1 = i
  | .grant _ ts => i ∈ ts.map (·.1)
  | _ => False

structure HQ (s : St) (acts : List (List Instr)) (m : Mem Loc) (e : Nat) : Prop where
  prot : Prot crit .mtx s.mtx acts m e
  done : Done isQ s.log m e

structure HStart (s : St) (acts : List (List Instr)) (m : Mem Loc) (e : Nat) (i : Id) : Prop where
  know : AllKnow (fun x => i ∈ ops x) acts m e
  wait : i ∈ s.waiters.map (·.1) → Prot crit .mtx s.mtx acts m e
  done : Under (evOf i) s.log m e

theorem no_stores (s : St) (x : Instr) (b : Bool) : ∀ a ∈ eff s x b, a.stores .mtx = false := by
  have cas : ∀ b o, ∀ a ∈ cas b o, a.stores .mtx = false := by
    intro b o a ha
    cases b <;> simp [SharedMutex.cas] at ha <;> subst ha <;> rfl
  intro a ha
  cases x with
  | chk t v =>
    obtain ⟨i, e⟩ := t
    cases e <;> simp only [eff] at ha <;> (repeat' split at ha) <;> first | exact cas _ _ _ ha | simp at ha
  | _ =>
    simp only [eff] at ha <;> (repeat' split at ha) <;>
      first
      | exact cas _ _ _ ha
      | (simp at ha; done)
      | (simp at ha; subst ha; rfl)

/-- What the proof needs to know of one instruction. -/
structure StepFacts (s : St) (x : Instr) (b : Bool) (s' : St) (p : List Instr) (i : Id) (evs : List Ev) : Prop where
  crit : (∃ y ∈ p, crit y) → crit x ∨ (s.mtx = false ∧ .lock .mtx ∈ eff s x b)
  free : s'.mtx = false → s.mtx = false ∨ (SharedMutex.crit x ∧ .unlock .mtx ∈ eff s x b)
  op : ∀ y ∈ p, i ∈ ops y → i ∈ ops x ∨ (SharedMutex.crit x ∧ i ∈ s.waiters.map (·.1))
  wait : i ∈ s'.waiters.map (·.1) → i ∈ s.waiters.map (·.1) ∨ (SharedMutex.crit x ∧ i ∈ ops x ∧ s'.mtx = s.mtx)
  log : s'.log = s.log ++ evs
  ev : ∀ w ∈ evs, evOf i w → i ∈ ops x ∨ (SharedMutex.crit x ∧ i ∈ s.waiters.map (·.1))
  q : ∀ w ∈ evs, isQ w → SharedMutex.crit x ∧ evs = [w] ∧ s'.mtx = s.mtx
  start : ∀ j : Req, .lock j ∉ evs ∧ .tryLock j ∉ evs
  used : s'.used = s.used

set_option maxHeartbeats 2000000 in
theorem step_facts {s s' : St} {x : Instr} {b : Bool} {p : List Instr} (he : exec s x b = .ok s' p) (i : Id) :
    ∃ evs, StepFacts s x b s' p i evs := by
  have tw : ∀ q : List Req, i ∈ (q.takeWhile (fun t => !t.2)).map (·.1) → i ∈ q.map (·.1) := by
    intro q h
    obtain ⟨t, h1, rfl⟩ := List.mem_map.1 h
    exact List.mem_map.2 ⟨t, (List.takeWhile_sublist _).subset h1, rfl⟩
  have dw : ∀ q : List Req, i ∈ (q.dropWhile (fun t => !t.2)).map (·.1) → i ∈ q.map (·.1) := by
    intro q h
    obtain ⟨t, h1, rfl⟩ := List.mem_map.1 h
    exact List.mem_map.2 ⟨t, (List.dropWhile_sublist _).subset h1, rfl⟩
  cases x <;> simp only [exec] at he
  case chk t v =>
    obtain ⟨t, e⟩ := t
    clear tw dw
    cases e <;> simp only at he <;> (repeat' split at he) <;> simp at he <;> obtain ⟨rfl, rfl⟩ := he
    all_goals first
      | (refine ⟨[], ?_, ?_, ?_, ?_, (List.append_nil _).symm, ?_, ?_, ?_, rfl⟩ <;>
          simp_all [SharedMutex.crit, critW, isC, isR, isX, isE, isPu, ops, evOf, isQ, eff] <;> done)
      | (refine ⟨_, ?_, ?_, ?_, ?_, rfl, ?_, ?_, ?_, rfl⟩ <;>
          simp_all [SharedMutex.crit, critW, isC, isR, isX, isE, isPu, ops, evOf, isQ, eff, St.admit] <;> done)
  case popU t =>
    split at he
    · simp at he
    · simp at he; obtain ⟨rfl, rfl⟩ := he
      rename_i hw
      refine ⟨_, ?_, ?_, ?_, ?_, rfl, ?_, ?_, ?_, rfl⟩ <;>
        simp [SharedMutex.crit, critW, isC, isR, isX, isE, isPu, ops, evOf, isQ, eff, hw] <;> grind
    · rename_i j w hw
      have hc : SharedMutex.crit (.popU t) := by simp [SharedMutex.crit, critW, isC, isR, isX, isE, isPu]
      rw [← hw] at he
      simp only [Out.ok.injEq] at he
      obtain ⟨rfl, rfl⟩ := he
      refine ⟨_, ?_, ?_, ?_, ?_, rfl, ?_, ?_, ?_, rfl⟩
      · intro _; exact .inl hc
      · exact .inl
      · intro y hy hi
        simp only [List.mem_singleton] at hy; subst hy
        exact .inr ⟨hc, tw _ hi⟩
      · exact fun hi => .inl (dw _ hi)
      · intro y hy hi
        simp only [List.mem_singleton] at hy; subst hy
        exact .inr ⟨hc, tw _ hi⟩
      · intro y hy _
        simp only [List.mem_singleton] at hy; subst hy
        exact ⟨hc, rfl, rfl⟩
      · simp
  all_goals clear tw dw
  all_goals
    (repeat' split at he) <;> simp at he <;> obtain ⟨rfl, rfl⟩ := he
  all_goals first
    | (refine ⟨[], ?_, ?_, ?_, ?_, (List.append_nil _).symm, ?_, ?_, ?_, rfl⟩ <;>
        simp_all [SharedMutex.crit, critW, isC, isR, isX, isE, isPu, ops, evOf, isQ, eff] <;> done)
    | (refine ⟨_, ?_, ?_, ?_, ?_, rfl, ?_, ?_, ?_, rfl⟩ <;>
        simp_all [SharedMutex.crit, critW, isC, isR, isX, isE, isPu, ops, evOf, isQ, eff, St.admit] <;> done)

theorem env_facts {c : Conf mach} {a : Act} {s' : St} {p : List Instr} (he : env c.sh c.acts a = some (s', p)) :
    ∃ v, s'.log = c.sh.log ++ [v] ∧ s'.mtx = c.sh.mtx ∧ s'.waiters = c.sh.waiters ∧ (∀ y ∈ p, ¬ crit y) ∧
      (∀ i, ¬ evOf i v) ∧ ¬ isQ v ∧ (∀ y ∈ p, ∀ i, i ∈ ops y → ∃ e, v = .lock (i, e) ∨ v = .tryLock (i, e)) ∧
      (∀ i e, v = .lock (i, e) ∨ v = .tryLock (i, e) → c.sh.used i = false) ∧ ∀ i, c.sh.used i = true → s'.used i = true := by
  cases a <;> simp only [env] at he <;> split at he <;> simp at he <;> obtain ⟨rfl, rfl⟩ := he
  all_goals
    rename_i t _
    obtain ⟨t, e⟩ := t
    refine ⟨_, rfl, rfl, rfl, ?_⟩
    cases e <;> simp_all [SharedMutex.crit, critW, isC, isR, isX, isE, isPu, ops, evOf, isQ, upd_apply, Instr.ofLock,
      Instr.ofTry, Instr.ofUnlock] <;> grind

/-- Only acquisitions that were begun leave a trace. -/
theorem hreach_used {c : Conf mach} {m : Mem Loc} (h : HReach ann init c m) :
    ∀ i w, w ∈ c.sh.log → evOf i w → c.sh.used i = true := by
  refine HReach.inv (A := ann) (P := Facts') (Q := fun s _ _ => ∀ i w, w ∈ s.log → evOf i w → s.used i = true)
    facts' ?_ ?_ ?_ h
  · simp [init]
  · intro c m a s' p f f' hQ he i w hw hi
    obtain ⟨v, h1, _, _, _, h4, _, _, _, h7⟩ := env_facts he
    rw [h1] at hw; simp at hw
    rcases hw with hw | rfl
    · exact h7 i (hQ i w hw hi)
    · exact absurd hi (h4 i)
  · intro c m k x r b s' p f f' hQ hk he i w hw hi
    obtain ⟨evs, g⟩ := step_facts he i
    rw [g.used]
    rw [g.log] at hw
    rcases List.mem_append.1 hw with hw | hw
    · exact hQ i w hw hi
    · have h1 := f.inv.op i
      have h2 : 0 < ws (cw ops (· == i)) c.acts + (c.sh.waiters.map (·.1)).count i := by
        rcases g.ev w hw hi with h | ⟨_, h⟩
        · have h3 := (pending_top hk).le (cw ops (· == i))
          have h4 : 0 < cw ops (· == i) x := List.countP_pos_iff.2 ⟨i, h, by simp⟩
          omega
        · have := List.count_pos_iff.2 h; omega
      split at h1
      · assumption
      · omega

theorem hreach_queue {c : Conf mach} {m : Mem Loc} (h : HReach ann init c m) :
    ∀ (e : Nat) v, c.sh.log[e]? = some v → isQ v → HQ c.sh c.acts m e := by
  refine HReach.inv (A := ann) (P := Facts')
    (Q := fun s acts m => ∀ (e : Nat) v, s.log[e]? = some v → isQ v → HQ s acts m e) facts' ?_ ?_ ?_ h
  · intro e v h; simp [init] at h
  · intro c m a s' p f f' hQ he e v hv hq
    obtain ⟨w, h1, h2, _, h3, _, h4, _⟩ := env_facts he
    have hlt : e < c.sh.log.length := by
      apply Classical.byContradiction
      intro hn
      rw [h1, List.getElem?_append_right (by omega)] at hv
      have := List.mem_of_getElem? hv
      simp at this; subst this; exact h4 hq
    have h := hQ e v (by rwa [h1, List.getElem?_append_left hlt] at hv) hq
    refine ⟨h2 ▸ h.prot.env h3, h.done.step h1 ?_⟩
    rintro ⟨y, hy, hyq⟩
    simp at hy; subst hy; exact absurd hyq h4
  · intro c m k x r b s' p f f' hQ hk he e v hv hq
    obtain ⟨evs, g⟩ := step_facts he 0
    by_cases hlt : e < c.sh.log.length
    · have h := hQ e v (by rwa [g.log, List.getElem?_append_left hlt] at hv) hq
      refine ⟨h.prot.run hk (no_stores c.sh x b) g.crit g.free, h.done.step g.log ?_⟩
      rintro ⟨y, hy, hyq⟩
      exact m.acquire_mono _ (h.prot.know k _ hk x (by simp) (g.q y hy hyq).1)
    · have hl := (List.getElem?_eq_some_iff.1 hv).1
      have hm : v ∈ evs := by
        rw [g.log, List.getElem?_append_right (by omega)] at hv
        exact List.mem_of_getElem? hv
      obtain ⟨g1, g2, g3⟩ := g.q v hm hq
      have he' : e = c.sh.log.length := by rw [g.log, g2] at hl; simp at hl; omega
      subst he'
      obtain ⟨g4, g5⟩ := crit_mtx f (pending_top hk) g1
      refine ⟨?_, ?_⟩
      · rw [g3, g4]
        exact Prot.new (w := critW) (fun _ h => h) g5 hk g1 (.inr ⟨Nat.le_refl _, hl⟩)
      · intro n y hn _ hlt'
        have := (List.getElem?_eq_some_iff.1 hn).1
        rw [g.log, g2] at this; simp at this; omega

theorem hreach_start {c : Conf mach} {m : Mem Loc} (h : HReach ann init c m) :
    ∀ (e : Nat) i x, c.sh.log[e]? = some (.lock (i, x)) ∨ c.sh.log[e]? = some (.tryLock (i, x)) → HStart c.sh c.acts m e i := by
  refine HReach.inv (A := ann) (P := fun c => Facts' c ∧ ∀ i w, w ∈ c.sh.log → evOf i w → c.sh.used i = true)
    (Q := fun s acts m => ∀ (e : Nat) i x,
      s.log[e]? = some (.lock (i, x)) ∨ s.log[e]? = some (.tryLock (i, x)) → HStart s acts m e i)
    (fun c hc => ⟨facts' c hc, let ⟨_, hm⟩ := hc.hreach ann; hreach_used hm⟩) ?_ ?_ ?_ h
  · intro e i x h; simp [init] at h
  · intro c m a s' p ⟨f, hu'⟩ _ hQ he e i z hi
    obtain ⟨w, h1, h2, hw, h3, h4, _, h5, h6, _⟩ := env_facts he
    by_cases hlt : e < c.sh.log.length
    · rw [h1, List.getElem?_append_left hlt] at hi
      have h := hQ e i z hi
      have hu : c.sh.used i = true := (f.inv.beg i).2 (by
        rcases hi with hi | hi
        · exact ⟨z, .inl (List.mem_of_getElem? hi)⟩
        · exact ⟨z, .inr (List.mem_of_getElem? hi)⟩)
      refine ⟨h.know.env ?_, ?_, h.done.step h1 ?_⟩
      · rintro ⟨y, hy, hop⟩
        obtain ⟨z', hz⟩ := h5 y hy i hop
        have := h6 i z' hz
        simp [hu] at this
      · intro hwt; exact h2 ▸ (h.wait (hw ▸ hwt)).env h3
      · rintro ⟨y, hy, hyq⟩
        simp at hy; subst hy; exact absurd hyq (h4 i)
    · have hl : e < s'.log.length := by
        rcases hi with hi | hi <;> exact (List.getElem?_eq_some_iff.1 hi).1
      have he' : e = c.sh.log.length := by rw [h1] at hl; simp at hl; omega
      subst he'
      have hwi : w = .lock (i, z) ∨ w = .tryLock (i, z) := by
        rw [h1] at hi; simp at hi; exact hi
      have hu := h6 i z hwi
      have h7 := f.inv.op i
      rw [if_neg (by simp [hu])] at h7
      refine ⟨?_, ?_, ?_⟩
      · refine AllKnow.env ?_ (fun _ => .inr ⟨Nat.le_refl _, hl⟩)
        intro k a hk x hx hop
        have h8 := ws_pos_of_mem (w := cw ops (· == i)) (List.mem_of_getElem? hk) hx
        have h9 : 0 < cw ops (· == i) x := List.countP_pos_iff.2 ⟨i, hop, by simp⟩
        omega
      · intro hwt; rw [hw] at hwt; have := List.count_pos_iff.2 hwt; omega
      · apply Under.none
        intro v hv hi'
        rw [h1] at hv; simp at hv
        rcases hv with hv | rfl
        · have := hu' i v hv hi'; simp [hu] at this
        · exact h4 i hi'
  · intro c m k x r b s' p ⟨f, _⟩ _ hQ hk he e i z hi
    obtain ⟨evs, g⟩ := step_facts he i
    have hlt : e < c.sh.log.length := by
      apply Classical.byContradiction
      intro hn
      rw [g.log, List.getElem?_append_right (by omega)] at hi
      rcases hi with hi | hi
      · exact (g.start (i, z)).1 (List.mem_of_getElem? hi)
      · exact (g.start (i, z)).2 (List.mem_of_getElem? hi)
    rw [g.log, List.getElem?_append_left hlt] at hi
    have h := hQ e i z hi
    have hx : i ∈ ops x ∨ (crit x ∧ i ∈ c.sh.waiters.map (·.1)) → m.acquire (m.view k) (eff c.sh x b) e = true := by
      rintro (hx | ⟨hx, hw⟩)
      · exact m.acquire_mono _ (h.know k _ hk x (by simp) hx)
      · exact m.acquire_mono _ ((h.wait hw).know k _ hk x (by simp) hx)
    refine ⟨h.know.run hk ?_, ?_, h.done.step g.log ?_⟩
    · rintro ⟨y, hy, hop⟩; exact hx (g.op y hy hop)
    · intro hw
      rcases g.wait hw with hw | ⟨g1, g2, g3⟩
      · exact (h.wait hw).run hk (no_stores c.sh x b) g.crit g.free
      · obtain ⟨g4, g5⟩ := crit_mtx f (pending_top hk) g1
        rw [g3, g4]
        exact Prot.new (w := critW) (fun _ h => h) g5 hk g1 (.inl (hx (.inl g2)))
    · rintro ⟨w, hw, ho⟩; exact hx (g.ev w hw ho)

/-! ## C70, `shared_mutex` -/

/-- Whatever happens to a request happens after the call that began it: being admitted, being queued, being admitted by
another thread, and the completion. -/
theorem C70_shared_mutex_start_before {c : Conf mach} {m : Mem Loc} (h : HReach ann init c m) {a b : Nat} {t : Req} {w : Ev}
    (ha : c.sh.log[a]? = some (.lock t) ∨ c.sh.log[a]? = some (.tryLock t)) (hb : c.sh.log[b]? = some w)
    (hw : w = .fast t ∨ w = .enq t ∨ (∃ u ts, t ∈ ts ∧ w = .grant u ts) ∨ w = .acq t ∨ w = .fail t) : m.hb a b := by
  refine (hreach_start h a t.1 t.2 ha).done b w hb ?_
  rcases hw with rfl | rfl | ⟨u, ts, ht, rfl⟩ | rfl | rfl <;> first | rfl | exact List.mem_map.2 ⟨t, ht, rfl⟩

/-- All accesses to the queue of waiters are ordered. -/
theorem C70_shared_mutex_queue_ordered {c : Conf mach} {m : Mem Loc} (h : HReach ann init c m) {a b : Nat} {v w : Ev}
    (ha : c.sh.log[a]? = some v) (hb : c.sh.log[b]? = some w) (hv : (∃ t, v = .enq t) ∨ ∃ t ts, v = .grant t ts)
    (hw : (∃ t, w = .enq t) ∨ ∃ t ts, w = .grant t ts) (hab : a < b) : m.hb a b := by
  have hq : ∀ v : Ev, ((∃ t, v = .enq t) ∨ ∃ t ts, v = .grant t ts) → isQ v := by
    rintro v (⟨t, rfl⟩ | ⟨t, ts, rfl⟩) <;> trivial
  exact (hreach_queue h a v ha (hq v hv)).done b w hb (hq w hw) hab

/-- Readers 1 and 2 are queued on the threads 1 and 2 while writer 0 holds the mutex; thread 3 hands it over. -/
def qdemo : Conf mach × Mem Loc := ann.go init
  [.env (.lock (0, true)), .run 0 true, .run 0 true,
   .env (.lock (1, false)), .run 1 true, .run 1 true, .run 1 true, .run 1 true, .run 1 true, .run 1 true, .run 1 true,
   .env (.lock (2, false)), .run 2 true, .run 2 true, .run 2 true, .run 2 true, .run 2 true, .run 2 true, .run 2 true,
   .env (.unlock (0, true)), .run 3 true, .run 3 true, .run 3 true, .run 3 true, .run 3 true, .run 3 true, .run 3 true]

set_option maxRecDepth 20000 in
theorem qdemo_log : qdemo.1.sh.log = [.lock (0, true), .fast (0, true), .acq (0, true), .lock (1, false), .enq (1, false),
    .lock (2, false), .enq (2, false), .unlock (0, true), .grant (0, true) [(1, false), (2, false)], .acq (1, false),
    .acq (2, false)] := by decide

/-- `async_lock_shared` of 2 is called on thread 2 and completed by thread 3. -/
example : qdemo.2.hb 5 10 :=
  C70_shared_mutex_start_before (t := (2, false)) (HReach.go ann init _) (.inl (by rw [← qdemo, qdemo_log]; rfl))
    (by rw [← qdemo, qdemo_log]; rfl) (.inr (.inr (.inr (.inl rfl))))

/-- It is queued by thread 2 after thread 1 queued the other reader. -/
example : qdemo.2.hb 4 6 :=
  C70_shared_mutex_queue_ordered (HReach.go ann init _) (by rw [← qdemo, qdemo_log]; rfl)
    (by rw [← qdemo, qdemo_log]; rfl) (.inl ⟨(1, false), rfl⟩) (.inl ⟨(2, false), rfl⟩) (by omega)

end Verif.SharedMutex
