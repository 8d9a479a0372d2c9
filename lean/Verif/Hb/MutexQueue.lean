import Verif.Hb.Mutex
import Verif.Hb.Section

/-!
# Lock operations of `async::mutex` and the queue of waiters

The memory orders are those of `Verif/Hb/Mutex.lean`.
-/

namespace Verif.Mutex

/-- Instructions of a critical section of `mutex_`. -/
def critW (x : Instr) : Nat := isP x + isT x + isPu x + isCC x + isCO x + isR x

def crit (x : Instr) : Prop := 0 < critW x

theorem crit_ws {s : St} {acts : List (List Instr)} (h : Inv s acts) : ws critW acts = if s.mtx then 1 else 0 := by
  have := h.ok.crit
  simp only [view] at this
  refine Eq.trans ?_ this
  clear this h
  rw [ws_add (w := critW) (w' := fun x => isP x + isT x + isPu x + isCC x + isCO x) (w'' := isR) (fun x => rfl),
    ws_add (w' := fun x => isP x + isT x + isPu x + isCC x) (w'' := isCO) (fun x => rfl),
    ws_add (w' := fun x => isP x + isT x + isPu x) (w'' := isCC) (fun x => rfl),
    ws_add (w' := fun x => isP x + isT x) (w'' := isPu) (fun x => rfl),
    ws_add (w' := isP) (w'' := isT) (fun x => rfl)]

theorem crit_mtx {c : Conf mach} (f : Facts' c) {x : Instr} (h : Pending c.acts x) (hx : crit x) :
    c.sh.mtx = true ∧ ws critW c.acts ≤ 1 := by
  have h1 := crit_ws f.inv
  have h2 := h.le critW
  simp only [crit] at hx
  split at h1
  · exact ⟨by assumption, by omega⟩
  · omega

/-- Accesses to `waiters_`. -/
def isQ : Ev → Prop
  | .enq _ | .grant _ _ => True
  | _ => False

/-- Events of acquisition `i` after its start. -/
def evOf (i : Id) : Ev → Prop
  | .fast j | .enq j | .grant _ j | .acq j | .fail j => j = i
  | _ => False

structure HQ (s : St) (acts : List (List Instr)) (m : Mem Loc) (e : Nat) : Prop where
  prot : Prot crit .mtx s.mtx acts m e
  done : Done isQ s.log m e

structure HStart (s : St) (acts : List (List Instr)) (m : Mem Loc) (e : Nat) (i : Id) : Prop where
  know : AllKnow (fun x => opId x = some i) acts m e
  wait : i ∈ s.waiters → Prot crit .mtx s.mtx acts m e
  done : Under (evOf i) s.log m e

theorem no_stores (s : St) (x : Instr) (b : Bool) : ∀ a ∈ eff s x b, a.stores .mtx = false := by
  intro a ha
  cases x with
  | chk i v => cases v <;> simp only [eff] at ha <;> (try split at ha) <;> simp at ha <;> subst ha <;> rfl
  | _ => simp only [eff] at ha <;> (try split at ha) <;> simp at ha <;> subst ha <;> rfl

/-- What the proof needs to know of one instruction. -/
structure StepFacts (s : St) (x : Instr) (b : Bool) (s' : St) (p : List Instr) (i : Id) (evs : List Ev) : Prop where
  crit : (∃ y ∈ p, crit y) → crit x ∨ (s.mtx = false ∧ .lock .mtx ∈ eff s x b)
  free : s'.mtx = false → s.mtx = false ∨ (Mutex.crit x ∧ .unlock .mtx ∈ eff s x b)
  op : ∀ y ∈ p, opId y = some i → opId x = some i ∨ (Mutex.crit x ∧ i ∈ s.waiters)
  wait : i ∈ s'.waiters → i ∈ s.waiters ∨ (Mutex.crit x ∧ opId x = some i ∧ s'.mtx = s.mtx)
  log : s'.log = s.log ++ evs
  ev : ∀ w ∈ evs, evOf i w → opId x = some i ∨ (Mutex.crit x ∧ i ∈ s.waiters)
  q : ∀ w ∈ evs, isQ w → Mutex.crit x ∧ evs = [w] ∧ s'.mtx = s.mtx
  start : ∀ j, .lock j ∉ evs ∧ .tryLock j ∉ evs
  used : s'.used = s.used

theorem step_facts {s s' : St} {x : Instr} {b : Bool} {p : List Instr} (he : exec s x b = .ok s' p) (i : Id) :
    ∃ evs, StepFacts s x b s' p i evs := by
  cases x <;> simp only [exec] at he
  case chk i v =>
    cases v <;> simp only at he <;> (try split at he) <;> simp at he <;> obtain ⟨rfl, rfl⟩ := he
    all_goals first
      | (refine ⟨_, ?_, ?_, ?_, ?_, rfl, ?_, ?_, ?_, rfl⟩ <;>
          simp_all [Mutex.crit, critW, isP, isT, isPu, isCC, isCO, isR, opId, evOf, isQ, eff] <;> done)
      | (refine ⟨[], ?_, ?_, ?_, ?_, (List.append_nil _).symm, ?_, ?_, ?_, rfl⟩ <;>
          simp_all [Mutex.crit, critW, isP, isT, isPu, isCC, isCO, isR, opId, evOf, isQ, eff] <;>
          (try split) <;> simp_all [isCC, isCO] <;> grind [LSt])
  all_goals
    (try split at he) <;> simp at he <;> obtain ⟨rfl, rfl⟩ := he
  all_goals first
    | (refine ⟨_, ?_, ?_, ?_, ?_, rfl, ?_, ?_, ?_, rfl⟩ <;>
        simp_all [Mutex.crit, critW, isP, isT, isPu, isCC, isCO, isR, opId, evOf, isQ, eff] <;> done)
    | (refine ⟨[], ?_, ?_, ?_, ?_, (List.append_nil _).symm, ?_, ?_, ?_, rfl⟩ <;>
        simp_all [Mutex.crit, critW, isP, isT, isPu, isCC, isCO, isR, opId, evOf, isQ, eff] <;> done)
    | (refine ⟨_, ?_, ?_, ?_, ?_, rfl, ?_, ?_, ?_, rfl⟩ <;>
        simp [Mutex.crit, critW, isP, isT, isPu, isCC, isCO, isR, opId, evOf, isQ, eff] <;> grind)

theorem env_log {c : Conf mach} {a : Act} {s' : St} {p : List Instr} (he : env c.sh c.acts a = some (s', p)) :
    ∃ v, s'.log = c.sh.log ++ [v] ∧ s'.mtx = c.sh.mtx ∧ s'.waiters = c.sh.waiters ∧ (∀ y ∈ p, ¬ crit y) ∧
      (∀ i, ¬ evOf i v) ∧ ¬ isQ v ∧ (∀ y ∈ p, ∀ i, opId y = some i → v = .lock i ∨ v = .tryLock i) ∧
      (∀ i, v = .lock i ∨ v = .tryLock i → c.sh.used i = false) ∧ ∀ i, c.sh.used i = true → s'.used i = true := by
  cases a <;> simp only [env] at he <;> split at he <;> simp at he <;> obtain ⟨rfl, rfl⟩ := he
  all_goals
    refine ⟨_, rfl, rfl, rfl, ?_⟩
    simp_all [Mutex.crit, critW, isP, isT, isPu, isCC, isCO, isR, opId, evOf, isQ, upd_apply]

/-- Only acquisitions that were begun leave a trace. -/
theorem hreach_used {c : Conf mach} {m : Mem Loc} (h : HReach ann init c m) :
    ∀ i w, w ∈ c.sh.log → evOf i w → c.sh.used i = true := by
  refine HReach.inv (A := ann) (P := Facts') (Q := fun s _ _ => ∀ i w, w ∈ s.log → evOf i w → s.used i = true)
    facts' ?_ ?_ ?_ h
  · simp [init]
  · intro c m a s' p f f' hQ he i w hw hi
    obtain ⟨v, h1, _, _, _, h4, _, _, _, h7⟩ := env_log he
    rw [h1] at hw; simp at hw
    rcases hw with hw | rfl
    · exact h7 i (hQ i w hw hi)
    · exact absurd hi (h4 i)
  · intro c m k x r b s' p f f' hQ hk he i w hw hi
    obtain ⟨evs, g⟩ := step_facts he i
    rw [g.used]
    rw [g.log] at hw
    rcases List.mem_append.1 hw with hw | hw
    · exact hQ i w hw hi
    · have h1 := f.inv.op i
      have h2 : 0 < ws (opW i) c.acts + c.sh.waiters.count i := by
        rcases g.ev w hw hi with h | ⟨_, h⟩
        · have := (pending_top hk).le (opW i)
          simp [opW, h] at this; simp [opW]; omega
        · have := List.count_pos_iff.2 h; omega
      split at h1
      · assumption
      · omega

theorem hreach_queue {c : Conf mach} {m : Mem Loc} (h : HReach ann init c m) :
    ∀ (e : Nat) v, c.sh.log[e]? = some v → isQ v → HQ c.sh c.acts m e := by
  refine HReach.inv (A := ann) (P := Facts')
    (Q := fun s acts m => ∀ (e : Nat) v, s.log[e]? = some v → isQ v → HQ s acts m e) facts' ?_ ?_ ?_ h
  · intro e v h; simp [init] at h
  · intro c m a s' p f f' hQ he e v hv hq
    obtain ⟨w, h1, h2, _, h3, _, h4, _⟩ := env_log he
    have hlt : e < c.sh.log.length := by
      apply Classical.byContradiction
      intro hn
      rw [h1, List.getElem?_append_right (by omega)] at hv
      have := List.mem_of_getElem? hv
      simp at this; subst this; exact h4 hq
    have h := hQ e v (by rwa [h1, List.getElem?_append_left hlt] at hv) hq
    refine ⟨h2 ▸ h.prot.env h3, h.done.step h1 ?_⟩
    rintro ⟨y, hy, hyq⟩
    simp at hy; subst hy; exact absurd hyq h4
  · intro c m k x r b s' p f f' hQ hk he e v hv hq
    obtain ⟨evs, g⟩ := step_facts he 0
    by_cases hlt : e < c.sh.log.length
    · have h := hQ e v (by rwa [g.log, List.getElem?_append_left hlt] at hv) hq
      refine ⟨h.prot.run hk (no_stores c.sh x b) g.crit g.free, h.done.step g.log ?_⟩
      rintro ⟨y, hy, hyq⟩
      exact m.acquire_mono _ (h.prot.know k _ hk x (by simp) (g.q y hy hyq).1)
    · have hl := (List.getElem?_eq_some_iff.1 hv).1
      have hm : v ∈ evs := by
        rw [g.log, List.getElem?_append_right (by omega)] at hv
        exact List.mem_of_getElem? hv
      obtain ⟨g1, g2, g3⟩ := g.q v hm hq
      have he' : e = c.sh.log.length := by rw [g.log, g2] at hl; simp at hl; omega
      subst he'
      obtain ⟨g4, g5⟩ := crit_mtx f (pending_top hk) g1
      refine ⟨?_, ?_⟩
      · rw [g3, g4]
        exact Prot.new (w := critW) (fun _ h => h) g5 hk g1 (.inr ⟨Nat.le_refl _, hl⟩)
      · intro n y hn _ hlt'
        have := (List.getElem?_eq_some_iff.1 hn).1
        rw [g.log, g2] at this; simp at this; omega

theorem hreach_start {c : Conf mach} {m : Mem Loc} (h : HReach ann init c m) :
    ∀ (e : Nat) i, c.sh.log[e]? = some (.lock i) ∨ c.sh.log[e]? = some (.tryLock i) → HStart c.sh c.acts m e i := by
  refine HReach.inv (A := ann) (P := fun c => Facts' c ∧ ∀ i w, w ∈ c.sh.log → evOf i w → c.sh.used i = true)
    (Q := fun s acts m => ∀ (e : Nat) i,
      s.log[e]? = some (.lock i) ∨ s.log[e]? = some (.tryLock i) → HStart s acts m e i)
    (fun c hc => ⟨facts' c hc, let ⟨_, hm⟩ := hc.hreach ann; hreach_used hm⟩) ?_ ?_ ?_ h
  · intro e i h; simp [init] at h
  · intro c m a s' p ⟨f, hu'⟩ _ hQ he e i hi
    obtain ⟨w, h1, h2, hw, h3, h4, _, h5, h6, _⟩ := env_log he
    by_cases hlt : e < c.sh.log.length
    · rw [h1, List.getElem?_append_left hlt] at hi
      have h := hQ e i hi
      have hu : c.sh.used i = true := (f.inv.beg i).2 (by
        rcases hi with hi | hi
        · exact .inl (List.mem_of_getElem? hi)
        · exact .inr (List.mem_of_getElem? hi))
      refine ⟨h.know.env ?_, ?_, h.done.step h1 ?_⟩
      · rintro ⟨y, hy, hop⟩
        have := h6 i (h5 y hy i hop)
        simp [hu] at this
      · intro hwt; exact h2 ▸ (h.wait (hw ▸ hwt)).env h3
      · rintro ⟨y, hy, hyq⟩
        simp at hy; subst hy; exact absurd hyq (h4 i)
    · have hl : e < s'.log.length := by
        rcases hi with hi | hi <;> exact (List.getElem?_eq_some_iff.1 hi).1
      have he' : e = c.sh.log.length := by rw [h1] at hl; simp at hl; omega
      subst he'
      have hwi : w = .lock i ∨ w = .tryLock i := by
        rw [h1] at hi; simp at hi; exact hi
      have hu := h6 i hwi
      have h7 := f.inv.op i
      simp [hu] at h7
      obtain ⟨⟨h8, h9⟩, h10⟩ := h7
      refine ⟨?_, ?_, ?_⟩
      · refine AllKnow.env ?_ (fun _ => .inr ⟨Nat.le_refl _, hl⟩)
        intro k a hk x hx hop
        have := ws_pos_of_mem (w := opW i) (List.mem_of_getElem? hk) hx
        simp [opW, hop, h8] at this
      · intro hwt; rw [hw] at hwt; exact absurd hwt (List.count_eq_zero.1 h9)
      · apply Under.none
        intro v hv hi'
        rw [h1] at hv; simp at hv
        rcases hv with hv | rfl
        · have := hu' i v hv hi'; simp [hu] at this
        · exact h4 i hi'
  · intro c m k x r b s' p ⟨f, _⟩ _ hQ hk he e i hi
    obtain ⟨evs, g⟩ := step_facts he i
    have hlt : e < c.sh.log.length := by
      apply Classical.byContradiction
      intro hn
      rw [g.log, List.getElem?_append_right (by omega)] at hi
      rcases hi with hi | hi
      · exact (g.start i).1 (List.mem_of_getElem? hi)
      · exact (g.start i).2 (List.mem_of_getElem? hi)
    rw [g.log, List.getElem?_append_left hlt] at hi
    have h := hQ e i hi
    have hx : opId x = some i ∨ (crit x ∧ i ∈ c.sh.waiters) → m.acquire (m.view k) (eff c.sh x b) e = true := by
      rintro (hx | ⟨hx, hw⟩)
      · exact m.acquire_mono _ (h.know k _ hk x (by simp) hx)
      · exact m.acquire_mono _ ((h.wait hw).know k _ hk x (by simp) hx)
    refine ⟨h.know.run hk ?_, ?_, h.done.step g.log ?_⟩
    · rintro ⟨y, hy, hop⟩; exact hx (g.op y hy hop)
    · intro hw
      rcases g.wait hw with hw | ⟨g1, g2, g3⟩
      · exact (h.wait hw).run hk (no_stores c.sh x b) g.crit g.free
      · obtain ⟨g4, g5⟩ := crit_mtx f (pending_top hk) g1
        rw [g3, g4]
        exact Prot.new (w := critW) (fun _ h => h) g5 hk g1 (.inl (hx (.inl g2)))
    · rintro ⟨w, hw, ho⟩; exact hx (g.ev w hw ho)

/-! ## C70, `mutex` -/

/-- Whatever happens to an acquisition happens after the call that began it: taking the mutex, being queued, being handed
the mutex by another thread, and the completion. -/
theorem C70_mutex_start_before {c : Conf mach} {m : Mem Loc} (h : HReach ann init c m) {a b : Nat} {i : Id} {w : Ev}
    (ha : c.sh.log[a]? = some (.lock i) ∨ c.sh.log[a]? = some (.tryLock i)) (hb : c.sh.log[b]? = some w)
    (hw : w = .fast i ∨ w = .enq i ∨ (∃ j, w = .grant j i) ∨ w = .acq i ∨ w = .fail i) : m.hb a b := by
  refine (hreach_start h a i ha).done b w hb ?_
  rcases hw with rfl | rfl | ⟨j, rfl⟩ | rfl | rfl <;> rfl

/-- All accesses to the queue of waiters are ordered. -/
theorem C70_mutex_queue_ordered {c : Conf mach} {m : Mem Loc} (h : HReach ann init c m) {a b : Nat} {v w : Ev}
    (ha : c.sh.log[a]? = some v) (hb : c.sh.log[b]? = some w) (hv : (∃ i, v = .enq i) ∨ ∃ i j, v = .grant i j)
    (hw : (∃ i, w = .enq i) ∨ ∃ i j, w = .grant i j) (hab : a < b) : m.hb a b := by
  have hq : ∀ v : Ev, ((∃ i, v = .enq i) ∨ ∃ i j, v = .grant i j) → isQ v := by
    rintro v (⟨i, rfl⟩ | ⟨i, j, rfl⟩) <;> trivial
  exact (hreach_queue h a v ha (hq v hv)).done b w hb (hq w hw) hab

set_option maxRecDepth 20000 in
theorem hdemo_log : hdemo.1.sh.log = [.lock 0, .fast 0, .acq 0, .lock 1, .enq 1, .unlock 0, .grant 0 1, .acq 1, .unlock 1,
    .rel 1, .tryLock 2, .fast 2, .acq 2] := by decide

/-- `async_lock` of 1 is called on thread 1 and completed by thread 2. -/
example : hdemo.2.hb 3 7 :=
  C70_mutex_start_before (i := 1) (HReach.go ann init _) (.inl (by rw [← hdemo, hdemo_log]; rfl))
    (by rw [← hdemo, hdemo_log]; rfl) (.inr (.inr (.inr (.inl rfl))))

/-- It is queued by thread 1 and taken off the queue by thread 2. -/
example : hdemo.2.hb 4 6 :=
  C70_mutex_queue_ordered (HReach.go ann init _) (by rw [← hdemo, hdemo_log]; rfl) (by rw [← hdemo, hdemo_log]; rfl)
    (.inl ⟨1, rfl⟩) (.inr ⟨0, 1, rfl⟩) (by omega)

end Verif.Mutex
