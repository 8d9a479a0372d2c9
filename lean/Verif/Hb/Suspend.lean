import Verif.Hb.WithCancel
import Verif.Suspend.Props

/-!
# Happens-before for `suspend_indefinitely`

The mutex of a cancellation event is held in `force_set` (cancellation.hpp lines 160-172), `try_reset` (lines 183-194) and
`cancel()` (lines 336-340); `st_` is modified with acquire and release order (lines 407 and 428).
-/

namespace Verif.Suspend

/-- The mutexes of the events, and `st_` of the operations. -/
inductive Loc where
  | ev (e : EvId)
  | st (i : Id)
deriving DecidableEq

/-- A critical section of the event's mutex; an empty token has none. -/
def evSect : Option EvId → List (Acc Loc)
  | some e => [.lock (.ev e), .unlock (.ev e)]
  | none => []

/-- Memory accesses of the instructions. -/
def eff (_ : St) : Instr → Bool → List (Acc Loc)
  | .attach _ (o :: _), _ => evSect o.tok  -- lines 165-172
  | .rst _ (o :: _) _, _ => evSect o.tok  -- lines 187-194
  | .tOr i _, _ => [.rmw .acqRel (.st i)]  -- line 407
  | .sub i _, _ => [.rmw .acqRel (.st i)]  -- line 428
  | .cancelCS e, _ => evSect (some e)  -- lines 336-340
  | _, _ => []

/-- An event is reset after the completion of the operations that use it. Nothing is assumed about the callers of
`start()` and `cancel()`. -/
def entry (s : St) : Act → Nat → Bool
  | .revive e, n => match s.log[n]? with
    | some (.done i) => (s.toks i).contains (some e)
    | _ => false
  | _, _ => false

abbrev ann : Ann mach := ⟨Loc, inferInstance, fun s => s.log.length, entry, eff⟩

theorem no_stores (s : St) (x : Instr) (b : Bool) (l : Loc) : ∀ a ∈ eff s x b, a.stores l = false := by
  have h : ∀ t, ∀ a ∈ evSect t, a.stores l = false := by
    intro t a ha
    cases t <;> simp [evSect] at ha
    rcases ha with rfl | rfl <;> rfl
  cases x <;> simp only [eff]
  case attach i t => cases t <;> simp only [eff, List.not_mem_nil, false_implies, implies_true]; exact h _
  case rst i t c => cases t <;> simp only [eff, List.not_mem_nil, false_implies, implies_true]; exact h _
  case cancelCS e => exact h _
  case tOr i b => intro a ha; simp at ha; subst ha; rfl
  case sub i b => intro a ha; simp at ha; subst ha; rfl
  all_goals simp

/-- What the proof uses of the plain machine. -/
structure Facts' (c : Conf mach) : Prop where
  one : Inv1 c.sh c.acts
  two : Inv2 c.sh c.acts
  three : Inv3 c.sh c.acts
  att : ∀ i, .attached i ∈ c.sh.log → c.sh.phase i ≠ .fresh

theorem reach_att {c : Conf mach} (h : Reach mach init c) : ∀ i, .attached i ∈ c.sh.log → c.sh.phase i ≠ .fresh := by
  refine Reach.inv (M := mach) (P := fun s _ => ∀ i, .attached i ∈ s.log → s.phase i ≠ .fresh) ?_ ?_ ?_ h
  · simp [init]
  · intro s acts a s' p h he i
    specialize h i
    env_cases he <;> simp [upd_apply] at * <;> grind
  · intro s acts k x r b s' p h hk he i
    specialize h i
    clear hk
    exec_cases he <;> simp [upd_apply] at * <;> grind

theorem facts' (c : Conf mach) (h : Reach mach init c) : Facts' c :=
  ⟨reach_inv1 h, reach_inv2 h, reach_inv3 h, reach_att h⟩

theorem acq_ev (m : Mem Loc) {v : Nat → Bool} {e : EvId} {n : Nat} (h : m.msg (.ev e) n = true) :
    m.acquire v (evSect (some e)) n = true := by
  simp [evSect, Mem.acquire, h]

theorem rel_ev (m : Mem Loc) {k : Nat} {v : Nat → Bool} {e : EvId} {a b n : Nat}
    (h : m.acquire v (evSect (some e)) n = true ∨ (a ≤ n ∧ n < b)) :
    (m.act k v (evSect (some e)) a b).msg (.ev e) n = true := by
  rw [Mem.act_msg]
  simp [evSect, Mem.release]
  rcases h with h | h
  · simp [evSect] at h; simp [h]
  · simp [h]

/-- Events of operation `i` before its completion. -/
def evOf (i : Id) : Ev → Prop
  | .start j _ | .attached j => j = i
  | .fire o | .reset o => o.op = i
  | _ => False

theorem Facts'.started {c : Conf mach} (f : Facts' c) {i : Id} {w : Ev} (hw : w ∈ c.sh.log) (hi : evOf i w) :
    c.sh.phase i ≠ .fresh := by
  have hg : ∀ o, o ∈ goneL c.sh.log → c.sh.phase o.op ≠ .fresh := fun o ho =>
    ((f.two.mop o).1 (f.two.made_of (.inr (.inl ho)))).1
  cases w <;> simp [evOf] at hi <;> subst hi
  · exact (f.three.st _ _ hw).1
  · exact f.att _ hw
  · exact hg _ (mem_goneL.2 (.inl hw))
  · exact hg _ (mem_goneL.2 (.inr hw))

/-! ## Completion -/

structure HEv (s : St) (acts : List (List Instr)) (m : Mem Loc) (e : Nat) (i : Id) : Prop where
  hold : s.phase i = .running → s.ctr i ≠ 0 →
    OneKnows (fun x => 0 < unit i x) acts m e ∨ m.msg (.st i) e = true
  setv : AllKnow (fun x => x = .setv i) acts m e
  last : Under (fun w => w = .done i) s.log m e

theorem countP_none {i : Id} {l : List Obs} (h : ∀ a ∈ l, ¬ a.op = i) : l.countP (ofOp i) = 0 := by
  rw [List.countP_eq_zero]
  intro a ha
  simpa [ofOp] using h a ha

theorem exec_ev {c : Conf mach} (f : Facts' c) {k : Nat} {x : Instr} {r p : List Instr} {b : Bool} {s' : St}
    (hk : c.acts[k]? = some (x :: r)) (he : exec c.sh x b = .ok s' p) (i : Id) :
    (0 < unit i x → (∃ y ∈ p, 0 < unit i y) ∨ ∃ q, x = .sub i q) ∧
    (s'.phase i = .running → c.sh.phase i = .running) ∧
    (s'.ctr i ≠ 0 → c.sh.ctr i ≠ 0) ∧
    (.setv i ∈ p → ∃ q, x = .sub i q ∧ c.sh.ctr i = q ∧ c.sh.ctr i ≠ 0 ∧ c.sh.phase i = .running) ∧
    ∃ evs, s'.log = c.sh.log ++ evs ∧ evs.length ≤ 1 ∧ (.done i ∈ evs → x = .setv i) ∧
      ((∃ w ∈ evs, evOf i w) → s'.phase i = .running ∧ ∃ y ∈ p, 0 < unit i y) ∧
      (.setv i ∈ p → evs = []) ∧ (∀ t, .start i t ∉ evs) := by
  have hw := f.one.wt x (pending_top hk)
  have hsuf := fun i t o l => @suffix_op i t o l
  have hc := f.one.ctr i
  have hu := (pending_top hk).le (unit i)
  clear f hk
  generalize c.acts = acts at *
  generalize c.sh = s at *
  exec_cases he
  all_goals
    refine ⟨?_, ?_, ?_, ?_, ?_⟩
  all_goals first
    | (refine ⟨_, rfl, ?_⟩; simp [unit, WT, ofOp, evOf, upd_apply, List.countP_cons] at * <;> grind [countP_none])
    | (refine ⟨[], (List.append_nil _).symm, ?_⟩; simp [unit, WT, evOf] at * <;> done)
    | (simp [unit, WT, ofOp, upd_apply, List.countP_cons] at * <;> grind [countP_none])

/-- The operation is completed by the last one that holds a share of the counter. -/
theorem HEv.run {c : Conf mach} (f : Facts' c) {m : Mem Loc} {e : Nat} {i : Id} (h : HEv c.sh c.acts m e i)
    {k : Nat} {x : Instr} {r p : List Instr} {b : Bool} {s' : St} (hk : c.acts[k]? = some (x :: r))
    (he : exec c.sh x b = .ok s' p) :
    HEv s' (c.acts.set k (p ++ r)) (m.act k (m.view k) (eff c.sh x b) c.sh.log.length s'.log.length) e i := by
  obtain ⟨h1, h2, h3, h4, evs, h5, h6, h7, h8, h9, _⟩ := exec_ev f hk he i
  refine ⟨?_, h.setv.run hk ?_, h.last.step h5 ?_⟩
  · intro g1 g2
    rcases h.hold (h2 g1) (h3 g2) with g | g
    · rcases g.run_or (p := p) hk (as := eff c.sh x b) (a := c.sh.log.length) (b := s'.log.length) with ⟨g3, g4⟩ | g3
      · rcases h1 g3 with ⟨y, hy, g5⟩ | ⟨q, rfl⟩
        · left
          have hl := (List.getElem?_eq_some_iff.1 hk).1
          exact ⟨k, p ++ r, y, by simp [hl], by simp [hy], g5, Mem.act_view_mono g4⟩
        · right
          rw [Mem.act_msg]; simp [eff, Mem.release, Mem.acquire, g4]
      · exact .inl g3
    · exact .inr (Mem.keep (no_stores c.sh x b _) g)
  · rintro ⟨_, hy, rfl⟩
    obtain ⟨q, rfl, g1, g2, g3⟩ := h4 hy
    rcases h.hold g3 g2 with ⟨j, a, y, hj, hy', g4, g5⟩ | g
    · have g6 := f.one.ctr i
      have hjk : j = k := by
        apply Classical.byContradiction
        intro hne
        have g7 := ws_set (unit i) [] hk
        have g8 : (c.acts.set k ([] ++ r))[j]? = some a := by
          rw [List.getElem?_set_ne (Ne.symm hne)]; exact hj
        have g9 := ws_pos_of_mem (w := unit i) (List.mem_of_getElem? g8) hy'
        have g10 : unit i (.sub i q) = q := by simp [unit]
        rw [if_pos g3] at g6
        rw [g10] at g7
        simp only [wl_nil, List.nil_append] at g7 g9
        omega
      subst hjk
      exact m.acquire_mono _ g5
    · simp [eff, Mem.acquire, g]
  · rintro ⟨_, hw, rfl⟩
    exact m.acquire_mono _ (h.setv k _ hk x (by simp) (h7 hw))

theorem hreach_ev {c : Conf mach} {m : Mem Loc} (h : HReach ann init c m) (i : Id) :
    ∀ (e : Nat) w, c.sh.log[e]? = some w → evOf i w → HEv c.sh c.acts m e i := by
  refine HReach.inv (A := ann) (P := Facts')
    (Q := fun s acts m => ∀ (e : Nat) w, s.log[e]? = some w → evOf i w → HEv s acts m e i) facts' ?_ ?_ ?_ h
  · intro e w h; simp [init] at h
  · intro c m a s' p f f' hQ he e w hw hi
    have old : ∀ s' : St, ∀ p evs, s'.log = c.sh.log ++ evs → c.sh.log[e]? = some w →
        (s'.phase i = .running → s'.ctr i ≠ 0 → c.sh.phase i = .running ∧ c.sh.ctr i ≠ 0) →
        .done i ∉ evs → .setv i ∉ p →
        HEv s' (c.acts ++ [p])
          (m.act c.acts.length (m.known c.sh.log.length (entry c.sh a)) [] c.sh.log.length s'.log.length) e i := by
      intro s' p evs h1 h2 h3 h4 h5
      have h := hQ e w h2 hi
      refine ⟨?_, h.setv.env ?_, h.last.step h1 ?_⟩
      · intro g1 g2
        obtain ⟨g3, g4⟩ := h3 g1 g2
        rcases h.hold g3 g4 with g | g
        · exact .inl g.env
        · exact .inr (Mem.keep (by simp) g)
      · rintro ⟨_, hy, rfl⟩; exact absurd hy h5
      · rintro ⟨_, hy, rfl⟩; exact absurd hy h4
    by_cases hlt : e < c.sh.log.length
    · have hrun : c.sh.log[e]? = some w → c.sh.phase i ≠ .fresh := fun hw => f.started (List.mem_of_getElem? hw) hi
      env_cases he
      · rename_i j t hj
        rw [List.getElem?_append_left hlt] at hw
        have hne : i ≠ j := by rintro rfl; exact hrun hw hj.1
        exact old _ _ _ rfl hw (by simpa [hne] using fun a b => ⟨a, b⟩) (by simp) (by simp)
      · exact old _ _ [] (by simp) hw (fun a b => ⟨a, b⟩) (by simp) (by simp)
      · rw [List.getElem?_append_left hlt] at hw
        exact old _ _ _ rfl hw (fun a b => ⟨a, b⟩) (by simp) (by simp)
    · have hl := (List.getElem?_eq_some_iff.1 hw).1
      env_cases he
      · rename_i j t hj
        simp at hl
        have : e = c.sh.log.length := by omega
        subst this
        simp at hw; subst hw
        simp [evOf] at hi; subst hi
        refine ⟨fun _ _ => .inl ⟨c.acts.length, _, .attach j (mkObs j t), List.getElem?_concat_length, by simp, by simp [unit], ?_⟩, ?_, ?_⟩
        · exact Mem.act_view_self (.inr ⟨Nat.le_refl _, by simp⟩)
        · refine AllKnow.env ?_ (by simp)
          rintro k a hk _ hx rfl
          have := (f.one.setv_running ⟨a, List.mem_of_getElem? hk, hx⟩).1
          simp [hj.1] at this
        · apply Under.none
          rintro _ hv rfl
          have := (f'.three.dn j).1 hv
          simp at this
      · omega
      · simp at hl
        have : e = c.sh.log.length := by omega
        subst this
        simp at hw; subst hw
        simp [evOf] at hi
  · intro c m k x r b s' p f f' hQ hk he e w hw hi
    obtain ⟨h1, h2, h3, h4, evs, h5, h6, h7, h8, h9, _⟩ := exec_ev f hk he i
    by_cases hlt : e < c.sh.log.length
    · rw [h5, List.getElem?_append_left hlt] at hw
      exact (hQ e w hw hi).run f hk he
    · have hl := (List.getElem?_eq_some_iff.1 hw).1
      have hle : e = c.sh.log.length := by
        have : s'.log.length = c.sh.log.length + evs.length := by rw [h5]; simp
        omega
      subst hle
      have hm := hw
      rw [h5, List.getElem?_append_right (by omega)] at hm
      obtain ⟨g1, y, hy, g2⟩ := h8 ⟨w, List.mem_of_getElem? hm, hi⟩
      have hkl := (List.getElem?_eq_some_iff.1 hk).1
      have hget : (c.acts.set k (p ++ r))[k]? = some (p ++ r) := by simp [hkl]
      refine ⟨fun _ _ => .inl ⟨k, p ++ r, y, hget, by simp [hy], g2, ?_⟩, ?_, ?_⟩
      · exact Mem.act_view_self (.inr ⟨Nat.le_refl _, hl⟩)
      · rintro j a hj _ hz rfl
        have g3 := (f'.one.setv_running ⟨a, List.mem_of_getElem? hj, hz⟩).2
        have g4 := f'.one.ctr i
        have g5 := ws_pos_of_mem (w := unit i) (List.mem_of_getElem? hget) (List.mem_append_left r hy)
        simp only [g1, if_true] at g4
        simp only at g3
        omega
      · apply Under.none
        rintro _ hv rfl
        have := (f'.three.dn i).1 hv
        simp [g1] at this

/-! ## The start of the operation -/

/-- An instruction of operation `i`. -/
def mine (i : Id) : Instr → Prop
  | .attach j _ | .tOr j _ | .rst j _ _ | .sub j _ | .setv j => j = i
  | .drain l => ∃ o ∈ l, o.op = i
  | .cancelCS _ => False

/-- The events of operation `i` after its start. -/
def evAfter (i : Id) : Ev → Prop
  | .attached j | .done j => j = i
  | .fire o | .reset o => o.op = i
  | _ => False

structure HStart (s : St) (acts : List (List Instr)) (m : Mem Loc) (e : Nat) (i : Id) : Prop where
  know : AllKnow (mine i) acts m e
  pool : ∀ v o, o.op = i → o.tok = some v → o ∈ s.pool → m.msg (.ev v) e = true
  done : Under (evAfter i) s.log m e

theorem exec_mine {c : Conf mach} (f : Facts' c) {k : Nat} {x : Instr} {r p : List Instr} {b : Bool} {s' : St}
    (hk : c.acts[k]? = some (x :: r)) (he : exec c.sh x b = .ok s' p) (i : Id) :
    (∀ y ∈ p, mine i y → mine i x ∨ ∃ v o, x = .cancelCS v ∧ o.op = i ∧ o.tok = some v ∧ o ∈ c.sh.pool) ∧
    (∀ o, o.op = i → o ∈ s'.pool → o ∈ c.sh.pool ∨ ∃ l, x = .attach i (o :: l)) ∧
    ∃ evs, s'.log = c.sh.log ++ evs ∧ (∀ w ∈ evs, evAfter i w → mine i x) ∧ (∀ j t, .start j t ∉ evs) := by
  have hl : ∀ o e, o ∈ listOf e c.sh.pool → o.tok = some e ∧ o ∈ c.sh.pool := fun o e h => (mem_listOf.1 h).symm
  have ho : ∀ o e, o ∈ others e c.sh.pool → o ∈ c.sh.pool := fun o e h => (mem_others.1 h).1
  have hm : ∀ o o', o ∈ c.sh.pool.erase o' → o ∈ c.sh.pool := fun o o' h => List.mem_of_mem_erase h
  have hw := f.one.wt x (pending_top hk)
  have hsuf := fun i t o l => @suffix_op i t o l
  clear f hk
  generalize c.sh = s at *
  exec_cases he
  all_goals refine ⟨?_, ?_, ?_⟩
  all_goals first
    | (refine ⟨_, rfl, ?_⟩; simp [mine, evAfter, WT] at * <;> grind)
    | (refine ⟨[], (List.append_nil _).symm, ?_⟩; simp <;> done)
    | (simp [mine, WT] at * <;> grind)

theorem HStart.run {c : Conf mach} (f : Facts' c) {m : Mem Loc} {e : Nat} {i : Id} (h : HStart c.sh c.acts m e i)
    {k : Nat} {x : Instr} {r p : List Instr} {b : Bool} {s' : St} (hk : c.acts[k]? = some (x :: r))
    (he : exec c.sh x b = .ok s' p) :
    HStart s' (c.acts.set k (p ++ r)) (m.act k (m.view k) (eff c.sh x b) c.sh.log.length s'.log.length) e i := by
  obtain ⟨h1, h2, evs, h4, h5, _⟩ := exec_mine f hk he i
  have hx : mine i x → m.acquire (m.view k) (eff c.sh x b) e = true := fun hx =>
    m.acquire_mono _ (h.know k _ hk x (by simp) hx)
  refine ⟨h.know.run hk ?_, ?_, h.done.step h4 ?_⟩
  · rintro ⟨y, hy, hm⟩
    rcases h1 y hy hm with h6 | ⟨v, o, rfl, h6, h7, h8⟩
    · exact hx h6
    · exact acq_ev m (h.pool v o h6 h7 h8)
  · intro v o ho hv hp
    rcases h2 o ho hp with h6 | ⟨l, rfl⟩
    · exact Mem.keep (no_stores c.sh x b _) (h.pool v o ho hv h6)
    · have h7 := hx rfl
      simp only [eff, hv] at h7 ⊢
      exact rel_ev m (.inl h7)
  · rintro ⟨w, hw, ho⟩
    exact hx (h5 w hw ho)

/-- An operation that was not started has left no trace. -/
theorem fresh_none {c : Conf mach} (f : Facts' c) {i : Id} (h : c.sh.phase i = .fresh) :
    (∀ w ∈ c.sh.log, ¬ evAfter i w) ∧ (∀ o ∈ c.sh.pool, o.op ≠ i) ∧ ∀ x, Pending c.acts x → ¬ mine i x := by
  have h0 := f.one.ctr i
  simp [h] at h0
  refine ⟨?_, ?_, ?_⟩
  · intro w hw hi
    have hd : w = .done i ∨ evOf i w := by
      cases w <;> simp [evAfter] at hi <;> simp [evOf, hi]
    rcases hd with rfl | hd
    · have := (f.three.dn i).1 hw
      simp [h] at this
    · exact f.started hw hd h
  · intro o ho hi
    have := h0.2 o ho; simp [ofOp, hi] at this
  · intro x hx hm
    have h1 := hx.le (unit i)
    have h2 := f.one.wt x hx
    have h3 : unit i x = 0 := by omega
    cases x <;> simp [mine] at hm
    all_goals (try subst hm)
    all_goals (try simp [unit, WT] at h2 h3)
    · omega
    · omega
    · have := (f.one.setv_running hx).1
      simp [h] at this
    · obtain ⟨o, ho, hi⟩ := hm
      have := h3 o ho; simp [ofOp, hi] at this

theorem hreach_start {c : Conf mach} {m : Mem Loc} (h : HReach ann init c m) :
    ∀ (e : Nat) i t, c.sh.log[e]? = some (.start i t) → HStart c.sh c.acts m e i := by
  refine HReach.inv (A := ann) (P := Facts')
    (Q := fun s acts m => ∀ (e : Nat) i t, s.log[e]? = some (.start i t) → HStart s acts m e i) facts' ?_ ?_ ?_ h
  · intro e i t h; simp [init] at h
  · intro c m a s' p f f' hQ he e i t hi
    by_cases hlt : e < c.sh.log.length
    · have old : ∀ s' : St, ∀ p evs, s'.log = c.sh.log ++ evs → c.sh.log[e]? = some (.start i t) →
          s'.pool = c.sh.pool → (∀ y ∈ p, ¬ mine i y) → (∀ w ∈ evs, ¬ evAfter i w) →
          HStart s' (c.acts ++ [p])
            (m.act c.acts.length (m.known c.sh.log.length (entry c.sh a)) [] c.sh.log.length s'.log.length) e i := by
        intro s' p evs h1 h2 h3 h4 h5
        have h := hQ e i t h2
        refine ⟨h.know.env ?_, ?_, h.done.step h1 ?_⟩
        · rintro ⟨y, hy, hm⟩; exact absurd hm (h4 y hy)
        · intro v o ho hv hp; rw [h3] at hp; exact Mem.keep (by simp) (h.pool v o ho hv hp)
        · rintro ⟨w, hw, ho⟩; exact absurd ho (h5 w hw)
      env_cases he
      · rename_i j t' hj
        rw [List.getElem?_append_left hlt] at hi
        have hne : j ≠ i := by
          rintro rfl; exact (f.three.st _ _ (List.mem_of_getElem? hi)).1 hj.1
        exact old _ _ _ rfl hi rfl (by simp [mine, hne]) (by simp [evAfter])
      · exact old _ _ [] (by simp) hi rfl (by simp [mine]) (by simp)
      · rw [List.getElem?_append_left hlt] at hi
        exact old _ _ _ rfl hi rfl (by simp) (by simp [evAfter])
    · have hl := (List.getElem?_eq_some_iff.1 hi).1
      env_cases he
      · rename_i j t' hj
        simp at hl
        have : e = c.sh.log.length := by omega
        subst this
        simp at hi
        obtain ⟨rfl, rfl⟩ := hi
        obtain ⟨g1, g3, g4⟩ := fresh_none f hj.1
        refine ⟨?_, ?_, ?_⟩
        · refine AllKnow.env ?_ (fun _ => .inr ⟨Nat.le_refl _, by simp⟩)
          intro k a hk x hx hm
          exact absurd hm (g4 x ⟨a, List.mem_of_getElem? hk, hx⟩)
        · intro v o ho _ hp; exact absurd ho (g3 o hp)
        · apply Under.none
          intro w hw ho
          simp at hw
          rcases hw with hw | rfl
          · exact g1 w hw ho
          · exact ho
      · omega
      · simp at hl
        have : e = c.sh.log.length := by omega
        subst this
        simp at hi
  · intro c m k x r b s' p f f' hQ hk he e i t hi
    obtain ⟨_, _, evs, h4, _, h5⟩ := exec_mine f hk he i
    have hlt : e < c.sh.log.length := by
      apply Classical.byContradiction
      intro hn
      rw [h4, List.getElem?_append_right (by omega)] at hi
      exact h5 _ _ (List.mem_of_getElem? hi)
    rw [h4, List.getElem?_append_left hlt] at hi
    exact (hQ e i t hi).run f hk he

/-! ## Cancellation -/

/-- The call of `cancel()` at position `c` took effect, and the event was not reset since. -/
def Recent (log : List Ev) (e : EvId) (c : Nat) : Prop :=
  log[c]? = some (.cancel e) ∧ ∀ n, c < n → log[n]? ≠ some (.revive e)

theorem Recent.app {log evs : List Ev} {e : EvId} {c : Nat} (h : Recent log e c) (hr : .revive e ∉ evs) :
    Recent (log ++ evs) e c := by
  have hlt := (List.getElem?_eq_some_iff.1 h.1).1
  refine ⟨by rw [List.getElem?_append_left hlt]; exact h.1, fun n hn hv => ?_⟩
  by_cases hl : n < log.length
  · rw [List.getElem?_append_left hl] at hv; exact h.2 n hn hv
  · rw [List.getElem?_append_right (by omega)] at hv; exact hr (List.mem_of_getElem? hv)

theorem Recent.new {log : List Ev} {e : EvId} : Recent (log ++ [.cancel e]) e log.length := by
  refine ⟨by simp, fun n hn hv => ?_⟩
  have := (List.getElem?_eq_some_iff.1 hv).1
  simp at this; omega

structure HCancel (s : St) (acts : List (List Instr)) (m : Mem Loc) : Prop where
  req : ∀ e, s.req e = true → ∃ c, Recent s.log e c ∧ m.msg (.ev e) c = true
  know : ∀ (k : Nat) a, acts[k]? = some a → ∀ l, .drain l ∈ a → ∀ o ∈ l,
    ∃ e c, o.tok = some e ∧ Recent s.log e c ∧ m.view k c = true
  done : ∀ (n : Nat) o, s.log[n]? = some (.fire o) →
    ∃ e c, o.tok = some e ∧ c < n ∧ Recent (s.log.take n) e c ∧ m.past n c = true

theorem hreach_cancel {c : Conf mach} {m : Mem Loc} (h : HReach ann init c m) : HCancel c.sh c.acts m := by
  refine HReach.inv (A := ann) (P := Facts') (Q := HCancel) facts' ?_ ?_ ?_ h
  · exact ⟨by simp [init], by simp, by simp [init]⟩
  · intro c m a s' p f f' hQ he
    have key : ∀ (s' : St) (p : List Instr) evs, s'.log = c.sh.log ++ evs →
        (∀ e, s'.req e = true → c.sh.req e = true ∧ .revive e ∉ evs) →
        (∀ o, (∃ l, Pending c.acts (.drain l) ∧ o ∈ l) → ∀ e, o.tok = some e → .revive e ∉ evs) →
        (∀ o, .fire o ∉ evs) → (∀ l, .drain l ∉ p) →
        HCancel s' (c.acts ++ [p])
          (m.act c.acts.length (m.known c.sh.log.length (entry c.sh a)) [] c.sh.log.length s'.log.length) := by
      intro s' p evs h1 h2 h3 h5 h6
      refine ⟨?_, ?_, ?_⟩
      · intro e hr
        obtain ⟨g1, g2⟩ := h2 e hr
        obtain ⟨q, g3, g4⟩ := hQ.req e g1
        exact ⟨q, h1 ▸ g3.app g2, Mem.keep (by simp) g4⟩
      · intro k l hk ll hx o ho
        by_cases hl : k < c.acts.length
        · rw [List.getElem?_append_left hl] at hk
          have g2 := h3 o ⟨ll, ⟨l, List.mem_of_getElem? hk, hx⟩, ho⟩
          obtain ⟨e, q, g3, g4, g5⟩ := hQ.know k l hk ll hx o ho
          exact ⟨e, q, g3, h1 ▸ g4.app (g2 e g3), by rw [Mem.act_view_ne (by omega)]; exact g5⟩
        · rw [List.getElem?_append_right (by omega)] at hk
          have := List.mem_of_getElem? hk
          simp at this; subst this
          exact absurd hx (h6 ll)
      · intro n o hn
        have hl : n < c.sh.log.length := by
          apply Classical.byContradiction
          intro hl
          rw [h1, List.getElem?_append_right (by omega)] at hn
          exact h5 o (List.mem_of_getElem? hn)
        rw [h1, List.getElem?_append_left hl] at hn
        obtain ⟨e, q, g1, g2, g3, g4⟩ := hQ.done n o hn
        refine ⟨e, q, g1, g2, ?_, ?_⟩
        · rw [h1, List.take_append_of_le_length (by omega)]; exact g3
        · rw [Mem.act_past_old _ _ _ _ _ _ hl]; exact g4
    env_cases he
    · exact key _ _ _ rfl (by simp) (by simp) (by simp) (by simp)
    · exact key _ _ [] (by simp) (by simp) (by simp) (by simp) (by simp)
    · rename_i e hal
      refine key _ _ _ rfl ?_ ?_ (by simp) (by simp)
      · intro e' hr
        simp only [upd_apply] at hr
        split at hr
        · simp at hr
        · rename_i hne; exact ⟨hr, by simpa using hne⟩
      · rintro o ⟨l, hl, ho⟩ v hv hm
        simp at hm; subst hm
        have h1 := f.one.drain_running hl ho
        have h2 := List.all_eq_true.1 hal o.op (f.one.toks o.op (by simp [h1])).2
        have h3 := ((f.two.mop o).1 (f.two.made_of (.inr (.inr ⟨_, hl, ho⟩)))).2
        have h4 := mkObs_tok h3
        rw [hv] at h4
        simp [h1, h4] at h2
  · intro c m k x r b s' p f f' hQ hk he
    have key : ∀ (s' : St) (p : List Instr) evs, s'.log = c.sh.log ++ evs → (∀ e, .revive e ∉ evs) →
        (∀ e, s'.req e = true → c.sh.req e = true ∨ x = .cancelCS e ∧ evs = [.cancel e]) →
        (∀ o, .fire o ∈ evs → evs = [.fire o] ∧ ((∃ l, x = .drain l ∧ o ∈ l) ∨
          ∃ e i l, o.tok = some e ∧ c.sh.req e = true ∧ x = .attach i (o :: l))) →
        (∀ l, .drain l ∈ p → ∀ o ∈ l, (∃ l, x = .drain l ∧ o ∈ l) ∨
          ∃ e, o.tok = some e ∧ x = .cancelCS e ∧ evs = [.cancel e]) →
        HCancel s' (c.acts.set k (p ++ r)) (m.act k (m.view k) (eff c.sh x b) c.sh.log.length s'.log.length) := by
      intro s' p evs h1 h2 h4 h5 h6
      refine ⟨?_, ?_, ?_⟩
      · intro e hr
        rcases h4 e hr with g | ⟨rfl, rfl⟩
        · obtain ⟨q, g3, g4⟩ := hQ.req e g
          exact ⟨q, h1 ▸ g3.app (h2 e), Mem.keep (no_stores c.sh x b _) g4⟩
        · refine ⟨c.sh.log.length, h1 ▸ Recent.new, ?_⟩
          exact rel_ev m (.inr ⟨Nat.le_refl _, by rw [h1]; simp⟩)
      · intro j l hj ll hy o ho
        have old : ∀ j l, c.acts[j]? = some l → ∀ ll, .drain ll ∈ l → o ∈ ll →
            ∃ e q, o.tok = some e ∧ Recent s'.log e q ∧
              (m.act k (m.view k) (eff c.sh x b) c.sh.log.length s'.log.length).view j q = true := by
          intro j l hj ll hy ho
          obtain ⟨e, q, g3, g4, g5⟩ := hQ.know j l hj ll hy o ho
          exact ⟨e, q, g3, h1 ▸ g4.app (h2 e), Mem.act_view_mono g5⟩
        rw [List.getElem?_set] at hj
        split at hj
        · rename_i ej; subst ej
          split at hj
          · simp at hj; subst hj
            rcases List.mem_append.1 hy with hy | hy
            · rcases h6 ll hy o ho with ⟨l', rfl, g⟩ | ⟨e, g1, rfl, g2⟩
              · exact old k _ hk l' (by simp) g
              · refine ⟨e, c.sh.log.length, g1, by rw [h1, g2]; exact Recent.new, ?_⟩
                exact Mem.act_view_self (.inr ⟨Nat.le_refl _, by rw [h1, g2]; simp⟩)
            · exact old k _ hk ll (by simp [hy]) ho
          · simp at hj
        · exact old j l hj ll hy ho
      · intro n o hn
        by_cases hl : n < c.sh.log.length
        · rw [h1, List.getElem?_append_left hl] at hn
          obtain ⟨e, q, g1, g2, g3, g4⟩ := hQ.done n o hn
          refine ⟨e, q, g1, g2, ?_, ?_⟩
          · rw [h1, List.take_append_of_le_length (by omega)]; exact g3
          · rw [Mem.act_past_old _ _ _ _ _ _ hl]; exact g4
        · have hn' := (List.getElem?_eq_some_iff.1 hn).1
          have hm := hn
          rw [h1, List.getElem?_append_right (by omega)] at hm
          obtain ⟨g1, g2⟩ := h5 o (List.mem_of_getElem? hm)
          have hnl : n = c.sh.log.length := by rw [h1, g1] at hn'; simp at hn'; omega
          have : ∃ e q, o.tok = some e ∧ Recent c.sh.log e q ∧ m.acquire (m.view k) (eff c.sh x b) q = true := by
            rcases g2 with ⟨l, rfl, g2⟩ | ⟨e, i, l, g2, g3, rfl⟩
            · obtain ⟨e, q, g3, g4, g5⟩ := hQ.know k _ hk l (by simp) o g2
              exact ⟨e, q, g3, g4, m.acquire_mono _ g5⟩
            · obtain ⟨q, g4, g5⟩ := hQ.req e g3
              refine ⟨e, q, g2, g4, ?_⟩
              simp only [eff, g2]; exact acq_ev m g5
          obtain ⟨e, q, g3, g4, g5⟩ := this
          refine ⟨e, q, g3, ?_, ?_, ?_⟩
          · rw [hnl]; exact (List.getElem?_eq_some_iff.1 g4.1).1
          · rw [h1, hnl]; simpa using g4
          · rw [Mem.act_past_new _ _ _ _ _ _ (by omega) hn', g5]; rfl
    have hli := fun (o : Obs) e => @mem_listOf e c.sh.pool o
    clear hk hQ f f'
    exec_cases he
    all_goals first
      | (refine key _ _ _ rfl ?_ ?_ ?_ ?_ <;> simp <;> done)
      | (refine key _ _ [] (List.append_nil _).symm ?_ ?_ ?_ ?_ <;> simp <;> done)
      | skip
    · rename_i i o l hi hr
      refine key _ _ _ rfl (by simp) (by simp) ?_ (by simp)
      intro o' ho
      simp at ho; subst ho
      refine ⟨rfl, .inr ?_⟩
      cases ht : o'.tok with
      | none => simp [ht, St.reqT] at hr
      | some e => exact ⟨e, _, _, rfl, by simpa [ht, St.reqT] using hr, rfl⟩
    · refine key _ _ _ rfl (by simp) ?_ (by simp) ?_
      · intro e he
        simp only [upd_apply] at he
        split at he
        · rename_i h; subst h; exact .inr ⟨rfl, rfl⟩
        · exact .inl he
      · intro l hl o ho
        simp at hl; subst hl
        exact .inr ⟨_, ((hli o _).1 ho).2, rfl, rfl⟩
    · refine key _ _ _ rfl (by simp) (fun e h => .inl h) ?_ ?_
      · intro o ho
        simp at ho; subst ho
        exact ⟨rfl, .inl ⟨_, rfl, by simp⟩⟩
      · intro l hl o ho
        simp at hl; subst hl
        exact .inl ⟨_, rfl, by simp [ho]⟩

theorem grows : Grows ann init where
  init := rfl
  env s acts a s' p he := by
    simp only [env] at he
    split at he <;> (try split at he) <;> simp at he <;> obtain ⟨rfl, rfl⟩ := he <;> simp
  run s x b s' p he := by
    show s.log.length ≤ s'.log.length
    exec_cases he <;> simp

/-! ## C69 -/

/-- Whatever is done for the operation happens after the call of its `start()`. -/
theorem C69_start_before {c : Conf mach} {m : Mem Loc} (h : HReach ann init c m) {a b : Nat} {i : Id}
    {t : List (Option EvId)} {w : Ev} (ha : c.sh.log[a]? = some (.start i t)) (hb : c.sh.log[b]? = some w)
    (hw : w = .attached i ∨ (∃ o, o.op = i ∧ (w = .fire o ∨ w = .reset o)) ∨ w = .done i) : m.hb a b := by
  refine (hreach_start h a i t ha).done b w hb ?_
  rcases hw with rfl | ⟨o, rfl, rfl | rfl⟩ | rfl <;> rfl

/-- The operation completes after everything else that is done for it: its start, the registration of its last observer,
the calls of its handlers on all threads, and the removal of its observers. -/
theorem C69_before_completion {c : Conf mach} {m : Mem Loc} (h : HReach ann init c m) {a b : Nat} {i : Id} {w : Ev}
    (hb : c.sh.log[b]? = some (.done i)) (ha : c.sh.log[a]? = some w)
    (hw : (∃ t, w = .start i t) ∨ w = .attached i ∨ ∃ o, o.op = i ∧ (w = .fire o ∨ w = .reset o)) :
    a < b ∧ m.hb a b := by
  have hh := (hreach_ev h i a w ha (by
    rcases hw with ⟨t, rfl⟩ | rfl | ⟨o, rfl, rfl | rfl⟩ <;> rfl)).last b _ hb rfl
  exact ⟨h.hb_lt grows hh, hh⟩

/-- A handler is called after a call of `cancel()` on the event of its token, and the event was not reset in between. -/
theorem C69_cancel_before_handler {c : Conf mach} {m : Mem Loc} (h : HReach ann init c m) {b : Nat} {o : Obs}
    (hb : c.sh.log[b]? = some (.fire o)) :
    ∃ e a, o.tok = some e ∧ a < b ∧ c.sh.log[a]? = some (.cancel e) ∧
      (∀ n, a < n → n < b → c.sh.log[n]? ≠ some (.revive e)) ∧ m.hb a b := by
  obtain ⟨e, a, h1, h2, h3, h4⟩ := (hreach_cancel h).done b o hb
  refine ⟨e, a, h1, h2, ?_, ?_, h4⟩
  · have := h3.1
    rwa [List.getElem?_take_of_lt h2] at this
  · intro n h5 h6 h7
    exact h3.2 n h5 (by rwa [List.getElem?_take_of_lt h6])

/-- The operation is completed by a cancellation: its completion happens after a call of `cancel()` on the event of one
of its tokens. -/
theorem C69_cancel_before_completion {c : Conf mach} {m : Mem Loc} (h : HReach ann init c m) {b : Nat} {i : Id}
    (hb : c.sh.log[b]? = some (.done i)) :
    ∃ toks e a, .start i toks ∈ c.sh.log ∧ some e ∈ toks ∧ c.sh.log[a]? = some (.cancel e) ∧ a < b ∧ m.hb a b := by
  have f := facts' c h.reach
  obtain ⟨l1, l2, eq⟩ := List.append_of_mem (List.mem_of_getElem? hb)
  obtain ⟨_, _, o, ho, hf⟩ := f.three.hist l1 _ l2 eq
  have hf : .fire o ∈ c.sh.log := by rw [eq]; simp [hf]
  obtain ⟨n, hn⟩ := List.mem_iff_getElem?.1 hf
  obtain ⟨e, a, h1, _, h3, _, h5⟩ := C69_cancel_before_handler h hn
  obtain ⟨_, h6⟩ := C69_before_completion h hb hn (.inr (.inr ⟨o, ho, .inl rfl⟩))
  obtain ⟨t, ht, ht2⟩ := mem_made (f.two.made_of (.inr (.inl (mem_goneL.2 (.inl hf)))))
  have h7 := h.hb_trans grows h5 h6
  exact ⟨t, e, a, ho ▸ ht, h1 ▸ ht2, h3, h.hb_lt grows h7, h7⟩

/-! ## The hypotheses are met

Operation 0 is started with tokens of the events 5 and 6, on thread 0; both are cancelled at the same time, on the
threads 1 and 2, and the third token has no event. -/

def hdemo : Conf mach × Mem Loc :=
  ann.go init ([.env (.start 0 [some 5, some 6, none])] ++ List.replicate 6 (.run 0 true) ++
    [.env (.cancel 5), .env (.cancel 6), .run 1 true, .run 2 true, .run 1 true, .run 2 true] ++
    List.replicate 5 (.run 1 true) ++ List.replicate 4 (.run 2 true) ++ List.replicate 3 (.run 1 true))

theorem hdemo_reach : HReach ann init hdemo.1 hdemo.2 := HReach.go _ _ _

set_option maxRecDepth 20000 in
theorem hdemo_log : hdemo.1.sh.log = [.start 0 [some 5, some 6, none], .attached 0, .cancel 5, .cancel 6,
    .fire ⟨0, 0, some 5⟩, .fire ⟨0, 1, some 6⟩, .reset ⟨0, 2, none⟩, .done 0] := by
  decide

/-- `start()` is called on thread 0, the handler of the first observer is called on thread 1. -/
example : hdemo.2.hb 0 4 :=
  C69_start_before hdemo_reach (i := 0) (by rw [hdemo_log]; rfl) (by rw [hdemo_log]; rfl)
    (.inr (.inl ⟨⟨0, 0, some 5⟩, rfl, .inl rfl⟩))

/-- The handler of the second observer is called on thread 2, the operation completes on thread 1. -/
example : hdemo.2.hb 5 7 :=
  (C69_before_completion hdemo_reach (i := 0) (by rw [hdemo_log]; rfl) (by rw [hdemo_log]; rfl)
    (.inr (.inr ⟨⟨0, 1, some 6⟩, rfl, .inl rfl⟩))).2

example : ∃ e a, some 6 = some e ∧ a < 5 ∧ hdemo.1.sh.log[a]? = some (.cancel e) ∧
    (∀ n, a < n → n < 5 → hdemo.1.sh.log[n]? ≠ some (.revive e)) ∧ hdemo.2.hb a 5 :=
  C69_cancel_before_handler (o := ⟨0, 1, some 6⟩) hdemo_reach (by rw [hdemo_log]; rfl)

example : ∃ toks e a, .start 0 toks ∈ hdemo.1.sh.log ∧ some e ∈ toks ∧ hdemo.1.sh.log[a]? = some (.cancel e) ∧ a < 7 ∧
    hdemo.2.hb a 7 :=
  C69_cancel_before_completion hdemo_reach (by rw [hdemo_log]; rfl)

/-- The two handlers are not ordered. -/
example : ¬ hdemo.2.hb 4 5 ∧ ¬ hdemo.2.hb 5 4 := by decide

end Verif.Suspend
