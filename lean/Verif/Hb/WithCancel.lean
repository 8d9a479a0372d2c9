import Verif.Hb.Order
import Verif.WithCancel.Props
import Verif.Weights

/-!
# Happens-before for `with_cancel_cb`

The mutex of the cancellation event is held in `force_set` (cancellation.hpp lines 160-172), `try_reset` (lines 183-194)
and `cancel()` (lines 336-340); `cancel_state_` is decremented with acquire and release order (lines 510 and 526).
-/

namespace Verif

/-- Only one activity has an instruction of positive weight ahead. -/
theorem ws_only {ι : Type} {w : ι → Nat} {acts : List (List ι)} (h : ws w acts ≤ 1) {k j : Nat} {a b : List ι} {x y : ι}
    (hk : acts[k]? = some a) (hx : x ∈ a) (hwx : 0 < w x) (hj : acts[j]? = some b) (hy : y ∈ b) (hwy : 0 < w y) :
    j = k := by
  induction acts generalizing k j with
  | nil => simp at hk
  | cons c acts ih =>
    have hl : ∀ {l : List ι} {z : ι}, z ∈ l → 0 < w z → 0 < wl w l := fun hz hw => by have := wl_two (w := w) hz; omega
    simp only [ws_cons] at h
    cases k with
    | zero =>
      cases j with
      | zero => rfl
      | succ j =>
        simp at hk hj; subst hk
        have h1 := hl hx hwx
        have h2 := ws_pos_of_mem (w := w) (List.mem_of_getElem? hj) hy
        omega
    | succ k =>
      cases j with
      | zero =>
        simp at hk hj; subst hj
        have h1 := hl hy hwy
        have h2 := ws_pos_of_mem (w := w) (List.mem_of_getElem? hk) hx
        omega
      | succ j => exact congrArg (· + 1) (ih (by omega) (by simpa using hk) (by simpa using hj))

/-- All events of kind `P` know event `e`. -/
def Under {L E : Type} (P : E → Prop) (log : List E) (m : Mem L) (e : Nat) : Prop :=
  ∀ (n : Nat) v, log[n]? = some v → P v → m.past n e = true

theorem Under.step {L : Type} [DecidableEq L] {E : Type} {P : E → Prop} {log : List E} {m : Mem L} {e : Nat}
    (h : Under P log m e) {evs log' : List E} (hl : log' = log ++ evs) {k : Nat} {v : Nat → Bool} {as : List (Acc L)}
    (hn : (∃ w ∈ evs, P w) → m.acquire v as e = true) :
    Under P log' (m.act k v as log.length log'.length) e := by
  subst hl
  intro n w hw hP
  by_cases hl : n < log.length
  · rw [Mem.act_past_old _ _ _ _ _ _ hl]
    rw [List.getElem?_append_left hl] at hw
    exact h n w hw hP
  · have h2 := (List.getElem?_eq_some_iff.1 hw).1
    rw [Mem.act_past_new _ _ _ _ _ _ (by omega) h2]
    rw [List.getElem?_append_right (by omega)] at hw
    rw [hn ⟨w, List.mem_of_getElem? hw, hP⟩]; rfl

theorem Under.none {L E : Type} {P : E → Prop} {log : List E} {m : Mem L} {e : Nat} (h : ∀ w ∈ log, ¬ P w) :
    Under P log m e := fun _ _ hn hv => absurd hv (h _ (List.mem_of_getElem? hn))

end Verif

namespace Verif.WithCancel

/-- The mutexes of the events, and `cancel_state_` of the operations. -/
inductive Loc where
  | ev (e : EvId)
  | cst (i : Id)
deriving DecidableEq

/-- A critical section of the event's mutex; an empty token has none. -/
def evSect : Option EvId → List (Acc Loc)
  | some e => [.lock (.ev e), .unlock (.ev e)]
  | none => []

/-- Memory accesses of the instructions. -/
def eff (s : St) : Instr → Bool → List (Acc Loc)
  | .set i, _ | .tryReset i, _ => evSect (s.tok i)  -- lines 165-172, 187-194
  | .sub i _, _ => [.rmw .acqRel (.cst i)]  -- lines 510, 526
  | .cancelCS e, _ => evSect (some e)  -- lines 336-340
  | _, _ => []

/-- The inner operation completes after it was started; an event is reset after the completion of the operations that use
it. Nothing is assumed about the callers of `start()` and `cancel()`. -/
def entry (s : St) : Act → Nat → Bool
  | .finish i _, n => s.log[n]? == some (.istart i)
  | .revive e, n => match s.log[n]? with
    | some (.done i _) => s.tok i == some e
    | _ => false
  | _, _ => false

abbrev ann : Ann mach := ⟨Loc, inferInstance, fun s => s.log.length, entry, eff⟩

theorem no_stores (s : St) (x : Instr) (b : Bool) (l : Loc) : ∀ a ∈ eff s x b, a.stores l = false := by
  have h : ∀ t, ∀ a ∈ evSect t, a.stores l = false := by
    intro t a ha
    cases t <;> simp [evSect] at ha
    rcases ha with rfl | rfl <;> rfl
  cases x <;> simp only [eff]
  case set i => exact h _
  case tryReset i => exact h _
  case cancelCS e => exact h _
  case sub i b => intro a ha; simp at ha; subst ha; rfl
  all_goals simp

/-- What the proof uses of the plain machine. -/
structure Facts' (c : Conf mach) : Prop where
  one : Inv1 c.sh c.acts
  two : Inv2 c.sh c.acts

theorem facts' (c : Conf mach) (h : Reach mach init c) : Facts' c := ⟨reach_inv1 h, reach_inv2 h⟩

/-! ## The start of the operation -/

/-- An instruction of operation `i`. -/
def mine (i : Id) (x : Instr) : Prop := 0 < aw i x + bw i x + cw i x + sw i x

/-- The events of operation `i` after its start. -/
def evOf (i : Id) : Ev → Prop
  | .istart j | .inner j _ | .cb j | .cbRet j | .done j _ => j = i
  | _ => False

structure HStart (s : St) (acts : List (List Instr)) (m : Mem Loc) (e : Nat) (i : Id) : Prop where
  know : AllKnow (mine i) acts m e
  pool : ∀ v, s.tok i = some v → i ∈ s.pool → m.msg (.ev v) e = true
  done : Under (evOf i) s.log m e

theorem exec_mine {s s' : St} {x : Instr} {b : Bool} {p : List Instr} (he : exec s x b = .ok s' p) (i : Id) :
    (∀ y ∈ p, mine i y → mine i x ∨ ∃ v, x = .cancelCS v ∧ s.tok i = some v ∧ i ∈ s.pool) ∧
    (i ∈ s'.pool → i ∈ s.pool ∨ x = .set i) ∧ s'.tok = s.tok ∧
    ∃ evs, s'.log = s.log ++ evs ∧ (∀ w ∈ evs, evOf i w → mine i x) ∧ (∀ j t, .start j t ∉ evs) := by
  have hl : ∀ e, 0 < num i (listOf s e) → s.tok i = some e ∧ i ∈ s.pool := fun e h =>
    (mem_listOf.1 (mem_num.2 h)).symm
  have ho : ∀ e, i ∈ others s e → i ∈ s.pool := fun e h => (mem_others.1 h).1
  have hm : ∀ j, i ∈ s.pool.erase j → i ∈ s.pool := fun j h => List.mem_of_mem_erase h
  exec_cases he <;> simp [mine, aw, bw, cw, sw, evOf] at * <;> grind

theorem acq_ev (m : Mem Loc) {v : Nat → Bool} {e : EvId} {n : Nat} (h : m.msg (.ev e) n = true) :
    m.acquire v (evSect (some e)) n = true := by
  simp [evSect, Mem.acquire, h]

theorem rel_ev (m : Mem Loc) {k : Nat} {v : Nat → Bool} {e : EvId} {a b n : Nat}
    (h : m.acquire v (evSect (some e)) n = true ∨ (a ≤ n ∧ n < b)) :
    (m.act k v (evSect (some e)) a b).msg (.ev e) n = true := by
  rw [Mem.act_msg]
  simp [evSect, Mem.release]
  rcases h with h | h
  · simp [evSect] at h; simp [h]
  · simp [h]

theorem HStart.run {s s' : St} {acts : List (List Instr)} {m : Mem Loc} {e : Nat} {i : Id} (h : HStart s acts m e i)
    {k : Nat} {x : Instr} {r p : List Instr} {b : Bool} (hk : acts[k]? = some (x :: r))
    (he : exec s x b = .ok s' p) :
    HStart s' (acts.set k (p ++ r)) (m.act k (m.view k) (eff s x b) s.log.length s'.log.length) e i := by
  obtain ⟨h1, h2, h3, evs, h4, h5, _⟩ := exec_mine he i
  have hx : mine i x → m.acquire (m.view k) (eff s x b) e = true := fun hx =>
    m.acquire_mono _ (h.know k _ hk x (by simp) hx)
  refine ⟨h.know.run hk ?_, ?_, h.done.step h4 ?_⟩
  · rintro ⟨y, hy, hm⟩
    rcases h1 y hy hm with h6 | ⟨v, rfl, h6, h7⟩
    · exact hx h6
    · exact acq_ev m (h.pool v h6 h7)
  · intro v hv hp
    rw [h3] at hv
    rcases h2 hp with h6 | rfl
    · exact Mem.keep (no_stores s x b _) (h.pool v hv h6)
    · have h7 := hx (by simp [mine, bw]; omega)
      simp only [eff, hv] at h7 ⊢
      exact rel_ev m (.inl h7)
  · rintro ⟨w, hw, ho⟩
    exact hx (h5 w hw ho)

/-- An operation that was not started has left no trace. -/
theorem fresh_none {c : Conf mach} (f : Facts' c) {i : Id} (h : c.sh.phase i = .fresh) :
    (∀ w ∈ c.sh.log, ¬ evOf i w) ∧ (∀ t, .start i t ∉ c.sh.log) ∧ i ∉ c.sh.pool ∧ ∀ x, Pending c.acts x → ¬ mine i x := by
  have hi := (f.one.fre i h).1
  have h0 := f.one.off i (by simp [h])
  have hs := f.one.sta i
  have hc := f.two.cnt i
  simp [h] at hs hc
  have hr : .cbRet i ∉ c.sh.log := fun hr => by
    obtain ⟨l1, l2, hl, h1⟩ := f.two.hist.mem hr
    have h2 := h1.1
    exact List.count_eq_zero.1 hc.1.1 (by rw [hl]; simp [h2])
  refine ⟨?_, ?_, ?_, ?_⟩
  · intro w hw ho
    cases w <;> simp [evOf] at ho <;> subst ho
    · exact (f.two.ist _).1 hw hi
    · simpa [hi] using (f.two.inn _).1 ⟨_, hw⟩
    · exact List.count_eq_zero.1 hc.1.1 hw
    · exact hr hw
    · simpa [h] using (f.two.dn _).1 ⟨_, hw⟩
  · intro t ht
    exact ((f.two.st i t).1 ht).1 h
  · intro hp
    have := mem_num.1 hp
    omega
  · intro x hx hm
    have h1 := hx.le (aw i)
    have h2 := hx.le (bw i)
    have h3 := hx.le (cw i)
    have h4 := hx.le (sw i)
    simp [ta, tb] at h0
    simp [mine] at hm
    omega

theorem HStart.env {c : Conf mach} {s' : St} {m : Mem Loc} {e : Nat} {i : Id} {a : Act} {p : List Instr}
    (f : Facts' c) (h : HStart c.sh c.acts m e i) (hs : c.sh.phase i ≠ .fresh)
    (he : env c.sh c.acts a = some (s', p)) :
    HStart s' (c.acts ++ [p])
      (m.act c.acts.length (m.known c.sh.log.length (entry c.sh a)) [] c.sh.log.length s'.log.length) e i := by
  have hfin : ∀ v, c.sh.inner i = .started → m.known c.sh.log.length (entry c.sh (.finish i v)) e = true := by
    intro v hv
    obtain ⟨q, hq⟩ := List.getElem?_of_mem ((f.two.ist i).2 (by simp [hv]))
    exact Mem.known_of (List.getElem?_eq_some_iff.1 hq).1 (by simp [entry, hq]) (.inr (h.done q _ hq rfl))
  env_cases he
  · rename_i j t hj
    have hne : j ≠ i := by rintro rfl; exact hs hj
    refine ⟨h.know.env ?_, ?_, h.done.step rfl ?_⟩
    · rintro ⟨y, hy, hm⟩; simp at hy; subst hy; simp [mine, aw, bw, cw, sw, hne] at hm
    · intro v hv hp
      exact Mem.keep (by simp) (h.pool v (by simpa [upd_apply, Ne.symm hne] using hv) hp)
    · rintro ⟨w, hw, ho⟩; simp at hw; subst hw; simp [evOf] at ho
  · rename_i j v hj
    refine ⟨h.know.env ?_, ?_, h.done.step rfl ?_⟩
    · rintro ⟨y, hy, hm⟩; simp at hy; subst hy
      have hm : j = i := by
        apply Classical.byContradiction
        intro hn; simp [mine, aw, bw, cw, sw, hn] at hm
      subst hm
      exact .inl (hfin v hj)
    · intro v hv hp; exact Mem.keep (by simp) (h.pool v hv hp)
    · rintro ⟨w, hw, ho⟩; simp at hw; subst hw; simp [evOf] at ho; subst ho
      exact hfin v hj
  · refine ⟨h.know.env ?_, ?_, h.done.step (evs := []) (by simp) (by simp)⟩
    · rintro ⟨y, hy, hm⟩; simp at hy; subst hy; simp [mine, aw, bw, cw, sw] at hm
    · intro v hv hp; exact Mem.keep (by simp) (h.pool v hv hp)
  · refine ⟨h.know.env (by simp), ?_, h.done.step rfl ?_⟩
    · intro v hv hp; exact Mem.keep (by simp) (h.pool v hv hp)
    · rintro ⟨w, hw, ho⟩; simp at hw; subst hw; simp [evOf] at ho

theorem hreach_start {c : Conf mach} {m : Mem Loc} (h : HReach ann init c m) :
    ∀ (e : Nat) i t, c.sh.log[e]? = some (.start i t) → HStart c.sh c.acts m e i := by
  refine HReach.inv (A := ann) (P := Facts')
    (Q := fun s acts m => ∀ (e : Nat) i t, s.log[e]? = some (.start i t) → HStart s acts m e i) facts' ?_ ?_ ?_ h
  · intro e i t h; simp [init] at h
  · intro c m a s' p f f' hQ he e i t hi
    by_cases hlt : e < c.sh.log.length
    · have hi' : c.sh.log[e]? = some (.start i t) := by
        have he' := he
        simp only [env] at he'
        split at he' <;> (try split at he') <;> simp at he' <;> obtain ⟨rfl, rfl⟩ := he' <;>
          first
          | exact hi
          | (simp only [List.getElem?_append_left hlt] at hi; exact hi)
      exact (hQ e i t hi').env f ((f.two.st i t).1 (List.mem_of_getElem? hi')).1 he
    · have he' := he
      env_cases he
      · rename_i j t' hj
        have h1 := (List.getElem?_eq_some_iff.1 hi).1
        simp at h1
        have h2 : e = c.sh.log.length := by omega
        subst h2
        simp at hi
        obtain ⟨rfl, rfl⟩ := hi
        obtain ⟨g1, g2, g3, g4⟩ := fresh_none f hj
        refine ⟨?_, ?_, ?_⟩
        · refine AllKnow.env ?_ (fun _ => .inr ⟨Nat.le_refl _, by simp⟩)
          intro k a hk x hx hm
          exact absurd hm (g4 x ⟨a, List.mem_of_getElem? hk, hx⟩)
        · intro v _ hp; exact absurd hp g3
        · apply Under.none
          intro w hw ho
          simp at hw
          rcases hw with hw | rfl
          · exact g1 w hw ho
          · exact ho
      all_goals
        simp at hi hlt
        try (rw [List.getElem?_append_right hlt] at hi; have := List.mem_of_getElem? hi; simp at this)
      have := (List.getElem?_eq_some_iff.1 hi).1
      omega
  · intro c m k x r b s' p f f' hQ hk he e i t hi
    obtain ⟨_, _, _, evs, h4, _, h5⟩ := exec_mine he i
    have hlt : e < c.sh.log.length := by
      apply Classical.byContradiction
      intro hn
      rw [h4, List.getElem?_append_right (by omega)] at hi
      exact h5 _ _ (List.mem_of_getElem? hi)
    rw [h4, List.getElem?_append_left hlt] at hi
    exact (hQ e i t hi).run hk he

/-! ## The two sides -/

/-- What is left to do for operation `i` before its completion, on one side: the inner operation (`true`) or the
cancellation handler (`false`). -/
def side (i : Id) (d : Bool) (x : Instr) : Nat := cw i x + if d then aw i x else bw i x

/-- The side is done, and the other side will complete the operation. -/
def over (s : St) (acts : List (List Instr)) (i : Id) (d : Bool) : Prop :=
  s.phase i = .running ∧ ws (cw i) acts = 0 ∧ (if d then ta s acts i else tb s acts i) = 0

/-- The events of a side. -/
def evSide (i : Id) (d : Bool) : Ev → Prop
  | .istart j | .inner j _ => j = i ∧ d = true
  | .cb j | .cbRet j => j = i ∧ d = false
  | _ => False

/-- The events that end a side. -/
def evEnd (i : Id) (d : Bool) : Ev → Prop
  | .inner j _ => j = i ∧ d = true
  | .cbRet j => j = i ∧ d = false
  | .done j _ => j = i
  | _ => False

structure HSide (s : St) (acts : List (List Instr)) (m : Mem Loc) (e : Nat) (i : Id) (d : Bool) : Prop where
  know : AllKnow (fun x => 0 < side i d x) acts m e
  over : over s acts i d → m.msg (.cst i) e = true
  done : Done (evEnd i d) s.log m e
  last : Under (fun w => ∃ v, w = .done i v) s.log m e

theorem cb_log {c : Conf mach} (f : Facts' c) {i : Id} (h : ∃ w ∈ c.sh.log, evSide i false w) : .cb i ∈ c.sh.log := by
  obtain ⟨w, hw, he⟩ := h
  cases w <;> simp [evSide] at he <;> subst he
  · exact hw
  · obtain ⟨l1, l2, hl, h1⟩ := f.two.hist.mem hw
    have h2 := h1.1
    rw [hl]; simp [h2]

set_option maxHeartbeats 2000000 in
theorem exec_side {c : Conf mach} (f : Facts' c) {k : Nat} {x : Instr} {r p : List Instr} {b : Bool} {s' : St}
    (hk : c.acts[k]? = some (x :: r)) (he : exec c.sh x b = .ok s' p) (i : Id) (d : Bool)
    (hev : ∃ w ∈ c.sh.log, evSide i d w) :
    (∀ y ∈ p, 0 < side i d y → 0 < side i d x ∨ over c.sh c.acts i d ∧ eff c.sh x b = [.rmw .acqRel (.cst i)]) ∧
    (over s' (c.acts.set k (p ++ r)) i d →
      over c.sh c.acts i d ∨ 0 < side i d x ∧ eff c.sh x b = [.rmw .acqRel (.cst i)]) := by
  have hcb : d = false → ws (cbw i) c.acts = 0 ∧ num i c.sh.pool = 0 := by
    rintro rfl
    have h1 := List.count_pos_iff.2 (cb_log f hev)
    have h2 := f.two.cnt i
    split at h2 <;> omega
  clear hev
  have hx := (pending_top hk).le (cbw i)
  have hxa := (pending_top hk).le (aw i)
  have hxb := (pending_top hk).le (bw i)
  have hxc := (pending_top hk).le (cw i)
  have A := ws_set (aw i) p hk
  have B := ws_set (bw i) p hk
  have C := ws_set (cw i) p hk
  have hfs := fun e => filter_split c.sh i e
  have hce := fun j (h : j ∈ c.sh.pool) => num_erase h i
  have h1 := f.one.one i
  have h2 := f.one.off i
  have h3 := f.one.ful i
  have h4 := f.one.cst i
  have h5 := f.one.sta i
  have S := (pending_top hk).le (sw i)
  generalize c.acts.set k (p ++ r) = acts' at *
  clear hk f
  generalize c.acts = acts at *
  generalize c.sh = s at *
  cases d <;> exec_cases he <;>
    simp [side, over, ta, tb, open_, aw, bw, cw, cbw, sw, eff, upd_apply] at * <;> grind (splits := 30)

set_option maxHeartbeats 2000000 in
theorem exec_new {c : Conf mach} (f : Facts' c) {k : Nat} {x : Instr} {r p : List Instr} {b : Bool} {s' : St}
    (f' : Facts' ⟨s', c.acts.set k (p ++ r), false⟩)
    (hk : c.acts[k]? = some (x :: r)) (he : exec c.sh x b = .ok s' p) (i : Id) (d : Bool) :
    ∃ evs, s'.log = c.sh.log ++ evs ∧ evs.length ≤ 1 ∧ (∀ w ∈ evs, evEnd i d w → 0 < side i d x) ∧
      ((∃ w ∈ evs, evSide i d w) → s'.phase i = .running ∧ ¬ over s' (c.acts.set k (p ++ r)) i d ∧
        (ws (side i d) (c.acts.set k (p ++ r)) = 0 ∨
          ws (side i d) (c.acts.set k (p ++ r)) ≤ 1 ∧ ∃ y ∈ p, 0 < side i d y)) := by
  have hw : ∀ acts, ws (side i d) acts = ws (cw i) acts + if d then ws (aw i) acts else ws (bw i) acts := by
    intro acts
    cases d
    · exact ws_add (fun x => rfl) acts
    · exact ws_add (fun x => rfl) acts
  rw [hw]
  clear hw
  have h1 := f'.one.one i
  have h2 := f'.one.off i
  have h3 := f'.one.ful i
  have h5 := f'.one.sta i
  have A := ws_set (aw i) p hk
  have B := ws_set (bw i) p hk
  have C := ws_set (cw i) p hk
  have hxb := (pending_top hk).le (bw i)
  generalize c.acts.set k (p ++ r) = acts' at *
  clear hk f f'
  generalize c.acts = acts at *
  generalize c.sh = s at *
  exec_cases he
  all_goals first
    | (refine ⟨[], ?_⟩; simp; done)
    | refine ⟨_, rfl, by simp, ?_, ?_⟩
  all_goals
    cases d <;> simp [side, over, ta, tb, open_, aw, bw, cw, sw, evEnd, evSide, upd_apply] at * <;> grind (splits := 30)

set_option maxHeartbeats 2000000 in
theorem env_side {c : Conf mach} (f : Facts' c) {p : List Instr} {a : Act} {s' : St}
    (f' : Facts' ⟨s', c.acts ++ [p], false⟩) (he : env c.sh c.acts a = some (s', p)) (i : Id) (d : Bool) :
    ∃ evs, s'.log = c.sh.log ++ evs ∧ evs.length ≤ 1 ∧
      (∀ y ∈ p, 0 < side i d y → (d = true ∧ c.sh.inner i = .started ∧ ∃ v, a = .finish i v) ∨ c.sh.phase i = .fresh) ∧
      (over s' (c.acts ++ [p]) i d → over c.sh c.acts i d) ∧
      (∀ w ∈ evs, evEnd i d w → d = true ∧ c.sh.inner i = .started ∧ ∃ v, a = .finish i v) ∧
      ((∃ w ∈ evs, evSide i d w) → s'.phase i = .running ∧ ¬ over s' (c.acts ++ [p]) i d ∧ ws (side i d) c.acts = 0) := by
  have hw : ∀ acts, ws (side i d) acts = ws (cw i) acts + if d then ws (aw i) acts else ws (bw i) acts := by
    intro acts
    cases d
    · exact ws_add (fun x => rfl) acts
    · exact ws_add (fun x => rfl) acts
  rw [hw]
  clear hw
  have h1 := f.one.one i
  have h2 := f.one.off i
  have h3 := f.one.ful i
  have h5 := f.one.fre i
  have h6 := f.one.don i
  have h7 : c.sh.inner i = .started → c.sh.phase i = .running := by
    intro hi
    cases hp : c.sh.phase i
    · simpa [hi] using (h5 hp).1
    · rfl
    · simpa [hi] using (h6 hp).1
  clear f f'
  generalize c.acts = acts at *
  generalize c.sh = s at *
  env_cases he
  · refine ⟨_, rfl, by simp, ?_, ?_⟩ <;> cases d <;>
      simp [side, over, ta, tb, open_, aw, bw, cw, evEnd, evSide, upd_apply] at * <;> grind (splits := 30)
  · refine ⟨_, rfl, by simp, ?_, ?_⟩ <;> cases d <;>
      simp [side, over, ta, tb, open_, aw, bw, cw, evEnd, evSide, upd_apply] at * <;> grind (splits := 30)
  · refine ⟨[], by simp, by simp, ?_, ?_⟩ <;>
      simp [side, over, ta, tb, open_, aw, bw, cw] at *
  · refine ⟨_, rfl, by simp, ?_, ?_⟩ <;>
      simp [side, over, ta, tb, open_, evEnd, evSide] at *

theorem hreach_side {c : Conf mach} {m : Mem Loc} (h : HReach ann init c m) (i : Id) (d : Bool) :
    ∀ (e : Nat) w, c.sh.log[e]? = some w → evSide i d w → HSide c.sh c.acts m e i d := by
  refine HReach.inv (A := ann) (P := Facts')
    (Q := fun s acts m => ∀ (e : Nat) w, s.log[e]? = some w → evSide i d w → HSide s acts m e i d) facts' ?_ ?_ ?_ h
  · intro e w h; simp [init] at h
  · intro c m a s' p f f' hQ he e w hw hi
    obtain ⟨evs, h4, hlen, h5, h6, h7, h8⟩ := env_side f f' he i d
    by_cases hlt : e < c.sh.log.length
    · rw [h4, List.getElem?_append_left hlt] at hw
      have h := hQ e w hw hi
      have hfin : (d = true ∧ c.sh.inner i = .started ∧ ∃ v, a = .finish i v) →
          m.known c.sh.log.length (entry c.sh a) e = true := by
        rintro ⟨rfl, h9, v, rfl⟩
        refine Mem.known_of hlt ?_ (.inl rfl)
        cases w <;> simp [evSide] at hi <;> subst hi
        · simp [entry, hw]
        · have := (f.two.inn _).1 ⟨_, List.mem_of_getElem? hw⟩
          simp [h9] at this
      refine ⟨h.know.env ?_, fun ho => Mem.keep (by simp) (h.over (h6 ho)), h.done.step h4 ?_, h.last.step h4 ?_⟩
      · rintro ⟨y, hy, hm⟩
        rcases h5 y hy hm with g | g
        · exact .inl (hfin g)
        · refine absurd ?_ ((fresh_none f g).1 w (List.mem_of_getElem? hw))
          cases w <;> simp [evSide] at hi <;> exact hi.1
      · rintro ⟨v, hv, ho⟩
        exact hfin (h7 v hv ho)
      · rintro ⟨_, hv, v, rfl⟩
        exact hfin (h7 _ hv rfl)
    · have h9 := (List.getElem?_eq_some_iff.1 hw).1
      have h10 : e = c.sh.log.length := by
        have : s'.log.length = c.sh.log.length + evs.length := by rw [h4]; simp
        omega
      subst h10
      have hw2 := hw
      rw [h4, List.getElem?_append_right (by omega)] at hw2
      obtain ⟨g0, g1, g2⟩ := h8 ⟨w, List.mem_of_getElem? hw2, hi⟩
      have hnd : ∀ m : Mem Loc, Under (fun w => ∃ v, w = .done i v) s'.log m c.sh.log.length := by
        intro m
        apply Under.none
        rintro _ hv ⟨v, rfl⟩
        have := (f'.two.dn i).1 ⟨v, hv⟩
        simp [g0] at this
      refine ⟨?_, fun ho => absurd ho g1, ?_, hnd _⟩
      · refine AllKnow.env ?_ (fun _ => .inr ⟨Nat.le_refl _, h9⟩)
        intro j a hj y hy hty
        have := ws_pos_of_mem (w := side i d) (List.mem_of_getElem? hj) hy
        omega
      · intro n v hn _ hlt
        have := (List.getElem?_eq_some_iff.1 hn).1
        have : s'.log.length = c.sh.log.length + evs.length := by rw [h4]; simp
        omega
  · intro c m k x r b s' p f f' hQ hk he e w hw hi
    obtain ⟨evs, h4, hlen, h5, h6⟩ := exec_new f f' hk he i d
    by_cases hlt : e < c.sh.log.length
    · rw [h4, List.getElem?_append_left hlt] at hw
      have h := hQ e w hw hi
      obtain ⟨g1, g2⟩ := exec_side f hk he i d ⟨w, List.mem_of_getElem? hw, hi⟩
      have hx : 0 < side i d x → m.acquire (m.view k) (eff c.sh x b) e = true := fun hx =>
        m.acquire_mono _ (h.know k _ hk x (by simp) hx)
      refine ⟨h.know.run hk ?_, ?_, h.done.step h4 ?_, h.last.step h4 ?_⟩
      · rintro ⟨y, hy, hm⟩
        rcases g1 y hy hm with g3 | ⟨g3, g4⟩
        · exact hx g3
        · have := h.over g3
          rw [show ann.eff c.sh x b = eff c.sh x b from rfl, g4]
          simp [Mem.acquire, this]
      · intro ho
        rcases g2 ho with g3 | ⟨g3, g4⟩
        · exact Mem.keep (no_stores c.sh x b _) (h.over g3)
        · have := hx g3
          rw [g4] at this
          rw [show ann.eff c.sh x b = eff c.sh x b from rfl, g4, Mem.act_msg]
          simp [Mem.release, this]
      · rintro ⟨w, hw, ho⟩
        exact hx (h5 w hw ho)
      · rintro ⟨_, hw, v, rfl⟩
        exact hx (h5 _ hw rfl)
    · have h7 := (List.getElem?_eq_some_iff.1 hw).1
      have h8 : e = c.sh.log.length := by
        have : s'.log.length = c.sh.log.length + evs.length := by rw [h4]; simp
        omega
      subst h8
      have hw2 := hw
      rw [h4, List.getElem?_append_right (by omega)] at hw2
      obtain ⟨g0, g1, g2⟩ := h6 ⟨w, List.mem_of_getElem? hw2, hi⟩
      have hnd : ∀ m : Mem Loc, Under (fun w => ∃ v, w = .done i v) s'.log m c.sh.log.length := by
        intro m
        apply Under.none
        rintro _ hv ⟨v, rfl⟩
        have := (f'.two.dn i).1 ⟨v, hv⟩
        simp [g0] at this
      refine ⟨?_, fun ho => absurd ho g1, ?_, hnd _⟩
      · intro j a hj y hy hty
        rcases g2 with g2 | ⟨g2, z, hz, hzs⟩
        · have := ws_pos_of_mem (w := side i d) (List.mem_of_getElem? hj) hy
          omega
        · have hkl := (List.getElem?_eq_some_iff.1 hk).1
          have hjk : j = k := ws_only g2 (a := p ++ r) (by simp [hkl]) (by simp [hz]) hzs hj hy hty
          subst hjk
          exact Mem.act_view_self (.inr ⟨Nat.le_refl _, h7⟩)
      · intro n v hn _ hlt
        have := (List.getElem?_eq_some_iff.1 hn).1
        have : s'.log.length = c.sh.log.length + evs.length := by rw [h4]; simp
        omega

/-! ## Cancellation -/

/-- The call of `cancel()` at position `c` took effect, and the event was not reset since. -/
def Recent (log : List Ev) (e : EvId) (c : Nat) : Prop :=
  log[c]? = some (.cancel e) ∧ ∀ n, c < n → log[n]? ≠ some (.revive e)

theorem Recent.app {log evs : List Ev} {e : EvId} {c : Nat} (h : Recent log e c) (hr : .revive e ∉ evs) :
    Recent (log ++ evs) e c := by
  have hlt := (List.getElem?_eq_some_iff.1 h.1).1
  refine ⟨by rw [List.getElem?_append_left hlt]; exact h.1, fun n hn hv => ?_⟩
  by_cases hl : n < log.length
  · rw [List.getElem?_append_left hl] at hv; exact h.2 n hn hv
  · rw [List.getElem?_append_right (by omega)] at hv; exact hr (List.mem_of_getElem? hv)

theorem Recent.new {log : List Ev} {e : EvId} : Recent (log ++ [.cancel e]) e log.length := by
  refine ⟨by simp, fun n hn hv => ?_⟩
  have := (List.getElem?_eq_some_iff.1 hv).1
  simp at this; omega

/-- `cb_` of operation `i` is going to be called. -/
def calls (i : Id) : Instr → Prop
  | .cb j => j = i
  | .drain l => i ∈ l
  | _ => False

structure HCancel (s : St) (acts : List (List Instr)) (m : Mem Loc) : Prop where
  req : ∀ e, s.req e = true → ∃ c, Recent s.log e c ∧ m.msg (.ev e) c = true
  know : ∀ (k : Nat) a, acts[k]? = some a → ∀ x ∈ a, ∀ i, calls i x →
    ∃ e c, s.tok i = some e ∧ Recent s.log e c ∧ m.view k c = true
  done : ∀ (n : Nat) i, s.log[n]? = some (.cb i) →
    ∃ e c, s.tok i = some e ∧ c < n ∧ Recent (s.log.take n) e c ∧ m.past n c = true

theorem calls_bw {i : Id} {x : Instr} (h : calls i x) : 0 < bw i x := by
  cases x <;> simp [calls] at h
  · simp [bw, h]
  · simp only [bw]; exact mem_num.1 h

theorem hreach_cancel {c : Conf mach} {m : Mem Loc} (h : HReach ann init c m) : HCancel c.sh c.acts m := by
  refine HReach.inv (A := ann) (P := Facts') (Q := HCancel) facts' ?_ ?_ ?_ h
  · exact ⟨by simp [init], by simp, by simp [init]⟩
  · intro c m a s' p f f' hQ he
    have key : ∀ (s' : St) (p : List Instr) evs, s'.log = c.sh.log ++ evs →
        (∀ e, s'.req e = true → c.sh.req e = true ∧ .revive e ∉ evs) →
        (∀ i, (∃ x, Pending c.acts x ∧ calls i x) → s'.tok i = c.sh.tok i ∧ ∀ e, c.sh.tok i = some e → .revive e ∉ evs) →
        (∀ i, .cb i ∈ c.sh.log → s'.tok i = c.sh.tok i) → (∀ i, .cb i ∉ evs) → (∀ y ∈ p, ∀ i, ¬ calls i y) →
        HCancel s' (c.acts ++ [p])
          (m.act c.acts.length (m.known c.sh.log.length (entry c.sh a)) [] c.sh.log.length s'.log.length) := by
      intro s' p evs h1 h2 h3 h4 h5 h6
      refine ⟨?_, ?_, ?_⟩
      · intro e hr
        obtain ⟨g1, g2⟩ := h2 e hr
        obtain ⟨q, g3, g4⟩ := hQ.req e g1
        exact ⟨q, h1 ▸ g3.app g2, Mem.keep (by simp) g4⟩
      · intro k l hk x hx i hi
        by_cases hl : k < c.acts.length
        · rw [List.getElem?_append_left hl] at hk
          obtain ⟨g1, g2⟩ := h3 i ⟨x, ⟨l, List.mem_of_getElem? hk, hx⟩, hi⟩
          obtain ⟨e, q, g3, g4, g5⟩ := hQ.know k l hk x hx i hi
          exact ⟨e, q, by rw [g1]; exact g3, h1 ▸ g4.app (g2 e g3), by rw [Mem.act_view_ne (by omega)]; exact g5⟩
        · rw [List.getElem?_append_right (by omega)] at hk
          have := List.mem_of_getElem? hk
          simp at this; subst this
          exact absurd hi (h6 x hx i)
      · intro n i hn
        have hl : n < c.sh.log.length := by
          apply Classical.byContradiction
          intro hl
          rw [h1, List.getElem?_append_right (by omega)] at hn
          exact h5 i (List.mem_of_getElem? hn)
        rw [h1, List.getElem?_append_left hl] at hn
        obtain ⟨e, q, g1, g2, g3, g4⟩ := hQ.done n i hn
        refine ⟨e, q, by rw [h4 i (List.mem_of_getElem? hn)]; exact g1, g2, ?_, ?_⟩
        · rw [h1, List.take_append_of_le_length (by omega)]; exact g3
        · rw [Mem.act_past_old _ _ _ _ _ _ hl]; exact g4
    have hrun : ∀ i, (∃ x, Pending c.acts x ∧ calls i x) → c.sh.phase i = .running := by
      rintro i ⟨x, hx, hc⟩; exact f.one.running_b hx (calls_bw hc)
    have hcb : ∀ i, .cb i ∈ c.sh.log → c.sh.phase i ≠ .fresh := by
      intro i hi hf
      exact (fresh_none f hf).1 _ hi rfl
    env_cases he
    · rename_i j t hj
      refine key _ _ _ rfl (by simp) (fun i hi => ?_) (fun i hi => ?_) (by simp) (by simp [calls])
      · have := hrun i hi
        have hne : i ≠ j := by rintro rfl; simp [hj] at this
        simp [hne]
      · have := hcb i hi
        have hne : i ≠ j := by rintro rfl; simp [hj] at this
        simp [hne]
    · exact key _ _ _ rfl (by simp) (by simp) (by simp) (by simp) (by simp [calls])
    · exact key _ _ [] (by simp) (by simp) (by simp) (by simp) (by simp) (by simp [calls])
    · rename_i e hal
      refine key _ _ _ rfl ?_ (fun i hi => ?_) (by simp) (by simp) (by simp)
      · intro e' hr
        simp only [upd_apply] at hr
        split at hr
        · simp at hr
        · rename_i hne; exact ⟨hr, by simpa using hne⟩
      · refine ⟨rfl, fun v hv hm => ?_⟩
        simp at hm; subst hm
        have h1 := hrun i hi
        have h2 := List.all_eq_true.1 hal i (f.one.ops i (by simp [h1]))
        simp [h1, hv] at h2
  · intro c m k x r b s' p f f' hQ hk he
    have key : ∀ (s' : St) (p : List Instr) evs, s'.log = c.sh.log ++ evs → (∀ e, .revive e ∉ evs) → s'.tok = c.sh.tok →
        (∀ e, s'.req e = true → c.sh.req e = true ∨ x = .cancelCS e ∧ evs = [.cancel e]) →
        (∀ i, .cb i ∈ evs → evs = [.cb i] ∧ calls i x) →
        (∀ y ∈ p, ∀ i, calls i y → calls i x ∨ (∃ e, c.sh.tok i = some e ∧
          ((x = .set i ∧ c.sh.req e = true) ∨ (x = .cancelCS e ∧ evs = [.cancel e])))) →
        HCancel s' (c.acts.set k (p ++ r)) (m.act k (m.view k) (eff c.sh x b) c.sh.log.length s'.log.length) := by
      intro s' p evs h1 h2 h3 h4 h5 h6
      refine ⟨?_, ?_, ?_⟩
      · intro e hr
        rcases h4 e hr with g | ⟨rfl, rfl⟩
        · obtain ⟨q, g3, g4⟩ := hQ.req e g
          exact ⟨q, h1 ▸ g3.app (h2 e), Mem.keep (no_stores c.sh x b _) g4⟩
        · refine ⟨c.sh.log.length, h1 ▸ Recent.new, ?_⟩
          exact rel_ev m (.inr ⟨Nat.le_refl _, by rw [h1]; simp⟩)
      · intro j l hj y hy i hi
        have old : ∀ j l, c.acts[j]? = some l → ∀ y ∈ l, calls i y →
            ∃ e q, s'.tok i = some e ∧ Recent s'.log e q ∧
              (m.act k (m.view k) (eff c.sh x b) c.sh.log.length s'.log.length).view j q = true := by
          intro j l hj y hy hi
          obtain ⟨e, q, g3, g4, g5⟩ := hQ.know j l hj y hy i hi
          exact ⟨e, q, by rw [h3]; exact g3, h1 ▸ g4.app (h2 e), Mem.act_view_mono g5⟩
        rw [List.getElem?_set] at hj
        split at hj
        · rename_i ej; subst ej
          split at hj
          · simp at hj; subst hj
            rcases List.mem_append.1 hy with hy | hy
            · rcases h6 y hy i hi with g | ⟨e, g1, ⟨rfl, g2⟩ | ⟨rfl, g2⟩⟩
              · exact old k _ hk x (by simp) g
              · obtain ⟨q, g3, g4⟩ := hQ.req e g2
                refine ⟨e, q, by rw [h3]; exact g1, h1 ▸ g3.app (h2 e), Mem.act_view_self (.inl ?_)⟩
                simp only [eff, g1]; exact acq_ev m g4
              · refine ⟨e, c.sh.log.length, by rw [h3]; exact g1, by rw [h1, g2]; exact Recent.new, ?_⟩
                exact Mem.act_view_self (.inr ⟨Nat.le_refl _, by rw [h1, g2]; simp⟩)
            · exact old k _ hk y (by simp [hy]) hi
          · simp at hj
        · exact old j l hj y hy hi
      · intro n i hn
        by_cases hl : n < c.sh.log.length
        · rw [h1, List.getElem?_append_left hl] at hn
          obtain ⟨e, q, g1, g2, g3, g4⟩ := hQ.done n i hn
          refine ⟨e, q, by rw [h3]; exact g1, g2, ?_, ?_⟩
          · rw [h1, List.take_append_of_le_length (by omega)]; exact g3
          · rw [Mem.act_past_old _ _ _ _ _ _ hl]; exact g4
        · have hn' := (List.getElem?_eq_some_iff.1 hn).1
          have hm := hn
          rw [h1, List.getElem?_append_right (by omega)] at hm
          obtain ⟨g1, g2⟩ := h5 i (List.mem_of_getElem? hm)
          have hnl : n = c.sh.log.length := by rw [h1, g1] at hn'; simp at hn'; omega
          obtain ⟨e, q, g3, g4, g5⟩ := hQ.know k _ hk x (by simp) i g2
          refine ⟨e, q, by rw [h3]; exact g3, ?_, ?_, ?_⟩
          · rw [hnl]; exact (List.getElem?_eq_some_iff.1 g4.1).1
          · rw [h1, hnl]; simpa using g4
          · rw [Mem.act_past_new _ _ _ _ _ _ (by omega) hn', m.acquire_mono _ g5]; rfl
    have hli := fun (i : Id) e => @mem_listOf c.sh e i
    clear hk hQ f f'
    exec_cases he
    all_goals first
      | (refine key _ _ _ rfl ?_ rfl ?_ ?_ ?_ <;> simp [calls] <;> done)
      | (refine key _ _ [] (List.append_nil _).symm ?_ rfl ?_ ?_ ?_ <;> simp [calls] <;> done)
      | skip
    · rename_i j hj hr
      refine key _ _ [] (List.append_nil _).symm (by simp) rfl (by simp) (by simp) ?_
      intro y hy i hi
      simp at hy
      rcases hy with rfl | rfl <;> simp [calls] at hi
      subst hi
      right
      cases ht : c.sh.tok j with
      | none => simp [ht, reqT] at hr
      | some e => exact ⟨e, rfl, .inl ⟨rfl, by simpa [ht, reqT] using hr⟩⟩
    · rename_i e
      refine key _ _ _ rfl (by simp) rfl ?_ (by simp) ?_
      · intro e' hr
        simp only [upd_apply] at hr
        split at hr
        · rename_i h; subst h; exact .inr ⟨rfl, rfl⟩
        · exact .inl hr
      · intro y hy i hi
        simp at hy; subst hy
        exact .inr ⟨e, ((hli i e).1 hi).2, .inr ⟨rfl, rfl⟩⟩
    · rename_i i l hi
      refine key _ _ [] (List.append_nil _).symm (by simp) rfl (by simp) (by simp) ?_
      intro y hy j hj
      simp at hy
      rcases hy with rfl | rfl <;> simp [calls] at hj ⊢ <;> simp [hj]

theorem grows : Grows ann init where
  init := rfl
  env s acts a s' p he := by
    simp only [env] at he
    split at he <;> (try split at he) <;> simp at he <;> obtain ⟨rfl, rfl⟩ := he <;> simp
  run s x b s' p he := by
    obtain ⟨_, _, _, evs, h, _⟩ := exec_mine he 0
    show s.log.length ≤ s'.log.length
    rw [h]; simp

/-! ## C68 -/

/-- Whatever is done for the operation happens after the call of its `start()`. -/
theorem C68_start_before {c : Conf mach} {m : Mem Loc} (h : HReach ann init c m) {a b : Nat} {i : Id} {t : Option EvId}
    {w : Ev} (ha : c.sh.log[a]? = some (.start i t)) (hb : c.sh.log[b]? = some w)
    (hw : w = .istart i ∨ w = .cb i ∨ w = .cbRet i ∨ (∃ v, w = .inner i v) ∨ ∃ v, w = .done i v) : m.hb a b := by
  refine (hreach_start h a i t ha).done b w hb ?_
  rcases hw with rfl | rfl | rfl | ⟨v, rfl⟩ | ⟨v, rfl⟩ <;> rfl

/-- The receiver is completed after everything else that is done for the operation: the start and the completion of the
inner operation, the call of the callback and its return. -/
theorem C68_before_completion {c : Conf mach} {m : Mem Loc} (h : HReach ann init c m) {a b : Nat} {i v : Nat} {w : Ev}
    (hb : c.sh.log[b]? = some (.done i v)) (ha : c.sh.log[a]? = some w)
    (hw : w = .istart i ∨ w = .cb i ∨ w = .cbRet i ∨ ∃ v, w = .inner i v) : a < b ∧ m.hb a b := by
  have hs : ∃ d, evSide i d w := by
    rcases hw with rfl | rfl | rfl | ⟨v, rfl⟩ <;> simp [evSide]
  obtain ⟨d, hd⟩ := hs
  have hh := (hreach_side h i d a w ha hd).last b _ hb ⟨v, rfl⟩
  exact ⟨h.hb_lt grows hh, hh⟩

/-- The callback is called after a call of `cancel()` that made it happen: the event was not reset in between. -/
theorem C68_cancel_before_callback {c : Conf mach} {m : Mem Loc} (h : HReach ann init c m) {b : Nat} {i : Id}
    (hb : c.sh.log[b]? = some (.cb i)) :
    ∃ e a, .start i (some e) ∈ c.sh.log ∧ a < b ∧ c.sh.log[a]? = some (.cancel e) ∧
      (∀ n, a < n → n < b → c.sh.log[n]? ≠ some (.revive e)) ∧ m.hb a b := by
  obtain ⟨e, a, h1, h2, h3, h4⟩ := (hreach_cancel h).done b i hb
  have f := facts' c h.reach
  have hp : c.sh.phase i ≠ .fresh := fun hf => (fresh_none f hf).1 _ (List.mem_of_getElem? hb) rfl
  refine ⟨e, a, (f.two.st i _).2 ⟨hp, h1⟩, h2, ?_, ?_, h4⟩
  · have := h3.1
    rwa [List.getElem?_take_of_lt h2] at this
  · intro n h5 h6 h7
    exact h3.2 n h5 (by rwa [List.getElem?_take_of_lt h6])

/-! ## The hypotheses are met

Operation 0 is cancelled on another thread while its inner operation completes on a third; the three threads are
interleaved, and the handler ends last. -/

def hdemo : Conf mach × Mem Loc :=
  ann.go init [.env (.start 0 (some 5)), .run 0 true, .run 0 true, .env (.cancel 5), .run 1 true, .env (.finish 0 7),
    .run 2 true, .run 1 true, .run 2 true, .run 1 true, .run 2 true, .run 1 true, .run 1 true, .run 1 true, .run 1 true]

theorem hdemo_reach : HReach ann init hdemo.1 hdemo.2 := HReach.go _ _ _

set_option maxRecDepth 10000 in
theorem hdemo_log : hdemo.1.sh.log = [.start 0 (some 5), .istart 0, .cancel 5, .inner 0 7, .cb 0, .cbRet 0, .done 0 7] := by
  decide

/-- The inner operation completes on thread 2, the receiver is completed on thread 1. -/
example : hdemo.2.hb 3 6 :=
  (C68_before_completion hdemo_reach (i := 0) (v := 7) (by rw [hdemo_log]; rfl) (by rw [hdemo_log]; rfl)
    (.inr (.inr (.inr ⟨7, rfl⟩)))).2

/-- `start()` is called on thread 0, the callback on thread 1. -/
example : hdemo.2.hb 0 4 :=
  C68_start_before hdemo_reach (i := 0) (by rw [hdemo_log]; rfl) (by rw [hdemo_log]; rfl) (.inr (.inl rfl))

example : ∃ e a, .start 0 (some e) ∈ hdemo.1.sh.log ∧ a < 4 ∧ hdemo.1.sh.log[a]? = some (.cancel e) ∧
    (∀ n, a < n → n < 4 → hdemo.1.sh.log[n]? ≠ some (.revive e)) ∧ hdemo.2.hb a 4 :=
  C68_cancel_before_callback hdemo_reach (by rw [hdemo_log]; rfl)

/-- The callback and the completion of the inner operation are not ordered. -/
example : ¬ hdemo.2.hb 3 4 ∧ ¬ hdemo.2.hb 4 3 := by decide

end Verif.WithCancel
