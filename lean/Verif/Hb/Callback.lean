import Verif.Hb.WithCancel
import Verif.Callback.Props

/-!
# Happens-before for `cancellation_callback`, `cancellation_observer` and `cancellation_token`

The mutex of the event is held in the constructor (cancellation.hpp lines 102-108), in the destructor (116-121), in `unbind`
(129-134), `try_set` (166-171), `try_reset` (187-193), `cancel()` (336-340) and `is_cancellation_requested` (88-89). There are
no atomic variables.
-/

namespace Verif.Callback

/-- The mutexes of the events. -/
abbrev Loc := EvId

/-- A critical section of the event's mutex; an empty token has none. -/
def evSect : Option EvId → List (Acc Loc)
  | some e => [.lock e, .unlock e]
  | none => []

/-- Memory accesses of the instructions. The constructor of a callback keeps the mutex while it runs the functor. -/
def eff (s : St) : Instr → Bool → List (Acc Loc)
  | .ctor _ none, _ => []
  | .ctor _ (some e), _ => if s.req e then [.lock e] else [.lock e, .unlock e]  -- lines 102-108
  | .unlock _ e, _ => [.unlock e]  -- line 108
  | .unb _ t, _ | .dtor _ t, _ | .set _ t _, _ | .treset _ t, _ | .query t, _ => evSect t
  | .cancelCS e, _ => [.lock e, .unlock e]  -- lines 336-340
  | _, _ => []

/-- The user unbinds, destroys and resets objects after their construction, and resets an event after the destruction of its
callbacks and the reset of its observers. Nothing is assumed about the other calls. -/
def entry (s : St) : Act → Nat → Bool
  | .unbind i, n | .dtor i, n | .treset i, n => match s.log[n]? with
    | some (.ctor j _) | some (.set j _ _) => j == i
    | _ => false
  | .reset e, n => match s.log[n]? with
    | some (.dead j) | some (.tret j _) => s.ev j == some e
    | _ => false
  | _, _ => false

abbrev ann : Ann mach := ⟨Loc, inferInstance, fun s => s.log.length, entry, eff⟩

theorem no_stores (s : St) (x : Instr) (b : Bool) (l : Loc) : ∀ a ∈ eff s x b, a.stores l = false := by
  have h : ∀ t, ∀ a ∈ evSect t, a.stores l = false := by
    intro t a ha
    cases t <;> simp [evSect] at ha
    rcases ha with rfl | rfl <;> rfl
  intro a ha
  cases x <;> simp only [eff, List.not_mem_nil] at ha
  case ctor i t =>
    cases t <;> simp only [eff, List.not_mem_nil] at ha
    split at ha <;> simp at ha
    · subst ha; rfl
    · rcases ha with rfl | rfl <;> rfl
  case unlock => simp at ha; subst ha; rfl
  case cancelCS => simp at ha; rcases ha with rfl | rfl <;> rfl
  all_goals exact h _ a ha

/-! ## Critical sections of one event -/

/-- What is done inside of the critical sections of event `e`. -/
def Touches (e : EvId) : Ev → Prop
  | .bound _ e' | .erase _ e' | .refuse _ e' | .cancel e' | .query (some e') _ => e' = e
  | _ => False

theorem exec_touch {s s' : St} {x : Instr} {b : Bool} {p : List Instr} (he : exec s x b = .ok s' p) :
    (s'.log = s.log ∨ ∃ w, s'.log = s.log ++ [w]) ∧
    ∀ e w, s'.log = s.log ++ [w] → Touches e w → eff s x b = [.lock e, .unlock e] := by
  exec_cases he <;> simp [Touches, eff, evSect] <;> grind

theorem env_log {s s' : St} {acts : List (List Instr)} {a : Act} {p : List Instr} (he : env s acts a = some (s', p)) :
    (s'.log = s.log ∨ ∃ w, s'.log = s.log ++ [w]) ∧ ∀ e w, s'.log = s.log ++ [w] → ¬ Touches e w := by
  env_cases he <;> simp [Touches]

theorem sect_acq (m : Mem Loc) {v : Nat → Bool} {e : EvId} {n : Nat} (h : m.msg e n = true) :
    m.acquire v [.lock e, .unlock e] n = true := by
  simp [Mem.acquire, h]

theorem sect_rel (m : Mem Loc) {k : Nat} {v : Nat → Bool} {e : EvId} {a b n : Nat}
    (h : m.acquire v [.lock e, .unlock e] n = true ∨ (a ≤ n ∧ n < b)) :
    (m.act k v [.lock e, .unlock e] a b).msg e n = true := by
  rw [Mem.act_msg]
  simp [Mem.release]
  rcases h with h | h
  · simp [h]
  · simp [h]

/-- The mutex carries what was done inside of it. -/
structure HSect (log : List Ev) (m : Mem Loc) : Prop where
  msg : ∀ (a : Nat) e v, log[a]? = some v → Touches e v → m.msg e a = true
  ord : ∀ (a b : Nat) e v w, a < b → log[a]? = some v → Touches e v → log[b]? = some w → Touches e w → m.past b a = true

theorem HSect.same {log : List Ev} {m : Mem Loc} (h : HSect log m) {k : Nat} {v : Nat → Bool} {as : List (Acc Loc)}
    (hs : ∀ l, ∀ a ∈ as, a.stores l = false) : HSect log (m.act k v as log.length log.length) := by
  refine ⟨fun a e w ha hw => Mem.keep (hs e) (h.msg a e w ha hw), fun a b e v w hab ha hv hb hw => ?_⟩
  rw [Mem.act_past_old _ _ _ _ _ _ (List.getElem?_eq_some_iff.1 hb).1]
  exact h.ord a b e v w hab ha hv hb hw

theorem HSect.snoc {log : List Ev} {m : Mem Loc} (h : HSect log m) {k : Nat} {v : Nat → Bool} {as : List (Acc Loc)}
    (hs : ∀ l, ∀ a ∈ as, a.stores l = false) {u : Ev} (hu : ∀ e, Touches e u → as = [.lock e, .unlock e]) :
    HSect (log ++ [u]) (m.act k v as log.length (log ++ [u]).length) := by
  have old : ∀ (a : Nat) v, (log ++ [u])[a]? = some v → log[a]? = some v ∨ (a = log.length ∧ v = u) := by
    intro a v ha
    by_cases hl : a < log.length
    · rw [List.getElem?_append_left hl] at ha; exact .inl ha
    · have := (List.getElem?_eq_some_iff.1 ha).1
      simp at this
      have ha' : a = log.length := by omega
      subst ha'; simp at ha; exact .inr ⟨rfl, ha.symm⟩
  refine ⟨fun a e w ha hw => ?_, fun a b e v' w hab ha hv hb hw => ?_⟩
  · rcases old a w ha with ha | ⟨rfl, rfl⟩
    · exact Mem.keep (hs e) (h.msg a e w ha hw)
    · rw [hu e hw]; exact sect_rel m (.inr ⟨Nat.le_refl _, by simp⟩)
  · rcases old b w hb with hb | ⟨rfl, rfl⟩
    · have hl := (List.getElem?_eq_some_iff.1 hb).1
      rw [Mem.act_past_old _ _ _ _ _ _ hl]
      rcases old a v' ha with ha | ⟨rfl, rfl⟩
      · exact h.ord a b e v' w hab ha hv hb hw
      · omega
    · rw [Mem.act_past_new _ _ _ _ _ _ (Nat.le_refl _) (by simp)]
      rcases old a v' ha with ha | ⟨rfl, rfl⟩
      · rw [hu e hw, sect_acq m (h.msg a e v' ha hv)]; rfl
      · omega

theorem hreach_sect {st : Bool} {c : Conf mach} {m : Mem Loc} (h : HReach ann (init st) c m) : HSect c.sh.log m := by
  refine HReach.inv (A := ann) (P := fun _ => True) (Q := fun s _ m => HSect s.log m) (fun _ _ => trivial) ?_ ?_ ?_ h
  · exact ⟨by simp [init], by simp [init]⟩
  · intro c m a s' p _ _ hQ he
    obtain ⟨h1 | ⟨w, h1⟩, h2⟩ := env_log he
    · show HSect s'.log (m.act _ _ _ c.sh.log.length s'.log.length)
      rw [h1]; exact hQ.same (by simp)
    · show HSect s'.log (m.act _ _ _ c.sh.log.length s'.log.length)
      have := fun e => h2 e w h1
      rw [h1]; exact hQ.snoc (by simp) (fun e he => absurd he (this e))
  · intro c m k x r b s' p _ _ hQ hk he
    obtain ⟨h1 | ⟨w, h1⟩, h2⟩ := exec_touch he
    · show HSect s'.log (m.act _ _ _ c.sh.log.length s'.log.length)
      rw [h1]; exact hQ.same (no_stores _ _ _)
    · show HSect s'.log (m.act _ _ _ c.sh.log.length s'.log.length)
      have := fun e => h2 e w h1
      rw [h1]; exact hQ.snoc (no_stores _ _ _) this

/-! ## From the constructor to the functor -/

/-- An instruction of object `i`. -/
def mine (i : Id) : Instr → Prop
  | .ctor j _ | .cret j _ | .unlock j _ | .unb j _ | .uret j | .dtor j _ | .dret j | .set j _ _ | .fire j _ | .fret j
  | .treset j _ | .tret j _ => j = i
  | .drain _ l => i ∈ l
  | .ret j _ l => j = i ∨ i ∈ l
  | .cancelCS _ | .query _ => False

/-- The events of object `i` after its construction. -/
def ofObj (i : Id) : Ev → Prop
  | .unbind j | .unbound j | .dtor j | .dead j | .refuse j _ | .treset j | .tret j _ | .bound j _ | .erase j _ | .call j _
  | .ret j => j = i
  | _ => False

/-- The construction of object `i`. -/
def makes (i : Id) : Ev → Prop
  | .ctor j _ | .set j _ _ => j = i
  | _ => False

theorem exec_mine {s s' : St} {x : Instr} {b : Bool} {p : List Instr} (he : exec s x b = .ok s' p) (i : Id) :
    (∀ y ∈ p, mine i y → mine i x ∨ ∃ e, x = .cancelCS e ∧ i ∈ s.cbs e) ∧
    (∀ e, i ∈ s'.cbs e → i ∈ s.cbs e ∨ (mine i x ∧ eff s x b = [.lock e, .unlock e])) ∧
    (s'.phase i = .fresh → s.phase i = .fresh) ∧
    ∃ evs, s'.log = s.log ++ evs ∧ (∀ w ∈ evs, ofObj i w → mine i x) ∧ (∀ w ∈ evs, ¬ makes i w) := by
  have hm : ∀ e j, i ∈ (s.cbs e).erase j → i ∈ s.cbs e := fun e j h => List.mem_of_mem_erase h
  exec_cases he <;> simp [mine, ofObj, makes, eff, evSect, upd_apply] at * <;> grind

/-- An object that was not made has left no trace. -/
structure Untouched (s : St) (acts : List (List Instr)) (i : Id) : Prop where
  acts : ∀ x, Pending acts x → ¬ mine i x
  cbs : ∀ e, i ∉ s.cbs e
  log : ∀ w ∈ s.log, ¬ ofObj i w ∧ ¬ makes i w

structure Facts' (c : Conf mach) : Prop where
  fresh : ∀ i, c.sh.phase i = .fresh → Untouched c.sh c.acts i
  made : ∀ i, c.sh.phase i ≠ .fresh → ∃ w ∈ c.sh.log, makes i w
  gone : Inv1 c.sh c.acts

theorem facts' {st : Bool} (c : Conf mach) (h : Reach mach (init st) c) : Facts' c := by
  have h1 : ∀ i, c.sh.phase i = .fresh → Untouched c.sh c.acts i := by
    refine Reach.inv (M := mach) (P := fun s acts => ∀ i, s.phase i = .fresh → Untouched s acts i) ?_ ?_ ?_ h
    · intro i _; exact ⟨by simp [Pending], by simp [init], by simp [init]⟩
    · intro s acts a s' p ih he i hi
      have he : env s acts a = some (s', p) := he
      have h1 : s.phase i = .fresh ∧ s'.cbs = s.cbs ∧ (∀ y ∈ p, ¬ mine i y) ∧
          ∃ evs, s'.log = s.log ++ evs ∧ ∀ w ∈ evs, ¬ ofObj i w ∧ ¬ makes i w := by
        clear ih
        env_cases he <;> simp [mine, ofObj, makes, upd_apply] at * <;> grind
      obtain ⟨g1, g2, g3, evs, g4, g5⟩ := h1
      have ih := ih i g1
      refine ⟨fun x hx => ?_, by rw [g2]; exact ih.cbs, fun w hw => ?_⟩
      · rcases pending_append hx with hx | hx
        · exact g3 x hx
        · exact ih.acts x hx
      · rw [g4] at hw
        rcases List.mem_append.1 hw with hw | hw
        · exact ih.log w hw
        · exact g5 w hw
    · intro s acts k x r b s' p ih hk he i hi
      obtain ⟨h1, h2, h3, evs, h4, h5, h6⟩ := exec_mine he i
      have ih := ih i (h3 hi)
      have hx := ih.acts x (pending_top hk)
      refine ⟨fun y hy hm => ?_, fun e he => ?_, fun w hw => ?_⟩
      · rcases pending_set hk hy with hy | hy
        · rcases h1 y hy hm with g | ⟨e, _, g⟩
          · exact hx g
          · exact ih.cbs e g
        · exact ih.acts y hy hm
      · rcases h2 e he with g | g
        · exact ih.cbs e g
        · exact hx g.1
      · rw [h4] at hw
        rcases List.mem_append.1 hw with hw | hw
        · exact ih.log w hw
        · exact ⟨fun g => hx (h5 w hw g), h6 w hw⟩
  have h2 : ∀ i, c.sh.phase i ≠ .fresh → ∃ w ∈ c.sh.log, makes i w := by
    refine Reach.inv_with (M := mach) (P := Inv1)
      (Q := fun s _ => ∀ i, s.phase i ≠ .fresh → ∃ w ∈ s.log, makes i w) (fun _ h => reach_inv1 h) ?_ ?_ ?_ h
    · intro i hi; simp [init] at hi
    · intro s acts a s' p _ _ ih he i hi
      have he : env s acts a = some (s', p) := he
      have ih := ih i
      env_cases he <;> simp [makes, upd_apply] at * <;> grind [makes]
    · intro s acts k x r b s' p hI _ ih hk he i hi
      have ih := ih i
      have he : exec s x b = .ok s' p := he
      have hw := hI.wt x (pending_top hk)
      obtain ⟨_, _, _, evs, h4, _, _⟩ := exec_mine he i
      have h5 : s.phase i ≠ .fresh := by
        clear hk ih h4 hI
        exec_cases he <;> simp [upd_apply, WT] at * <;> grind
      obtain ⟨w, hw, hm⟩ := ih h5
      exact ⟨w, by rw [h4]; simp [hw], hm⟩
  exact ⟨h1, h2, reach_inv1 h⟩

structure HMake (s : St) (acts : List (List Instr)) (m : Mem Loc) (e : Nat) (i : Id) : Prop where
  know : AllKnow (mine i) acts m e
  cbs : ∀ v, i ∈ s.cbs v → m.msg v e = true
  done : Under (ofObj i) s.log m e

theorem HMake.run {s s' : St} {acts : List (List Instr)} {m : Mem Loc} {e : Nat} {i : Id} (h : HMake s acts m e i)
    {k : Nat} {x : Instr} {r p : List Instr} {b : Bool} (hk : acts[k]? = some (x :: r))
    (he : exec s x b = .ok s' p) :
    HMake s' (acts.set k (p ++ r)) (m.act k (m.view k) (eff s x b) s.log.length s'.log.length) e i := by
  obtain ⟨h1, h2, h3, evs, h4, h5, _⟩ := exec_mine he i
  have hx : mine i x → m.acquire (m.view k) (eff s x b) e = true := fun hx =>
    m.acquire_mono _ (h.know k _ hk x (by simp) hx)
  refine ⟨h.know.run hk ?_, ?_, h.done.step h4 ?_⟩
  · rintro ⟨y, hy, hm⟩
    rcases h1 y hy hm with h6 | ⟨v, rfl, h6⟩
    · exact hx h6
    · exact sect_acq m (h.cbs v h6)
  · intro v hv
    rcases h2 v hv with h6 | ⟨h6, h7⟩
    · exact Mem.keep (no_stores s x b _) (h.cbs v h6)
    · have h8 := hx h6
      rw [h7] at h8 ⊢
      exact sect_rel m (.inl h8)
  · rintro ⟨w, hw, ho⟩
    exact hx (h5 w hw ho)

theorem HMake.env {c : Conf mach} {s' : St} {m : Mem Loc} {e : Nat} {i : Id} {a : Act} {p : List Instr} {u : Ev}
    (f : Facts' c) (h : HMake c.sh c.acts m e i) (hu : c.sh.log[e]? = some u) (hm : makes i u)
    (he : env c.sh c.acts a = some (s', p)) :
    HMake s' (c.acts ++ [p])
      (m.act c.acts.length (m.known c.sh.log.length (entry c.sh a)) [] c.sh.log.length s'.log.length) e i := by
  have hl := (List.getElem?_eq_some_iff.1 hu).1
  have hs : c.sh.phase i ≠ .fresh := fun hf => ((f.fresh i hf).log u (List.mem_of_getElem? hu)).2 hm
  have hk : (a = .unbind i ∨ a = .dtor i ∨ a = .treset i) → m.known c.sh.log.length (entry c.sh a) e = true := by
    intro ha
    refine Mem.known_of hl ?_ (.inl rfl)
    rcases ha with rfl | rfl | rfl <;> simp only [entry, hu] <;> cases u <;> simp [makes] at hm <;> simp [hm]
  have hp : ((∃ y ∈ p, mine i y) → a = .unbind i ∨ a = .dtor i ∨ a = .treset i) ∧ s'.cbs = c.sh.cbs ∧
      ∃ evs, s'.log = c.sh.log ++ evs ∧ ((∃ w ∈ evs, ofObj i w) → a = .unbind i ∨ a = .dtor i ∨ a = .treset i) := by
    clear hk h
    env_cases he <;> simp [mine, ofObj] at * <;> grind
  obtain ⟨h1, h2, evs, h3, h4⟩ := hp
  refine ⟨h.know.env (fun hy => .inl (hk (h1 hy))), fun v hv => ?_, h.done.step h3 (fun hw => hk (h4 hw))⟩
  rw [h2] at hv
  exact Mem.keep (by simp) (h.cbs v hv)

theorem hreach_make {st : Bool} {c : Conf mach} {m : Mem Loc} (h : HReach ann (init st) c m) :
    ∀ (e : Nat) i u, c.sh.log[e]? = some u → makes i u → HMake c.sh c.acts m e i := by
  refine HReach.inv (A := ann) (P := Facts')
    (Q := fun s acts m => ∀ (e : Nat) i u, s.log[e]? = some u → makes i u → HMake s acts m e i) facts' ?_ ?_ ?_ h
  · intro e i t h; simp [init] at h
  · intro c m a s' p f f' hQ he e i u hi hu
    have he : env c.sh c.acts a = some (s', p) := he
    by_cases hlt : e < c.sh.log.length
    · have hi' : c.sh.log[e]? = some u := by
        obtain ⟨h1 | ⟨w, h1⟩, _⟩ := env_log he
        · rw [← h1]; exact hi
        · rw [h1, List.getElem?_append_left hlt] at hi; exact hi
      exact (hQ e i u hi' hu).env f hi' hu he
    · obtain ⟨h1 | ⟨w, h1⟩, _⟩ := env_log he
      · rw [h1] at hi; have := (List.getElem?_eq_some_iff.1 hi).1; omega
      · have h2 : e = c.sh.log.length := by
          have := (List.getElem?_eq_some_iff.1 hi).1
          rw [h1] at this; simp at this; omega
        subst h2
        have h3 : w = u := by rw [h1] at hi; simpa using hi
        subst h3
        have h4 : c.sh.phase i = .fresh ∧ s'.cbs = c.sh.cbs := by
          clear hi hlt
          env_cases he <;> simp at h1 <;> (try subst h1) <;> simp [makes] at hu <;> grind
        have g := f.fresh i h4.1
        refine ⟨?_, ?_, ?_⟩
        · refine AllKnow.env ?_ (fun _ => .inr ⟨Nat.le_refl _, ?_⟩)
          · intro k a hk x hx hm
            exact absurd hm (g.acts x ⟨a, List.mem_of_getElem? hk, hx⟩)
          · show _ < s'.log.length
            rw [h1]; simp
        · intro v hv; rw [h4.2] at hv; exact absurd hv (g.cbs v)
        · apply Under.none
          intro w' hw ho
          rw [h1] at hw
          simp at hw
          rcases hw with hw | rfl
          · exact (g.log w' hw).1 ho
          · cases w' <;> simp [makes, ofObj] at hu ho
  · intro c m k x r b s' p f f' hQ hk he e i u hi hu
    have he : exec c.sh x b = .ok s' p := he
    obtain ⟨_, _, _, evs, h4, _, h5⟩ := exec_mine he i
    have hlt : e < c.sh.log.length := by
      apply Classical.byContradiction
      intro hn
      rw [h4, List.getElem?_append_right (by omega)] at hi
      exact h5 _ (List.mem_of_getElem? hi) hu
    rw [h4, List.getElem?_append_left hlt] at hi
    exact (hQ e i u hi hu).run hk he

/-! ## From `cancel()` to the functor -/

/-- The call of `cancel()` at position `c` took effect, and the event was not reset since. -/
def Recent (log : List Ev) (e : EvId) (c : Nat) : Prop :=
  log[c]? = some (.cancel e) ∧ ∀ n, c < n → log[n]? ≠ some (.reset e)

theorem Recent.app {log evs : List Ev} {e : EvId} {c : Nat} (h : Recent log e c) (hr : .reset e ∉ evs) :
    Recent (log ++ evs) e c := by
  have hlt := (List.getElem?_eq_some_iff.1 h.1).1
  refine ⟨by rw [List.getElem?_append_left hlt]; exact h.1, fun n hn hv => ?_⟩
  by_cases hl : n < log.length
  · rw [List.getElem?_append_left hl] at hv; exact h.2 n hn hv
  · rw [List.getElem?_append_right (by omega)] at hv; exact hr (List.mem_of_getElem? hv)

theorem Recent.new {log : List Ev} {e : EvId} : Recent (log ++ [.cancel e]) e log.length := by
  refine ⟨by simp, fun n hn hv => ?_⟩
  have := (List.getElem?_eq_some_iff.1 hv).1
  simp at this; omega

/-- A running call that has seen that event `e` is cancelled. -/
def saw (s : St) (e : EvId) : Instr → Prop
  | .fire _ e' | .drain e' _ | .ret _ e' _ => e' = e
  | .tret i false => s.ev i = some e
  | _ => False

/-- What shows that event `e` is cancelled: a functor is called, `is_cancellation_requested()` returns true, `try_set` or
`try_reset` return false. -/
def shows (s : St) (e : EvId) : Ev → Prop
  | .call _ e' | .query (some e') true | .refuse _ e' => e' = e
  | .tret i false => s.ev i = some e
  | _ => False

structure HCancel (s : St) (acts : List (List Instr)) (m : Mem Loc) : Prop where
  req : ∀ e, s.req e = true → ∃ c, Recent s.log e c ∧ m.msg e c = true
  know : ∀ (k : Nat) a, acts[k]? = some a → ∀ x ∈ a, ∀ e, saw s e x → ∃ c, Recent s.log e c ∧ m.view k c = true
  done : ∀ (n : Nat) w e, s.log[n]? = some w → shows s e w →
    ∃ c, c < n ∧ Recent (s.log.take n) e c ∧ m.past n c = true

theorem exec_saw {s s' : St} {x : Instr} {b : Bool} {p : List Instr} (he : exec s x b = .ok s' p) (hw : WT s x) :
    s'.ev = s.ev ∧ ∃ evs, s'.log = s.log ++ evs ∧ (∀ e, .reset e ∉ evs) ∧
    (∀ e, s'.req e = true → s.req e = true ∨ x = .cancelCS e ∧ evs = [.cancel e]) ∧
    (∀ e, ∀ w ∈ evs, shows s e w → evs = [w] ∧ (saw s e x ∨ (s.req e = true ∧ .lock e ∈ eff s x b))) ∧
    (∀ e, ∀ y ∈ p, saw s e y → saw s e x ∨ (s.req e = true ∧ .lock e ∈ eff s x b) ∨ (x = .cancelCS e ∧ evs = [.cancel e])) := by
  exec_cases he
  all_goals
    first
    | (refine ⟨rfl, [], (List.append_nil _).symm, ?_⟩; simp [saw, shows, eff, evSect, upd_apply, WT] at *; (try grind [saw]); done)
    | (refine ⟨rfl, _, rfl, ?_⟩; simp [saw, shows, eff, evSect, upd_apply, WT] at *; (try grind [saw]); done)

theorem hreach_cancel {st : Bool} {c : Conf mach} {m : Mem Loc} (h : HReach ann (init st) c m) : HCancel c.sh c.acts m := by
  refine HReach.inv (A := ann) (P := Facts') (Q := HCancel) facts' ?_ ?_ ?_ h
  · exact ⟨by simp [init], by simp, by simp [init]⟩
  · intro c m a s' p f f' hQ he
    have he : env c.sh c.acts a = some (s', p) := he
    have hev : ∀ i, c.sh.phase i ≠ .fresh → s'.ev i = c.sh.ev i := by
      intro i hi
      clear hQ f f'
      env_cases he <;> simp [upd_apply] <;> grind
    have hsaw : ∀ e x, Pending c.acts x → saw s' e x → saw c.sh e x := by
      intro e x hx hs
      cases x <;> simp only [saw] at hs ⊢ <;> try exact hs
      rename_i i b
      cases b <;> simp only [saw] at hs ⊢
      rw [← hev i]; exact hs
      intro hf
      exact (f.fresh i hf).acts _ hx rfl
    have hsh : ∀ e w, w ∈ c.sh.log → shows s' e w → shows c.sh e w := by
      intro e w hw hs
      cases w <;> simp only [shows] at hs ⊢ <;> try exact hs
      · rename_i i b
        cases b <;> simp only [shows] at hs ⊢
        rw [← hev i]; exact hs
        intro hf
        exact ((f.fresh i hf).log _ hw).1 rfl
      · rename_i t b; cases t <;> cases b <;> exact hs
    have hex : ∃ evs, s'.log = c.sh.log ++ evs ∧
        (∀ e, s'.req e = true → c.sh.req e = true ∧ .reset e ∉ evs) ∧
        (∀ e x, Pending c.acts x → saw c.sh e x → .reset e ∉ evs) ∧
        (∀ e, ∀ w ∈ evs, ¬ shows s' e w) ∧ (∀ e, ∀ y ∈ p, ¬ saw s' e y) := by
      clear hQ f' hev hsaw hsh
      env_cases he
      case h_7 e hg =>
        refine ⟨_, rfl, ?_, ?_, by simp [shows], by simp⟩
        · intro e' hr
          simp only [upd_apply] at hr
          split at hr
          · simp at hr
          · rename_i hne; exact ⟨hr, by simpa using hne⟩
        · intro e' x hx hs hm
          simp at hm; subst hm
          have := anyI_false.1 hg.1 x hx
          cases x <;> simp [saw, evOf] at hs this
          all_goals first | exact this hs | skip
          rename_i i b; cases b <;> simp [saw] at hs; exact this hs
      all_goals
        first
        | (refine ⟨[], (List.append_nil _).symm, ?_⟩; simp [saw, shows])
        | (refine ⟨_, rfl, ?_⟩; simp [saw, shows])
    obtain ⟨evs, h1, h2, h3, h4, h5⟩ := hex
    refine ⟨?_, ?_, ?_⟩
    · intro e hr
      obtain ⟨g1, g2⟩ := h2 e hr
      obtain ⟨q, g3, g4⟩ := hQ.req e g1
      exact ⟨q, h1 ▸ g3.app g2, Mem.keep (by simp) g4⟩
    · intro k l hk x hx e hi
      by_cases hl : k < c.acts.length
      · rw [List.getElem?_append_left hl] at hk
        have hp : Pending c.acts x := ⟨l, List.mem_of_getElem? hk, hx⟩
        have hi := hsaw e x hp hi
        obtain ⟨q, g4, g5⟩ := hQ.know k l hk x hx e hi
        exact ⟨q, h1 ▸ g4.app (h3 e x hp hi), by rw [Mem.act_view_ne (by omega)]; exact g5⟩
      · rw [List.getElem?_append_right (by omega)] at hk
        have := List.mem_of_getElem? hk
        simp at this; subst this
        exact absurd hi (h5 e x hx)
    · intro n w e hn hs
      have hl : n < c.sh.log.length := by
        apply Classical.byContradiction
        intro hl
        rw [h1, List.getElem?_append_right (by omega)] at hn
        exact h4 e w (List.mem_of_getElem? hn) hs
      rw [h1, List.getElem?_append_left hl] at hn
      obtain ⟨q, g2, g3, g4⟩ := hQ.done n w e hn (hsh e w (List.mem_of_getElem? hn) hs)
      refine ⟨q, g2, ?_, ?_⟩
      · rw [h1, List.take_append_of_le_length (by omega)]; exact g3
      · rw [Mem.act_past_old _ _ _ _ _ _ hl]; exact g4
  · intro c m k x r b s' p f f' hQ hk he
    have he : exec c.sh x b = .ok s' p := he
    obtain ⟨h0, evs, h1, h2, h3, h4, h5⟩ := exec_saw he (f.gone.wt x (pending_top hk))
    have hsaw : ∀ e x, saw s' e x = saw c.sh e x := by
      intro e x; cases x <;> simp only [saw, h0]
    have hsh : ∀ e w, shows s' e w = shows c.sh e w := by
      intro e w; cases w <;> simp only [shows]
      · rename_i i b; cases b <;> simp only [shows, h0]
      · rename_i t b; cases t <;> cases b <;> rfl
    have got : ∀ e, c.sh.req e = true → .lock e ∈ eff c.sh x b →
        ∃ q, Recent c.sh.log e q ∧ m.acquire (m.view k) (eff c.sh x b) q = true := by
      intro e hr ha
      obtain ⟨q, g1, g2⟩ := hQ.req e hr
      exact ⟨q, g1, m.acquire_msg ha (l := e) (by simp [Acc.acquires]) g2⟩
    show HCancel s' (c.acts.set k (p ++ r)) (m.act k (m.view k) (eff c.sh x b) c.sh.log.length s'.log.length)
    refine ⟨?_, ?_, ?_⟩
    · intro e hr
      rcases h3 e hr with g | ⟨rfl, rfl⟩
      · obtain ⟨q, g3, g4⟩ := hQ.req e g
        exact ⟨q, h1 ▸ g3.app (h2 e), Mem.keep (no_stores c.sh x b _) g4⟩
      · refine ⟨c.sh.log.length, h1 ▸ Recent.new, ?_⟩
        exact sect_rel m (.inr ⟨Nat.le_refl _, by rw [h1]; simp⟩)
    · intro j l hj y hy e hi
      rw [hsaw] at hi
      have old : ∀ j l, c.acts[j]? = some l → ∀ y ∈ l, saw c.sh e y →
          ∃ q, Recent s'.log e q ∧
            (m.act k (m.view k) (eff c.sh x b) c.sh.log.length s'.log.length).view j q = true := by
        intro j l hj y hy hi
        obtain ⟨q, g4, g5⟩ := hQ.know j l hj y hy e hi
        exact ⟨q, h1 ▸ g4.app (h2 e), Mem.act_view_mono g5⟩
      rw [List.getElem?_set] at hj
      split at hj
      · rename_i ej; subst ej
        split at hj
        · simp at hj; subst hj
          rcases List.mem_append.1 hy with hy | hy
          · rcases h5 e y hy hi with g | ⟨g1, g2⟩ | ⟨rfl, g2⟩
            · exact old k _ hk x (by simp) g
            · obtain ⟨q, g3, g4⟩ := got e g1 g2
              exact ⟨q, h1 ▸ g3.app (h2 e), Mem.act_view_self (.inl g4)⟩
            · refine ⟨c.sh.log.length, by rw [h1, g2]; exact Recent.new, ?_⟩
              exact Mem.act_view_self (.inr ⟨Nat.le_refl _, by rw [h1, g2]; simp⟩)
          · exact old k _ hk y (by simp [hy]) hi
        · simp at hj
      · exact old j l hj y hy hi
    · intro n w e hn hs
      rw [hsh] at hs
      by_cases hl : n < c.sh.log.length
      · rw [h1, List.getElem?_append_left hl] at hn
        obtain ⟨q, g2, g3, g4⟩ := hQ.done n w e hn hs
        refine ⟨q, g2, ?_, ?_⟩
        · rw [h1, List.take_append_of_le_length (by omega)]; exact g3
        · rw [Mem.act_past_old _ _ _ _ _ _ hl]; exact g4
      · have hn' := (List.getElem?_eq_some_iff.1 hn).1
        have hm := hn
        rw [h1, List.getElem?_append_right (by omega)] at hm
        obtain ⟨g1, g2⟩ := h4 e w (List.mem_of_getElem? hm) hs
        have hnl : n = c.sh.log.length := by rw [h1, g1] at hn'; simp at hn'; omega
        have : ∃ q, Recent c.sh.log e q ∧ m.acquire (m.view k) (eff c.sh x b) q = true := by
          rcases g2 with g2 | ⟨g2, g3⟩
          · obtain ⟨q, g4, g5⟩ := hQ.know k _ hk x (by simp) e g2
            exact ⟨q, g4, m.acquire_mono _ g5⟩
          · exact got e g2 g3
        obtain ⟨q, g4, g5⟩ := this
        refine ⟨q, ?_, ?_, ?_⟩
        · rw [hnl]; exact (List.getElem?_eq_some_iff.1 g4.1).1
        · rw [h1, hnl]; simpa using g4
        · rw [Mem.act_past_new _ _ _ _ _ _ (by omega) hn', g5]; rfl

/-! ## C75 -/

/-- C75. What is done to one event is ordered by happens-before: registrations and removals of callbacks and observers,
refusals, calls of `cancel()` and queries happen after those that took effect earlier. -/
theorem C75_event_ordered {st : Bool} {c : Conf mach} {m : Mem Loc} (h : HReach ann (init st) c m) {a b : Nat} {e : EvId}
    {v w : Ev} (hab : a < b) (ha : c.sh.log[a]? = some v) (hv : Touches e v) (hb : c.sh.log[b]? = some w)
    (hw : Touches e w) : m.hb a b := (hreach_sect h).ord a b e v w hab ha hv hb hw

/-- C75. The constructor of a callback, and `try_set` or `force_set` of an observer, are called before anything that is done to the
object: registration, call of the functor and its return (by `cancel()` on any thread), removal. -/
theorem C75_made_before {st : Bool} {c : Conf mach} {m : Mem Loc} (h : HReach ann (init st) c m) {a b : Nat} {i : Id} {v w : Ev}
    (ha : c.sh.log[a]? = some v) (hv : (∃ t, v = .ctor i t) ∨ ∃ t f, v = .set i t f) (hb : c.sh.log[b]? = some w)
    (hw : w = .ret i ∨ ∃ e, w = .bound i e ∨ w = .call i e ∨ w = .erase i e ∨ w = .refuse i e) : m.hb a b := by
  refine (hreach_make h a i v ha ?_).done b w hb ?_
  · rcases hv with ⟨t, rfl⟩ | ⟨t, f, rfl⟩ <;> rfl
  · rcases hw with rfl | ⟨e, rfl | rfl | rfl | rfl⟩ <;> rfl

/-- C75. Whoever learns that an event is cancelled knows what was done before `cancel()`: a functor is called,
`is_cancellation_requested()` returns true, `try_set` or `try_reset` return false only after a call of `cancel()` that
happens before, and the event was not reset in between. -/
theorem C75_cancel_before {st : Bool} {c : Conf mach} {m : Mem Loc} (h : HReach ann (init st) c m) {b : Nat} {w : Ev} {e : EvId}
    (hb : c.sh.log[b]? = some w)
    (hw : w = .query (some e) true ∨ ∃ i, w = .call i e ∨ w = .refuse i e ∨
      (w = .tret i false ∧ ∃ f, .set i (some e) f ∈ c.sh.log)) :
    ∃ a, a < b ∧ c.sh.log[a]? = some (.cancel e) ∧ (∀ n, a < n → n < b → c.sh.log[n]? ≠ some (.reset e)) ∧ m.hb a b := by
  have hs : shows c.sh e w := by
    rcases hw with rfl | ⟨i, rfl | rfl | ⟨rfl, f, hf⟩⟩ <;> try rfl
    exact ((reach_inv4 h.reach).sev i _ f hf).1
  obtain ⟨q, h1, h2, h3⟩ := (hreach_cancel h).done b w e hb hs
  refine ⟨q, h1, ?_, fun n hn hn' hv => h2.2 n hn ?_, h3⟩
  · have := h2.1; rw [List.getElem?_take] at this; simpa [h1] using this
  · rw [List.getElem?_take]; simpa [hn'] using hv

/-! ## The hypotheses are met

A callback and an observer are registered on threads 0 and 1; thread 2 cancels the event and calls both functors; thread 3 asks
whether the event is cancelled; `try_reset` of the observer fails on thread 4; a second observer comes too late. -/

def hdemo : Conf mach × Mem Loc :=
  ann.go (init true) [.env (.ctor 0 (some 5)), .run 0 true, .env (.set 1 (some 5) false), .run 1 true,
    .env (.cancel 5), .run 2 true, .env (.query (some 5)), .run 3 true, .run 2 true, .run 2 true, .env (.treset 1), .run 4 true,
    .run 4 true, .run 2 true, .run 2 true, .run 2 true, .env (.set 2 (some 5) false), .run 5 true]

theorem hdemo_reach : HReach ann (init true) hdemo.1 hdemo.2 := HReach.go _ _ _

set_option maxRecDepth 10000 in
theorem hdemo_log : hdemo.1.sh.log = [.ctor 0 (some 5), .bound 0 5, .set 1 (some 5) false, .bound 1 5, .cancel 5,
    .query (some 5) true, .call 0 5, .ret 0, .treset 1, .tret 1 false, .call 1 5, .ret 1, .set 2 (some 5) false,
    .refuse 2 5] := by decide

/-- Registered on thread 0, called on thread 2. -/
example : hdemo.2.hb 0 6 :=
  C75_made_before hdemo_reach (i := 0) (by rw [hdemo_log]; rfl) (.inl ⟨_, rfl⟩) (by rw [hdemo_log]; rfl)
    (.inr ⟨5, .inr (.inl rfl)⟩)

/-- Registration of the observer, and a query on another thread. -/
example : hdemo.2.hb 3 5 :=
  C75_event_ordered hdemo_reach (e := 5) (v := .bound 1 5) (w := .query (some 5) true) (by decide) (by rw [hdemo_log]; rfl) rfl (by rw [hdemo_log]; rfl) rfl

/-- `try_reset` returns false on thread 4. -/
example : ∃ a, a < 9 ∧ hdemo.1.sh.log[a]? = some (.cancel 5) ∧
    (∀ n, a < n → n < 9 → hdemo.1.sh.log[n]? ≠ some (.reset 5)) ∧ hdemo.2.hb a 9 :=
  C75_cancel_before hdemo_reach (by rw [hdemo_log]; rfl)
    (.inr ⟨1, .inr (.inr ⟨rfl, false, by rw [hdemo_log]; simp⟩)⟩)

/-- The call of the observer's functor and the return of its `try_reset` are not ordered: the observer must not be destroyed
only because `try_reset` returned false. -/
example : ¬ hdemo.2.hb 9 10 ∧ ¬ hdemo.2.hb 10 9 := by decide

end Verif.Callback
