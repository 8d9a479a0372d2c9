import Verif.Hb.Sync
import Verif.Recurring.Props

/-!
# Happens-before for `recurring_event`

`raise()` (recurring-event.hpp lines 55-63), `try_cancel` (line 75) and `start` (lines 99-109) are critical sections of
`_mutex`. The condition of `async_wait_if` is evaluated inside of that of `start`. The accesses of the condition, of the
actions of the user and of the functor applied to the result are a parameter.
-/

namespace Verif.Recurring

open Resolver

variable {X : User} {u0 : X.U}

/-- Memory accesses of the user program. -/
structure UOrds (X : User) where
  /-- Its atomic variables and locks. -/
  A : Type
  /-- Their equality is decidable. -/
  dec : DecidableEq A
  /-- Accesses of a condition. -/
  cond : X.U → X.P → List (Acc A)
  /-- Accesses of an action. -/
  act : X.U → X.A → List (Acc A)
  /-- Accesses of the functor that `transform` applies to the result. -/
  res : X.U → List (Acc A)

instance (W : UOrds X) : DecidableEq W.A := W.dec

/-- Memory accesses of the event with the program around it. -/
abbrev ords (W : UOrds X) : Ords (ds X) where
  A := W.A
  dec := W.dec
  start d i _ := match d.key i with
    | some p => W.cond d.u p
    | none => []
  tryCancel _ _ := []
  locked _ x _ := match x with
    | .raise => true
    | .act _ => false
  exec d x _ := match x with
    | .raise => []
    | .act a => W.act d.u a
  val d _ := W.res d.u

/-- The events of critical sections of `_mutex`. -/
def section_ : E X → Prop
  | .act _ _ _ => False
  | _ => True

/-- The events that decide the fate of a wait operation. -/
def decides : E X → OpId → Prop
  | .raise l, i => i ∈ l
  | .skip j, i | .unq j, i => j = i
  | _, _ => False

theorem start_cases {d d' : D X} {i : OpId} {r : Option Res} {es : List (E X)} (h : start d i = some (d', r, es)) :
    (r = none ∧ ∃ b, es = [.enq i b] ∧ (b = true ↔ 0 < d.pendR)) ∨ (r = some .conditionFailed ∧ es = [.skip i]) := by
  simp only [start] at h
  repeat' split at h
  all_goals simp at h
  all_goals obtain ⟨_, rfl, rfl⟩ := h
  all_goals simp

theorem tryCancel_cases {d d' : D X} {i : OpId} {r : Bool} {es : List (E X)} (h : tryCancel d i = some (d', r, es)) :
    (r = true ∧ es = [.unq i]) ∨ (r = false ∧ es = []) := by
  simp only [tryCancel] at h
  repeat' split at h
  all_goals simp at h
  all_goals obtain ⟨_, rfl, rfl⟩ := h
  all_goals simp

theorem ops_inl (l : List OpId) : ops (I := I X) (l.map .inl) = l := by
  induction l with
  | nil => rfl
  | cons a l ih => simp [ops, ih]

theorem exec_cases {d d' : D X} {x : I X} {b : Bool} {ps : List (OpId ⊕ I X)} {es : List (E X)}
    (h : exec d x b = some (d', ps, es)) :
    (x = .raise ∧ es = [.raise d.queue] ∧ ps = d.queue.map .inl) ∨
    (∃ a f r, x = .act a ∧ es = [.act a f r] ∧ ps = if f then [.inr .raise] else []) := by
  cases x <;> simp only [exec] at h <;> repeat' split at h
  all_goals simp at h
  all_goals obtain ⟨_, rfl, rfl⟩ := h
  all_goals simp
  all_goals simp_all

theorem ops_act {f : Bool} : ops (I := I X) (if f then [.inr .raise] else []) = [] := by cases f <;> rfl

theorem hlaw (W : UOrds X) (O : UserOk X u0) : HLaw (ords W) (lawful O) section_ (fun _ v i => decides v i) where
  unlocked {d x b d' ps es} h hl := by
    rcases exec_cases h with ⟨rfl, _⟩ | ⟨a, f, r, rfl, rfl, rfl⟩
    · simp at hl
    · exact ⟨ops_act, by simp [section_]⟩
  start {d i b d' r es v j log} h hv hd := by
    rcases start_cases h with ⟨rfl, f, rfl, _⟩ | ⟨rfl, rfl⟩ <;> simp at hv <;> subst hv <;> simp [decides] at hd
    exact ⟨hd.symm, _, rfl⟩
  cancel {d i d' r es v j log} h hv hd := by
    rcases tryCancel_cases h with ⟨rfl, rfl⟩ | ⟨rfl, rfl⟩ <;> simp at hv
    subst hv; simp [decides] at hd
    exact ⟨hd.symm, rfl⟩
  exec {d ph log pi x b d' ps l1 v l2 j} _ h hd := by
    have hv : v ∈ l1 ++ v :: l2 := by simp
    rcases exec_cases h with ⟨rfl, he, rfl⟩ | ⟨a, f, r, rfl, he, rfl⟩
    · rw [he] at hv; simp at hv; subst hv
      rw [ops_inl]; exact hd
    · rw [he] at hv; simp at hv; subst hv; simp [decides] at hd

theorem hcanc (X : User) : HCanc (ds X) (fun v i => v = .unq i) where
  start {d i b d' r es} h e he j hc := by
    subst hc
    rcases start_cases h with ⟨rfl, f, rfl, _⟩ | ⟨rfl, rfl⟩ <;> simp at he
  exec {d x b d' ps es} h e he j hc := by
    subst hc
    rcases exec_cases h with ⟨rfl, rfl, _⟩ | ⟨a, f, r, rfl, rfl, _⟩ <;> simp at he
  cancel {d i d' r es} h e he j hc := by
    subst hc
    rcases tryCancel_cases h with ⟨rfl, rfl⟩ | ⟨rfl, rfl⟩ <;> simp at he
    exact he

theorem mem_dsl {x : I X} {a : List (Instr (ds X))} (h : .ds x ∈ a) : x ∈ dsl a := by
  induction a with
  | nil => simp at h
  | cons y a ih =>
    rcases List.mem_cons.1 h with rfl | h'
    · simp [dsl]
    · have := ih h'
      cases y <;> simp [dsl, this]

theorem raises_pos {l : List (I X)} (h : .raise ∈ l) : 0 < raises l := by
  induction l with
  | nil => simp at h
  | cons y l ih => cases y <;> simp [raises] at h ⊢; exact ih h

theorem split_at {α : Type} {l : List α} {n : Nat} {v : α} (h : l[n]? = some v) : l = l.take n ++ v :: l.drop (n + 1) := by
  have hl := (List.getElem?_eq_some_iff.1 h).1
  have hw := (List.getElem?_eq_some_iff.1 h).2
  rw [← hw, List.getElem_cons_drop, List.take_append_drop]

theorem pos_of_take {α : Type} {l : List α} {n : Nat} {v : α} (h : v ∈ l.take n) : ∃ a, a < n ∧ l[a]? = some v := by
  obtain ⟨a, ha⟩ := List.getElem?_of_mem h
  have := (List.getElem?_eq_some_iff.1 ha).1
  rw [List.length_take] at this
  rw [List.getElem?_take_of_lt (by omega)] at ha
  exact ⟨a, by omega, ha⟩

section
variable {W : UOrds X} {entry : RSt (ds X) → Resolver.Act (ds X) → Nat → Bool} {c : Conf (mach (ds X))}
  {m : Mem (Loc (ords W).A)}

/-- C56. If a wait completes with `awaited` then a call of `raise()` that woke it happens before. -/
theorem C56_raise_before_wait (O : UserOk X u0) (h : HReach (ann (ords W) entry) (RSt.init (init u0)) c m) {n : Nat}
    {i : OpId} (hn : c.sh.log[n]? = some (.done i .awaited)) :
    ∃ a l, c.sh.log[a]? = some (.ds (.raise l)) ∧ i ∈ l ∧ m.hb a n := by
  obtain ⟨ph, hI, _⟩ := reach_inv (lawful O) h.reach
  obtain ⟨l, hl, hi⟩ := hI.hist _ _ _ (split_at hn)
  obtain ⟨a, _, ha⟩ := pos_of_take hl
  exact ⟨a, l, ha, hi, completes_after (hlaw W O) h ha hi hn⟩

/-- C56. If a wait completes because its condition was false, then all calls of `raise()` that took effect before the
condition was evaluated happen before the completion. -/
theorem C56_raise_before_condition (O : UserOk X u0) (h : HReach (ann (ords W) entry) (RSt.init (init u0)) c m)
    {n : Nat} {i : OpId} (hn : c.sh.log[n]? = some (.done i .conditionFailed)) :
    ∃ q, q < n ∧ c.sh.log[q]? = some (.ds (.skip i)) ∧
      ∀ a < q, ∀ l, c.sh.log[a]? = some (.ds (.raise l)) → m.hb a n := by
  obtain ⟨ph, hI, _⟩ := reach_inv (lawful O) h.reach
  have hs := hI.hist _ _ _ (split_at hn)
  obtain ⟨q, hq, hs⟩ := pos_of_take hs
  exact ⟨q, hq, hs, fun a ha l hl => h.hb_trans (grows _ _ entry)
    (sections_ordered (hlaw W O) h hl trivial hs trivial ha) (completes_after (hlaw W O) h hs rfl hn)⟩

/-- C56. If a wait is cancelled then a cancellation of its event happens before its completion. -/
theorem C56_cancel_before_completion (O : UserOk X u0) (h : HReach (ann (ords W) entry) (RSt.init (init u0)) c m)
    {n : Nat} {i : OpId} (hn : c.sh.log[n]? = some (.done i .cancelled)) :
    ∃ ev e, c.sh.ct i = some ev ∧ c.sh.log[e]? = some (.cancel ev) ∧ m.hb e n := by
  obtain ⟨ph, hI, _⟩ := reach_inv (lawful O) h.reach
  obtain ⟨hu, _⟩ := hI.hist _ _ _ (split_at hn)
  obtain ⟨q, _, hq⟩ := pos_of_take hu
  obtain ⟨ev, e, h2, h3, h4⟩ := withdrawn_after_cancel (lawful O) (hcanc X) h hq rfl
  exact ⟨ev, e, h2, h3, h.hb_trans (grows _ _ entry) h4 (completes_after (hlaw W O) h hq rfl hn)⟩

/-- C56. Creating and starting a wait happens before its completion. -/
theorem C56_created_before_completion (O : UserOk X u0) (h : HReach (ann (ords W) entry) (RSt.init (init u0)) c m)
    {a n : Nat} {i : OpId} {ct : Option EvId} {p : X.P} {x : Res} (ha : c.sh.log[a]? = some (.begin i ct p))
    (hn : c.sh.log[n]? = some (.done i x)) (han : a < n) : m.hb a n :=
  created_before_completion (hlaw W O) h ha hn han

/-! ### The action before `raise()` -/

/-- `z` is an action that is followed by `raise()`, it is in the view `v`, and since then no operation has suspended
while no `raise()` was on its way. -/
def Since (log : List (Event X)) (z : Nat) (v : Nat → Bool) (b : Nat) : Prop :=
  (∃ a r, log[z]? = some (.ds (.act a true r))) ∧ v z = true ∧
    ∀ j i, z < j → j < b → log[j]? ≠ some (.ds (.enq i false))

structure AR (s : RSt (ds X)) (acts : List (List (Instr (ds X)))) (m : Mem (Loc (ords W).A)) : Prop where
  pend : ∀ (k : Nat) a, acts[k]? = some a → .ds .raise ∈ a → ∃ z, Since s.log z (m.view k) s.log.length
  done : ∀ (b : Nat) l, s.log[b]? = some (.ds (.raise l)) → ∃ z, z < b ∧ Since s.log z (m.past b) b

theorem Since.mono {log evs : List (Event X)} {z b b' : Nat} {v w : Nat → Bool} (h : Since log z v b)
    (hw : ∀ e, e < log.length → v e = true → w e = true)
    (hb : ∀ j i, b ≤ j → j < b' → (log ++ evs)[j]? ≠ some (.ds (.enq i false))) (hbl : b ≤ log.length) :
    Since (log ++ evs) z w b' := by
  obtain ⟨⟨a, r, hz⟩, h2, h3⟩ := h
  have hl := (List.getElem?_eq_some_iff.1 hz).1
  refine ⟨⟨a, r, by rw [List.getElem?_append_left hl]; exact hz⟩, hw z hl h2, fun j i h4 h5 => ?_⟩
  by_cases hjb : j < b
  · rw [List.getElem?_append_left (by omega)]; exact h3 j i h4 hjb
  · exact hb j i (by omega) h5

theorem action_before_raise (O : UserOk X u0) (hX : X.direct = false)
    (h : HReach (ann (ords W) entry) (RSt.init (init u0)) c m) {b : Nat} {l : List OpId}
    (hb : c.sh.log[b]? = some (.ds (.raise l))) : ∃ z, z < b ∧ Since c.sh.log z (m.past b) b := by
  refine (HReach.inv (A := ann (ords W) entry) (P := fun c => RInv (lawful O) c.sh c.acts)
    (Q := fun s acts m => AR (W := W) s acts m) (fun c hc => reach_inv (lawful O) hc) ?_ ?_ ?_ h).done b l hb
  · exact ⟨by simp, by simp [RSt.init]⟩
  · intro c m a s' p _ _ hQ he
    obtain ⟨_, _, evs, h3, _, h5⟩ := env_log (acts := c.acts) he
    have hnew : ∀ j i, c.sh.log.length ≤ j → (c.sh.log ++ evs)[j]? ≠ some (.ds (.enq i false)) := by
      intro j i hj hm
      rw [List.getElem?_append_right hj] at hm
      exact h5 _ (List.mem_of_getElem? hm)
    have hpr : .ds .raise ∉ p := by
      intro hm
      cases a <;> simp only [Resolver.env] at he <;> repeat' split at he
      all_goals simp at he
      all_goals obtain ⟨rfl, rfl⟩ := he
      all_goals simp at hm
      subst hm
      rename_i hc _ _
      simp [call, hX] at hc
    refine ⟨fun k a hk hm => ?_, fun b l hb => ?_⟩
    · by_cases hl : k < c.acts.length
      · rw [List.getElem?_append_left hl] at hk
        obtain ⟨z, hz⟩ := hQ.pend k a hk hm
        refine ⟨z, ?_⟩
        rw [h3]
        refine hz.mono (fun e _ hv => ?_) (fun j i hj _ => hnew j i hj) (Nat.le_refl _)
        rw [Mem.act_view_ne (by omega)]; exact hv
      · have hk' := (List.getElem?_eq_some_iff.1 hk).1
        simp at hk'
        have : k = c.acts.length := by omega
        subst this
        simp at hk; subst hk
        exact absurd hm hpr
    · have hlt : b < c.sh.log.length := by
        apply Classical.byContradiction
        intro hn
        rw [h3, List.getElem?_append_right (by omega)] at hb
        exact h5 _ (List.mem_of_getElem? hb)
      rw [h3, List.getElem?_append_left hlt] at hb
      obtain ⟨z, hzb, hz⟩ := hQ.done b l hb
      refine ⟨z, hzb, ?_⟩
      rw [h3]
      refine hz.mono (fun e _ hv => ?_) (fun j i h6 h7 => by omega) (by omega)
      rw [Mem.act_past_old _ _ _ _ _ _ hlt]; exact hv
  · intro c m k x r b s' p hr hr' hQ hk he
    clear hr'
    obtain ⟨evs, h3⟩ := exec_log he
    obtain ⟨ph, hI, hC⟩ := hr
    -- while a `raise()` is on its way, nothing suspends with the flag off
    have hnew : (∃ (k : Nat) (a : List (Instr (ds X))), c.acts[k]? = some a ∧ .ds .raise ∈ a) → ∀ j i, c.sh.log.length ≤ j →
        (c.sh.log ++ evs)[j]? ≠ some (.ds (.enq i false)) := by
      rintro ⟨k', a, hk', ha⟩ j i hj hm
      have hpos : 0 < c.sh.d.pendR := by
        rw [← hI.rs]
        have : (.raise : I X) ∈ dsPend c.acts := by
          simp only [dsPend, List.mem_flatten, List.mem_map]
          exact ⟨_, ⟨a, List.mem_of_getElem? hk', rfl⟩, mem_dsl ha⟩
        exact raises_pos this
      rw [List.getElem?_append_right hj] at hm
      have hm := List.mem_of_getElem? hm
      have hm : Ev.ds (E.enq i false) ∈ s'.log.drop c.sh.log.length := by rw [h3]; simpa using hm
      cases x <;> simp only [Resolver.exec] at he
      case start j =>
        split at he <;> simp at he <;> obtain ⟨rfl, rfl⟩ := he <;> rename_i hs <;> simp at hm <;>
          (rcases start_cases hs with ⟨_, f, rfl, hf⟩ | ⟨_, rfl⟩ <;> simp at hm
           obtain ⟨_, rfl⟩ := hm
           simp at hf; omega)
      case tryCancel j l =>
        split at he
        · simp at he
        · rename_i hs
          simp at he; obtain ⟨rfl, rfl⟩ := he
          simp at hm
          rcases tryCancel_cases hs with ⟨_, rfl⟩ | ⟨_, rfl⟩ <;> simp at hm
      case ds x =>
        split at he
        · simp at he
        · rename_i hs
          simp at he; obtain ⟨rfl, rfl⟩ := he
          simp at hm
          rcases exec_cases hs with ⟨rfl, rfl, _⟩ | ⟨a, f, r, rfl, rfl, _⟩ <;> simp at hm
      all_goals
        repeat' split at he
        all_goals simp at he
        all_goals obtain ⟨rfl, rfl⟩ := he
        all_goals simp at hm
    -- what the instruction does about `raise()`
    have hkind : (.ds .raise ∈ p → ∃ a r, s'.log = c.sh.log ++ [.ds (.act a true r)]) ∧
        ∀ l, .ds (.raise l) ∈ evs → x = .ds .raise ∧ s'.log = c.sh.log ++ [.ds (.raise l)] := by
      have hm : evs = s'.log.drop c.sh.log.length := by rw [h3]; simp
      cases x <;> simp only [Resolver.exec] at he
      case start j =>
        split at he <;> simp at he <;> obtain ⟨rfl, rfl⟩ := he <;> rename_i hs <;> simp at hm <;> subst hm <;>
          refine ⟨by simp, fun l hl => ?_⟩ <;>
          (rcases start_cases hs with ⟨_, f, rfl, hf⟩ | ⟨_, rfl⟩ <;> simp at hl)
      case tryCancel j l =>
        split at he
        · simp at he
        · rename_i hs
          simp at he; obtain ⟨rfl, rfl⟩ := he
          simp at hm; subst hm
          refine ⟨by simp, fun l hl => ?_⟩
          rcases tryCancel_cases hs with ⟨_, rfl⟩ | ⟨_, rfl⟩ <;> simp at hl
      case ds x =>
        split at he
        · simp at he
        · rename_i hs
          simp at he; obtain ⟨rfl, rfl⟩ := he
          simp at hm; subst hm
          rcases exec_cases hs with ⟨rfl, rfl, rfl⟩ | ⟨a, f, r, rfl, rfl, rfl⟩
          · refine ⟨fun hp => ?_, fun l hl => ?_⟩
            · simp [follow] at hp
            · simp at hl; subst hl; exact ⟨rfl, rfl⟩
          · refine ⟨fun hp => ?_, fun l hl => by simp at hl⟩
            cases f with
            | false => simp at hp
            | true => exact ⟨a, r, rfl⟩
      case cancel e =>
        simp at he; obtain ⟨rfl, rfl⟩ := he
        simp at hm; subst hm
        exact ⟨by simp, by simp⟩
      all_goals
        repeat' split at he
        all_goals simp at he
        all_goals obtain ⟨rfl, rfl⟩ := he
        all_goals simp at hm
        all_goals subst hm
        all_goals exact ⟨by simp, by simp⟩
    have hpk : .ds .raise ∈ x :: r → ∃ z, Since c.sh.log z (m.view k) c.sh.log.length := fun hm => hQ.pend k _ hk hm
    refine ⟨fun j a hj hm => ?_, fun b l hb => ?_⟩
    · rw [List.getElem?_set] at hj
      split at hj
      · rename_i hjk; subst hjk
        split at hj
        · simp at hj; subst hj
          rcases List.mem_append.1 hm with hm | hm
          · obtain ⟨a, r, hl⟩ := hkind.1 hm
            refine ⟨c.sh.log.length, ⟨a, r, by rw [hl]; simp⟩, ?_, ?_⟩
            · refine Mem.act_view_self (.inr ⟨Nat.le_refl _, ?_⟩)
              show _ < s'.log.length
              rw [hl]; simp
            · intro j i h6 h7; rw [hl] at h7; simp at h7; omega
          · obtain ⟨z, hz⟩ := hpk (by simp [hm])
            refine ⟨z, ?_⟩
            rw [h3]
            exact hz.mono (fun e _ hv => Mem.act_view_mono hv)
              (fun j i h6 _ => hnew ⟨_, _, hk, by simp [hm]⟩ j i h6) (Nat.le_refl _)
        · simp at hj
      · obtain ⟨z, hz⟩ := hQ.pend j a hj hm
        refine ⟨z, ?_⟩
        rw [h3]
        exact hz.mono (fun e _ hv => Mem.act_view_mono hv)
          (fun j' i h6 _ => hnew ⟨_, _, hj, hm⟩ j' i h6) (Nat.le_refl _)
    · by_cases hlt : b < c.sh.log.length
      · rw [h3, List.getElem?_append_left hlt] at hb
        obtain ⟨z, hzb, hz⟩ := hQ.done b l hb
        refine ⟨z, hzb, ?_⟩
        rw [h3]
        refine hz.mono (fun e _ hv => ?_) (fun j i h6 h7 => by omega) (by omega)
        rw [Mem.act_past_old _ _ _ _ _ _ hlt]; exact hv
      · have hge := Nat.le_of_not_lt hlt
        have hlt' := (List.getElem?_eq_some_iff.1 hb).1
        have hb' := hb
        rw [h3, List.getElem?_append_right hge] at hb'
        obtain ⟨rfl, hl⟩ := hkind.2 l (List.mem_of_getElem? hb')
        obtain ⟨z, hz⟩ := hpk (by simp)
        have hzl : z < c.sh.log.length := by
          obtain ⟨⟨a, r, hz⟩, _⟩ := hz
          exact (List.getElem?_eq_some_iff.1 hz).1
        have hbe : b = c.sh.log.length := by rw [hl] at hlt'; simp at hlt'; omega
        refine ⟨z, by omega, ?_⟩
        rw [h3]
        refine hz.mono (fun e _ hv => ?_) (fun j i h6 h7 => by omega) (by omega)
        rw [Mem.act_past_new _ _ _ _ _ _ hge hlt', m.acquire_mono _ hv]; rfl

/-- C56. If `raise()` is only called at the end of actions, then an action that calls `raise()` happens before every
call of it, and no operation has suspended in between at a moment at which no `raise()` was on its way. -/
theorem C56_action_before_raise (O : UserOk X u0) (hX : X.direct = false)
    (h : HReach (ann (ords W) entry) (RSt.init (init u0)) c m) {b : Nat} {l : List OpId}
    (hb : c.sh.log[b]? = some (.ds (.raise l))) :
    ∃ z a r, z < b ∧ c.sh.log[z]? = some (.ds (.act a true r)) ∧ m.hb z b ∧
      ∀ j i, z < j → j < b → c.sh.log[j]? ≠ some (.ds (.enq i false)) := by
  obtain ⟨z, hz, ⟨a, r, h1⟩, h2, h3⟩ := action_before_raise O hX h hb
  exact ⟨z, a, r, hz, h1, h2, h3⟩

end

/-! ## Examples -/

/-- The flag of the example in `Verif/Recurring/Props.lean`, read and written with `relaxed`. -/
abbrev flagOrds : UOrds flag where
  A := Unit
  dec := inferInstance
  cond _ _ := [.load .rlx ()]
  act _ _ := [.store .rlx ()]
  res _ := []

/-- Two operations suspend, one is cancelled, the flag is cleared, a third operation finds it cleared. -/
def hdemo : Conf (mach (ds flag)) × Mem (Loc (ords flagOrds).A) :=
  (ann (ords flagOrds) (fun _ _ _ => false)).go (RSt.init (init true)) run1

example : hdemo.1.sh.log[4]? = some (.cancel 7) := rfl
example : hdemo.1.sh.log[6]? = some (.done 1 .cancelled) := rfl
example : hdemo.1.sh.log[7]? = some (.ds (.act false true ())) := rfl
example : hdemo.1.sh.log[8]? = some (.ds (.raise [0])) := rfl
example : hdemo.1.sh.log[9]? = some (.done 0 .awaited) := rfl
example : hdemo.1.sh.log[12]? = some (.done 2 .conditionFailed) := rfl
example : hdemo.2.hb 8 9 ∧ hdemo.2.hb 7 8 ∧ hdemo.2.hb 4 6 ∧ hdemo.2.hb 8 12 ∧ hdemo.2.hb 0 9 ∧ ¬ hdemo.2.hb 6 7 := by
  decide

example : ∃ a l, hdemo.1.sh.log[a]? = some (.ds (.raise l)) ∧ 0 ∈ l ∧ hdemo.2.hb a 9 :=
  C56_raise_before_wait (flagOk true) (HReach.go _ _ _) (n := 9) rfl
example : ∃ q, q < 12 ∧ hdemo.1.sh.log[q]? = some (.ds (.skip 2)) ∧
    ∀ a < q, ∀ l, hdemo.1.sh.log[a]? = some (.ds (.raise l)) → hdemo.2.hb a 12 :=
  C56_raise_before_condition (flagOk true) (HReach.go _ _ _) (n := 12) rfl
example : ∃ ev e, hdemo.1.sh.ct 1 = some ev ∧ hdemo.1.sh.log[e]? = some (.cancel ev) ∧ hdemo.2.hb e 6 :=
  C56_cancel_before_completion (flagOk true) (HReach.go _ _ _) (n := 6) rfl
example : hdemo.2.hb 0 9 :=
  C56_created_before_completion (flagOk true) (HReach.go _ _ _) (a := 0) (n := 9) (i := 0) rfl rfl (by omega)

/-- The latch of the example in `Verif/Recurring/Props.lean`, read and written with `relaxed`. -/
abbrev latchOrds : UOrds latch where
  A := Unit
  dec := inferInstance
  cond _ _ := [.load .rlx ()]
  act _ _ := [.store .rlx ()]
  res _ := []

/-- An operation suspends, the latch is cleared. -/
def hdemo2 : Conf (mach (ds latch)) × Mem (Loc (ords latchOrds).A) :=
  (ann (ords latchOrds) (fun _ _ _ => false)).go (RSt.init (init true)) run2

example : ∃ z a r, z < 3 ∧ hdemo2.1.sh.log[z]? = some (.ds (.act a true r)) ∧ hdemo2.2.hb z 3 ∧
    ∀ j i, z < j → j < 3 → hdemo2.1.sh.log[j]? ≠ some (.ds (.enq i false)) :=
  C56_action_before_raise (latchOk true) rfl (HReach.go _ _ _) (b := 3) (l := [0]) rfl

end Verif.Recurring
