import Verif.Callback.Strict

/-!
# Properties of `cancellation_callback` and `cancellation_observer`

Histories consist of the events `Ev` of Verif/Callback/Model.lean. `CReach false` are the executions of
all programs that respect lifetimes; `CReach true` those that also keep the strict contract of `env`.
-/

namespace Verif.Callback

abbrev CReach (b : Bool) (c : Conf mach) : Prop := Reach mach (init b) c

/-- The functor of `i` is invoked. -/
def isCall (i : Id) : Ev → Bool
  | .call j _ => j == i
  | _ => false

theorem mem_goneL {i : Id} {e : EvId} {log : List Ev} :
    (i, e) ∈ goneL log ↔ .call i e ∈ log ∨ .erase i e ∈ log ∨ .refuse i e ∈ log := by
  unfold goneL
  rw [List.mem_filterMap]
  constructor
  · rintro ⟨v, hv, h⟩
    cases v <;> simp [goneF] at h <;> obtain ⟨rfl, rfl⟩ := h <;> simp [hv]
  · rintro (h | h | h) <;> exact ⟨_, h, rfl⟩

theorem mem_made {i : Id} {e : EvId} {log : List Ev} :
    (i, e) ∈ made log ↔ .ctor i (some e) ∈ log ∨ ∃ f, .set i (some e) f ∈ log := by
  unfold made
  rw [List.mem_filterMap]
  constructor
  · rintro ⟨v, hv, h⟩
    cases v <;> simp [madeF] at h
    · rename_i t; cases t <;> simp [madeF] at h; obtain ⟨rfl, rfl⟩ := h; exact .inl hv
    · rename_i t f; cases t <;> simp [madeF] at h; obtain ⟨rfl, rfl⟩ := h; exact .inr ⟨f, hv⟩
  · rintro (h | ⟨f, h⟩) <;> exact ⟨_, h, rfl⟩

/-- Counting helper: invocations are among the invoked, removed and refused objects. -/
theorem calls_le (i : Id) (log : List Ev) :
    log.countP (isCall i) ≤ (goneL log).countP (fun p => p.1 == i) := by
  induction log with
  | nil => simp
  | cons v log ih =>
    unfold goneL at *
    cases v <;> simp [List.filterMap_cons, goneF, isCall, List.countP_cons] at * <;> omega

theorem calls_lt {i : Id} {log : List Ev} (h : ∃ e, .erase i e ∈ log ∨ .refuse i e ∈ log) :
    log.countP (isCall i) < (goneL log).countP (fun p => p.1 == i) := by
  obtain ⟨e, h⟩ := h
  induction log with
  | nil => simp at h
  | cons v log ih =>
    have h1 := calls_le i log
    unfold goneL at *
    by_cases hv : .erase i e = v ∨ .refuse i e = v
    · rcases hv with rfl | rfl <;> simp [List.filterMap_cons, goneF, isCall] <;> omega
    · have h2 : .erase i e ∈ log ∨ .refuse i e ∈ log := by
        simp at h hv; grind
      have := ih h2
      cases v <;> simp [List.filterMap_cons, goneF, isCall, List.countP_cons] at * <;> omega

theorem gone_le {b : Bool} {c : Conf mach} (h : CReach b c) (i : Id) :
    (goneL c.sh.log).countP (fun p => p.1 == i) ≤ 1 := by
  have h2 := reach_inv2 h
  have h3 := h2.place (fun p => p.1 == i)
  have h4 := h2.uniq i
  split at h4 <;> omega

/-- A property of all reachable histories holds of all prefixes of a history. -/
theorem prefixes {b : Bool} {Q : List Ev → Prop} (hQ : ∀ c, CReach b c → Q c.sh.log) {c : Conf mach}
    (h : CReach b c) {l1 l2 : List Ev} (e : c.sh.log = l1 ++ l2) : Q l1 := by
  cases l2 with
  | nil => simp at e; exact e ▸ hQ c h
  | cons v l2 =>
    exact Reach.prefixes (M := mach) (fun s : St => s.log) (by simp [init])
      (fun _ _ _ _ _ he => log_env he) (fun _ _ _ _ _ he => log_step he) hQ h l1 v l2 e

theorem call_pos {i : Id} {e : EvId} {log : List Ev} (h : .call i e ∈ log) : 0 < log.countP (isCall i) :=
  List.countP_pos_iff.2 ⟨_, h, by simp [isCall]⟩

/-- At rest no registered object belongs to a cancelled event. -/
theorem rest_wait {b : Bool} {c : Conf mach} (h : CReach b c) (hq : Quiescent c) {i : Id} {e : EvId}
    (hm : (i, e) ∈ wait c.sh.log) : c.sh.req e = false := by
  cases hr : c.sh.req e with
  | false => rfl
  | true =>
    obtain ⟨x, hx, _⟩ := (reach_inv2 h).threatened hm hr
    exact absurd hx (not_pending_quiescent hq)

/-- At rest the fate of each object with a token is decided, or it is registered. -/
theorem rest_made {b : Bool} {c : Conf mach} (h : CReach b c) (hq : Quiescent c) {i : Id} {e : EvId}
    (hm : (i, e) ∈ made c.sh.log) : (i, e) ∈ wait c.sh.log ∨ (i, e) ∈ goneL c.sh.log := by
  have key : ∀ q : Reg → Bool, q (i, e) = true → ∃ a, (a ∈ wait c.sh.log ∨ a ∈ goneL c.sh.log) ∧ q a = true := by
    intro q hqq
    have h1 := (reach_inv2 h).place q
    rw [ws_quiescent _ hq] at h1
    have h2 := List.countP_pos_iff (p := q) |>.2 ⟨_, hm, hqq⟩
    by_cases h3 : 0 < (wait c.sh.log).countP q
    · obtain ⟨a, ha, hb⟩ := List.countP_pos_iff.1 h3; exact ⟨a, .inl ha, hb⟩
    · obtain ⟨a, ha, hb⟩ := List.countP_pos_iff.1 (show 0 < (goneL c.sh.log).countP q by omega)
      exact ⟨a, .inr ha, hb⟩
  obtain ⟨a, ha, hb⟩ := key (fun p => decide (p = (i, e))) (by simp)
  simp at hb; exact hb ▸ ha

/-! ## C01: callbacks fire once, in order, and only if cancelled -/

/-- C01. The functor of a callback (or observer) is invoked at most once. -/
theorem C01_at_most_once {b : Bool} {c : Conf mach} (h : CReach b c) (i : Id) :
    c.sh.log.countP (isCall i) ≤ 1 :=
  Nat.le_trans (calls_le i _) (gone_le h i)

/-- C01. A functor is invoked only on behalf of the event whose token the object was given, and only when
`cancel()` of that event has taken effect and was not reset. -/
theorem C01_only_if_cancelled {b : Bool} {c : Conf mach} (h : CReach b c) {i : Id} {e : EvId} {l1 l2 : List Ev}
    (eq : c.sh.log = l1 ++ .call i e :: l2) :
    .cancel e ∈ l1 ∧ requested e l1 = true ∧ (.ctor i (some e) ∈ l1 ∨ ∃ f, .set i (some e) f ∈ l1) := by
  have h1 := ((reach_inv4 h).hist l1 _ l2 eq).1
  refine ⟨requested_mem h1, h1, ?_⟩
  have h2 := prefixes (Q := fun l => .call i e ∈ l → (i, e) ∈ made l) (fun c hc hm =>
    (reach_inv2 hc).made_of (.inr (mem_goneL.2 (.inl hm)))) h (l1 := l1 ++ [.call i e]) (l2 := l2) (by simp [eq])
    (by simp)
  rw [mem_made] at h2
  simpa using h2

/-- C01. When no call is running, a callback that was constructed and neither unbound nor destroyed was invoked
exactly once if its event is cancelled, and not at all otherwise. -/
theorem C01_exactly_once {b : Bool} {c : Conf mach} (h : CReach b c) (hq : Quiescent c) {i : Id} {e : EvId}
    (hc : .ctor i (some e) ∈ c.sh.log) (hu : .unbind i ∉ c.sh.log) (hd : .dtor i ∉ c.sh.log) :
    c.sh.log.countP (isCall i) = if requested e c.sh.log then 1 else 0 := by
  have h2 := reach_inv2 h
  have h4 := reach_inv4 h
  have hm := mem_made.2 (.inl hc)
  obtain ⟨hev, hcb, hfr⟩ := h4.cev i _ hc
  have hcall : ∀ e', .call i e' ∈ c.sh.log → e' = e := by
    intro e' hce
    have := h2.mev i e' (h2.made_of (.inr (mem_goneL.2 (.inl hce))))
    rw [hev] at this; simpa using this.symm
  have hphase : c.sh.phase i ≠ .gone := fun hg => hd (h4.gsrc i hcb (.inr hg))
  have hno : .erase i e ∉ c.sh.log ∧ .refuse i e ∉ c.sh.log := by
    constructor
    · intro he
      rcases h4.esrc i e he with h5 | h5 | h5
      · exact hu h5
      · exact hd h5
      · rw [(h4.tcb i h5).1] at hcb; simp at hcb
    · intro he
      have := (h4.sev i _ _ (h4.fsrc i e he)).2.1
      rw [this] at hcb; simp at hcb
  have hle := C01_at_most_once h i
  rw [← (reach_inv3 h).reqlog e]
  split
  · rename_i hr
    rcases rest_made h hq hm with h5 | h5
    · rw [rest_wait h hq h5] at hr; simp at hr
    · rcases mem_goneL.1 h5 with h6 | h6 | h6
      · have := call_pos h6; omega
      · exact absurd h6 hno.1
      · exact absurd h6 hno.2
  · rename_i hr
    apply Classical.byContradiction
    intro hn
    obtain ⟨v, hv, hv2⟩ := List.countP_pos_iff.1 (Nat.pos_of_ne_zero hn)
    cases v <;> simp [isCall] at hv2
    rw [hv2] at hv
    have := hcall _ hv; subst this
    exact hr (h4.cst i _ hv hphase)

/-- C01. Whoever is registered when `cancel()` takes effect is invoked, once the running calls have returned
(unless `unbind`, the destructor or `try_reset` was called earlier), even if it is destroyed later on. -/
theorem C01_cancel_reaches_all {b : Bool} {c : Conf mach} (h : CReach b c) (hq : Quiescent c) {i : Id} {e : EvId}
    {l1 l2 : List Ev} (eq : c.sh.log = l1 ++ .cancel e :: l2) (hb : .bound i e ∈ l1)
    (hu : .unbind i ∉ l1) (hd : .dtor i ∉ l1) (ht : .treset i ∉ l1) : .call i e ∈ c.sh.log := by
  have h1 := prefixes (Q := fun l => .bound i e ∈ l → .unbind i ∉ l → .dtor i ∉ l → .treset i ∉ l →
      (i, e) ∈ wait l ∨ .call i e ∈ l) (fun c hc hb hu hd ht => by
      rcases (reach_inv4 hc).bsrc i e hb with h | h | h
      · exact .inl h
      · exact .inr h
      · rcases (reach_inv4 hc).esrc i e h with h | h | h <;> contradiction) h eq hb hu hd ht
  rcases h1 with h1 | h1
  · rcases (reach_inv4 h).doom l1 l2 i e eq h1 with h2 | ⟨h2, h3⟩
    · rw [eq]; simp [h2]
    · rw [rest_wait h hq h2] at h3; simp at h3
  · rw [eq]; simp [h1]

/-- C01. Construction either registers the callback, if the event is not cancelled, or invokes the functor, if it is
cancelled. -/
theorem C01_constructor {b : Bool} {c : Conf mach} (h : CReach b c) (hq : Quiescent c) {i : Id} {e : EvId}
    (hc : .ctor i (some e) ∈ c.sh.log) :
    (∃ l1 l2, c.sh.log = l1 ++ .bound i e :: l2 ∧ requested e l1 = false) ∨
    (∃ l1 l2, c.sh.log = l1 ++ .call i e :: l2 ∧ requested e l1 = true) := by
  have h4 := reach_inv4 h
  have hcb := (h4.cev i _ hc).2.1
  have bnd : .bound i e ∈ c.sh.log → ∃ l1 l2, c.sh.log = l1 ++ .bound i e :: l2 ∧ requested e l1 = false := by
    intro hb
    obtain ⟨l1, l2, eq⟩ := List.append_of_mem hb
    exact ⟨l1, l2, eq, (h4.hist l1 _ l2 eq).1⟩
  rcases rest_made h hq (mem_made.2 (.inl hc)) with h5 | h5
  · exact .inl (bnd (h4.wsrc i e h5))
  · rcases mem_goneL.1 h5 with h6 | h6 | h6
    · obtain ⟨l1, l2, eq⟩ := List.append_of_mem h6
      exact .inr ⟨l1, l2, eq, (h4.hist l1 _ l2 eq).1⟩
    · exact .inl (bnd (h4.ebd i e h6))
    · have := (h4.sev i _ _ (h4.fsrc i e h6)).2.1
      rw [this] at hcb; simp at hcb

/-- C01. `is_cancellation_requested()` tells whether `cancel()` has taken effect (and was not reset). -/
theorem C01_query {b : Bool} {c : Conf mach} (h : CReach b c) {t : Option EvId} {r : Bool} {l1 l2 : List Ev}
    (eq : c.sh.log = l1 ++ .query t r :: l2) :
    r = match t with | some e => requested e l1 | none => false := by
  have := (reach_inv4 h).hist l1 _ l2 eq
  cases t <;> exact this

/-! ### Order -/

/-- Registrations, in order. -/
def regs (log : List Ev) : List Reg := log.filterMap (fun v => match v with | .bound i e => some (i, e) | _ => none)

theorem wait_sublist (log : List Ev) : (wait log).Sublist (regs log) := by
  have : ∀ l : List Ev, ∀ w r : List Reg, w.Sublist r →
      (l.foldl wait.step w).Sublist (r ++ regs l) := by
    intro l
    induction l with
    | nil => intro w r h; simpa [regs] using h
    | cons v l ih =>
      intro w r h
      rw [List.foldl_cons]
      cases v
      case bound i e =>
        have := ih (wait.step w (.bound i e)) (r ++ [(i, e)]) (by simpa [wait.step] using h)
        simpa [regs, List.filterMap_cons] using this
      all_goals
        refine (ih _ r ?_).trans ?_
        · simp only [wait.step]
          first | exact h | exact List.Sublist.trans List.erase_sublist h
        · simp [regs, List.filterMap_cons]
  simpa [wait] using this log [] [] (List.Sublist.refl _)

theorem mem_regs {i : Id} {e : EvId} {log : List Ev} : (i, e) ∈ regs log ↔ .bound i e ∈ log := by
  unfold regs
  rw [List.mem_filterMap]
  constructor
  · rintro ⟨v, hv, h⟩
    cases v <;> simp at h
    obtain ⟨rfl, rfl⟩ := h; exact hv
  · intro h; exact ⟨_, h, rfl⟩

/-- In a list without duplicates, elements cannot occur in both orders. -/
theorem no_swap {α : Type} {l a b c : List α} {x y : α} (hn : l.Nodup) (e : l = a ++ x :: b ++ y :: c)
    (hs : [y, x].Sublist l) : False := by
  subst e
  have h1 : (a ++ x :: b ++ y :: c) = (a ++ x :: b) ++ (y :: c) := rfl
  rw [h1] at hn hs
  rw [List.sublist_append_iff] at hs
  obtain ⟨l1, l2, e, s1, s2⟩ := hs
  have hd := List.nodup_append.1 hn
  cases l1 with
  | nil =>
    simp at e; subst e
    have : x ∈ y :: c := s2.subset (by simp)
    exact hd.2.2 x (by simp) x this rfl
  | cons z l1 =>
    simp at e
    have : z ∈ a ++ x :: b := s1.subset (by simp)
    exact hd.2.2 z this z (by simp [← e.1]) rfl

theorem reach_regs {b : Bool} {c : Conf mach} (h : CReach b c) : (regs c.sh.log).Nodup := by
  have key : ∀ l : List Ev, Hist Ok l → (regs l).Nodup := by
    intro l
    induction hn : l.length generalizing l with
    | zero => intro _; simp [List.length_eq_zero_iff.1 hn, regs]
    | succ n ih =>
      intro hh
      rcases List.eq_nil_or_concat l with rfl | ⟨l, w, rfl⟩
      · simp at hn
      · simp at hn
        rw [List.concat_eq_append] at hh ⊢
        have h1 := ih l hn (fun a v b e => hh a v (b ++ [w]) (by rw [e]; simp))
        have h2 := hh l w [] rfl
        cases w <;> simp [regs] <;> simp [regs] at h1 <;> try exact h1
        rename_i i e
        rw [List.nodup_append]
        refine ⟨h1, by simp, ?_⟩
        rintro a ha b hb rfl
        simp at hb; subst hb
        exact h2.2 e (mem_regs.1 ha)
  exact key _ (reach_inv4 h).hist

/-- C01. Registration order: if `i` was registered before `j` and was not unbound, destroyed or reset, then the
functor of `i` was invoked and has returned before that of `j` is invoked. -/
theorem C01_order {b : Bool} {c : Conf mach} (h : CReach b c) {i j : Id} {e : EvId} {l1 l2 l3 l4 : List Ev}
    (eq : c.sh.log = (l1 ++ .bound i e :: l2 ++ .bound j e :: l3) ++ .call j e :: l4)
    (hu : .unbind i ∉ l1 ++ .bound i e :: l2 ++ .bound j e :: l3)
    (hd : .dtor i ∉ l1 ++ .bound i e :: l2 ++ .bound j e :: l3)
    (ht : .treset i ∉ l1 ++ .bound i e :: l2 ++ .bound j e :: l3) :
    .call i e ∈ l1 ++ .bound i e :: l2 ++ .bound j e :: l3 ∧
    .ret i ∈ l1 ++ .bound i e :: l2 ++ .bound j e :: l3 := by
  have hreg : (regs (l1 ++ .bound i e :: l2 ++ .bound j e :: l3)) =
      regs l1 ++ (i, e) :: regs l2 ++ (j, e) :: regs l3 := by
    simp [regs, List.filterMap_append]
  generalize l1 ++ .bound i e :: l2 ++ .bound j e :: l3 = L at *
  have hok := ((reach_inv4 h).hist L _ l4 eq).2
  have hbi : .bound i e ∈ L := mem_regs.1 (by rw [hreg]; simp)
  have hbj : .bound j e ∈ L := mem_regs.1 (by rw [hreg]; simp)
  have hnd : (regs L).Nodup := prefixes (Q := fun l => (regs l).Nodup) (fun c hc => reach_regs hc) h eq
  have hj : (j, e) ∈ wait L := by
    have h1 := prefixes (Q := fun l => (goneL l).countP (fun p => p.1 == j) ≤ 1) (fun c hc => gone_le hc j) h
      (l1 := L ++ [.call j e]) (l2 := l4) (by simp [eq])
    rcases prefixes (Q := fun l => .bound j e ∈ l → (j, e) ∈ wait l ∨ .call j e ∈ l ∨ .erase j e ∈ l)
      (fun c hc => (reach_inv4 hc).bsrc j e) h eq hbj with h2 | h2
    · exact h2
    · exfalso
      have h3 : (j, e) ∈ goneL L := mem_goneL.2 (by rcases h2 with h2 | h2 <;> simp [h2])
      have h4 : 0 < (goneL L).countP (fun p => p.1 == j) := List.countP_pos_iff.2 ⟨_, h3, by simp⟩
      have h5 : (goneL (L ++ [.call j e])).countP (fun p => p.1 == j) =
          (goneL L).countP (fun p => p.1 == j) + 1 := by
        rw [goneL_append, List.countP_append]; simp [goneF]
      omega
  obtain ⟨hhead, hret⟩ := hok hj
  rcases prefixes (Q := fun l => .bound i e ∈ l → (i, e) ∈ wait l ∨ .call i e ∈ l ∨ .erase i e ∈ l)
      (fun c hc => (reach_inv4 hc).bsrc i e) h eq hbi with h2 | h2 | h2
  · exfalso
    have hs : (bnd e (wait L)).Sublist (bnd e (regs L)) := (wait_sublist L).filterMap _
    have hij : i ≠ j := by
      rintro rfl
      rw [hreg] at hnd
      have := (List.nodup_append.1 hnd).2.2 (i, e) (by simp) (i, e) (by simp)
      exact this rfl
    have hsub : [j, i].Sublist (bnd e (wait L)) := by
      have hi := mem_bnd.2 h2
      cases hb : bnd e (wait L) with
      | nil => rw [hb] at hi; simp at hi
      | cons y ys =>
        rw [hb] at hhead hi
        simp at hhead; subst hhead
        simp [hij] at hi
        simpa using hi
    have hnd' : (bnd e (regs L)).Nodup := by
      unfold bnd
      refine List.Pairwise.filterMap _ ?_ hnd
      rintro ⟨a1, a2⟩ ⟨b1, b2⟩ hne x h1 y h2
      simp at h1 h2; obtain ⟨rfl, rfl⟩ := h1; obtain ⟨rfl, rfl⟩ := h2
      rintro rfl; exact hne rfl
    exact no_swap (a := bnd e (regs l1)) (b := bnd e (regs l2)) (c := bnd e (regs l3)) hnd'
      (by rw [hreg]; simp [bnd]) (hsub.trans hs)
  · exact ⟨h2, hret i hbi h2⟩
  · exfalso
    rcases prefixes (Q := fun l => .erase i e ∈ l → .unbind i ∈ l ∨ .dtor i ∈ l ∨ .treset i ∈ l)
      (fun c hc => (reach_inv4 hc).esrc i e) h eq h2 with h3 | h3 | h3 <;> contradiction

/-- C01. No deadlock: as long as a call is running, some call can execute its next instruction. -/
theorem C01_progress {c : Conf mach} (h : CReach true c) (hq : ¬ Quiescent c) : CanStep c := by
  obtain ⟨k, x, r, hk, hx⟩ := progress (reach_inv1 h) (reach_short h) hq
  refine ⟨k, fun b => ?_⟩
  simp only [Mach.step, no_fault h, hk]
  cases he : exec c.sh x b with
  | block => exact absurd he (hx b)
  | ok s' p => exact ⟨⟨s', c.acts.set k (p ++ r), false⟩, rfl⟩
  | fault => exact ⟨⟨c.sh, c.acts, true⟩, rfl⟩

/-- C01. Running calls come to an end under every schedule, provided that functors do. -/
theorem C01_terminates {c : Conf mach} (h : CReach true c) : ∃ n, Bounded c n :=
  ⟨_, bounded_of (P := Inv2) (fun (s : St) acts => pot s acts) (fun _ hc => reach_inv2 hc)
    (fun _ hc => no_fault hc) (fun _ _ _ _ _ _ _ _ hi hk he => decreases hi hk he) h⟩

/-- C01. The running calls can always be run to completion. -/
theorem C01_can_finish {c : Conf mach} (h : CReach true c) : CanFinish c :=
  canFinish_of (fun _ hc => no_fault hc) (fun _ hc hq => C01_progress hc hq) (fun _ hc => C01_terminates hc) h

/-! ## C02: after unbind or destruction -/

/-- What C02 demands of a history: no invocation after `unbind()` or the destructor has returned. -/
def Silent (log : List Ev) : Prop := ∀ i e l1 l2, log = l1 ++ .call i e :: l2 → .unbound i ∉ l1 ∧ .dead i ∉ l1

/-- C02 is false of the code: `cancel()` takes the whole list before it invokes the functors, so an unbound
callback that it has not reached yet is invoked after `unbind()` has returned ... -/
def lateCall : Conf mach := mach.after (init false)
  [.env (.ctor 0 (some 0)), .run 0 true, .env (.ctor 1 (some 0)), .run 1 true, .env (.cancel 0), .run 2 true,
   .run 2 true, .env (.unbind 1), .run 3 true, .run 3 true, .run 2 true, .run 2 true]

theorem C02_unbound_is_called : ∃ c, CReach false c ∧ c.bad = false ∧ ¬ Silent c.sh.log := by
  refine ⟨lateCall, Reach.after _ _ _, rfl, fun h => ?_⟩
  have := (h 1 0 [.ctor 0 (some 0), .bound 0 0, .ctor 1 (some 0), .bound 1 0, .cancel 0, .call 0 0, .unbind 1,
    .unbound 1, .ret 0] [] rfl).1
  simp at this

/-- ... and a destroyed one is accessed. -/
def lateUse : Conf mach := mach.after (init false)
  [.env (.ctor 0 (some 0)), .run 0 true, .env (.ctor 1 (some 0)), .run 1 true, .env (.cancel 0), .run 2 true,
   .run 2 true, .env (.dtor 1), .run 3 true, .run 3 true, .run 2 true, .run 2 true]

theorem C02_destroyed_is_used : ∃ c, CReach false c ∧ c.bad = true ∧ .dead 1 ∈ c.sh.log ∧ .cancel 0 ∈ c.sh.log := by
  refine ⟨lateUse, Reach.after _ _ _, rfl, ?_, ?_⟩ <;> decide

/-- `unbind()` followed by destruction erases an element that is not in the list. -/
def twice : Conf mach := mach.after (init false)
  [.env (.ctor 0 (some 0)), .run 0 true, .env (.unbind 0), .run 1 true, .run 1 true, .env (.dtor 0), .run 2 true]

theorem C02_unbind_then_destroy : ∃ c, CReach false c ∧ c.bad = true ∧ .unbound 0 ∈ c.sh.log ∧
    .dtor 0 ∈ c.sh.log ∧ .cancel 0 ∉ c.sh.log := by
  refine ⟨twice, Reach.after _ _ _, rfl, ?_, ?_, ?_⟩ <;> decide

/-- C02, partial: under the strict contract (`unbind` and the destructor are not called while `cancel()` may still
invoke the functor, and not both unless the event is cancelled) an unbound or destroyed callback is not invoked. -/
theorem C02_silent_partial {c : Conf mach} (h : CReach true c) : Silent c.sh.log :=
  fun _ _ l1 l2 eq => (reach_inv5 h).hist l1 _ l2 eq

/-- C02, partial: under the strict contract nothing that was destroyed is accessed and the list is not corrupted. -/
theorem C02_no_fault_partial {c : Conf mach} (h : CReach true c) : c.bad = false := no_fault h

/-- C02, partial: without the strict contract, a callback is not invoked after `unbind` or the destructor has returned
if that was before `cancel()`. -/
theorem C02_before_cancel_partial {b : Bool} {c : Conf mach} (h : CReach b c) {i : Id} {e : EvId} {l1 l2 : List Ev}
    (eq : c.sh.log = l1 ++ l2) (hc : .ctor i (some e) ∈ l1) (hu : .unbound i ∈ l1 ∨ .dead i ∈ l1)
    (hn : .cancel e ∉ l1) : c.sh.log.countP (isCall i) = 0 := by
  have h1 := prefixes (Q := fun l => .ctor i (some e) ∈ l → (.unbound i ∈ l ∨ .dead i ∈ l) →
      .cancel e ∈ l ∨ .erase i e ∈ l) (fun c hc h1 h2 =>
      ((reach_inv4 hc).lrem i h2).2 e ((reach_inv4 hc).cev i _ h1).1) h eq hc hu
  rcases h1 with h1 | h1
  · exact absurd h1 hn
  · have h2 := calls_lt (i := i) (log := c.sh.log) ⟨e, .inl (by rw [eq]; simp [h1])⟩
    have := gone_le h i
    omega

/-! ## C03: observers -/

/-- C03. If `try_reset` returns true, the functor is never invoked, neither before nor after. -/
theorem C03_reset_wins {b : Bool} {c : Conf mach} (h : CReach b c) {i : Id} (ht : .tret i true ∈ c.sh.log) :
    c.sh.log.countP (isCall i) = 0 := by
  have h2 := reach_inv2 h
  have h4 := reach_inv4 h
  obtain ⟨_, _, h5⟩ := h4.rt i ht
  apply Classical.byContradiction
  intro hn
  obtain ⟨v, hv, hv2⟩ := List.countP_pos_iff.1 (Nat.pos_of_ne_zero hn)
  cases v <;> simp [isCall] at hv2
  rename_i j e; subst hv2
  have := h5 e (h2.mev j e (h2.made_of (.inr (mem_goneL.2 (.inl hv)))))
  have h6 := calls_lt (i := j) (log := c.sh.log) ⟨e, .inl this⟩
  have := gone_le h j
  omega

/-- C03. If `try_reset` returns false (and the observer was attached), the functor is invoked exactly once. -/
theorem C03_cancel_wins {b : Bool} {c : Conf mach} (h : CReach b c) (hq : Quiescent c) {i : Id}
    (ht : .tret i false ∈ c.sh.log) (hr : ∀ e, .refuse i e ∉ c.sh.log) :
    c.sh.log.countP (isCall i) = 1 := by
  have h4 := reach_inv4 h
  obtain ⟨hg, hcb, hev, her⟩ := h4.rf i ht
  obtain ⟨f, hf⟩ := h4.osrc i hcb (by rw [hg]; simp)
  cases he : c.sh.ev i with
  | none => exact absurd he hev
  | some e =>
    rw [he] at hf
    have hle := C01_at_most_once h i
    rcases rest_made h hq (mem_made.2 (.inr ⟨f, hf⟩)) with h5 | h5
    · have := (reach_inv3 h).gone i e h5 hg
      rw [rest_wait h hq h5] at this; simp at this
    · rcases mem_goneL.1 h5 with h6 | h6 | h6
      · have := call_pos h6; omega
      · exact absurd h6 (her e)
      · exact absurd h6 (hr e)

/-- C03. An observer that was attached and not reset is invoked exactly once if its event is cancelled, and not at
all otherwise. `force_set` always attaches; `try_set` does unless it returns false. -/
theorem C03_exactly_once {b : Bool} {c : Conf mach} (h : CReach b c) (hq : Quiescent c) {i : Id} {e : EvId} {f : Bool}
    (hc : .set i (some e) f ∈ c.sh.log) (ht : .treset i ∉ c.sh.log) (hr : .refuse i e ∉ c.sh.log) :
    c.sh.log.countP (isCall i) = if requested e c.sh.log then 1 else 0 := by
  have h2 := reach_inv2 h
  have h4 := reach_inv4 h
  obtain ⟨hev, hcb, hfr⟩ := h4.sev i _ _ hc
  have hcall : ∀ e', .call i e' ∈ c.sh.log → e' = e := by
    intro e' hce
    have := h2.mev i e' (h2.made_of (.inr (mem_goneL.2 (.inl hce))))
    rw [hev] at this; simpa using this.symm
  have hphase : c.sh.phase i ≠ .gone := fun hg => ht (h4.ogone i hcb (.inl hg))
  have hno : .erase i e ∉ c.sh.log := fun he => ht (h4.ogone i hcb ((h4.oe i e hcb he).1.symm))
  have hle := C01_at_most_once h i
  rw [← (reach_inv3 h).reqlog e]
  split
  · rename_i hr'
    rcases rest_made h hq (mem_made.2 (.inr ⟨f, hc⟩)) with h5 | h5
    · rw [rest_wait h hq h5] at hr'; simp at hr'
    · rcases mem_goneL.1 h5 with h6 | h6 | h6
      · have := call_pos h6; omega
      · exact absurd h6 hno
      · exact absurd h6 hr
  · rename_i hr'
    apply Classical.byContradiction
    intro hn
    obtain ⟨v, hv, hv2⟩ := List.countP_pos_iff.1 (Nat.pos_of_ne_zero hn)
    cases v <;> simp [isCall] at hv2
    rw [hv2] at hv
    have := hcall _ hv; subst this
    exact hr' (h4.cst i _ hv hphase)

/-- C03. `try_set` returns false only if the event is cancelled, and then the functor is not invoked; `force_set`
is never refused. -/
theorem C03_refused {b : Bool} {c : Conf mach} (h : CReach b c) {i : Id} {e : EvId} {l1 l2 : List Ev}
    (eq : c.sh.log = l1 ++ .refuse i e :: l2) :
    requested e l1 = true ∧ c.sh.log.countP (isCall i) = 0 ∧ .set i (some e) false ∈ c.sh.log ∧
    .set i (some e) true ∉ c.sh.log := by
  have h4 := reach_inv4 h
  have hm : .refuse i e ∈ c.sh.log := by rw [eq]; simp
  have h1 := h4.fsrc i e hm
  refine ⟨h4.hist l1 _ l2 eq, ?_, h1, fun h2 => by simpa using h4.once i _ _ _ h1 h2⟩
  have h2 := calls_lt (i := i) (log := c.sh.log) ⟨e, .inr hm⟩
  have := gone_le h i
  omega

/-- C03. Observers alone never corrupt the list: only calls of `unbind` or of the destructor of a callback
lead to faults. -/
theorem C03_no_fault {b : Bool} {c : Conf mach} (h : CReach b c) (hu : ∀ i, .unbind i ∉ c.sh.log)
    (hd : ∀ i, .dtor i ∉ c.sh.log) : c.bad = false := by
  cases hb : c.bad with
  | false => rfl
  | true =>
    obtain ⟨i, h | h⟩ := fault_closes h hb
    · exact absurd h (hu i)
    · exact absurd h (hd i)

/-! ## Examples -/

/-- Three callbacks and two observers: callback 1 is destroyed early, observer 4 is reset in time, observer 3 too late;
callback 5 is constructed after `cancel()`. -/
def demo : Conf mach := mach.after (init true)
  [.env (.ctor 0 (some 0)), .run 0 true, .env (.ctor 1 (some 0)), .run 1 true, .env (.ctor 2 (some 0)), .run 2 true,
   .env (.set 3 (some 0) false), .run 3 true, .env (.set 4 (some 0) true), .run 4 true,
   .env (.dtor 1), .run 5 true, .run 5 true, .env (.query (some 0)), .run 6 true,
   .env (.treset 4), .run 7 true, .run 7 true,
   .env (.cancel 0), .run 8 true, .run 8 true, .env (.treset 3), .run 8 true, .run 9 true, .run 9 true,
   .run 8 true, .run 8 true, .run 8 true, .run 8 true, .run 8 true,
   .env (.ctor 5 (some 0)), .run 10 true, .run 10 true, .run 10 true, .env (.query (some 0)), .run 11 true,
   .env (.set 6 (some 0) true), .run 12 true, .run 12 true, .run 12 true, .env (.set 7 (some 0) false), .run 13 true]

theorem demo_reach : CReach true demo := Reach.after _ _ _

example : demo.sh.log =
    [.ctor 0 (some 0), .bound 0 0, .ctor 1 (some 0), .bound 1 0, .ctor 2 (some 0), .bound 2 0, .set 3 (some 0) false,
     .bound 3 0, .set 4 (some 0) true, .bound 4 0, .dtor 1, .erase 1 0, .dead 1, .query (some 0) false, .treset 4,
     .erase 4 0, .tret 4 true, .cancel 0, .call 0 0, .treset 3, .ret 0, .tret 3 false, .call 2 0, .ret 2, .call 3 0,
     .ret 3, .ctor 5 (some 0), .call 5 0, .ret 5, .query (some 0) true, .set 6 (some 0) true, .call 6 0, .ret 6,
     .set 7 (some 0) false, .refuse 7 0] := by rfl
example : Quiescent demo := by intro a ha; revert a ha; decide
/-- Hypotheses of `C01_exactly_once` and `C03_exactly_once` are met. -/
example : .ctor 2 (some 0) ∈ demo.sh.log ∧ .unbind 2 ∉ demo.sh.log ∧ .dtor 2 ∉ demo.sh.log ∧
    requested 0 demo.sh.log = true := by decide
example : .set 6 (some 0) true ∈ demo.sh.log ∧ .treset 6 ∉ demo.sh.log ∧ .refuse 6 0 ∉ demo.sh.log := by decide
/-- Hypotheses of `C01_order` are met by 0 and 2. -/
example : demo.sh.log =
    ([.ctor 0 (some 0)] ++ .bound 0 0 :: [.ctor 1 (some 0), .bound 1 0, .ctor 2 (some 0)] ++ .bound 2 0 ::
      [.set 3 (some 0) false, .bound 3 0, .set 4 (some 0) true, .bound 4 0, .dtor 1, .erase 1 0, .dead 1,
       .query (some 0) false, .treset 4, .erase 4 0, .tret 4 true, .cancel 0, .call 0 0, .treset 3, .ret 0,
       .tret 3 false]) ++ .call 2 0 ::
      [.ret 2, .call 3 0, .ret 3, .ctor 5 (some 0), .call 5 0, .ret 5, .query (some 0) true, .set 6 (some 0) true,
       .call 6 0, .ret 6, .set 7 (some 0) false, .refuse 7 0] := by rfl
/-- Hypotheses of `C03_cancel_wins` are met by 3, those of `C03_reset_wins` by 4. -/
example : .tret 3 false ∈ demo.sh.log ∧ (∀ e, .refuse 3 e ∉ demo.sh.log) ∧ .tret 4 true ∈ demo.sh.log := by
  refine ⟨by decide, fun e h => ?_, by decide⟩
  have : demo.sh.log.all (fun v => match v with | .refuse 3 _ => false | _ => true) = true := by decide
  simpa using List.all_eq_true.1 this _ h
/-- Hypotheses of `C02_before_cancel_partial` are met by 1. -/
example : ∃ l1 l2, demo.sh.log = l1 ++ l2 ∧ .ctor 1 (some 0) ∈ l1 ∧ .dead 1 ∈ l1 ∧ .cancel 0 ∉ l1 :=
  ⟨demo.sh.log.take 17, demo.sh.log.drop 17, (List.take_append_drop _ _).symm, by decide, by decide, by decide⟩

/-! Applications of the theorems to `demo`. -/

theorem demo_rest : Quiescent demo := by intro a ha; revert a ha; decide

example : demo.sh.log.countP (isCall 2) ≤ 1 := C01_at_most_once demo_reach 2
example : requested 0 (demo.sh.log.take 22) = true :=
  (C01_only_if_cancelled demo_reach (i := 2) (e := 0) (l1 := demo.sh.log.take 22) (l2 := demo.sh.log.drop 23) rfl).2.1
example : demo.sh.log.countP (isCall 2) = if requested 0 demo.sh.log then 1 else 0 :=
  C01_exactly_once demo_reach demo_rest (by decide) (by decide) (by decide)
example : .call 0 0 ∈ demo.sh.log :=
  C01_cancel_reaches_all demo_reach demo_rest (i := 0) (l1 := demo.sh.log.take 17) (l2 := demo.sh.log.drop 18) rfl (by decide)
    (by decide) (by decide) (by decide)
example : (∃ l1 l2, demo.sh.log = l1 ++ .bound 5 0 :: l2 ∧ requested 0 l1 = false) ∨
    (∃ l1 l2, demo.sh.log = l1 ++ .call 5 0 :: l2 ∧ requested 0 l1 = true) :=
  C01_constructor demo_reach demo_rest (by decide)
example : true = requested 0 (demo.sh.log.take 29) :=
  C01_query demo_reach (t := some 0) (l1 := demo.sh.log.take 29) (l2 := demo.sh.log.drop 30) rfl
example : .ret 0 ∈ demo.sh.log.take 22 :=
  (C01_order demo_reach (i := 0) (j := 2) (e := 0) (l1 := demo.sh.log.take 1) (l2 := (demo.sh.log.drop 2).take 3)
    (l3 := (demo.sh.log.drop 6).take 16) (l4 := demo.sh.log.drop 23) rfl (by decide) (by decide) (by decide)).2
example : Silent demo.sh.log := C02_silent_partial demo_reach
example : demo.bad = false := C02_no_fault_partial demo_reach
example : demo.sh.log.countP (isCall 1) = 0 :=
  C02_before_cancel_partial demo_reach (e := 0) (l1 := demo.sh.log.take 17) (List.take_append_drop _ _).symm (by decide)
    (.inr (by decide)) (by decide)
example : demo.sh.log.countP (isCall 4) = 0 := C03_reset_wins demo_reach (by decide)
example : demo.sh.log.countP (isCall 3) = 1 := C03_cancel_wins demo_reach demo_rest (by decide) (fun e h => by
  have : demo.sh.log.all (fun v => match v with | .refuse 3 _ => false | _ => true) = true := by decide
  simpa using List.all_eq_true.1 this _ h)
example : demo.sh.log.countP (isCall 6) = if requested 0 demo.sh.log then 1 else 0 :=
  C03_exactly_once demo_reach demo_rest (f := true) (by decide) (by decide) (by decide)
example : demo.sh.log.countP (isCall 7) = 0 :=
  (C03_refused demo_reach (i := 7) (e := 0) (l1 := demo.sh.log.take 34) (l2 := []) rfl).2.1

/-- Observers only; the call of `cancel()` has not returned. -/
def demo2 : Conf mach := mach.after (init true)
  [.env (.set 0 (some 0) true), .run 0 true, .env (.set 1 (some 0) true), .run 1 true, .env (.cancel 0), .run 2 true, .run 2 true]

theorem demo2_reach : CReach true demo2 := Reach.after _ _ _

example : demo2.bad = false := by
  have : demo2.sh.log.all (fun v => match v with | .unbind _ => false | .dtor _ => false | _ => true) = true := by decide
  exact C03_no_fault demo2_reach (fun i h => by simpa using List.all_eq_true.1 this _ h)
    (fun i h => by simpa using List.all_eq_true.1 this _ h)
example : CanStep demo2 := C01_progress demo2_reach (fun h => absurd (h _ (List.mem_of_getElem? (i := 2) rfl)) (by decide))
example : ∃ n, Bounded demo2 n := C01_terminates demo2_reach
example : CanFinish demo2 := C01_can_finish demo2_reach

end Verif.Callback
