import Verif.Promise.OwnerEnv
import Verif.Promise.HandlesProps

/-!
# How long a promise and its value live

The documentation of `promise` and `future` says that the stored data "is only destroyed when the promise, and all associated
futures go out of scope". Nothing is said about when a promise may be destroyed.
-/

namespace Verif.Promise

namespace Owner

/-- C99, partial: for any number of threads, futures and operations, if the promise is not destroyed before `set_value` has
returned (the missing part: see `C99_destroy_after_value_false`). Nothing that does not exist any more is accessed and no
assertion fails. The shared state is destroyed at most once, and only when no future is left and `set_value` or the destructor
of the promise was called. Futures may be destroyed as soon as their operations have completed, also by code that `set_value`
runs. Once all calls have returned, the state of a promise that was set or destroyed and has no future left was destroyed. -/
theorem C99_promise_lifetime_partial {c : Conf (mach true)} (hc : Reach (mach true) .init c) :
    c.bad = false ∧ c.sh.log.count .free ≤ 1 ∧
    (.free ∈ c.sh.log → c.sh.own = [] ∧ (c.sh.called = true ∨ c.sh.dead = true)) ∧
    (Quiescent c → c.sh.own = [] → c.sh.called = true ∨ c.sh.dead = true → .free ∈ c.sh.log) := by
  obtain ⟨h, hb⟩ := inv hc
  have hT := h.one_tok
  have T := tok c.acts
  have hl := h.log
  refine ⟨hb, by rw [hl]; exact toNat_le _, fun hm => ?_, fun hq ho hd => ?_⟩
  · have h0 := List.count_pos_iff.2 hm
    rw [hl] at h0
    have hf : c.sh.freed = true := by revert h0; cases c.sh.freed <;> simp
    have hz := hT.2.2.2.2 hf
    have hctr := h.ctr
    rw [hz] at hctr
    refine ⟨List.length_eq_zero_iff.1 (by omega), ?_⟩
    cases hp : c.sh.ptr
    · exact h.np hp
    · rw [hp] at hctr
      have : ws wW c.acts ≠ 0 := by intro e; simp [e] at hctr
      by_cases h1 : 0 < ws wS c.acts
      · exact .inl (h.ic (hT.2.1 h1))
      · exact .inr (hT.2.2.1 (by omega)).1
  · have e := fun w => ws_quiescent (ι := Instr) w (acts := c.acts) hq
    have hp : c.sh.ptr = false := by
      have h1 := h.tS; have h2 := h.tD
      rw [e] at h1 h2
      rcases hd with hd | hd
      · rcases h.hv hd with h3 | h3
        · exact h3
        · rw [h3] at h1; simp at h1
      · rw [hd] at h2
        apply h.kl
        revert h2; cases c.sh.alive <;> simp
    have hctr := h.ctr; have hfr := h.fr
    rw [e, ho, hp] at hctr
    simp at hctr
    rw [e, hctr] at hfr
    apply List.count_pos_iff.1
    simp at hfr
    rw [hl, hfr]; simp

/-- `set_value` with one future. The operation on the future completes, and the receiver of the value destroys the
promise while `set_value` is still running. -/
def early : List (Lbl (mach false)) :=
  [.env (.getFuture 0), .run 0 true, .env (.get 0 0), .run 1 true, .env .set, .run 2 true, .run 2 true, .run 2 true,
   .env .destroy, .run 3 true, .run 3 true, .run 3 true, .run 3 true]

/-- C99 is false: a promise is destroyed after a `get` has received the value. The destructor finishes, and `set_value`
then accesses the promise (line 175). -/
theorem C99_destroy_after_value_false : ∃ c : Conf (mach false), Reach (mach false) .init c ∧
    c.sh.log = [.begin 0 0, .value 0, .destroyed] ∧ c.bad = false ∧
    ∃ c', (mach false).step c (.run 2 true) = some c' ∧ c'.bad = true :=
  ⟨(mach false).after .init early, Reach.after _ _ _, by decide, by decide, _, rfl, by decide⟩

/-- As `early`, but the destructor and `set_value` run `disown_state` at the same time. -/
def twice : List (Lbl (mach false)) :=
  [.env (.getFuture 0), .run 0 true, .env (.get 0 0), .run 1 true, .env .set, .run 2 true, .run 2 true, .run 2 true,
   .env .destroy, .run 2 true, .run 3 true, .run 2 true, .run 3 true, .run 3 true]

/-- C99 is false: in the same way both give up the one reference of the promise, and the value is destroyed although a
future exists. The next `get` of the future accesses the destroyed state. -/
theorem C99_value_lost_false : ∃ c : Conf (mach false), Reach (mach false) .init c ∧
    c.sh.log = [.begin 0 0, .value 0, .free] ∧ c.sh.own = [0] ∧ c.bad = false ∧
    ∃ c', (mach false).runs c [.env (.get 1 0), .run 4 true] = some c' ∧ c'.bad = true :=
  ⟨(mach false).after .init twice, Reach.after _ _ _, by decide, by decide, by decide, _, rfl, by decide⟩

/-- The hypotheses are met: two futures, two operations. The first operation completes inside `set_value`, which runs code
that destroys its future at once; then the promise is destroyed, then the other future is used and destroyed. -/
def demo : List (Lbl (mach true)) :=
  [.env (.getFuture 0), .run 0 true, .env (.copy 0 1), .run 1 true, .env (.get 0 0), .run 2 true,
   .env .set, .run 3 true, .run 3 true, .run 3 true, .env (.drop 0), .run 4 true,
   .run 3 true, .run 3 true, .run 3 true, .run 3 true, .env .destroy, .run 5 true, .run 5 true, .run 5 true,
   .env (.get 1 1), .run 6 true, .run 6 true, .env (.drop 1), .run 7 true, .run 7 true]

example : ∃ c : Conf (mach true), Reach (mach true) .init c ∧ Quiescent c ∧ c.sh.own = [] ∧ c.sh.called = true ∧
    c.sh.log = [.begin 0 0, .value 0, .drop 0, .setRet, .destroyed, .begin 1 1, .value 1, .drop 1, .free] :=
  ⟨(mach true).after .init demo, Reach.after _ _ _, by unfold Quiescent; decide, by decide, by decide, by decide⟩

end Owner

namespace Handles

/-- C99 is false of the documentation: after `set_value()` on a promise without futures, the value is destroyed although
the promise is in scope, and a future made by `get_future()` is empty. -/
theorem C99_value_in_scope_false : ∃ s s', run .init [.newPromise 0, .setValue 0] = .ok s ∧ 0 ∈ s.live ∧
    s.log = [.alloc 0, .free 0] ∧ step s (.getFuture 1 0) = .ok s' ∧ 1 ∈ s'.live ∧ s'.ptr 1 = none :=
  ⟨_, _, rfl, by decide, by decide, rfl, by decide, by decide⟩

/-- C99, partial: what holds instead, for all programs over any number of handles that respect `Allowed`. A value that was
set is destroyed exactly when no future refers to it, whether the promise is in scope or not. -/
theorem C99_value_life_partial {s : St} (h : HReach s) {a : Nat} (ha : .alloc a ∈ s.log) (hv : s.has a = true) :
    .free a ∉ s.log ↔ ∃ g ∈ s.live, s.isP g = false ∧ s.ptr g = some a := by
  have H := C36_state_lifetime_partial h
  constructor
  · intro hf
    apply Classical.byContradiction
    intro hn
    apply hf
    apply List.count_pos_iff.1
    rw [H.2.2.1 a ha ?_]
    · simp
    intro g hg hp
    cases hi : s.isP g
    · exact hn ⟨g, hg, hi, hp⟩
    · have := h.inv.hasP g a hg hi hp
      rw [hv] at this; simp at this
  · rintro ⟨g, hg, -, hp⟩
    exact H.2.1 a ha ⟨g, hg, hp⟩

/-- The operation gives the state of promise `h` away. -/
def Op.disowns (h : Nat) : Op → Bool
  | .setValue g | .destroy g => g = h
  | .moveP _ g => g = h
  | .assignP f g => f = h || g = h
  | _ => false

theorem drop_same {s s' : St} {p : Option Nat} (h : drop s p = .ok s') :
    s'.live = s.live ∧ s'.isP = s.isP ∧ s'.ptr = s.ptr := by
  unfold drop destruct at h
  split at h
  · cases h; simp
  · split at h
    · split at h
      · split at h
        · cases h; simp
        · cases h
      · cases h; simp
    · cases h

theorem ref_same {s s' : St} {p : Option Nat} (h : ref s p = .ok s') :
    s'.live = s.live ∧ s'.isP = s.isP ∧ s'.ptr = s.ptr := by
  unfold ref at h
  split at h
  · cases h
  · split at h
    · cases h; simp
    · cases h

theorem refIf_same {s s' : St} {p : Option Nat} (h : refIf s p = .ok s') :
    s'.live = s.live ∧ s'.isP = s.isP ∧ s'.ptr = s.ptr := by
  unfold refIf at h
  split at h
  · cases h; simp
  · exact ref_same h

theorem keeps {s s' : St} {o : Op} {h : Nat} (hs : step s o = .ok s') (hp : s.P h = true) (hd : o.disowns h = false) :
    s'.P h = true ∧ s'.ptr h = s.ptr h := by
  simp only [St.P, Bool.and_eq_true, decide_eq_true_eq] at hp ⊢
  obtain ⟨hl, hi⟩ := hp
  cases o with
  | newPromise g =>
    simp only [step] at hs; split at hs
    · cases hs
    · cases hs; simp only [mk]; grind
  | moveP x g =>
    simp only [step] at hs; split at hs
    · cases hs; simp only [mk, swap, Op.disowns] at hd ⊢; grind
    · cases hs
  | assignP x g =>
    simp only [step] at hs; split at hs
    · have := drop_same hs; simp only [setPtr, Op.disowns] at this hd; rw [this.1, this.2.1, this.2.2]; grind
    · cases hs
  | setValue g =>
    simp only [step] at hs; split at hs
    · split at hs
      · cases hs
      · split at hs
        · rename_i a _ _
          cases hr : Handles.drop { s with has := upd s.has a true } (some a) with
          | ok s1 =>
            have := drop_same hr
            rw [hr] at hs; simp only [Res.bind] at hs; cases hs
            simp only [setPtr, Op.disowns] at this hd ⊢; grind
          | fault => rw [hr] at hs; cases hs
          | illTyped => rw [hr] at hs; cases hs
        · cases hs
    · cases hs
  | getFuture x g | copyF x g =>
    simp only [step] at hs; split at hs
    · have := refIf_same hs; simp only [mk] at this; rw [this.1, this.2.1, this.2.2]; grind
    · cases hs
  | newFuture g =>
    simp only [step] at hs; split at hs
    · cases hs
    · cases hs; simp only [mk]; grind
  | copyAssignF x g =>
    simp only [step] at hs; split at hs
    · rename_i hb; simp only [St.F] at hb
      cases hr : Handles.drop s (s.ptr x) with
      | ok s1 =>
        have := drop_same hr
        rw [hr] at hs; simp only [Res.bind] at hs
        have h2 := ref_same hs; simp only [setPtr] at h2; rw [h2.1, h2.2.1, h2.2.2, this.1, this.2.1, this.2.2]; grind
      | fault => rw [hr] at hs; cases hs
      | illTyped => rw [hr] at hs; cases hs
    · cases hs
  | moveF x g =>
    simp only [step] at hs; split at hs
    · rename_i hb; simp only [St.F] at hb
      cases hs; simp only [mk, swap]; grind
    · cases hs
  | moveAssignF x g | swapF x g =>
    simp only [step] at hs; split at hs
    · rename_i hb; simp only [St.F] at hb
      cases hs; simp only [swap]; grind
    · cases hs
  | destroy g =>
    simp only [step] at hs; split at hs
    · cases hr : Handles.drop s (s.ptr g) with
      | ok s1 =>
        have := drop_same hr
        rw [hr] at hs; simp only [Res.bind] at hs; cases hs
        simp only [Op.disowns] at hd ⊢; grind
      | fault => rw [hr] at hs; cases hs
      | illTyped => rw [hr] at hs; cases hs
    · cases hs

/-- C99, partial: a promise that has a state keeps it through every program that does not set, destroy, move from or assign
the promise, whatever the program does with other handles; `get_future()` then returns a future of the same state, which is
not empty. (Missing: `get_future()` after `set_value()`, see `C99_value_in_scope_false`.) -/
theorem C99_get_future_partial {s s1 s2 : St} {h f a : Nat} {os : List Op} (hp : s.P h = true) (ha : s.ptr h = some a)
    (hr : run s os = .ok s1) (hd : ∀ o ∈ os, o.disowns h = false) (hg : step s1 (.getFuture f h) = .ok s2) :
    s2.F f = true ∧ s2.ptr f = some a := by
  have hk : s1.P h = true ∧ s1.ptr h = some a := by
    induction os generalizing s with
    | nil => simp only [run] at hr; cases hr; exact ⟨hp, ha⟩
    | cons o os ih =>
      simp only [run] at hr
      cases ho : step s o with
      | ok s' =>
        rw [ho] at hr; simp only [Res.bind] at hr
        have k := keeps ho hp (hd o (by simp))
        exact ih k.1 (k.2.trans ha) hr (fun o ho => hd o (by simp [ho]))
      | fault => rw [ho] at hr; cases hr
      | illTyped => rw [ho] at hr; cases hr
  simp only [step] at hg
  split at hg
  · have := refIf_same hg
    simp only [mk] at this
    simp only [St.F, this]
    simp [hk.2]
  · cases hg

/-- The hypotheses are met: two promises; the first is used while the second is set and moved. -/
example : ∃ s s1 s2, run .init [.newPromise 0, .newPromise 1] = .ok s ∧ s.P 0 = true ∧ s.ptr 0 = some 0 ∧
    run s [.getFuture 2 0, .setValue 1, .moveP 3 1, .destroy 2] = .ok s1 ∧ step s1 (.getFuture 4 0) = .ok s2 :=
  ⟨_, _, _, rfl, by decide, by decide, rfl, rfl⟩

/-- The hypotheses of `C99_value_life_partial` are met: the value is kept by a future when its promise is gone. -/
example : ∃ s, HReach s ∧ .alloc 0 ∈ s.log ∧ s.has 0 = true ∧ .free 0 ∉ s.log ∧ s.live = [1] :=
  ⟨_, .step (.step (.step (.step .init (o := .newPromise 0) trivial rfl) (o := .getFuture 1 0) trivial rfl)
    (o := .setValue 0) (by simp [Allowed]; decide) rfl) (o := .destroy 0) trivial rfl,
    by decide, by decide, by decide, by decide⟩

end Handles

end Verif.Promise
