import Verif.Run.Proof

/-! # Properties of `run` (C39) -/

namespace Verif.Run

variable {mt dummy : Bool}

/-! ## Auxiliary facts -/

/-- Every thread executes one instruction at a time. -/
theorem single {c : Conf (mach mt dummy)} (h : Reach (mach mt dummy) init c) : ∀ a ∈ c.acts, a.length ≤ 1 := by
  refine Reach.inv (M := mach mt dummy) (P := fun _ acts => ∀ a ∈ acts, a.length ≤ 1) (by simp) ?_ ?_ h
  · intro s acts a s' p ih he b hb
    have he : env mt s acts a = some (s', p) := he
    rcases List.mem_append.1 hb with hb | hb
    · exact ih b hb
    · simp at hb; subst hb
      env_cases he <;> simp
  · intro s acts k x r b s' p ih hk he a ha
    have he : exec mt dummy s x b = .ok s' p := he
    have hr := ih _ (List.mem_of_getElem? hk)
    rcases List.mem_or_eq_of_mem_set ha with ha | ha
    · exact ih a ha
    · subst ha
      have hr : r = [] := by simpa using hr
      subst hr
      clear hk
      exec_cases he <;> (try split) <;> simp

theorem no_fault {c : Conf (mach mt false)} (h : Reach (mach mt false) init c) : c.bad = false :=
  Reach.no_fault (P := Inv mt) (fun _ h => reach_inv h)
    (fun _ _ _ _ _ _ h hk he => by have := (fault_wait h hk he).1; simp at this) h

/-- How many instructions are left at most once the sender has completed. -/
def cost : Instr → Nat
  | .leave _ => 3
  | .loop _ => 2
  | .ret _ => 1
  | .emplace _ _ => 2
  | .setDone _ => 1
  | .start _ => 0
  | .wait _ => 0

def Instr.idx : Instr → Id
  | .start r | .leave r | .loop r | .wait r | .ret r | .emplace r _ | .setDone r => r

/-! ## C39 -/

/-- C39. `run` returns at most once, and only after the sender has completed, with the value of the sender. Also
if the sender completes on another thread. -/
theorem C39_value {c : Conf (mach mt dummy)} (h : Reach (mach mt dummy) init c) :
    Hist (fun before e => ∀ r v, e = .ret r v → .complete r v ∈ before ∧ ∀ w, .ret r w ∉ before) c.sh.log := by
  rintro l1 e l2 hl r v rfl
  exact (reach_inv h).ok l1 _ l2 hl

/-- C39. If the sender completes inside `start()` or `wait()`, then `wait()` is called only while it has not
completed. -/
theorem C39_waits {c : Conf (mach false dummy)} (h : Reach (mach false dummy) init c) :
    Hist (fun before e => ∀ r, e = .wait r → ∀ v, .complete r v ∉ before) c.sh.log := by
  rintro l1 e l2 hl r rfl v
  exact ((reach_inv h).ok l1 _ l2 hl).2.2 rfl v

/-- C39. `wait()` is called only during the call of `run`. -/
theorem C39_waits_during {c : Conf (mach mt dummy)} (h : Reach (mach mt dummy) init c) :
    Hist (fun before e => ∀ r, e = .wait r → .call r ∈ before ∧ ∀ v, .ret r v ∉ before) c.sh.log := by
  rintro l1 e l2 hl r rfl
  obtain ⟨h1, h2, _⟩ := (reach_inv h).ok l1 _ l2 hl
  exact ⟨h1, h2⟩

/-- C39. If nothing is left to be done then every call of `run` has returned. -/
theorem C39_returns {c : Conf (mach mt dummy)} (h : Reach (mach mt dummy) init c) (hq : Quiescent c) {r : Id}
    (hc : .call r ∈ c.sh.log) : ∃ v, .ret r v ∈ c.sh.log := by
  have I := reach_inv h
  have e := I.th r
  simp only [ws_quiescent _ hq] at e
  have hp := (I.lca r).1 hc
  apply (I.lre r).1
  cases hx : c.sh.phase r
  · exact absurd hx hp
  · simp [hx] at e
  · rfl

/-- C39. The thread that called `run` never gets stuck: as long as there is something to do, something can be
done. -/
theorem C39_progress {c : Conf (mach mt false)} (h : Reach (mach mt false) init c) (hq : ¬ Quiescent c) :
    CanStep c := by
  have I := reach_inv h
  have hb := no_fault h
  have go : ∀ (k : Nat) (x : Instr) (r : List Instr), c.acts[k]? = some (x :: r) → (∀ b, exec mt false c.sh x b ≠ .block) → CanStep c := by
    intro k x r hk hn
    refine ⟨k, fun b => ?_⟩
    cases he : exec mt false c.sh x b with
    | ok s' p => exact ⟨⟨s', c.acts.set k (p ++ r), false⟩, by simp [Mach.step, hb, hk, he]⟩
    | block => exact absurd he (hn b)
    | fault => exact ⟨⟨c.sh, c.acts, true⟩, by simp [Mach.step, hb, hk, he]⟩
  obtain ⟨k, x, r, hk⟩ := exists_top hq
  cases x
  case leave i =>
    by_cases hbl : mt = false ∧ c.sh.busy i = true
    · have e := I.bus i
      rw [if_pos hbl.2] at e
      have hpos : 0 < ws (ew i) c.acts ∨ 0 < ws (dw i) c.acts := by omega
      have : ∃ a ∈ c.acts, ∃ x ∈ a, 0 < ew i x + dw i x := by
        rcases hpos with hpos | hpos
        all_goals
          obtain ⟨a, ha, x, hx, hw⟩ := exists_of_ws_pos hpos
          exact ⟨a, ha, x, hx, by omega⟩
      obtain ⟨a, ha, x, hx, hw⟩ := this
      have hl := single h a ha
      obtain ⟨n, hn, e⟩ := List.getElem_of_mem ha
      obtain rfl : a = [x] := by
        match a, hl, hx with
        | [y], _, hx => simp at hx; rw [hx]
      refine go n x [] (by rw [List.getElem?_eq_getElem hn, e]) ?_
      intro b
      cases x <;> simp [ew, dw] at hw <;> simp only [exec] <;> split <;> simp
    · exact go k _ r hk (by intro b; simp [exec, hbl])
  all_goals
    refine go k _ r hk ?_
    intro b
    simp only [exec]
    repeat' split
    all_goals simp

/-- C39. Once the senders have completed, the calls of `run` return after a bounded number of steps. -/
theorem C39_terminates {c : Conf (mach false false)} (h : Reach (mach false false) init c)
    (hc : ∀ r, .call r ∈ c.sh.log → ∃ v, .complete r v ∈ c.sh.log) :
    Bounded c (ws cost c.acts) ∧ CanFinish c := by
  refine terminates_on (M := mach false false)
    (P := fun c => Reach (mach false false) init c ∧ ∀ r, c.sh.phase r ≠ .fresh → c.sh.compl r = true)
    (fun c => ws cost c.acts) ?_ (fun c h => no_fault h.1) (fun c h hq => C39_progress h.1 hq)
    ⟨h, fun r hr => ((reach_inv h).lco r).2 (hc r (((reach_inv h).lca r).2 hr))⟩
  rintro c k b c' ⟨h, hc⟩ hs
  have I := reach_inv h
  have hr := Reach.step h hs
  refine ⟨⟨hr, ?_⟩, ?_⟩ <;>
  · simp only [Mach.step, no_fault h, Bool.false_eq_true, if_false] at hs
    split at hs
    · rename_i x r hk
      split at hs
      · rename_i s' p he
        have he : exec false false c.sh x b = .ok s' p := he
        simp at hs; subst hs
        have C := ws_set cost p hk
        have S := ws_pos (w := sw x.idx) hk
        have L := ws_pos (w := lw x.idx) hk
        have W := ws_pos (w := ww x.idx) hk
        have sta := I.sta x.idx
        have cst := I.cst x.idx
        have wnc := I.wnc x.idx
        have dco := I.dco x.idx
        have bin := I.bin x.idx
        have ins := I.ins x.idx
        have th := I.th x.idx
        have hcx := hc x.idx
        clear hk
        dsimp only
        exec_cases he <;> simp [cost, sw, lw, ww, upd_apply, Instr.idx] at * <;> grind
      · simp at hs
      · simp at hs; have := no_fault hr; rw [← hs] at this; simp at this
    · simp at hs

/-- C39. `run(sender)` without an I/O service panics only if a sender did not complete inside `start()`: when it
panics some sender has not completed. -/
theorem C39_panics_only_if {c : Conf (mach false dummy)} (h : Reach (mach false dummy) init c)
    (hb : c.bad = true) : ∃ r, .call r ∈ c.sh.log ∧ ∀ v, .complete r v ∉ c.sh.log := by
  cases h with
  | init => simp [Mach.init] at hb
  | @step c0 c' l h0 hs =>
    have I := reach_inv h0
    cases l with
    | env a =>
      simp only [Mach.step] at hs
      split at hs
      · simp at hs
      · split at hs
        · simp at hs; subst hs; simp at hb
        · simp at hs
    | run k b =>
      simp only [Mach.step] at hs
      split at hs
      · simp at hs
      · split at hs
        · rename_i x r hk
          split at hs
          · simp at hs; subst hs; simp at hb
          · simp at hs
          · rename_i he
            simp at hs; subst hs
            obtain ⟨_, i, rfl⟩ := fault_wait I hk he
            have W := ws_pos (w := ww i) hk
            have th := I.th i
            simp [ww] at W
            refine ⟨i, (I.lca i).2 ?_, ?_⟩
            · intro hp; simp [hp] at th; omega
            · intro v hv
              have h1 := I.wnc i rfl (by split at th <;> omega)
              have h2 := (I.lco i).2 ⟨v, hv⟩
              simp [h1] at h2
        · simp at hs

/-- C39. With an I/O service `run` does nothing undefined: nothing of the call is accessed after it returned, and
the value is there when it is returned. Also if the sender completes on another thread. -/
theorem C39_no_fault {c : Conf (mach mt false)} (h : Reach (mach mt false) init c) : c.bad = false := no_fault h

/-! ## Concrete executions -/

set_option maxRecDepth 20000

/-- The first sender completes inside `start()`, the second one inside the second `wait()`. -/
def demo : Conf (mach false false) := (mach false false).go init
  [.env (.call 0), .run 0 true, .env (.complete 0 4), .run 1 true, .run 1 true, .run 0 true, .run 0 true, .run 0 true,
   .env (.call 1), .run 2 true, .run 2 true, .run 2 true, .run 2 true, .run 2 true, .run 2 true, .run 2 true,
   .env (.complete 1 5), .run 3 true, .run 3 true, .run 2 true, .run 2 true, .run 2 true]

theorem demo_reach : Reach (mach false false) init demo := Reach.go ..

theorem demo_log : demo.sh.log =
    [.call 0, .complete 0 4, .ret 0 4, .call 1, .wait 1, .wait 1, .complete 1 5, .ret 1 5] := by decide

theorem demo_quiescent : Quiescent demo := by
  have : demo.acts = [[], [], [], []] := by decide
  simp [Quiescent, this]

example := C39_value demo_reach [.call 0, .complete 0 4] (.ret 0 4) _ demo_log 0 4 rfl
example := C39_waits demo_reach [.call 0, .complete 0 4, .ret 0 4, .call 1] (.wait 1) _ demo_log 1 rfl
example : ∃ v, .ret 1 v ∈ demo.sh.log := C39_returns demo_reach demo_quiescent (by rw [demo_log]; decide)

/-- The sender has completed inside `wait()`, `run` has not returned. -/
def demo2 : Conf (mach false false) := (mach false false).go init
  [.env (.call 1), .run 0 true, .run 0 true, .run 0 true, .run 0 true, .env (.complete 1 5)]

theorem demo2_log : demo2.sh.log = [.call 1, .wait 1, .complete 1 5] := by decide

example : Bounded demo2 5 ∧ CanFinish demo2 := by
  have h := C39_terminates (c := demo2) (Reach.go ..) (by rw [demo2_log]; simp)
  have e : ws cost demo2.acts = 5 := by decide
  rwa [e] at h

/-- A sender that does not complete inside `start()`, with `dummy_io_service`. -/
def demo3 : Conf (mach false true) := (mach false true).go init
  [.env (.call 1), .run 0 true, .run 0 true, .run 0 true, .run 0 true]

example : demo3.bad = true := by decide
example := C39_panics_only_if (c := demo3) (Reach.go ..) (by decide)

/-- The sender completes on another thread, after the test of `done` and before `wait()`. -/
def demo4 : Conf (mach true false) := (mach true false).go init
  [.env (.call 1), .run 0 true, .run 0 true, .run 0 true, .env (.complete 1 5), .run 1 true, .run 1 true, .run 0 true]

theorem demo4_log : demo4.sh.log = [.call 1, .complete 1 5, .wait 1] := by decide

/-- C39. If the sender completes on another thread, then `wait()` is called although the sender has completed. (The
library does not synchronise the two threads; the I/O service would have to.) -/
theorem C39_waits_false : ∃ c : Conf (mach true false), Reach (mach true false) init c ∧
    ¬ Hist (fun before e => ∀ r, e = .wait r → ∀ v, .complete r v ∉ before) c.sh.log :=
  ⟨demo4, Reach.go .., fun h => h [.call 1, .complete 1 5] (.wait 1) [] demo4_log 1 rfl 5 (by simp)⟩
example : .call 1 ∈ demo.sh.log.take 4 ∧ ∀ v, .ret 1 v ∉ demo.sh.log.take 4 :=
  C39_waits_during demo_reach (demo.sh.log.take 4) (.wait 1) (demo.sh.log.drop 5) (by rw [demo_log]; rfl) 1 rfl
example : demo.bad = false := C39_no_fault demo_reach
example : CanStep demo2 := C39_progress (Reach.go ..) fun h => by
  have := (h (demo2.acts[1]'(by decide)) (List.getElem_mem _))
  revert this; decide

end Verif.Run
