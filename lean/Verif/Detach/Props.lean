import Verif.Detach.Proof

/-! # Properties of `detach` and `spawn` (C40) -/

namespace Verif.Detach

/-- C40. The block is destroyed at most once, after the sender completed; for `spawn`, after the receiver was
completed. -/
theorem C40_freed {c : Conf mach} (h : Reach mach init c) :
    Hist (fun before e => ∀ b, e = .free b → .free b ∉ before ∧ (∃ v, .complete b v ∈ before) ∧
      (.create b true ∈ before → ∃ v, .recv b v ∈ before)) c.sh.log := by
  rintro l1 e l2 hl b rfl
  obtain ⟨h1, h2, h3⟩ := (reach_inv h).ok l1 _ l2 hl
  exact ⟨h2, h1, h3⟩

/-- C40. The continuation of `detach` runs at most once, after the block was destroyed. -/
theorem C40_continuation {c : Conf mach} (h : Reach mach init c) :
    Hist (fun before e => ∀ b, e = .cont b →
      .cont b ∉ before ∧ .create b false ∈ before ∧ .free b ∈ before) c.sh.log := by
  rintro l1 e l2 hl b rfl
  obtain ⟨h1, h2, h3⟩ := (reach_inv h).ok l1 _ l2 hl
  exact ⟨h3, h1, h2⟩

/-- C40. The receiver passed to `spawn` is completed at most once, with the value of the sender, before the block
that contains it is destroyed. -/
theorem C40_receiver {c : Conf mach} (h : Reach mach init c) :
    Hist (fun before e => ∀ b v, e = .recv b v →
      (∀ w, .recv b w ∉ before) ∧ .create b true ∈ before ∧ .complete b v ∈ before ∧ .free b ∉ before) c.sh.log := by
  rintro l1 e l2 hl b v rfl
  obtain ⟨h1, h2, h3, h4⟩ := (reach_inv h).ok l1 _ l2 hl
  exact ⟨h4, h1, h2, h3⟩

/-- C40. Once all calls have returned, the block of every sender that completed is destroyed and its continuation
has run (`detach`), respectively its receiver was completed with the value of the sender (`spawn`). -/
theorem C40_completes {c : Conf mach} (h : Reach mach init c) (hq : Quiescent c) {b : Id} {v : Nat} {sp : Bool}
    (hc : .create b sp ∈ c.sh.log) (hv : .complete b v ∈ c.sh.log) :
    .free b ∈ c.sh.log ∧ if sp then .recv b v ∈ c.sh.log else .cont b ∈ c.sh.log := by
  have I := reach_inv h
  have e1 := I.cs b
  simp only [ws_quiescent _ hq] at e1
  have ho := (I.lco b).2 ⟨v, hv⟩
  obtain ⟨hp, hs⟩ := (I.lcr b sp).1 hc
  have hf : c.sh.phase b = .freed := by
    cases hx : c.sh.phase b
    · exact absurd hx hp
    · simp [hx, ho] at e1
    · rfl
  refine ⟨(I.lfr b).2 hf, ?_⟩
  cases sp with
  | false => simpa using (I.lct b).2 ⟨hf, hs, ws_quiescent _ hq⟩
  | true =>
    obtain ⟨w, hw⟩ := I.lrr b hs ho (ws_quiescent _ hq)
    obtain ⟨l1, l2, e, hok⟩ := I.ok.mem hw
    have hw' : .complete b w ∈ c.sh.log := by rw [e]; simp [hok.2.1]
    have := Hist.unique I.ok (fun | .complete j _ => j == b | _ => false) (by
      intro before a qa hk2 b' hb
      cases a <;> simp at qa
      subst qa
      cases b' <;> simp
      rename_i j w
      intro e; subst e; exact hk2.2 w hb) hv hw' (by simp) (by simp)
    injection this with _ e2
    subst e2
    simpa using hw

/-- C40. The block of a sender that has not completed is not destroyed. -/
theorem C40_not_early {c : Conf mach} (h : Reach mach init c) {b : Id} (hn : ∀ v, .complete b v ∉ c.sh.log) :
    .free b ∉ c.sh.log := by
  intro hf
  obtain ⟨l1, l2, e, hok⟩ := (reach_inv h).ok.mem hf
  obtain ⟨v, hv⟩ := hok.1
  exact hn v (by rw [e]; simp [hv])

/-- C40. No block is accessed after it was destroyed. -/
theorem C40_no_fault {c : Conf mach} (h : Reach mach init c) : c.bad = false :=
  Reach.no_fault (P := Inv) (fun _ h => reach_inv h) (fun _ _ _ _ _ b h hk => not_fault h hk b) h

/-- C40. The running calls return: they execute a bounded number of instructions and never wait. -/
theorem C40_terminates {c : Conf mach} (h : Reach mach init c) : Bounded c (ws cost c.acts) ∧ CanFinish c :=
  terminates_of (M := mach) cost (fun _ _ _ _ _ he => exec_cost he)
    (by
      intro s x b
      show exec s x b ≠ .block
      cases x <;> simp only [exec] <;> (repeat' split) <;> simp) (fun _ h => C40_no_fault h) h

/-! ## A concrete execution -/

set_option maxRecDepth 20000

/-- A detached sender and two spawned ones; the last one does not complete. -/
def demo : Conf mach := mach.go init (
  [.env (.create 0 false), .run 0 true, .env (.create 1 true), .run 1 true, .env (.complete 1 7),
   .env (.complete 0 0), .run 3 true, .run 2 true, .run 3 true, .run 2 true, .run 3 true, .run 2 true,
   .env (.create 2 true), .run 4 true])

theorem demo_reach : Reach mach init demo := Reach.go ..

theorem demo_log : demo.sh.log =
    [.create 0 false, .create 1 true, .complete 1 7, .complete 0 0, .recv 1 7, .free 0, .cont 0, .free 1,
     .create 2 true] := by decide

theorem demo_quiescent : Quiescent demo := by
  have : demo.acts = [[], [], [], [], []] := by decide
  simp [Quiescent, this]

example := C40_freed demo_reach _ (.free 0) _ (demo_log.trans (by rfl :
  _ = [.create 0 false, .create 1 true, .complete 1 7, .complete 0 0, .recv 1 7] ++ Ev.free 0 :: [.cont 0, .free 1,
    .create 2 true])) 0 rfl
example : (.free 1 : Ev) ∈ demo.sh.log ∧ (.recv 1 7 : Ev) ∈ demo.sh.log := by
  simpa using C40_completes demo_reach demo_quiescent (b := 1) (v := 7) (sp := true) (by rw [demo_log]; decide)
    (by rw [demo_log]; decide)
example : (.free 0 : Ev) ∈ demo.sh.log ∧ (.cont 0 : Ev) ∈ demo.sh.log := by
  simpa using C40_completes demo_reach demo_quiescent (b := 0) (v := 0) (sp := false) (by rw [demo_log]; decide)
    (by rw [demo_log]; decide)
example : (.free 2 : Ev) ∉ demo.sh.log := C40_not_early demo_reach (by rw [demo_log]; simp)
example : demo.bad = false := C40_no_fault demo_reach
example : .free 0 ∈ demo.sh.log.take 6 :=
  (C40_continuation demo_reach (demo.sh.log.take 6) (.cont 0) (demo.sh.log.drop 7) (by rw [demo_log]; rfl) 0 rfl).2.2
example : .free 1 ∉ demo.sh.log.take 4 :=
  (C40_receiver demo_reach (demo.sh.log.take 4) (.recv 1 7) (demo.sh.log.drop 5) (by rw [demo_log]; rfl) 1 7 rfl).2.2.2
example : Bounded demo (ws cost demo.acts) ∧ CanFinish demo := C40_terminates demo_reach

end Verif.Detach
