import Verif.Run.Props

/-!
# `run_forever` (basic.hpp lines 458-461)

`run_forever(ios)` is `run(forever_sender{}, ios)`. `start()` of a `forever_operation` does nothing (lines 441-443) and nobody
else calls its receiver: it is a sender that never completes, for which the history has no event `complete`.
-/

namespace Verif.Run

variable {mt dummy : Bool}

/-- The thread `k` executes `n` instructions. -/
def runs (mt dummy : Bool) (c : Conf (mach mt dummy)) (k : Nat) : Nat → Option (Conf (mach mt dummy))
  | 0 => some c
  | n + 1 => match (mach mt dummy).step c (.run k true) with
    | some c' => runs mt dummy c' k n
    | none => none

/-- C76. `run` with a sender that never completes does not return, whatever `wait()` does. -/
theorem C76_forever_no_return {c : Conf (mach mt dummy)} (h : Reach (mach mt dummy) init c) {r : Id}
    (hn : ∀ v, .complete r v ∉ c.sh.log) (v : Nat) : .ret r v ∉ c.sh.log := by
  intro hr
  obtain ⟨l1, l2, h1, h2⟩ := Hist.mem (C39_value h) hr
  exact hn v (by rw [h1]; exact List.mem_append_left _ (h2 r v rfl).1)

/-- C76. `run` with a sender that has not completed keeps calling `wait()`: at any moment, after at most four steps of its thread it
calls `wait()` again. -/
theorem C76_forever_waits {c : Conf (mach mt false)} (h : Reach (mach mt false) init c) {r : Id} (hc : .call r ∈ c.sh.log)
    (hn : ∀ v, .complete r v ∉ c.sh.log) :
    ∃ k n c', n ≤ 4 ∧ runs mt false c k n = some c' ∧ c'.sh.log = c.sh.log ++ [.wait r] := by
  have I := reach_inv h
  have hb := no_fault h
  have hco : c.sh.compl r = false := by
    cases hx : c.sh.compl r
    · rfl
    · obtain ⟨v, hv⟩ := (I.lco r).1 hx; exact absurd hv (hn v)
  have hbu : c.sh.busy r = false := by
    cases hx : c.sh.busy r
    · rfl
    · have := (I.bco r hx).1; simp [hco] at this
  have hdo : c.sh.done r = false := by
    cases hx : c.sh.done r
    · rfl
    · have := ((I.dco r).1 hx).1; simp [hco] at this
  have hph : c.sh.phase r = .running := by
    have h1 := (I.lca r).1 hc
    cases hx : c.sh.phase r
    · exact absurd hx h1
    · rfl
    · have := I.pdo r hx; simp [hdo] at this
  have wait4 : ∀ (c : Conf (mach mt false)) (k : Nat), c.bad = false → c.acts[k]? = some [.wait r] →
      ∃ c', runs mt false c k 1 = some c' ∧ c'.sh.log = c.sh.log ++ [.wait r] := by
    intro c k hb hk
    refine ⟨⟨{ c.sh with inside := upd c.sh.inside r true, log := c.sh.log ++ [.wait r] }, c.acts.set k ([.leave r] ++ []), false⟩,
      ?_, rfl⟩
    simp [runs, Mach.step, hb, hk, exec]
  have loop3 : ∀ (c : Conf (mach mt false)) (k : Nat), c.bad = false → c.acts[k]? = some [.loop r] → c.sh.phase r = .running →
      c.sh.done r = false → ∃ c', runs mt false c k 2 = some c' ∧ c'.sh.log = c.sh.log ++ [.wait r] := by
    intro c k hb hk hp hd
    have hlt := (List.getElem?_eq_some_iff.1 hk).1
    obtain ⟨c', h1, h2⟩ := wait4 ⟨c.sh, c.acts.set k ([.wait r] ++ []), false⟩ k rfl (by simp [hlt])
    refine ⟨c', ?_, h2⟩
    rw [← h1]
    simp [runs, Mach.step, hb, hk, exec, hp, hd]
  have leave2 : ∀ (c : Conf (mach mt false)) (k : Nat), c.bad = false → c.acts[k]? = some [.leave r] → c.sh.phase r = .running →
      c.sh.done r = false → c.sh.busy r = false →
      ∃ c', runs mt false c k 3 = some c' ∧ c'.sh.log = c.sh.log ++ [.wait r] := by
    intro c k hb hk hp hd hbu
    have hlt := (List.getElem?_eq_some_iff.1 hk).1
    obtain ⟨c', h1, h2⟩ := loop3 ⟨{ c.sh with inside := upd c.sh.inside r false }, c.acts.set k ([.loop r] ++ []), false⟩ k rfl
      (by simp [hlt]) hp hd
    refine ⟨c', ?_, h2⟩
    rw [← h1]
    simp [runs, Mach.step, hb, hk, exec, hbu]
  have start1 : ∀ (c : Conf (mach mt false)) (k : Nat), c.bad = false → c.acts[k]? = some [.start r] → c.sh.phase r = .running →
      c.sh.done r = false → c.sh.busy r = false →
      ∃ c', runs mt false c k 4 = some c' ∧ c'.sh.log = c.sh.log ++ [.wait r] := by
    intro c k hb hk hp hd hbu
    have hlt := (List.getElem?_eq_some_iff.1 hk).1
    obtain ⟨c', h1, h2⟩ := leave2 ⟨{ c.sh with started := upd c.sh.started r true, inside := upd c.sh.inside r true },
      c.acts.set k ([.leave r] ++ []), false⟩ k rfl (by simp [hlt]) hp hd hbu
    refine ⟨c', ?_, h2⟩
    rw [← h1]
    simp [runs, Mach.step, hb, hk, exec, hp]
  have hth := I.th r
  simp [hph] at hth
  have : ∃ a ∈ c.acts, ∃ x ∈ a, 0 < sw r x + vw r x + lw r x + ww r x + rw' r x := by
    have e3 : ∀ A B : Instr → Nat, ws (fun z => A z + B z) c.acts = ws A c.acts + ws B c.acts := fun A B =>
      ws_add (fun _ => rfl) _
    apply exists_of_ws_pos (w := fun x => sw r x + vw r x + lw r x + ww r x + rw' r x)
    simp only [e3]; omega
  obtain ⟨a, ha, x, hx, hw⟩ := this
  have hl := single h a ha
  obtain rfl : a = [x] := by
    match a, hl, hx with
    | [y], _, hx => simp at hx; rw [hx]
  obtain ⟨k, hk⟩ := List.getElem?_of_mem ha
  have hret : x ≠ .ret r := by
    rintro rfl
    have h1 := ws_pos (w := rw' r) hk
    simp [rw'] at h1
    have := I.rdo r (by omega)
    simp [hdo] at this
  have hif : ∀ j, (0 < if j = r then 1 else 0) → j = r := by
    intro j hj
    split at hj
    · assumption
    · omega
  cases x <;> simp [sw, vw, lw, ww, rw'] at hw hret <;> obtain rfl := hif _ hw
  · obtain ⟨c', h1, h2⟩ := start1 c k hb hk hph hdo hbu; exact ⟨k, 4, c', by omega, h1, h2⟩
  · obtain ⟨c', h1, h2⟩ := leave2 c k hb hk hph hdo hbu; exact ⟨k, 3, c', by omega, h1, h2⟩
  · obtain ⟨c', h1, h2⟩ := loop3 c k hb hk hph hdo; exact ⟨k, 2, c', by omega, h1, h2⟩
  · obtain ⟨c', h1, h2⟩ := wait4 c k hb hk; exact ⟨k, 1, c', by omega, h1, h2⟩
  · exact absurd rfl hret

/-! ## The hypotheses are met -/

/-- `run_forever` has called `wait()` twice. -/
def forever : Conf (mach false false) := (mach false false).after init
  [.env (.call 0), .run 0 true, .run 0 true, .run 0 true, .run 0 true, .run 0 true, .run 0 true, .run 0 true]

theorem forever_reach : Reach (mach false false) init forever := Reach.after _ _ _
theorem forever_log : forever.sh.log = [.call 0, .wait 0, .wait 0] := by decide

example (v : Nat) : .ret 0 v ∉ forever.sh.log := C76_forever_no_return forever_reach (by rw [forever_log]; simp) v
example : ∃ k n c', n ≤ 4 ∧ runs false false forever k n = some c' ∧ c'.sh.log = forever.sh.log ++ [.wait 0] :=
  C76_forever_waits forever_reach (by rw [forever_log]; simp) (by rw [forever_log]; simp)

end Verif.Run
