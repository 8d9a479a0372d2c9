import Verif.OneshotPrim.Proof

/-!
# Properties of `oneshot_primitive`

Histories consist of the events `Ev` of Verif/OneshotPrim/Model.lean: `begin i` (start of a wait),
`done i` (its receiver is completed), `call`/`ret` (call and return of `raise()`), `raise` (the exchange
inside `raise()`), `push i` (`start()` of wait `i` returns without completion).
-/

namespace Verif.OneshotPrim

abbrev OReach (c : Conf mach) : Prop := Reach mach init c

theorem mem_dones {i : Id} {log : List Ev} : i ∈ dones log ↔ .done i ∈ log := by
  unfold dones
  rw [List.mem_filterMap]
  constructor
  · rintro ⟨v, hv, h⟩; cases v <;> simp [isDone] at h; subst h; exact hv
  · intro h; exact ⟨_, h, rfl⟩

theorem mem_begun {i : Id} {log : List Ev} : i ∈ begun log ↔ .begin i ∈ log := by
  unfold begun
  rw [List.mem_filterMap]
  constructor
  · rintro ⟨v, hv, h⟩; cases v <;> simp [isBegin] at h; subst h; exact hv
  · intro h; exact ⟨_, h, rfl⟩

theorem count_dones (i : Id) (log : List Ev) : (dones log).count i = log.count (.done i) := by
  induction log with
  | nil => rfl
  | cons v log ih =>
    unfold dones at *
    cases v <;> simp [List.filterMap_cons, isDone, List.count_cons, ih]

/-- C24. A wait completes at most once. -/
theorem C24_at_most_once {c : Conf mach} (h : OReach c) (i : Id) : c.sh.log.count (.done i) ≤ 1 := by
  obtain ⟨l, h⟩ := reach_inv h
  rw [← count_dones, h.gone]; split <;> omega

/-- C24. Only waits that were started complete, and only after `raise()` was called. -/
theorem C24_not_before_raise {c : Conf mach} (h : OReach c) {i : Id} {l1 l2 : List Ev}
    (e : c.sh.log = l1 ++ .done i :: l2) : .raise ∈ l1 ∧ .begin i ∈ c.sh.log := by
  obtain ⟨l, h⟩ := reach_inv h
  refine ⟨h.hist l1 _ l2 e i rfl, ?_⟩
  have h1 : i ∈ dones c.sh.log := mem_dones.2 (by rw [e]; simp)
  have h2 := h.place (· == i)
  have h3 : 0 < (dones c.sh.log).countP (· == i) := List.countP_pos_iff.2 ⟨i, h1, by simp⟩
  obtain ⟨j, hj, hji⟩ := List.countP_pos_iff.1 (show 0 < (begun c.sh.log).countP (· == i) by omega)
  simp at hji; subst hji; exact mem_begun.1 hj

/-- C24. The exchange belongs to a call of `raise()`, of which there is one. -/
theorem C24_raise_called {c : Conf mach} (h : OReach c) : c.sh.log.count .raise ≤ 1 ∧
    (.raise ∈ c.sh.log → c.sh.called = true) := by
  obtain ⟨l, h⟩ := reach_inv h
  have := h.calls
  refine ⟨by split at this <;> omega, fun hm => ?_⟩
  have := List.count_pos_iff.2 hm
  split at *
  · assumption
  · omega

/-- C24. When `raise()` has returned, every wait whose `start()` had returned is completed, whatever
other calls are still running. -/
theorem C24_raise_completes {c : Conf mach} (h : OReach c) {i : Id} (hr : .ret ∈ c.sh.log)
    (hp : .push i ∈ c.sh.log) : .done i ∈ c.sh.log := by
  obtain ⟨l, h⟩ := reach_inv h
  have h1 := List.count_pos_iff.2 hr
  have h2 := h.walks
  have h3 := h.raised
  have hf : c.sh.head = .fired := by
    by_cases hf : c.sh.head = .fired
    · exact hf
    · rw [if_neg hf] at h3; omega
  rw [if_pos hf] at h3
  have h4 := h.wend hf (by omega)
  subst h4
  rcases h.pushed i hp with h5 | h5 | ⟨q, a, h5, h6⟩
  · simp at h5
  · exact mem_dones.1 h5
  · have := ws_pos_of_mem (w := isWalk) h5 h6
    simp [isWalk] at this; omega

/-- C24. Nobody is lost: after `raise()`, when no call is running, every started wait is completed. -/
theorem C24_nobody_lost {c : Conf mach} (h : OReach c) (hq : Quiescent c) (hr : .call ∈ c.sh.log) {i : Id}
    (hb : .begin i ∈ c.sh.log) : .done i ∈ c.sh.log := by
  have hcalled : c.sh.called = true := by
    have := Reach.inv (M := mach) (P := fun s _ => .call ∈ s.log → s.called = true) (by simp [init])
      (by
        intro s acts a s' p hs he
        cases a <;> simp only [env] at he <;> split at he <;> simp at he <;> obtain ⟨rfl, rfl⟩ := he
        · intro hm; simp at hm; exact hs hm
        · intro _; rfl)
      (by
        intro s acts k x r b s' p hs hk he
        cases x with
        | walk q =>
          cases q <;> simp only [exec] at he <;> (try split at he) <;> simp at he <;> obtain ⟨rfl, rfl⟩ := he <;>
            intro hm <;> (try simp at hm) <;> exact hs hm
        | start i => simp [exec] at he; obtain ⟨rfl, rfl⟩ := he; exact hs
        | loop i q =>
          simp only [exec] at he
          split at he
          · simp at he; obtain ⟨rfl, rfl⟩ := he; exact hs
          split at he
          · simp at he
          split at he <;> simp at he <;> obtain ⟨rfl, rfl⟩ := he <;> intro hm <;> simp at hm <;> exact hs hm
        | raise =>
          simp only [exec] at he
          split at he <;> simp at he
          obtain ⟨rfl, rfl⟩ := he; intro hm; simp at hm; exact hs hm
        | setv i =>
          simp only [exec, St.finish] at he
          split at he <;> simp at he
          obtain ⟨rfl, rfl⟩ := he; intro hm; simp at hm; exact hs hm
        | complete i q =>
          simp only [exec, St.finish] at he
          split at he <;> simp at he
          obtain ⟨rfl, rfl⟩ := he; intro hm; simp at hm; exact hs hm) h
    exact this hr
  obtain ⟨l, h⟩ := reach_inv h
  have h1 := h.calls
  rw [if_pos hcalled, ws_quiescent isRaise hq] at h1
  have h3 := h.raised
  have hf : c.sh.head = .fired := by
    by_cases hf : c.sh.head = .fired
    · exact hf
    · rw [if_neg hf] at h3; omega
  have h4 := h.wend hf (ws_quiescent isWalk hq)
  subst h4
  have h5 := h.place (· == i)
  rw [ws_quiescent _ hq] at h5
  have h6 : 0 < (begun c.sh.log).countP (· == i) := List.countP_pos_iff.2 ⟨i, mem_begun.2 hb, by simp⟩
  obtain ⟨j, hj, hji⟩ := List.countP_pos_iff.1 (show 0 < (dones c.sh.log).countP (· == i) by simp at h5; omega)
  simp at hji; subst hji; exact mem_dones.1 hj

/-- C24. A completed waiter is not touched again, the list is never corrupted, and the assertion in
`raise()` does not fail. -/
theorem C24_no_fault {c : Conf mach} (h : OReach c) : c.bad = false :=
  Reach.no_fault (P := fun s acts => ∃ l, Inv s acts l) (fun _ hc => reach_inv hc)
    (fun _ _ _ _ _ b ⟨_, hi⟩ hk hf => by
      obtain ⟨s', p, he⟩ := step_ok hi hk b
      rw [show mach.exec = exec from rfl, he] at hf; simp at hf) h

/-- C24. No call ever blocks: each running call can execute its next instruction. -/
theorem C24_wait_free {c : Conf mach} (h : OReach c) {k : Nat} {x : Instr} {r : List Instr}
    (hk : c.acts[k]? = some (x :: r)) (b : Bool) : ∃ c', mach.step c (.run k b) = some c' := by
  obtain ⟨l, hi⟩ := reach_inv h
  obtain ⟨s', p, he⟩ := step_ok hi hk b
  refine ⟨⟨s', c.acts.set k (p ++ r), false⟩, ?_⟩
  simp only [Mach.step, C24_no_fault h, hk, he]
  rfl

/-- C24. Running calls come to an end under every schedule (apart from spurious failures). -/
theorem C24_terminates {c : Conf mach} (h : OReach c) : ∃ n, Bounded c n :=
  ⟨_, bounded_of (P := fun s acts => ∃ l, Inv s acts l) (fun (s : St) acts => pot s acts)
    (fun _ hc => reach_inv hc) (fun _ hc => C24_no_fault hc)
    (fun _ _ _ _ _ _ _ _ ⟨_, hi⟩ hk he => decreases hi hk he) h⟩

/-! ## Examples -/

/-- Two waits race for the list, the third one reads the old head and finds the event fired. -/
def demo : Conf mach := mach.after init
  [.env (.start 0), .env (.start 1), .env (.start 2), .run 0 true, .run 1 true, .run 2 true,
   .run 0 true, .run 1 true, .run 1 false, .run 1 true, .env .raise, .run 3 true,
   .run 3 true, .run 2 true, .run 3 true, .run 3 true, .run 3 true, .run 3 true, .run 2 true, .run 2 true]

theorem demo_reach : OReach demo := Reach.after _ _ _

/-- Hypotheses of the theorems are met. -/
example : demo.sh.log = [.begin 0, .begin 1, .begin 2, .push 0, .push 1, .call, .raise, .done 1, .done 0, .ret,
    .done 2] := by rfl
example : Quiescent demo := by intro a ha; revert a ha; decide
/-- Without the contract: a second call of `raise()` fails the assertion. -/
example : exec demo.sh .raise true = .fault := by rfl

theorem demo_rest : Quiescent demo := by intro a ha; revert a ha; decide

example : demo.sh.log.count (.done 1) ≤ 1 := C24_at_most_once demo_reach 1
example : .raise ∈ demo.sh.log.take 8 ∧ .begin 0 ∈ demo.sh.log :=
  C24_not_before_raise demo_reach (l1 := demo.sh.log.take 8) (l2 := demo.sh.log.drop 9) rfl
example : demo.sh.called = true := (C24_raise_called demo_reach).2 (by decide)
example : .done 0 ∈ demo.sh.log := C24_raise_completes demo_reach (by decide) (by decide)
example : .done 2 ∈ demo.sh.log := C24_nobody_lost demo_reach demo_rest (by decide) (by decide)
example : demo.bad = false := C24_no_fault demo_reach

/-- Two calls are running. -/
def demo2 : Conf mach := mach.after init [.env (.start 0), .env (.start 1), .run 0 true, .run 0 true, .env .raise, .run 2 true]

example : ∃ c', mach.step demo2 (.run 1 true) = some c' := C24_wait_free (Reach.after _ _ _) rfl true
example : ∃ n, Bounded demo2 n := C24_terminates (Reach.after _ _ _)

end Verif.OneshotPrim
