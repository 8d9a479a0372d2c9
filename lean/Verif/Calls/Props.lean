import Verif.Calls.Proof
import Verif.Depth.Props

/-! # C88: calls on compositions of senders come to an end -/

namespace Verif.Tree.Calls

/-! ## Examples -/

/-- `repeat_while` with a condition that becomes false in the third evaluation. -/
def thrice : Snd :=
  .rep (fun h => !h.any fun e => match e with | .cond _ 1 true => true | _ => false) (fun _ => .inv (fun _ => 0))

theorem thrice_ends : Ends thrice := by
  refine ⟨2, 1, .stops (fun _ => .inv) fun p h hj => ?_⟩
  simp only [Bool.not_eq_false']
  exact List.any_eq_true.2 ⟨_, hj 1 (by omega), rfl⟩

theorem patient_ends : Ends patient := by
  refine ⟨1, 2, .waits (fun _ => .seq (by omega) fun k _ => ?_) (fun _ => .seq (k := 1) (by omega) ?_)⟩
  · by_cases h : k = 0
    · simp only [h, if_true]; exact .inv
    · simp only [h, if_false]; exact .leaf
  · simp only [Nat.one_ne_zero, if_false]; exact .leaf

/-- A race of a loop that ends and one that waits. -/
def mixed : Snd := .xform (.race 1 (fun k => if k = 0 then thrice else patient)) (fun _ v => v)

theorem mixed_ends : Ends mixed := by
  refine ⟨2, 4, .xform (.race (by omega) fun k _ => ?_)⟩
  by_cases h : k = 0
  · simp only [h, if_true]
    refine .stops (fun _ => .inv) fun p h hj => ?_
    simp only [Bool.not_eq_false']
    exact List.any_eq_true.2 ⟨_, hj 1 (by omega), rfl⟩
  · simp only [h, if_false]
    refine .waits (fun _ => .seq (by omega) fun k _ => ?_) (fun _ => .seq (k := 1) (by omega) ?_)
    · by_cases h : k = 0
      · simp only [h, if_true]; exact .inv
      · simp only [h, if_false]; exact .leaf
    · simp only [Nat.one_ne_zero, if_false]; exact .leaf

/-- Two expressions are started and run for a while; a leaf completes meanwhile. -/
def mixedRun : List (Lbl mach) :=
  .env (.start 0 mixed) :: .env (.start 1 patient) ::
    (List.replicate 11 (.run 1 true) ++ .env (.finish [1, 0, 1] 7) :: List.replicate 9 (.run 0 true))

def mixedConf : Conf mach := (mach.runs (mach.init init) mixedRun).getD (mach.init init)

theorem mixed_runs : mach.runs (mach.init init) mixedRun = some mixedConf := by rfl

theorem mixed_reach : Reach mach init mixedConf := Reach.of_runs .init mixed_runs

theorem mixed_roots : ∀ t S, mixedConf.sh.snd [t] = some S → Ends S := by
  intro t S h
  match t with
  | 0 => rw [show mixedConf.sh.snd [0] = some mixed from rfl] at h; cases h; exact mixed_ends
  | 1 => rw [show mixedConf.sh.snd [1] = some patient from rfl] at h; cases h; exact patient_ends
  | t + 2 =>
    rw [show mixedConf.sh.snd [t + 2] = none from rfl] at h; cases h

/-! ## The property -/

/-- However the running calls of all threads are scheduled, they execute at most a bounded number of steps, provided that in all
expressions started so far, every `repeat_while` waits or ends. -/
theorem C88_ends {c : Conf mach} (hc : Reach mach init c) (hE : ∀ t S, c.sh.snd [t] = some S → Ends S) : ∃ n, Steps c n := by
  obtain ⟨h1, n, h2⟩ := reach_left hc hE
  exact ⟨n, steps_left hc h1 h2⟩

example : ∃ n, Steps mixedConf n := C88_ends mixed_reach mixed_roots
example : mixedConf.acts.length = 3 ∧ ¬ Quiescent mixedConf :=
  ⟨rfl, fun h => by have := h mixedConf.acts[0] (List.getElem_mem ..); simp at this; revert this; decide⟩

/-- No call ever waits for another one: each of the running calls can take its next step, at any time. -/
theorem C88_no_wait {c : Conf mach} (hb : c.bad = false) {k : Nat} {b : Bool} (hk : ∃ x r, c.acts[k]? = some (x :: r)) :
    ∃ c', mach.step c (.run k b) = some c' := by
  obtain ⟨x, r, hk⟩ := hk
  cases he : exec c.sh x b with
  | ok s' p => exact ⟨⟨s', c.acts.set k (p ++ r), false⟩, by simp [Mach.step, hb, hk, he]⟩
  | fault => exact ⟨⟨c.sh, c.acts, true⟩, by simp [Mach.step, hb, hk, he]⟩
  | block => exact absurd he (no_block _ _ _)

example : ∃ c', mach.step mixedConf (.run 2 true) = some c' := C88_no_wait rfl ⟨_, _, rfl⟩

/-- Hence all calls return, if they are run for long enough, unless there is undefined behaviour (see C46 and C47). -/
theorem C88_returns {c : Conf mach} (hc : Reach mach init c) (hE : ∀ t S, c.sh.snd [t] = some S → Ends S) :
    ∃ ls c', mach.runActs c ls = some c' ∧ (c'.bad = true ∨ Quiescent c') := by
  obtain ⟨n, h⟩ := C88_ends hc hE
  exact finish_of h

example : ∃ ls c', mach.runActs mixedConf ls = some c' ∧ (c'.bad = true ∨ Quiescent c') := C88_returns mixed_reach mixed_roots

/-! ## A loop that neither waits nor ends -/

/-- The state at the beginning of an iteration. -/
structure Spin (c : Conf mach) (k : Nat) : Prop where
  acts : c.acts = [[.loop [0] k]]
  ok : c.bad = false
  snd : c.sh.snd [0] = some busy
  live : c.sh.phase [0] = .started

theorem next {c : Conf mach} {x : Instr} {s' : St} {p : List Instr} (hb : c.bad = false) (ha : c.acts = [[x]])
    (he : exec c.sh x true = .ok s' p) : mach.step c (.run 0 true) = some ⟨s', [p], false⟩ := by
  obtain ⟨s, acts, bad⟩ := c
  simp only at hb ha he
  subst hb ha
  simp [Mach.step, he]

theorem spin_next {c : Conf mach} {k : Nat} (h : Spin c k) :
    ∃ c', mach.runActs c (List.replicate 5 (0, true)) = some c' ∧ Spin c' (k + 1) := by
  obtain ⟨ha, hb, hs, hl⟩ := h
  have al : alive c.sh [0] = true := by simp [alive, hl]
  let s1 := (c.sh.ev (.cond [0] k true)).box [0] k (.inv fun _ => 0)
  have e1 : exec c.sh (.loop [0] k) true = .ok s1 [.start [k, 0]] := by
    simp [exec, hs, busy, al, s1]
  have r1 := next hb ha e1
  have p0 : s1.phase [0] = .started := by simp [s1, St.box, St.ev, updP_apply, hl]
  have p1 : s1.phase [k, 0] = .conn := by simp [s1, St.box, St.ev, updP_apply]
  have n0 : s1.snd [0] = some busy := by simp [s1, St.box, St.ev, updP_apply, hs]
  have n1 : s1.snd [k, 0] = some (.inv fun _ => 0) := by simp [s1, St.box, St.ev, updP_apply]
  clear_value s1
  let s2 : St := { s1 with phase := updP s1.phase [k, 0] .started, log := s1.log ++ [.start [k, 0]] }
  have e2 : exec s1 (.start [k, 0]) true = .ok s2 [.begin [k, 0]] := by simp [exec, alive, p0, p1, s2]
  have r2 := next (c := ⟨s1, _, false⟩) rfl rfl e2
  have p0 : s2.phase [0] = .started := by simp [s2, updP_apply, p0]
  have p1 : s2.phase [k, 0] = .started := by simp [s2, updP_apply]
  have n0 : s2.snd [0] = some busy := n0
  have n1 : s2.snd [k, 0] = some (.inv fun _ => 0) := n1
  clear_value s2
  have e3 : exec s2 (.begin [k, 0]) true = .ok (s2.ev (.invoke [k, 0] 0)) [.setv [k, 0] 0] := by simp [exec, alive, p0, p1, n1]
  have r3 := next (c := ⟨s2, _, false⟩) rfl rfl e3
  let s4 : St := { s2.ev (.invoke [k, 0] 0) with phase := updP s2.phase [k, 0] .done, cur := updP s2.cur [0] none, log := s2.log ++ [.invoke [k, 0] 0] ++ [.done [k, 0] 0] }
  have e4 : exec (s2.ev (.invoke [k, 0] 0)) (.setv [k, 0] 0) true = .ok s4 [.recv [k, 0] 0] := by
    simp [exec, alive, p0, p1, s4, St.ev]
  have r4 := next (c := ⟨s2.ev (.invoke [k, 0] 0), _, false⟩) rfl rfl e4
  have p0 : s4.phase [0] = .started := by simp [s4, updP_apply, p0]
  have n0 : s4.snd [0] = some busy := n0
  clear_value s4
  have e5 : exec s4 (.recv [k, 0] 0) true = .ok s4 [.loop [0] (k + 1)] := by simp [exec, alive, p0, n0, busy]
  have r5 := next (c := ⟨s4, _, false⟩) rfl rfl e5
  refine ⟨⟨s4, [[.loop [0] (k + 1)]], false⟩, ?_, rfl, rfl, n0, p0⟩
  simp only [List.replicate]
  rw [runs_cons r1, runs_cons r2, runs_cons r3, runs_cons r4, runs_cons r5]
  rfl

theorem runs_app {c c1 : Conf mach} {l : List (Nat × Bool)} (h : mach.runActs c l = some c1) (ls : List (Nat × Bool)) :
    mach.runActs c (l ++ ls) = mach.runActs c1 ls := by
  induction l generalizing c with
  | nil => cases h; rfl
  | cons x l ih =>
    simp only [Mach.runActs, List.map_cons, Mach.runs, List.cons_append] at h ⊢
    split at h
    · rename_i c2 h2
      exact ih h
    · cases h

theorem spin_all {c : Conf mach} {k : Nat} (h : Spin c k) (n : Nat) : ∃ ls c', mach.runActs c ls = some c' ∧ ls.length = 5 * n := by
  induction n generalizing c k with
  | zero => exact ⟨[], c, rfl, rfl⟩
  | succ n ih =>
    obtain ⟨c1, h1, h2⟩ := spin_next h
    obtain ⟨ls, c', h3, h4⟩ := ih h2
    refine ⟨List.replicate 5 (0, true) ++ ls, c', by rw [runs_app h1]; exact h3, ?_⟩
    rw [List.length_append, List.length_replicate]; omega

def spinRun : List (Lbl mach) := [.env (.start 0 busy), .run 0 true, .run 0 true]

def spinConf : Conf mach := (mach.runs (mach.init init) spinRun).getD (mach.init init)

theorem spin_reach : Reach mach init spinConf := Reach.of_runs .init (show mach.runs (mach.init init) spinRun = some spinConf from rfl)

/-- The condition on loops is needed: `start()` of a loop that neither waits nor ends exceeds every number of steps. -/
theorem C88_needs : ∃ c, Reach mach init c ∧ c.sh.snd [0] = some busy ∧ c.acts.length = 1 ∧ ∀ n, ¬ Steps c n := by
  refine ⟨spinConf, spin_reach, rfl, rfl, fun n h => ?_⟩
  obtain ⟨ls, c', h1, h2⟩ := spin_all (c := spinConf) (k := 0) ⟨rfl, rfl, rfl, rfl⟩ (n + 1)
  have := h ls c' h1
  omega

example : ¬ Ends busy := by
  intro h
  obtain ⟨c, _, _⟩ := C88_needs
  obtain ⟨n, hn⟩ := C88_ends spin_reach (by
    intro t S hS
    match t with
    | 0 => rw [show spinConf.sh.snd [0] = some busy from rfl] at hS; cases hS; exact h
    | t + 1 => rw [show spinConf.sh.snd [t + 1] = none from rfl] at hS; cases hS)
  obtain ⟨ls, c', h1, h2⟩ := spin_all (c := spinConf) (k := 0) ⟨rfl, rfl, rfl, rfl⟩ (n + 1)
  have := hn ls c' h1
  omega

end Verif.Tree.Calls
