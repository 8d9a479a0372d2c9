import Verif.Depth.Tree
import Verif.Depth.Result

/-!
# C83: loops do not grow the stack

The specification: `Conf.tall c n` says that some thread is `n` calls deep (Verif/Depth/Base.lean). If every iteration waits for
something, the depth is bounded by the size of the expression, however many iterations there are; for coroutines the library adds at most 4
frames. If the iterations complete inside of `start()`, `repeat_while` and loops in coroutines use a number of frames that grows with the
number of iterations, because `start_inline` never returns true (execution.hpp lines 63-77).
-/

namespace Verif.Tree

/-- Expressions of size `w` in which every iteration of `repeat_while` waits never use more than `w + 1` frames, however many
iterations there are. -/
theorem C83_bounded_partial {w : Nat} {c : Conf (mach.deep frames)} (h : Sized w c) : ¬ c.tall (w + 2) := by
  rintro ⟨a, ha, x, hx, hn⟩
  have := (h.low.2 a ha x hx).le
  omega

/-- `repeat_while` with a condition that is always true and a sender that completes inside of `start()`. -/
def busy : Snd := .rep (fun _ => true) (fun _ => .inv (fun _ => 0))

/-- The state at the beginning of an iteration. -/
structure Busy (c : Conf (mach.deep frames)) (k d : Nat) : Prop where
  reach : Reach (mach.deep frames) Tree.init c
  acts : c.acts = [[(.loop [0] k, d)]]
  ok : c.bad = false
  snd : c.sh.snd [0] = some busy
  live : c.sh.phase [0] = .started

theorem next {c : Conf (mach.deep frames)} {x : Instr} {d : Nat} {s' : St} {p : List Instr} (hr : Reach (mach.deep frames) Tree.init c)
    (hb : c.bad = false) (ha : c.acts = [[(x, d)]]) (he : exec c.sh x true = .ok s' p) :
    Reach (mach.deep frames) Tree.init ⟨s', [p.map fun y => (y, d + frames y)], false⟩ := by
  obtain ⟨s, acts, bad⟩ := c
  simp only at hb ha he
  subst hb ha
  refine .step hr (l := .run 0 true) ?_
  simp [Mach.step, he]

theorem busy_next {c : Conf (mach.deep frames)} {k d : Nat} (h : Busy c k d) : ∃ c', Busy c' (k + 1) (d + 3) := by
  obtain ⟨hr, ha, hb, hs, hl⟩ := h
  have al : alive c.sh [0] = true := by simp [alive, hl]
  let s1 := (c.sh.ev (.cond [0] k true)).box [0] k (.inv fun _ => 0)
  have e1 : exec c.sh (.loop [0] k) true = .ok s1 [.start [k, 0]] := by
    simp [exec, hs, busy, al, s1]
  have r1 := next hr hb ha e1
  have p0 : s1.phase [0] = .started := by simp [s1, St.box, St.ev, updP_apply, hl]
  have p1 : s1.phase [k, 0] = .conn := by simp [s1, St.box, St.ev, updP_apply]
  have n0 : s1.snd [0] = some busy := by simp [s1, St.box, St.ev, updP_apply, hs]
  have n1 : s1.snd [k, 0] = some (.inv fun _ => 0) := by simp [s1, St.box, St.ev, updP_apply]
  clear_value s1
  let s2 : St := { s1 with phase := updP s1.phase [k, 0] .started, log := s1.log ++ [.start [k, 0]] }
  have e2 : exec s1 (.start [k, 0]) true = .ok s2 [.begin [k, 0]] := by simp [exec, alive, p0, p1, s2]
  have r2 := next r1 rfl rfl e2
  have p0 : s2.phase [0] = .started := by simp [s2, updP_apply, p0]
  have p1 : s2.phase [k, 0] = .started := by simp [s2, updP_apply]
  have n0 : s2.snd [0] = some busy := n0
  have n1 : s2.snd [k, 0] = some (.inv fun _ => 0) := n1
  clear_value s2
  have e3 : exec s2 (.begin [k, 0]) true = .ok (s2.ev (.invoke [k, 0] 0)) [.setv [k, 0] 0] := by simp [exec, alive, p0, p1, n1]
  have r3 := next r2 rfl rfl e3
  let s4 : St := { s2.ev (.invoke [k, 0] 0) with phase := updP s2.phase [k, 0] .done, cur := updP s2.cur [0] none, log := s2.log ++ [.invoke [k, 0] 0] ++ [.done [k, 0] 0] }
  have e4 : exec (s2.ev (.invoke [k, 0] 0)) (.setv [k, 0] 0) true = .ok s4 [.recv [k, 0] 0] := by
    simp [exec, alive, p0, p1, s4, St.ev]
  have r4 := next r3 rfl rfl e4
  have p0 : s4.phase [0] = .started := by simp [s4, updP_apply, p0]
  have n0 : s4.snd [0] = some busy := n0
  clear_value s4
  have e5 : exec s4 (.recv [k, 0] 0) true = .ok s4 [.loop [0] (k + 1)] := by simp [exec, alive, p0, n0, busy]
  exact ⟨_, next r4 rfl rfl e5, by simp [frames], rfl, n0, p0⟩

theorem busy_all (k : Nat) : ∃ c d, Busy c k d ∧ 3 * k ≤ d := by
  induction k with
  | zero =>
    let s1 : St := { init with snd := updP init.snd [0] (some busy), phase := updP init.phase [0] .conn }
    have r1 : Reach (mach.deep frames) Tree.init ⟨s1, [[(.start [0], 1)]], false⟩ := by
      refine .step .init (l := .env (.start 0 busy)) ?_
      simp [Mach.step, Mach.init, env, init, s1, frames]
    let s2 : St := { s1 with phase := updP s1.phase [0] .started, log := s1.log ++ [.start [0]] }
    have e2 : exec s1 (.start [0]) true = .ok s2 [.begin [0]] := by simp [exec, alive, s1, s2, updP_apply]
    have r2 := next r1 rfl rfl e2
    have p0 : s2.phase [0] = .started := by simp [s2, updP_apply]
    have n0 : s2.snd [0] = some busy := by simp [s2, s1, updP_apply]
    clear_value s2
    have e3 : exec s2 (.begin [0]) true = .ok s2 [.loop [0] 0] := by simp [exec, alive, p0, n0, busy]
    exact ⟨_, _, ⟨next r2 rfl rfl e3, rfl, rfl, n0, p0⟩, by omega⟩
  | succ k ih =>
    obtain ⟨c, d, h, hd⟩ := ih
    obtain ⟨c', h'⟩ := busy_next h
    exact ⟨c', d + 3, h', by omega⟩

/-- `repeat_while` needs more frames than any given number. -/
theorem C83_repeat_while_false (n : Nat) :
    ∃ c, Reach (mach.deep frames) Tree.init c ∧ c.sh.snd [0] = some busy ∧ c.bad = false ∧ c.tall n := by
  obtain ⟨c, d, h, hd⟩ := busy_all n
  exact ⟨c, h.reach, h.snd, h.ok, _, by rw [h.acts]; exact List.mem_cons_self .., _, List.mem_cons_self .., by simp only; omega⟩

/-! ## A loop that waits -/

/-- `repeat_while` around a sequence of a sender that completes inside of `start()` and one that waits. -/
def patient : Snd := .rep (fun _ => true) (fun _ => .seq 1 (fun k => if k = 0 then .inv (fun _ => 0) else .leaf))

theorem patient_size : Size patient 12 := by
  refine .rep (a := 5) (fun _ => .seq (a := 1) (fun k _ => ?_) (by omega)) (fun _ => .seq (k := 1) (by omega) ?_) (by omega)
  · by_cases h : k = 0
    · simp only [h, if_true]; exact .inv (by omega)
    · simp only [h, if_false]; exact .leaf
  · simp only [Nat.one_ne_zero, if_false]; exact .leaf

/-- The loop runs until it waits, is woken, and waits again. -/
def patientRun : List (Lbl (mach.deep frames)) :=
  .env (.start 0 patient) :: (List.replicate 11 (.run 0 true) ++ .env (.finish [1, 0, 0] 7) :: List.replicate 12 (.run 1 true))

theorem Sized.runs {w : Nat} {c c' : Conf (mach.deep frames)} {l : List (Lbl (mach.deep frames))} (h : Sized w c)
    (hl : ∀ t S, .env (.start t S) ∈ l → Size S w) (hr : (mach.deep frames).runs c l = some c') : Sized w c' := by
  induction l generalizing c with
  | nil => cases hr; exact h
  | cons x l ih =>
    simp only [Mach.runs] at hr
    split at hr
    · rename_i c1 h1
      exact ih (.step h h1 fun t S e => hl t S (by simp [e])) (fun t S e => hl t S (List.mem_cons_of_mem _ e)) hr
    · cases hr

theorem patient_sized {c : Conf (mach.deep frames)} (h : (mach.deep frames).runs ((mach.deep frames).init Tree.init) patientRun = some c) :
    Sized 12 c := by
  refine Sized.runs .init (fun t S hm => ?_) h
  simp only [patientRun, List.mem_cons, List.mem_append, List.mem_replicate, Lbl.env.injEq, Act.start.injEq, reduceCtorEq,
    and_false, or_false] at hm
  rw [hm.2]; exact patient_size

/-- In its second iteration the loop is about to start the sender that waits, and the stack is 7 frames deep. -/
example : ∃ c, (mach.deep frames).runs ((mach.deep frames).init Tree.init) patientRun = some c ∧ Sized 12 c ∧ c.bad = false ∧
    c.acts = [[], [(.begin [1, 1, 0], 7)]] ∧ c.tall 7 ∧ ¬ c.tall 14 := by
  refine ⟨_, rfl, ?_, rfl, rfl, ⟨_, List.mem_cons_of_mem _ (List.mem_cons_self ..), _, List.mem_cons_self .., Nat.le_refl _⟩, ?_⟩
  · exact patient_sized rfl
  · exact C83_bounded_partial (w := 12) (patient_sized rfl)

end Verif.Tree

namespace Verif.Result

/-- Coroutines add at most 4 frames, if the senders that they await do not complete inside of `start()`, however many `co_await`s there
are. -/
theorem C83_coroutine_partial {B : Body} {c : Conf ((mach B).deep frames)} (h : Reach ((mach B).deep frames) Result.init c) : ¬ c.tall 5 := by
  rintro ⟨a, ha, x, hx, hn⟩
  have h1 := depth h a ha x hx
  have h2 : maxDepth x.1 ≤ 4 := by cases x.1 <;> simp [maxDepth]
  omega

/-- A coroutine that awaits the same sender in an endless loop. -/
def loopBody : Body := ⟨Unit, fun _ => .await 0 (fun _ => ())⟩

structure Busy (c : Conf ((inlineMach loopBody).deep frames)) (d : Nat) : Prop where
  reach : Reach ((inlineMach loopBody).deep frames) Result.init c
  acts : c.acts = [[(.seg 0, d), (.exStart 0, 1)]]
  ok : c.bad = false
  frame : c.sh.frame 0 = some (.running ())
  live : c.sh.phase 0 = .started

theorem next {c : Conf ((inlineMach loopBody).deep frames)} {x : Instr} {d : Nat} {s' : St loopBody} {p : List Instr} {r : List (Instr × Nat)}
    (hr : Reach ((inlineMach loopBody).deep frames) Result.init c)
    (hb : c.bad = false) (ha : c.acts = [(x, d) :: r]) (he : execInline c.sh x true = .ok s' p) :
    Reach ((inlineMach loopBody).deep frames) Result.init ⟨s', [(p.map fun y => (y, d + frames y)) ++ r], false⟩ := by
  obtain ⟨s, acts, bad⟩ := c
  simp only at hb ha he
  subst hb ha
  refine .step hr (l := .run 0 true) ?_
  simp [Mach.step, he]

theorem busy_next {c : Conf ((inlineMach loopBody).deep frames)} {d : Nat} (h : Busy c d) : ∃ c', Busy c' (d + 3) := by
  obtain ⟨hr, ha, hb, hf, hl⟩ := h
  let s1 : St loopBody := { c.sh with frame := upd c.sh.frame 0 (some (.waiting (fun _ => ()) .connected none)), log := c.sh.log ++ [.await 0 0] }
  have e1 : execInline c.sh (.seg 0) true = .ok s1 [.awStart 0] := by
    simp only [execInline, exec, hl, hf]; rfl
  have r1 := next hr hb ha e1
  have f1 : s1.frame 0 = some (.waiting (fun _ => ()) .connected none) := by simp [s1]
  have l1 : s1.phase 0 = .started := hl
  clear_value s1
  let s2 : St loopBody := { s1 with frame := upd s1.frame 0 (some (.waiting (fun _ => ()) .completed none)) }
  have e2 : execInline s1 (.awStart 0) true = .ok s2 [.emplace 0 0] := by
    simp only [execInline, l1, f1]; rfl
  have r2 := next r1 rfl rfl e2
  have f2 : s2.frame 0 = some (.waiting (fun _ => ()) .completed none) := by simp [s2]
  have l2 : s2.phase 0 = .started := l1
  clear_value s2
  let s3 : St loopBody := { s2 with frame := upd s2.frame 0 (some (.waiting (fun _ => ()) .completed (some 0))) }
  have e3 : execInline s2 (.emplace 0 0) true = .ok s3 [.hres 0] := by
    simp only [execInline, exec, l2, f2]; rfl
  have r3 := next r2 rfl rfl e3
  have f3 : s3.frame 0 = some (.waiting (fun _ => ()) .completed (some 0)) := by simp [s3]
  have l3 : s3.phase 0 = .started := l2
  clear_value s3
  let s4 : St loopBody := { s3 with frame := upd s3.frame 0 (some (.running ())), log := s3.log ++ [.resume 0 0] }
  have e4 : execInline s3 (.hres 0) true = .ok s4 [.seg 0] := by
    simp only [execInline, exec, l3, f3]; rfl
  exact ⟨_, next r3 rfl rfl e4, by simp [frames], rfl, by simp [s4], l3⟩

theorem busy_all (n : Nat) : ∃ c d, Busy c d ∧ 3 * n ≤ d := by
  induction n with
  | zero =>
    let s1 : St loopBody := { (init : St loopBody) with phase := upd (init : St loopBody).phase 0 .started, frame := upd (init : St loopBody).frame 0 (some (.fresh ())), log := [.start 0 ()] }
    have r1 : Reach ((inlineMach loopBody).deep frames) Result.init ⟨s1, [[(.link 0, 1), (.exStart 0, 1)]], false⟩ :=
      .step .init (l := .env (.start 0 ())) rfl
    let s2 : St loopBody := { s1 with cont := upd s1.cont 0 true }
    have r2 := next (s' := s2) (p := [.go 0]) r1 rfl rfl rfl
    let s3 : St loopBody := { s2 with frame := upd s2.frame 0 (some (.running ())) }
    have r3 := next (s' := s3) (p := [.seg 0]) r2 rfl rfl rfl
    exact ⟨_, _, ⟨r3, rfl, rfl, rfl, rfl⟩, by omega⟩
  | succ n ih =>
    obtain ⟨c, d, h, hd⟩ := ih
    obtain ⟨c', h'⟩ := busy_next h
    exact ⟨c', d + 3, h', by omega⟩

/-- The endless loop, with a sender that completes from outside: the first `co_await` returns, and the second one is reached. -/
def loopRun : List (Lbl ((mach loopBody).deep frames)) :=
  .env (.start 0 ()) :: (List.replicate 5 (.run 0 true) ++ .env (.complete 0 7) :: List.replicate 3 (.run 1 true))

example : ∃ c, ((mach loopBody).deep frames).runs (((mach loopBody).deep frames).init Result.init) loopRun = some c ∧ c.bad = false ∧
    c.acts = [[], [(.awStart 0, 3)]] ∧ ¬ c.tall 5 :=
  ⟨_, rfl, rfl, rfl, C83_coroutine_partial (.of_runs .init (ls := loopRun) rfl)⟩

/-- A coroutine that awaits senders that complete inside of `start()` needs more frames than any given number. -/
theorem C83_coroutine_false (n : Nat) :
    ∃ c : Conf ((inlineMach loopBody).deep frames), Reach ((inlineMach loopBody).deep frames) Result.init c ∧ c.bad = false ∧ c.tall n := by
  obtain ⟨c, d, h, hd⟩ := busy_all n
  exact ⟨c, h.reach, h.ok, _, by rw [h.acts]; exact List.mem_cons_self .., _, List.mem_cons_self .., by simp only; omega⟩

end Verif.Result
