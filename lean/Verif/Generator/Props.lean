import Verif.Generator.Log
import Verif.Finish

/-! # Properties of `generator<T>` (C38) -/

namespace Verif.Generator

variable {B : Body}

/-! ## Auxiliary facts -/

/-- How many instructions are left at most. -/
def cost : Instr → Nat
  | .nlink _ _ => 6
  | .nres _ _ => 5
  | .seg _ => 4
  | .awStart _ => 1
  | .emplace _ _ => 6
  | .hres _ => 5
  | .ysusp _ => 3
  | .comp _ _ => 2
  | .setv _ _ _ => 1

theorem exec_cost {s s' : St B} {x : Instr} {b : Bool} {p : List Instr} (he : exec s x b = .ok s' p) :
    wl cost p + 1 ≤ cost x := by
  exec_cases he <;> simp [cost]

theorem no_fault {c : Conf (mach B)} (h : Reach (mach B) init c) : c.bad = false :=
  Reach.no_fault (P := Inv1) (fun _ h => reach_inv1 h) (fun _ _ _ _ _ b h hk => not_fault h hk b) h

/-- 1 if the instruction accesses generator `g`. -/
def touches (g : Id) (x : Instr) : Nat := if x.gen = g then 1 else 0

theorem ws_touches (g : Id) (acts : List (List Instr)) : ws (touches g) acts =
    ws (sw g) acts + (ws (aw g) acts + (ws (ew g) acts + ws (hw g) acts + (ws (lw g) acts + ws (rw g) acts +
      ws (yw g) acts + ws (cw g) acts + ws (vw g) acts))) := by
  rw [← ws_add (w := fun x => ew g x + hw g x) (fun _ => rfl), ← ws_add (w := fun x => lw g x + rw g x) (fun _ => rfl),
    ← ws_add (w := fun x => lw g x + rw g x + yw g x) (fun _ => rfl),
    ← ws_add (w := fun x => lw g x + rw g x + yw g x + cw g x) (fun _ => rfl),
    ← ws_add (w := fun x => lw g x + rw g x + yw g x + cw g x + vw g x) (fun _ => rfl),
    ← ws_add (w := fun x => ew g x + hw g x + (lw g x + rw g x + yw g x + cw g x + vw g x)) (fun _ => rfl),
    ← ws_add (w := fun x => aw g x + (ew g x + hw g x + (lw g x + rw g x + yw g x + cw g x + vw g x))) (fun _ => rfl),
    ← ws_add (fun x => ?_)]
  cases x <;> simp [touches, Instr.gen, sw, aw, ew, hw, lw, rw, yw, cw, vw] <;> split <;> simp [*]

/-! ## C38 -/

/-- C38. The results of the `next()` calls are what the body yields, in order, each once: if the results so far
are `os`, then the next result is the value that the body yields after `os`, or the end marker if the body
returns after having yielded `os`, given the values with which the awaited senders completed. -/
theorem C38_results {c : Conf (mach B)} (h : Reach (mach B) init c) :
    Hist (fun before e => ∀ g n o, e = .result g n o →
      ∃ s os, .create g s ∈ before ∧ results g before = os.map some ∧
        match o with
        | some v => Yields B s (completed g before) (os ++ [v])
        | none => Ends B s (completed g before) os) c.sh.log := by
  rintro l1 e l2 hl g n o rfl
  obtain ⟨s, os, h1, h2, h3⟩ := ((reach_inv2 h).ok l1 _ l2 hl).1.1
  cases o <;> exact ⟨s, os, h1, h2, h3⟩

/-- C38. No result follows the end marker. -/
theorem C38_end_is_last {c : Conf (mach B)} (h : Reach (mach B) init c) :
    Hist (fun before e => ∀ g n o, e = .result g n o → none ∉ results g before) c.sh.log := by
  rintro l1 e l2 hl g n o rfl
  obtain ⟨_, os, _, h2, _⟩ := C38_results h l1 _ l2 hl g n o rfl
  rw [h2]; simp

/-- C38. A `next()` operation delivers at most one result, after it was started. -/
theorem C38_at_most_once {c : Conf (mach B)} (h : Reach (mach B) init c) (n : Id) :
    delivered n c.sh.log ≤ 1 ∧
    Hist (fun before e => ∀ g o, e = .result g n o → .next g n ∈ before) c.sh.log := by
  constructor
  · apply Hist.countP_le_one (reach_inv2 h).ok
    intro before a qa hok b hb
    cases a <;> simp at qa
    subst qa
    cases b <;> simp
    rename_i g' n' o'
    intro e; subst e; exact hok.2 _ _ hb
  · rintro l1 e l2 hl g o rfl
    exact ((reach_inv2 h).ok l1 _ l2 hl).1.2

/-- C38. Once all calls have returned, a `next()` operation has delivered its result, or the body is waiting for
a sender that has not completed. -/
theorem C38_completes {c : Conf (mach B)} (h : Reach (mach B) init c) (hq : Quiescent c) {g n : Id}
    (hn : .next g n ∈ c.sh.log) :
    (∃ o, .result g n o ∈ c.sh.log) ∨
    ((∃ s os a, .create g s ∈ c.sh.log ∧ results g c.sh.log = os.map some ∧
        Awaits B s (completed g c.sh.log) os a) ∧
      (awaited g c.sh.log).length = (completed g c.sh.log).length + 1) := by
  have h1 := reach_inv1 h
  have h2 := reach_inv2 h
  rcases h2.nd g n hn with ho | ho
  · right
    have e2 := h1.sg g; have e3 := h1.as g; have e4 := h1.eh g; have e5 := h1.su g
    simp only [ws_quiescent _ hq] at e2 e3 e4 e5
    have hm : c.sh.made g = true := by
      cases hm : c.sh.made g
      · simp [h1.mo g hm] at ho
      · rfl
    obtain ⟨s, hs⟩ := h2.cre g hm
    have hb := h2.body g s hs
    have ha := h2.wa g
    have hc := h2.cr g
    have hr := h2.rs g
    simp only [ws_quiescent _ hq] at hr
    have he : c.sh.ended g = false := by
      cases he : c.sh.ended g
      · rfl
      · simp [(h2.ed g he).1] at ho
    have ht := (h1.op g n ho).2
    rcases hf : c.sh.frame g with _ | (_ | _ | ⟨k, l, r⟩ | _)
    · rw [hf] at ht; simp [tag] at ht
    · rw [hf] at e5; simp [tag, ho] at e5
    · rw [hf] at e2; simp [tag] at e2
    · rw [hf] at ha hc hb e3 e4
      cases l <;> simp [tag, Leaf.num] at e3 e4 ha hc
      obtain ⟨t, a, h3, h4⟩ := hb
      refine ⟨⟨s, yielded g c.sh.log, a, hs, ?_, t, k, hc ▸ h3, h4⟩, ha⟩
      simpa [he] using hr
    · rw [hf] at e5; simp [tag, ho] at e5
  · exact .inl ho

/-- C38. With at most one `next()` outstanding, the generator never panics, is not resumed while it is running
or after it has returned, and neither the coroutine frame nor a `next()` operation is touched after the end of
its lifetime. -/
theorem C38_no_fault {c : Conf (mach B)} (h : Reach (mach B) init c) : c.bad = false := no_fault h

/-- C38. At any time at most one pending instruction, of all threads, accesses the coroutine of generator `g`;
so the accesses to `cont` and `current_value`, which are not atomic, do not race. -/
theorem C38_exclusive {c : Conf (mach B)} (h : Reach (mach B) init c) (g : Id) : ws (touches g) c.acts ≤ 1 := by
  have h1 := reach_inv1 h
  rw [ws_touches, h1.sg, h1.as, h1.eh, h1.su]
  repeat' split
  all_goals omega

/-- C38. The running calls return: they execute a bounded number of instructions, and never wait for each
other. -/
theorem C38_terminates {c : Conf (mach B)} (h : Reach (mach B) init c) :
    Bounded c (ws cost c.acts) ∧ CanFinish c :=
  terminates_of (M := mach B) cost (fun _ _ _ _ _ he => exec_cost he)
    (by
      intro s x b
      show exec s x b ≠ .block
      cases x <;> simp only [exec] <;> (repeat' split) <;> simp) (fun _ h => no_fault h) h

theorem no_access {s : St B} {acts : List (List Instr)} (h : Inv1 s acts) {g : Id} (hg : s.frame g = none) :
    ws (touches g) acts = 0 := by
  have ht : tag (s.frame g) = 0 := by rw [hg]; rfl
  rw [ws_touches, h.sg, h.as, h.eh, h.su, ht]
  simp

/-- Nothing happens in a generator after it was destroyed. -/
structure Inv3 (s : St B) : Prop where
  fr : ∀ g, .destroy g ∈ s.log → s.frame g = none
  ok : Hist (fun before e => .destroy e.gen ∉ before) s.log

theorem Inv3.add {s s' : St B} (h : Inv3 s) {e : Ev B.S} (hl : s'.log = s.log ++ [e]) (hg : .destroy e.gen ∉ s.log)
    (hf : ∀ g, g ≠ e.gen → s'.frame g = s.frame g) (hd : ∀ g, e = .destroy g → s'.frame g = none) : Inv3 s' where
  fr g hm := by
    rw [hl, List.mem_append, List.mem_singleton] at hm
    rcases hm with hm | hm
    · rw [hf g (by rintro rfl; exact hg hm)]; exact h.fr g hm
    · exact hd g hm.symm
  ok := by rw [hl]; exact Hist.snoc.2 ⟨h.ok, hg⟩

theorem Inv3.same {s s' : St B} (h : Inv3 s) (hl : s'.log = s.log) {g : Id} (hg : .destroy g ∉ s.log)
    (hf : ∀ g', g' ≠ g → s'.frame g' = s.frame g') : Inv3 s' where
  fr g' hm := by
    rw [hl] at hm
    rw [hf g' (by rintro rfl; exact hg hm)]; exact h.fr g' hm
  ok := by rw [hl]; exact h.ok

theorem run_inv3 {s : St B} {acts : List (List Instr)} (h1 : Inv1 s acts) (h : Inv3 s) {k : Nat} {x : Instr}
    {r p : List Instr} (hk : acts[k]? = some (x :: r)) {b : Bool} {s' : St B}
    (he : exec s x b = .ok s' p) : Inv3 s' := by
  have hx : .destroy x.gen ∉ s.log := by
    intro hm
    have h2 := no_access h1 (h.fr _ hm)
    have h3 := ws_pos (w := touches x.gen) hk
    simp [touches] at h3
    omega
  exec_cases he
  all_goals
    first
      | exact h.same rfl hx (fun g' hg' => by first | rfl | exact upd_ne _ _ hg')
      | exact h.add rfl hx (fun g' hg' => by first | rfl | exact upd_ne _ _ hg') (by intro g hg; cases hg)

theorem env_inv3 {s : St B} {acts : List (List Instr)} (h2 : Inv2 s acts) (h : Inv3 s) {a : Act B} {s' : St B} {p : List Instr}
    (he : env s acts a = some (s', p)) : Inv3 s' := by
  env_cases he
  · rename_i g _ hm
    refine h.add (e := .create g _) rfl (fun hd => ?_) (fun g' hg' => upd_ne _ _ hg') (by intro g hg; cases hg)
    exact hm (h2.evs _ hd)
  · rename_i g n hm
    exact h.add (e := .next g n) rfl (fun hd => hm.1 (h.fr _ hd)) (fun _ _ => rfl) (by intro g hg; cases hg)
  · rename_i g v _ k r hm
    refine h.add (e := .complete g v) rfl (fun hd => ?_) (fun g' hg' => upd_ne _ _ hg') (by intro g hg; cases hg)
    have := h.fr _ hd
    rw [show (Ev.complete g v : Ev B.S).gen = g from rfl] at this
    rw [this] at hm; cases hm
  · rename_i g hm
    refine h.add (e := .destroy g) rfl (fun hd => hm.1 (h.fr _ hd)) (fun g' hg' => upd_ne _ _ hg') ?_
    intro g' hg'; cases hg'; exact upd_same ..

theorem reach_inv3 {c : Conf (mach B)} (h : Reach (mach B) init c) : Inv3 c.sh :=
  Reach.inv_with (M := mach B) (P := fun s a => Inv1 s a ∧ Inv2 s a) (Q := fun s _ => Inv3 s)
    (fun _ h => ⟨reach_inv1 h, reach_inv2 h⟩) ⟨by simp [init], Hist.nil⟩
    (fun _ _ _ _ _ h1 _ h he => env_inv3 h1.2 h he)
    (fun _ _ _ _ _ _ _ _ h1 _ h hk he => run_inv3 h1.1 h hk he) h

/-- C38. Destroying a generator between two calls of `next()` is final: nothing happens in a generator that was
destroyed (it is not resumed, no sender that it awaited is left to complete, no result is delivered), and no running
call accesses it. -/
theorem C38_destroyed {c : Conf (mach B)} (h : Reach (mach B) init c) :
    Hist (fun before e => .destroy e.gen ∉ before) c.sh.log ∧
    ∀ g, .destroy g ∈ c.sh.log → ∀ x, Pending c.acts x → x.gen ≠ g := by
  refine ⟨(reach_inv3 h).ok, fun g hg x hx hxg => ?_⟩
  have h1 := no_access (reach_inv1 h) ((reach_inv3 h).fr g hg)
  obtain ⟨a, ha, hxa⟩ := hx
  have h2 := ws_pos_of_mem (w := touches g) ha hxa
  simp only [touches, hxg, if_true] at h2
  omega

/-! ## Concrete executions -/

/-- A body that yields 10, awaits a sender, yields its value plus one, and returns. -/
def demoBody : Body where
  S := Nat
  next s := match s with
    | 0 => .yield 10 1
    | 1 => .await 7 (fun v => v + 2)
    | 2 => .ret
    | s + 3 => .yield (s + 2) 2

instance : DecidableEq demoBody.S := inferInstanceAs (DecidableEq Nat)
instance : OfNat demoBody.S 0 := inferInstanceAs (OfNat Nat 0)

abbrev M := mach demoBody

set_option maxRecDepth 20000

/-- Three calls of `next()`, one of which has to wait for a sender; another generator is destroyed early, and a
third one is left waiting. -/
def demo : Conf M := M.go init (
  [.env (.create 0 0), .env (.next 0 0)] ++ List.replicate 8 (.run 1 true) ++
  [.env (.next 0 1)] ++ List.replicate 8 (.run 2 true) ++ [.env (.complete 0 5)] ++ List.replicate 8 (.run 3 true) ++
  [.env (.next 0 2)] ++ List.replicate 8 (.run 4 true) ++
  [.env (.create 1 0), .env (.next 1 3)] ++ List.replicate 8 (.run 6 true) ++ [.env (.destroy 1)] ++
  [.env (.create 2 0), .env (.next 2 4)] ++ List.replicate 8 (.run 9 true) ++
  [.env (.next 2 5)] ++ List.replicate 8 (.run 10 true))

theorem demo_reach : Reach M init demo := Reach.go ..

theorem demo_log : demo.sh.log =
    [.create 0 0, .next 0 0, .yield 0 10, .result 0 0 (some 10),
     .next 0 1, .await 0 7, .complete 0 5, .resume 0 5, .yield 0 6, .result 0 1 (some 6),
     .next 0 2, .ret 0, .result 0 2 none,
     .create 1 0, .next 1 3, .yield 1 10, .result 1 3 (some 10), .destroy 1,
     .create 2 0, .next 2 4, .yield 2 10, .result 2 4 (some 10), .next 2 5, .await 2 7] := by decide

theorem demo_quiescent : Quiescent demo := by
  have : demo.acts = [[], [], [], [], [], [], [], [], [], [], []] := by decide
  simp [Quiescent, this]

/-- Generator 1 was destroyed after its first result. -/
example : (∀ x, Pending demo.acts x → x.gen ≠ 1) ∧ .destroy 1 ∉ demo.sh.log.take 17 :=
  ⟨(C38_destroyed demo_reach).2 1 (by rw [demo_log]; decide),
   (C38_destroyed demo_reach).1 (demo.sh.log.take 17) (.destroy 1) (demo.sh.log.drop 18) (by rw [demo_log]; rfl)⟩
example : results 0 demo.sh.log = [some 10, some 6, none] := by rw [demo_log]; decide
example := C38_results demo_reach [.create 0 0, .next 0 0, .yield 0 10] (.result 0 0 (some 10)) _ demo_log 0 0 _ rfl
example := C38_end_is_last demo_reach
example : delivered 1 demo.sh.log = 1 := by rw [demo_log]; decide
example := C38_completes demo_reach demo_quiescent (g := 0) (n := 2) (by rw [demo_log]; decide)
example := C38_completes demo_reach demo_quiescent (g := 2) (n := 5) (by rw [demo_log]; decide)
example : demo.bad = false := C38_no_fault demo_reach
example : delivered 1 demo.sh.log ≤ 1 := (C38_at_most_once demo_reach 1).1
example : (.next 0 1 : Ev demoBody.S) ∈ demo.sh.log.take 9 :=
  (C38_at_most_once demo_reach 1).2 (demo.sh.log.take 9) (.result 0 1 (some 6)) (demo.sh.log.drop 10)
    (by rw [demo_log]; rfl) 0 (some 6) rfl

/-- The generator is suspended at `co_await` and its operation completes. -/
def demo2 : Conf M := M.go init (
  [.env (.create 0 0), .env (.next 0 0)] ++ List.replicate 8 (.run 1 true) ++
  [.env (.next 0 1)] ++ List.replicate 8 (.run 2 true) ++ [.env (.complete 0 5)])

example : ws (touches 0) demo2.acts = 1 := by decide
example : ws (touches 0) demo2.acts ≤ 1 := C38_exclusive (Reach.go ..) 0
example : Bounded demo2 (ws cost demo2.acts) ∧ CanFinish demo2 := C38_terminates (Reach.go ..)

end Verif.Generator
