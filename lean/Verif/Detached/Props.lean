import Verif.Detached.Proof
import Verif.Finish

/-! # Properties of `detached` coroutines (C77) -/

namespace Verif.Detached

open Verif.Result (Body Cmd Leaf Runs Awaits Returns)

variable {B : Body}

/-! ## The body -/

/-- C77. The frame is destroyed at most once. -/
theorem C77_freed_once {c : Conf (mach B)} (h : Reach (mach B) init c) (i : Id) :
    c.sh.log.countP (fun | .free j => j == i | _ => false) ≤ 1 := by
  apply Hist.countP_le_one (reach_inv2 h).ok
  intro before a qa hok b hb
  cases a <;> simp at qa
  subst qa
  cases b <;> simp
  intro e; subst e; exact hok.1.2 hb

/-- C77. The frame is destroyed only after the body has returned, and a body returns only if it returns when each of its
`co_await`s returns the value with which the awaited sender completed. -/
theorem C77_free_after_return {c : Conf (mach B)} (h : Reach (mach B) init c) :
    Hist (fun before e => ∀ i, e = .free i → .ret i ∈ before ∧
      ∃ s v, .call i s ∈ before ∧ Returns B s (completed i before) v) c.sh.log := by
  rintro l1 e l2 hl i rfl
  obtain ⟨h1, h2⟩ := (reach_inv2 h).ok l1 _ l2 hl
  exact ⟨h1.1, h2⟩

/-- C77. Once all calls have returned, each coroutine that was called has run to its end and its frame is destroyed, or its
body waits for a sender that has not completed. -/
theorem C77_waits {c : Conf (mach B)} (h : Reach (mach B) init c) (hq : Quiescent c) {i : Id} {s : B.S}
    (hs : .call i s ∈ c.sh.log) :
    (.ret i ∈ c.sh.log ∧ .free i ∈ c.sh.log) ∨
    ((∃ a, Awaits B s (completed i c.sh.log) a) ∧
      (awaited i c.sh.log).length = (completed i c.sh.log).length + 1) := by
  have h1 := reach_inv1 h
  have h2 := reach_inv2 h
  have e2 := h1.sg i; have e3 := h1.as i; have e4 := h1.eh i; have e5 := h1.fi i
  simp only [ws_quiescent _ hq] at e2 e3 e4 e5
  have hb := h2.body i s hs
  have ha := h2.aw i
  have hc := h2.cr i
  have hp := h2.evs _ hs
  simp only [Ev.op] at hp
  have hph := h1.ph i
  rcases hf : c.sh.frame i with _ | (_ | ⟨k, l, r⟩ | _)
  · left
    rw [hf] at hph
    simp [tag] at hph
    have hx : c.sh.phase i = .freed := by
      cases hx : c.sh.phase i
      · exact absurd hx hp
      · exact absurd hx hph
      · rfl
    exact ⟨(h2.nret i).2 (.inr hx), (h2.nfree i).2 hx⟩
  · rw [hf] at e2; simp [tag] at e2
  · right
    rw [hf] at ha hc hb e3 e4
    cases l <;> simp [tag, num] at e3 e4 ha hc
    obtain ⟨t, a, h3, h4⟩ := hb
    exact ⟨⟨a, t, k, hc ▸ h3, h4⟩, ha⟩
  · rw [hf] at e5; simp [tag] at e5

/-- C77. The values that the `co_await`s of a body return are those of the awaited senders, in order, each once. -/
theorem C77_value {c : Conf (mach B)} (h : Reach (mach B) init c) :
    Hist (fun before e => ∀ i v, e = .resume i v → completed i before = resumed i before ++ [v]) c.sh.log := by
  rintro l1 e l2 hl i v rfl
  exact (reach_inv2 h).ok l1 _ l2 hl

/-- C77. A body awaits the senders that it awaits according to the values it got, one after the other. -/
theorem C77_order {c : Conf (mach B)} (h : Reach (mach B) init c) :
    Hist (fun before e => ∀ i a, e = .await i a →
      (∃ s, .call i s ∈ before ∧ Awaits B s (completed i before) a) ∧
      (awaited i before).length = (completed i before).length) c.sh.log := by
  rintro l1 e l2 hl i a rfl
  obtain ⟨s, h1, h2, h3, h4, _⟩ := (reach_inv2 h).ok l1 _ l2 hl
  exact ⟨⟨s, h1, h3 ▸ h2⟩, h4⟩

/-- C77. No frame is used after it was destroyed. -/
theorem C77_no_fault {c : Conf (mach B)} (h : Reach (mach B) init c) : c.bad = false := no_fault h

/-! ## The caller -/

/-- Activity `k` executes `n` instructions. -/
def runs (c : Conf (mach B)) (k : Nat) : Nat → Option (Conf (mach B))
  | 0 => some c
  | n + 1 => match (mach B).step c (.run k true) with
    | some c' => runs c' k n
    | none => none

theorem shape {c : Conf (mach B)} (h : Reach (mach B) init c) : ∀ a ∈ c.acts, ∀ i, .back i ∈ a →
    a = [.back i] ∨ ∃ x, a = [x, .back i] ∧ (x = .seg i ∨ x = .awStart i ∨ x = .fin i) := by
  refine Reach.inv (M := mach B) (P := fun _ acts => ∀ a ∈ acts, ∀ i, .back i ∈ a →
    a = [.back i] ∨ ∃ x, a = [x, .back i] ∧ (x = .seg i ∨ x = .awStart i ∨ x = .fin i)) (by simp) ?_ ?_ h
  · intro s acts a s' p ih he b hb i hi
    rcases List.mem_append.1 hb with hb | hb
    · exact ih b hb i hi
    · simp at hb; subst hb
      env_cases he <;> simp at hi
      subst hi; exact .inr ⟨_, rfl, .inl rfl⟩
  · intro s acts k x r b s' p ih hk he a ha i hi
    rcases List.mem_or_eq_of_mem_set ha with ha | rfl
    · exact ih a ha i hi
    · have ih := fun j => ih (x :: r) (List.mem_of_getElem? hk) j
      have hr : .back i ∈ r := by
        rcases List.mem_append.1 hi with hi | hi
        · exec_cases he <;> simp at hi
        · exact hi
      rcases ih i (List.mem_cons_of_mem _ hr) with h1 | ⟨y, h1, h2⟩
      · simp at h1; rw [h1.2] at hr; simp at hr
      · simp at h1
        obtain ⟨rfl, rfl⟩ := h1
        rcases h2 with rfl | rfl | rfl
        · exec_cases he <;> simp
        · exec_cases he <;> simp
        · exec_cases he <;> simp

theorem exec_block (s : St B) (x : Instr) (b : Bool) : exec s x b ≠ .block := by
  cases x <;> simp only [exec] <;> (repeat' split) <;> simp

theorem runs_one {c : Conf (mach B)} (h : Reach (mach B) init c) {k : Nat} {x : Instr} {r : List Instr}
    (hk : c.acts[k]? = some (x :: r)) : ∃ s' p, exec c.sh x true = .ok s' p ∧
      (mach B).step c (.run k true) = some ⟨s', c.acts.set k (p ++ r), false⟩ := by
  have hb := no_fault h
  cases he : exec c.sh x true with
  | ok s' p => exact ⟨s', p, rfl, by simp [Mach.step, hb, hk, he]⟩
  | block => exact absurd he (exec_block _ _ _)
  | fault => exact absurd he (not_fault (reach_inv1 h) hk true)

/-- C77. A call of a coroutine returns to the caller without waiting for the coroutine: at any moment, the call returns after at
most three steps of the calling thread, whatever the awaited senders and the other threads do. -/
theorem C77_caller_continues {c : Conf (mach B)} (h : Reach (mach B) init c) {i : Id} {s : B.S} (hs : .call i s ∈ c.sh.log)
    (hn : .back i ∉ c.sh.log) :
    ∃ k n c', n ≤ 3 ∧ runs c k n = some c' ∧ .back i ∈ c'.sh.log := by
  have h2 := reach_inv2 h
  have hw := h2.bk i (h2.evs _ hs) hn
  obtain ⟨a, ha, y, hya, hy⟩ := exists_of_ws_pos (w := bw i) (acts := c.acts) (by omega)
  have hyb : y = .back i := by cases y <;> simp [bw] at hy; grind
  subst hyb
  obtain ⟨k, hlt, hk⟩ := List.getElem_of_mem ha
  have hk : c.acts[k]? = some a := by rw [List.getElem?_eq_getElem hlt, hk]
  have last : ∀ (c : Conf (mach B)), Reach (mach B) init c → c.acts[k]? = some [.back i] →
      ∃ c', runs c k 1 = some c' ∧ .back i ∈ c'.sh.log := by
    intro c h hk
    obtain ⟨s', p, he, hst⟩ := runs_one h hk
    refine ⟨_, by simp only [runs, hst]; rfl, ?_⟩
    simp only [exec, Out.ok.injEq] at he
    rw [← he.1]; simp
  have two : ∀ (c : Conf (mach B)), Reach (mach B) init c → (c.acts[k]? = some [.awStart i, .back i] ∨
      c.acts[k]? = some [.fin i, .back i]) → ∃ c', runs c k 2 = some c' ∧ .back i ∈ c'.sh.log := by
    intro c h hk
    have hk' : ∃ x, c.acts[k]? = some [x, .back i] ∧ ∀ s' p, exec c.sh x true = .ok s' p → p = [] := by
      rcases hk with hk | hk <;> refine ⟨_, hk, fun s' p he => ?_⟩ <;> exec_cases he <;> rfl
    obtain ⟨x, hk, hp⟩ := hk'
    obtain ⟨s', p, he, hst⟩ := runs_one h hk
    have hl := (List.getElem?_eq_some_iff.1 hk).1
    obtain ⟨c', h1, h2⟩ := last ⟨s', c.acts.set k (p ++ [.back i]), false⟩ (.step h hst) (by simp [hp _ _ he, hl])
    exact ⟨c', by simp only [runs] at h1 ⊢; rw [hst]; exact h1, h2⟩
  rcases shape h a ha i hya with rfl | ⟨x, rfl, rfl | rfl | rfl⟩
  · obtain ⟨c', h1, h2⟩ := last c h hk
    exact ⟨k, 1, c', by omega, h1, h2⟩
  · obtain ⟨s', p, he, hst⟩ := runs_one h hk
    have hl := (List.getElem?_eq_some_iff.1 hk).1
    have hp : p = [.awStart i] ∨ p = [.fin i] := by exec_cases he <;> simp
    obtain ⟨c', h1, h2⟩ := two ⟨s', c.acts.set k (p ++ [.back i]), false⟩ (.step h hst) (by
      rcases hp with rfl | rfl <;> simp [hl])
    exact ⟨k, 3, c', by omega, by rw [runs, hst]; exact h1, h2⟩
  · obtain ⟨c', h1, h2⟩ := two c h (.inl hk)
    exact ⟨k, 2, c', by omega, h1, h2⟩
  · obtain ⟨c', h1, h2⟩ := two c h (.inr hk)
    exact ⟨k, 2, c', by omega, h1, h2⟩

/-- C77. A call returns at most once. -/
theorem C77_returns_once {c : Conf (mach B)} (h : Reach (mach B) init c) (i : Id) :
    c.sh.log.countP (fun | .back j => j == i | _ => false) ≤ 1 := by
  apply Hist.countP_le_one (reach_inv2 h).ok
  intro before a qa hok b hb
  cases a <;> simp at qa
  subst qa
  cases b <;> simp
  intro e; subst e; exact hok.2 hb

/-- How many instructions are left at most. -/
def cost : Instr → Nat
  | .seg _ => 3
  | .awStart _ => 1
  | .emplace _ _ => 5
  | .hres _ => 4
  | .fin _ => 1
  | .back _ => 1

theorem exec_cost {s s' : St B} {x : Instr} {b : Bool} {p : List Instr} (he : exec s x b = .ok s' p) :
    wl cost p + 1 ≤ cost x := by
  exec_cases he <;> simp [cost]

/-- C77. The running calls return: they execute a bounded number of instructions, and never wait for each other. -/
theorem C77_terminates {c : Conf (mach B)} (h : Reach (mach B) init c) :
    Bounded c (ws cost c.acts) ∧ CanFinish c :=
  terminates_of (M := mach B) cost (fun _ _ _ _ _ he => exec_cost he) (fun s x b => exec_block s x b)
    (fun _ h => no_fault h) h

/-! ## Concrete executions -/

/-- A body that awaits as many senders as given and returns. -/
def waitBody : Body where
  S := Nat × List Nat
  next s := if s.2.length < s.1 then .await s.2.length (fun v => (s.1, s.2 ++ [v])) else .ret 0

instance : DecidableEq waitBody.S := inferInstanceAs (DecidableEq (Nat × List Nat))

abbrev M := mach waitBody

set_option maxRecDepth 20000

/-- The first coroutine does not suspend. The sender that the second one awaits completes inside `start()`: the frame is gone
before the call returns. The third one ends on another thread; the fourth one waits. -/
def demo : Conf M := M.go init (
  [.env (.call 0 (0, []))] ++ List.replicate 3 (.run 0 true) ++
  [.env (.call 1 (1, []))] ++ List.replicate 2 (.run 1 true) ++ [.env (.complete 1 5)] ++
    List.replicate 4 (.run 2 true) ++ [.run 1 true] ++
  [.env (.call 2 (2, []))] ++ List.replicate 3 (.run 3 true) ++ [.env (.complete 2 3)] ++
    List.replicate 4 (.run 4 true) ++ [.env (.complete 2 4)] ++ List.replicate 4 (.run 5 true) ++
  [.env (.call 3 (2, []))] ++ List.replicate 3 (.run 6 true) ++ [.env (.complete 3 8)] ++
    List.replicate 4 (.run 7 true))

theorem demo_reach : Reach M init demo := Reach.go ..

theorem demo_log : demo.sh.log =
    [.call 0 (0, []), .ret 0, .free 0, .back 0,
     .call 1 (1, []), .await 1 0, .complete 1 5, .resume 1 5, .ret 1, .free 1, .back 1,
     .call 2 (2, []), .await 2 0, .back 2, .complete 2 3, .resume 2 3, .await 2 1, .complete 2 4, .resume 2 4, .ret 2, .free 2,
     .call 3 (2, []), .await 3 0, .back 3, .complete 3 8, .resume 3 8, .await 3 1] := by decide

theorem demo_quiescent : Quiescent demo := by
  have : demo.acts = [[], [], [], [], [], [], [], []] := by decide
  simp [Quiescent, this]

/-- A call that has not returned. -/
def demo2 : Conf M := M.go init [.env (.call 0 (0, [])), .run 0 true]

example := C77_freed_once demo_reach 1
example := C77_free_after_return demo_reach [.call 0 (0, []), .ret 0] (.free 0) _ demo_log
example := C77_waits demo_reach demo_quiescent (i := 3) (s := (2, [])) (by rw [demo_log]; decide)
example : (.free 3 : Ev waitBody.S) ∉ demo.sh.log := by rw [demo_log]; decide
example := C77_value demo_reach
example := C77_order demo_reach
example : resumed 2 demo.sh.log = [3, 4] ∧ awaited 2 demo.sh.log = [0, 1] := by rw [demo_log]; decide
example : demo.bad = false := C77_no_fault demo_reach
example := C77_caller_continues (c := demo2) (Reach.go ..) (i := 0) (s := (0, [])) (by decide) (by decide)
example := C77_returns_once demo_reach 2
example := C77_terminates demo_reach

end Verif.Detached
