import Verif.Result.Log
import Verif.Finish

/-! # Properties of `result<T>` and of `co_await` (C37, C49) -/

namespace Verif.Result

variable {B : Body}

/-! ## Auxiliary facts -/

theorem Ret.unique {log : List (Ev B.S)} (h : Hist (Ok B) log) {i : Id} {v w : Nat} (hv : .ret i v ∈ log)
    (hw : .ret i w ∈ log) : v = w := by
  have := Hist.unique h (fun | .ret j _ => j == i | _ => false) (by
    intro before a qa hok b hb
    cases a <;> simp at qa
    subst qa
    obtain ⟨_, _, _, h3⟩ := hok
    cases b <;> simp
    rename_i j w
    intro e; subst e; exact h3 w hb) hv hw (by simp) (by simp)
  injection this

theorem Start.unique {log : List (Ev B.S)} (h : Hist (Ok B) log) {i : Id} {v w : B.S} (hv : .start i v ∈ log)
    (hw : .start i w ∈ log) : v = w := by
  have := Hist.unique h (fun | .start j _ => j == i | _ => false) (by
    intro before a qa hok b hb
    cases a <;> simp at qa
    subst qa
    have := hok b hb
    cases b <;> simp [Ev.op] at this ⊢
    exact this) hv hw (by simp) (by simp)
  injection this

/-- How many instructions are left at most. -/
def cost : Instr → Nat
  | .link _ => 6
  | .go _ => 5
  | .exStart _ => 2
  | .seg _ => 4
  | .awStart _ => 1
  | .emplace _ _ => 6
  | .hres _ => 5
  | .exFin _ => 2
  | .setv _ => 1

theorem exec_cost {s s' : St B} {x : Instr} {b : Bool} {p : List Instr} (he : exec s x b = .ok s' p) :
    wl cost p + 1 ≤ cost x := by
  exec_cases he <;> (try split) <;> simp [cost]

theorem no_fault {c : Conf (mach B)} (h : Reach (mach B) init c) : c.bad = false :=
  Reach.no_fault (P := Inv1) (fun _ h => reach_inv1 h) (fun _ _ _ _ _ b h hk => not_fault h hk b) h

/-! ## C37 -/

/-- C37. The receiver of an operation is completed at most once. -/
theorem C37_at_most_once {c : Conf (mach B)} (h : Reach (mach B) init c) (i : Id) : dones i c.sh.log ≤ 1 := by
  apply Hist.countP_le_one (reach_inv2 h).ok
  intro before a qa hok b hb
  cases a <;> simp at qa
  subst qa
  cases b <;> simp
  rename_i w
  intro e; subst e; exact hok.2 w hb

/-- C37. The receiver is completed with the value that the body of the coroutine returns when each of its
`co_await`s returns the value with which the awaited sender completed. -/
theorem C37_value {c : Conf (mach B)} (h : Reach (mach B) init c) :
    Hist (fun before e => ∀ i v, e = .done i v →
      ∃ s, .start i s ∈ before ∧ Returns B s (completed i before) v) c.sh.log := by
  rintro l1 e l2 hl i v rfl
  obtain ⟨⟨_, s, h1, h2, h3⟩, _⟩ := (reach_inv2 h).ok l1 _ l2 hl
  exact ⟨s, h1, h3 ▸ h2⟩

/-- C37. Once all calls have returned, the receiver of an operation whose body returned `v` was completed
with `v`, whichever of `start()` and the end of the coroutine came first. -/
theorem C37_completes {c : Conf (mach B)} (h : Reach (mach B) init c) (hq : Quiescent c) {i : Id} {v : Nat}
    (hr : .ret i v ∈ c.sh.log) : .done i v ∈ c.sh.log := by
  have h1 := reach_inv1 h
  have h2 := reach_inv2 h
  have hd : c.sh.phase i = .done := by
    rcases h2.nret i v hr with h3 | h3
    · have e1 := h1.fi i; have e2 := h1.vx i
      rw [ws_quiescent _ hq] at e1 e2
      rw [ws_quiescent _ hq] at e2
      have : tag (c.sh.frame i) ≤ 7 := by
        rcases c.sh.frame i with _ | (_ | _ | ⟨_, l, r⟩ | _ | _) <;> simp [tag]
        have := l.num_le; omega
      split at e1 <;> simp at e1
      simp at e2; omega
    · exact h3
  obtain ⟨w, hw⟩ := h2.isdone i hd
  obtain ⟨l1, l2, e, hok⟩ := h2.ok.mem hw
  have : v = w := Ret.unique h2.ok hr (by rw [e]; simp [hok.1.1])
  exact this ▸ hw

/-- C37. Once all calls have returned, an operation that was started has completed, or its body is waiting
for a sender that has not completed. -/
theorem C37_waits {c : Conf (mach B)} (h : Reach (mach B) init c) (hq : Quiescent c) {i : Id} {s : B.S}
    (hs : .start i s ∈ c.sh.log) :
    (∃ v, .done i v ∈ c.sh.log) ∨
    ((∃ a, Awaits B s (completed i c.sh.log) a) ∧
      (awaited i c.sh.log).length = (completed i c.sh.log).length + 1) := by
  have h1 := reach_inv1 h
  have h2 := reach_inv2 h
  have e1 := h1.lg i; have e2 := h1.sg i; have e3 := h1.as i; have e4 := h1.eh i; have e5 := h1.fi i
  have e6 := h1.vx i
  simp only [ws_quiescent _ hq] at e1 e2 e3 e4 e5 e6
  have hb := h2.body i s hs
  have ha := h2.aw i
  have hc := h2.cr i
  have hp := h2.evs _ hs
  simp only [Ev.op] at hp
  have hph := h1.ph i
  rcases hf : c.sh.frame i with _ | (_ | _ | ⟨k, l, r⟩ | _ | _)
  · left
    rw [hf] at hph
    simp [tag] at hph
    refine h2.isdone i ?_
    cases hx : c.sh.phase i
    · exact absurd hx hp
    · exact absurd hx hph
    · rfl
  · rw [hf] at e1; simp [tag] at e1
  · rw [hf] at e2; simp [tag] at e2
  · right
    rw [hf] at ha hc hb e3 e4
    cases l <;> simp [tag, Leaf.num] at e3 e4 ha hc
    obtain ⟨t, a, h3, h4⟩ := hb
    exact ⟨⟨a, t, k, hc ▸ h3, h4⟩, ha⟩
  · rw [hf] at e5; simp [tag] at e5
  · rw [hf] at e6; simp [tag] at e6

/-- C37. Nothing of an operation or of its coroutine frame is touched after the receiver was completed; the
assertion of the initial awaiter holds; the value is there when the receiver is completed. -/
theorem C37_no_fault {c : Conf (mach B)} (h : Reach (mach B) init c) : c.bad = false := no_fault h

/-- C37. The running calls return: they execute a bounded number of instructions, and never wait for each
other. -/
theorem C37_terminates {c : Conf (mach B)} (h : Reach (mach B) init c) :
    Bounded c (ws cost c.acts) ∧ CanFinish c :=
  terminates_of (M := mach B) cost (fun _ _ _ _ _ he => exec_cost he)
    (by
      intro s x b
      show exec s x b ≠ .block
      cases x <;> simp only [exec] <;> (repeat' split) <;> simp) (fun _ h => no_fault h) h

/-! ## C49 -/

/-- C49. A `co_await` returns the value with which the awaited sender completed: the values returned are the
values of the awaited senders, in order, each once. -/
theorem C49_value {c : Conf (mach B)} (h : Reach (mach B) init c) :
    Hist (fun before e => ∀ i v, e = .resume i v → completed i before = resumed i before ++ [v]) c.sh.log := by
  rintro l1 e l2 hl i v rfl
  exact (reach_inv2 h).ok l1 _ l2 hl

/-- C49. Once all calls have returned, the `co_await` of every sender that completed has returned. -/
theorem C49_resumes {c : Conf (mach B)} (h : Reach (mach B) init c) (hq : Quiescent c) (i : Id) :
    resumed i c.sh.log = completed i c.sh.log := by
  have e4 := (reach_inv1 h).eh i
  simp only [ws_quiescent _ hq] at e4
  exact ((reach_inv2 h).cr i (by intro e; simp [e] at e4)).symm

/-- C49. The body awaits the senders that it awaits according to the values it got, one after the other: a
sender is started only when the previous one has completed and its value was returned. -/
theorem C49_order {c : Conf (mach B)} (h : Reach (mach B) init c) :
    Hist (fun before e => ∀ i a, e = .await i a →
      (∃ s, .start i s ∈ before ∧ Awaits B s (resumed i before) a) ∧
      completed i before = resumed i before ∧ (awaited i before).length = (completed i before).length) c.sh.log := by
  rintro l1 e l2 hl i a rfl
  obtain ⟨s, h1, h2, h3, h4, _⟩ := (reach_inv2 h).ok l1 _ l2 hl
  exact ⟨⟨s, h1, h2⟩, h3, h4⟩

/-! ## Concrete executions -/

/-- A body that awaits as many senders as given and returns the sum. -/
def sumBody : Body where
  S := Nat × List Nat
  next s := if s.2.length < s.1 then .await s.2.length (fun v => (s.1, s.2 ++ [v])) else .ret s.2.sum

instance : DecidableEq sumBody.S := inferInstanceAs (DecidableEq (Nat × List Nat))

abbrev M := mach sumBody

set_option maxRecDepth 20000

/-- The first operation completes inside `start()`; the body of the second one is finished by another thread
before the exchange in `start()`; that of the third one after it; the fourth one waits. -/
def demo : Conf M := M.go init (
  [.env (.start 0 (0, []))] ++ List.replicate 8 (.run 0 true) ++
  [.env (.start 1 (1, []))] ++ List.replicate 4 (.run 1 true) ++ [.env (.complete 1 5)] ++
    List.replicate 6 (.run 2 true) ++ List.replicate 4 (.run 1 true) ++
  [.env (.start 2 (2, []))] ++ List.replicate 6 (.run 3 true) ++ [.env (.complete 2 3)] ++
    List.replicate 8 (.run 4 true) ++ [.env (.complete 2 4)] ++ List.replicate 8 (.run 5 true) ++
  [.env (.start 3 (2, []))] ++ List.replicate 6 (.run 6 true) ++ [.env (.complete 3 8)] ++
    List.replicate 8 (.run 7 true))

theorem demo_reach : Reach M init demo := Reach.go ..

theorem demo_log : demo.sh.log =
    [.start 0 (0, []), .ret 0 0, .fin 0, .left 0, .done 0 0,
     .start 1 (1, []), .await 1 0, .complete 1 5, .resume 1 5, .ret 1 5, .fin 1, .left 1, .done 1 5,
     .start 2 (2, []), .await 2 0, .left 2, .complete 2 3, .resume 2 3, .await 2 1, .complete 2 4, .resume 2 4, .ret 2 7, .fin 2,
     .done 2 7,
     .start 3 (2, []), .await 3 0, .left 3, .complete 3 8, .resume 3 8, .await 3 1] := by decide

theorem demo_quiescent : Quiescent demo := by
  have : demo.acts = [[], [], [], [], [], [], [], []] := by decide
  simp [Quiescent, this]

example : dones 2 demo.sh.log = 1 := by rw [demo_log]; decide
example : dones 2 demo.sh.log ≤ 1 := C37_at_most_once demo_reach 2
example := C37_value demo_reach [.start 0 (0, []), .ret 0 0, .fin 0, .left 0] (.done 0 0) _ demo_log
example : (.done 1 5 : Ev sumBody.S) ∈ demo.sh.log := C37_completes demo_reach demo_quiescent (by rw [demo_log]; decide)
example := C37_waits demo_reach demo_quiescent (i := 3) (s := (2, [])) (by rw [demo_log]; decide)
example : ∀ v, (.done 3 v : Ev sumBody.S) ∉ demo.sh.log := by rw [demo_log]; simp
example : resumed 2 demo.sh.log = [3, 4] ∧ completed 2 demo.sh.log = [3, 4] := by rw [demo_log]; decide
example : resumed 2 demo.sh.log = completed 2 demo.sh.log := C49_resumes demo_reach demo_quiescent 2
example : demo.bad = false := C37_no_fault demo_reach
example : Bounded demo (ws cost demo.acts) ∧ CanFinish demo := C37_terminates demo_reach
example : completed 1 (demo.sh.log.take 8) = resumed 1 (demo.sh.log.take 8) ++ [5] :=
  C49_value demo_reach (demo.sh.log.take 8) (.resume 1 5) (demo.sh.log.drop 9) (by rw [demo_log]; rfl) 1 5 rfl
example : completed 2 (demo.sh.log.take 18) = resumed 2 (demo.sh.log.take 18) :=
  (C49_order demo_reach (demo.sh.log.take 18) (.await 2 1) (demo.sh.log.drop 19) (by rw [demo_log]; rfl) 2 1 rfl).2.1

end Verif.Result
