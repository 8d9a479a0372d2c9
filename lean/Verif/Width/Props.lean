import Verif.Width.Suspend
import Verif.Width.SharedMutex

/-!
# Flags and counters in words of fixed width

`suspend_indefinitely` has two flags and a counter in one word; `shared_mutex` counts the shared owners in an `unsigned int`. Property:
this makes no difference to separate flags and unbounded counters.
-/

namespace Verif.Width.Suspend

open Verif.Suspend (Id EvId Ev requested)

abbrev WReach {w : Nat} (c : Conf (mach w maxToks)) : Prop := Reach (mach w maxToks) init c

/-- C100. `suspend_indefinitely` with at most `maxToks = 2 ^ 30 - 2` tokens. Every execution with words is an execution with separate flags and
an unbounded counter, with the same history and the same running calls; the word is always made of the flags and of the
counter: nothing is carried into a flag and nothing is borrowed from one. (With more tokens: `C100_suspend_tokens_false`.) -/
theorem C100_suspend_word_partial {w : Nat} (hw : 32 ≤ w) {ls : List (Lbl (mach w maxToks))} {c : Conf (mach w maxToks)}
    (h : (mach w maxToks).runs ((mach w maxToks).init init) ls = some c) :
    ∃ d, Verif.Suspend.mach.runs (Verif.Suspend.mach.init Verif.Suspend.init) (ls.map lbl) = some d ∧
      d.sh.log = c.sh.log ∧ d.acts = c.acts ∧ d.bad = c.bad ∧
      ∀ i, c.sh.word i = (if d.sh.ini i then 2 ^ 31 else 0) + (if d.sh.can i then 2 ^ 30 else 0) + d.sh.ctr i ∧
        d.sh.ctr i < 2 ^ 30 := by
  obtain ⟨d, hd, ha, h1, h2⟩ := runs_sim hw init_sim h
  refine ⟨d, hd, ha.log, h1, h2, fun i => ⟨?_, ha.small i⟩⟩
  rw [ha.word i]
  unfold pack
  cases d.sh.ini i <;> cases d.sh.can i <;> simp

theorem reach {w : Nat} (hw : 32 ≤ w) {c : Conf (mach w maxToks)} (h : WReach c) :
    ∃ d, Verif.Suspend.SReach d ∧ d.sh.log = c.sh.log ∧ d.acts = c.acts ∧ d.bad = c.bad := by
  obtain ⟨ls, hl⟩ := h.to_runs
  obtain ⟨d, hd, h1, h2, h3, _⟩ := C100_suspend_word_partial hw hl
  exact ⟨d, Reach.of_runs .init hd, h1, h2, h3⟩

/-- C100. With the words of the code: no assertion fails, and a completed operation is not touched. -/
theorem C100_suspend_no_fault_partial {w : Nat} (hw : 32 ≤ w) {c : Conf (mach w maxToks)} (h : WReach c) : c.bad = false := by
  obtain ⟨d, hd, _, _, h3⟩ := reach hw h
  rw [← h3]; exact Verif.Suspend.C08_no_fault hd

/-- C100. With the words of the code: an operation completes at most once, after a cancellation of one of its tokens, and when no call
is running every operation with a cancelled token is completed. -/
theorem C100_suspend_completes_partial {w : Nat} (hw : 32 ≤ w) {c : Conf (mach w maxToks)} (h : WReach c) (i : Id) :
    c.sh.log.count (.done i) ≤ 1 ∧
    (∀ l1 l2, c.sh.log = l1 ++ .done i :: l2 → ∃ toks e, .start i toks ∈ l1 ∧ some e ∈ toks ∧ .cancel e ∈ l1) ∧
    (Quiescent c → ∀ toks e, .start i toks ∈ c.sh.log → some e ∈ toks → requested e c.sh.log = true → .done i ∈ c.sh.log) := by
  obtain ⟨d, hd, h1, h2, h3⟩ := reach hw h
  rw [← h1]
  refine ⟨Verif.Suspend.C08_at_most_once hd i, fun l1 l2 e => (Verif.Suspend.C08_only_if_cancelled hd e).2,
    fun hq toks e hs he hr => Verif.Suspend.C08_completes hd ?_ hs he hr⟩
  intro a ha
  exact hq a (h2 ▸ ha)

/-- C100 is false of the code without the restriction. With `2 ^ 30 - 1` tokens (here: tokens without an event) the counter starts at `2 ^ 30`, which is
the flag `state_cancel`; `start()` takes this for a cancellation, and its assertion fails (line 429), although nothing was cancelled. -/
theorem C100_suspend_tokens_false {w : Nat} :
    ∃ c : Conf (mach w (2 ^ 30 - 1)), Reach (mach w (2 ^ 30 - 1)) init c ∧ c.bad = true ∧
      .start 0 (List.replicate (2 ^ 30 - 1) none) ∈ c.sh.log ∧ ∀ e, .cancel e ∉ c.sh.log :=
  too_many (2 ^ 30 - 1) (by decide)

/-! ## The hypotheses are met -/

/-- Operation 0 waits for two tokens of event 5 and for a token without an event; the event is cancelled while `start()` is
still attaching. -/
def demo : Conf (mach 64 maxToks) :=
  (mach 64 maxToks).go init ([.env (.start 0 [some 5, none, some 5]), .run 0 true, .run 0 true, .env (.cancel 5)] ++
    List.replicate 4 (.run 1 true) ++ List.replicate 30 (.run 0 true) ++ List.replicate 30 (.run 1 true))

theorem demo_reach : WReach demo := Reach.go ..

set_option maxRecDepth 10000 in
theorem demo_log : demo.sh.log = [.start 0 [some 5, none, some 5], .cancel 5, .fire ⟨0, 0, some 5⟩, .fire ⟨0, 2, some 5⟩,
    .attached 0, .reset ⟨0, 1, none⟩, .done 0] := by decide

set_option maxRecDepth 10000 in
theorem demo_quiescent : Quiescent demo := by
  have : demo.acts = [[], []] := by decide
  simp [Quiescent, this]

set_option maxRecDepth 10000 in
/-- Both flags are set and the counter is zero. -/
example : demo.sh.word 0 = 2 ^ 31 + 2 ^ 30 := by decide

example : demo.bad = false := C100_suspend_no_fault_partial (by decide) demo_reach
example : .done 0 ∈ demo.sh.log :=
  (C100_suspend_completes_partial (by decide) demo_reach 0).2.2 demo_quiescent [some 5, none, some 5] 5 (by rw [demo_log]; simp) (by simp)
    (by rw [demo_log]; rfl)
example : ∃ toks e, .start 0 toks ∈ demo.sh.log.take 6 ∧ some e ∈ toks ∧ .cancel e ∈ demo.sh.log.take 6 :=
  (C100_suspend_completes_partial (by decide) demo_reach 0).2.1 (demo.sh.log.take 6) [] (by rw [demo_log]; rfl)

/-- The operation is started, and its only observer is attached; then the flag `state_init` is set. -/
def demoLs : List (Lbl (mach 64 maxToks)) := [.env (.start 0 [some 5]), .run 0 true, .run 0 true, .run 0 true]

theorem demoLs_runs : (mach 64 maxToks).runs ((mach 64 maxToks).init init) demoLs = some ((mach 64 maxToks).after init demoLs) := by rfl

example : ((mach 64 maxToks).after init demoLs).sh.word 0 = 2 ^ 31 + 2 := by decide
example : ∃ d, Verif.Suspend.mach.runs (Verif.Suspend.mach.init Verif.Suspend.init) (demoLs.map lbl) = some d ∧
    d.sh.log = ((mach 64 maxToks).after init demoLs).sh.log := by
  obtain ⟨d, h, h1, _⟩ := C100_suspend_word_partial (by decide) demoLs_runs
  exact ⟨d, h, h1⟩

end Verif.Width.Suspend

namespace Verif.Width.SharedMutex

open Verif.SharedMutex (Id Req Ev Wd Instr St init spec holding Act)

abbrev WReach {M : Nat} (c : Conf (mach M)) : Prop := Reach (mach M) init c

/-- At any time there are fewer than `M` requests that have been admitted and have not given up the mutex. -/
def Few (M : Nat) (log : List Ev) : Prop := ∀ l, l <+: log → (spec l).own.length < M

/-- C100. `shared_mutex` with a counter of 32 bits, with fewer than `2 ^ 32` owners at any time: every configuration is one of the machine
with an unbounded counter. (Without the restriction: `C100_shared_count_false`, `C100_shared_exclusion_false`.) -/
theorem C100_shared_count_partial {c : Conf (mach (2 ^ 32))} (h : WReach c) (hf : Few (2 ^ 32) c.sh.log) :
    Verif.SharedMutex.MReach ⟨c.sh, c.acts, c.bad⟩ :=
  reach h hf

/-- C100. With fewer than `2 ^ 32` owners at any time, no assertion fails, a writer is alone, a request is answered at most once, and when no
call is running and nobody holds the mutex, every `async_lock` has acquired it. -/
theorem C100_shared_mutex_partial {c : Conf (mach (2 ^ 32))} (h : WReach c) (hf : Few (2 ^ 32) c.sh.log) :
    c.bad = false ∧
    ((holding c.sh.log).length ≤ 1 ∨ ∀ t ∈ holding c.sh.log, t.2 = false) ∧
    (∀ t, c.sh.log.count (.acq t) + c.sh.log.count (.fail t) ≤ 1) ∧
    (Quiescent c → holding c.sh.log = [] → ∀ t, .lock t ∈ c.sh.log → .acq t ∈ c.sh.log) := by
  have hr := reach h hf
  exact ⟨Verif.SharedMutex.C18_no_assertion hr, Verif.SharedMutex.C16_holders hr, Verif.SharedMutex.C18_at_most_once hr,
    fun hq hh t => (Verif.SharedMutex.C18_free_means_served (c := conf c) hr hq hh (t := t)).1⟩

/-- C100 is false of the code without the restriction. `2 ^ 32` calls of `try_lock_shared` return true, one after the other; then the first
owner calls `unlock_shared`, and the assertion that there are shared owners (line 514) fails. -/
theorem C100_shared_count_false :
    ∃ c : Conf (mach (2 ^ 32)), WReach c ∧ c.bad = true ∧
      c.sh.log = (List.range (2 ^ 32)).flatMap (fun i => [.tryLock (i, false), .fast (i, false), .acq (i, false)]) ++
        [.unlock (0, false)] :=
  overflow (M := 2 ^ 32) (by decide)

/-- C100 is false of the code without the restriction. A writer unlocks while `2 ^ 32 + 1` readers are queued: all of them own the mutex, and the
counter is one. One of them unlocks, and the mutex is free; a writer gets it by `try_lock` while a reader has it. -/
theorem C100_shared_exclusion_false :
    ∃ c : Conf (mach (2 ^ 32)), WReach c ∧ ∃ i j, (i, false) ∈ holding c.sh.log ∧ (j, true) ∈ holding c.sh.log := by
  obtain ⟨c, hr, hh⟩ := broken (M := 2 ^ 32) (by decide)
  exact ⟨c, hr, 2, 2 ^ 32 + 2, by rw [hh]; exact List.mem_cons_self, by rw [hh]; exact List.mem_cons_of_mem _ List.mem_cons_self⟩

/-! ## The hypotheses are met -/

/-- Two readers have the mutex, one of them unlocks. -/
def demo : Conf (mach (2 ^ 32)) :=
  (mach (2 ^ 32)).go init [.env (.tryLock (0, false)), .run 0 true, .run 0 true, .run 0 true, .env (.lock (1, false)), .run 1 true,
    .run 1 true, .run 1 true, .env (.unlock (0, false)), .run 2 true, .run 2 true]

theorem demo_reach : WReach demo := Reach.go ..

set_option maxRecDepth 10000 in
theorem demo_log : demo.sh.log = [.tryLock (0, false), .fast (0, false), .acq (0, false), .lock (1, false), .fast (1, false),
    .acq (1, false), .unlock (0, false), .rel (0, false)] := by decide

theorem demo_few : Few (2 ^ 32) demo.sh.log := by
  rw [demo_log]
  intro l hl
  have : ∀ k, (spec ([.tryLock (0, false), .fast (0, false), .acq (0, false), .lock (1, false), .fast (1, false),
    .acq (1, false), .unlock (0, false), .rel (0, false)].take k)).own.length < 2 ^ 32 := by
    intro k
    by_cases h : k < 8
    · have h0 : k = 0 ∨ k = 1 ∨ k = 2 ∨ k = 3 ∨ k = 4 ∨ k = 5 ∨ k = 6 ∨ k = 7 := by omega
      rcases h0 with rfl | rfl | rfl | rfl | rfl | rfl | rfl | rfl <;> decide
    · rw [List.take_of_length_le (by simp; omega)]; decide
  rw [List.prefix_iff_eq_take.1 hl]
  exact this _

example : demo.bad = false := (C100_shared_mutex_partial demo_reach demo_few).1
example : Verif.SharedMutex.MReach ⟨demo.sh, demo.acts, demo.bad⟩ := C100_shared_count_partial demo_reach demo_few

end Verif.Width.SharedMutex
