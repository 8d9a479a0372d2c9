import Verif.PostAck.Proof
import Verif.Resolver.Props
import Mathlib.Data.List.Induction

/-!
# Properties of `post_ack`

`spec log` (Verif/PostAck/Model.lean) is what a user expects after the history `log`: the number of
posts, the attached agents, for each agent the number of the next post it should see (`cur`) and for
each post the agents that still have to acknowledge it (`owe`).
-/

namespace Verif.PostAck

open Resolver

variable {T : Type}

/-- Reachable configurations of a mechanism. -/
abbrev KReach (k : Conf (mach (ds T))) : Prop := Reach (mach (ds T)) (RSt.init init) k

/-- The objects of interest for one agent: all objects posted, those posted since the agent last
attached, and those its polls have returned since then. -/
structure Seen (T : Type) where
  posted : List T := []
  since : List T := []
  got : List T := []

def Seen.step (a : Agent) (s : Seen T) : Event T → Seen T
  | .ds (.posted _ x) => { s with posted := s.posted ++ [x], since := s.since ++ [x] }
  | .ds (.attached b) => if b = a then { s with since := [], got := [] } else s
  | .done _ (b, some n) => if b = a then { s with got := s.got ++ (s.posted[n]?).toList } else s
  | _ => s

/-- What agent `a` has seen after a history. -/
def seen (a : Agent) (log : List (Event T)) : Seen T := log.foldl (Seen.step a) {}

@[simp] theorem seen_append (a : Agent) (log : List (Event T)) (v : Event T) :
    seen a (log ++ [v]) = (seen a log).step a v := by
  simp [seen, List.foldl_append]

theorem seen_inv (a : Agent) (log : List (Event T)) (h : Hist hist log) :
    (seen a log).posted.length = (spec log).posts ∧
    (a ∈ (spec log).att → ∃ s, s ≤ (spec log).cur a ∧ (spec log).cur a ≤ (spec log).posts ∧
      (seen a log).since = (seen a log).posted.drop s ∧
      (seen a log).got = ((seen a log).posted.drop s).take ((spec log).cur a - s)) := by
  induction log using List.reverseRecOn with
  | nil => simp [seen, spec]
  | append_singleton log v ih =>
    rw [Hist.snoc] at h
    obtain ⟨h1, h2⟩ := ih h.1
    have hv := h.2
    rw [seen_append, spec_append]
    match v with
    | .ds (.posted n x) =>
      refine ⟨by simp [Seen.step, Spec.step, h1], ?_⟩
      simp only [Seen.step, Spec.step]
      intro ha
      obtain ⟨s, g1, g2, g3, g4⟩ := h2 ha
      refine ⟨s, g1, by omega, ?_, ?_⟩
      · rw [g3, List.drop_append_of_le_length (by omega)]
      · rw [g4, List.drop_append_of_le_length (by omega), List.take_append_of_le_length]
        simp only [List.length_drop]; omega
    | .ds (.attached b) =>
      simp only [Seen.step, Spec.step]
      by_cases hb : b = a
      · subst hb
        refine ⟨by simp [h1], fun _ => ⟨(spec log).posts, by simp, by simp, ?_, ?_⟩⟩
        · simp [← h1]
        · simp
      · have hb' : ¬ a = b := fun h => hb h.symm
        simp only [hb, if_false, List.mem_append, List.mem_singleton, hb', or_false, upd_ne _ _ hb']
        exact ⟨h1, h2⟩
    | .done i (b, some n) =>
      simp only [Seen.step, Spec.step]
      by_cases hb : b = a
      · subst hb
        refine ⟨by simp [h1], fun ha => ?_⟩
        obtain ⟨s, g1, g2, g3, g4⟩ := h2 ha
        obtain ⟨_, _, e, hn⟩ := hv
        refine ⟨s, by simp; omega, by simp; omega, by simpa using g3, ?_⟩
        simp only [if_true, upd_same]
        rw [g4, show (spec log).cur b + 1 - s = ((spec log).cur b - s) + 1 by omega, List.take_add_one,
          List.getElem?_drop, e, show s + ((spec log).cur b - s) = (spec log).cur b by omega]
      · have hb' : ¬ a = b := fun h => hb h.symm
        simp only [hb, if_false, upd_ne _ _ hb']
        exact ⟨h1, h2⟩
    | .done i (b, none) => exact ⟨h1, h2⟩
    | .ds (.detaching b) =>
      exact ⟨h1, fun ha => h2 (List.mem_of_mem_erase ha)⟩
    | .ds (.acked b n) => exact ⟨h1, h2⟩
    | .ds (.released b n) => exact ⟨h1, h2⟩
    | .ds (.pdone n) => exact ⟨h1, h2⟩
    | .ds (.detached n) => exact ⟨h1, h2⟩
    | .ds (.enq n) => exact ⟨h1, h2⟩
    | .ds (.skip n) => exact ⟨h1, h2⟩
    | .ds (.unq n) => exact ⟨h1, h2⟩
    | .begin _ _ _ => exact ⟨h1, h2⟩
    | .cancel _ => exact ⟨h1, h2⟩
    | .reset _ => exact ⟨h1, h2⟩

/-- C31. The objects returned by the polls of an attached agent are the objects posted since it
attached, in this order, without gaps and duplicates: they are an initial segment. -/
theorem C31_in_order {k : Conf (mach (ds T))} (h : KReach k) {a : Agent}
    (ha : a ∈ (spec k.sh.log).att) : (seen a k.sh.log).got <+: (seen a k.sh.log).since := by
  obtain ⟨ph, hI, _⟩ := reach_inv (lawful T) h
  obtain ⟨s, _, _, g3, g4⟩ := (seen_inv a k.sh.log hI.hist).2 ha
  rw [g3, g4]; exact List.take_prefix _ _

/-- C31. Every successful poll returns the next post of its agent, which exists and which the agent
did not see before; the agent is attached. Posts are numbered in the order in which they take
effect. -/
theorem C31_next_post {k : Conf (mach (ds T))} (h : KReach k) :
    Hist (fun before v =>
      (∀ i a n, v = .done i (a, some n) → a ∈ (spec before).att ∧ n = (spec before).cur a ∧
        n < (spec before).posts ∧ ∃ ct, Ev.begin i ct a ∈ before) ∧
      (∀ n x, v = .ds (.posted n x) → n = (spec before).posts)) k.sh.log := by
  obtain ⟨ph, hI, _⟩ := reach_inv (lawful T) h
  intro l1 v l2 e
  have := hI.hist l1 v l2 e
  refine ⟨?_, ?_⟩
  · rintro i a n rfl; exact ⟨this.2.1, this.2.2.1, this.2.2.2, this.1⟩
  · rintro n x rfl; exact this

/-- C31. No post is missed: when all calls have returned and a poll of an agent is still suspended,
the agent has seen every object posted since it attached. -/
theorem C31_suspended_has_seen_all {k : Conf (mach (ds T))} (h : KReach k) (hq : Quiescent k)
    {i : OpId} {ct : Option EvId} {a : Agent} (hb : Ev.begin i ct a ∈ k.sh.log)
    (hs : completions i k.sh.log = 0) :
    a ∈ (spec k.sh.log).att ∧ (seen a k.sh.log).got = (seen a k.sh.log).since := by
  obtain ⟨ph, hI, hC⟩ := reach_inv (lawful T) h
  rcases hC.rest hq (hC.begin_started hb) with h1 | ⟨h1, _⟩
  · omega
  · obtain ⟨g1, g2, g3, g4⟩ := hI.A.agent hb (by simp [h1]) (by simp [h1])
    refine ⟨g3, ?_⟩
    obtain ⟨e1, e2⟩ := seen_inv a k.sh.log hI.hist
    obtain ⟨s, k1, k2, k3, k4⟩ := e2 g3
    have w := (hI.A.waiting i h1).2.2
    have c := (hI.A.cur a g3).1
    have p := hI.A.posts
    rw [k3, k4, List.take_of_length_le]
    simp only [List.length_drop]; rw [g1] at w; omega

/-- C32. A post completes at most once, and only when every agent that was attached when it took
effect has acknowledged it or has been detached. An agent acknowledges only posts that its polls
have returned; a post is acknowledged in place of the agent only if it is detached. -/
theorem C32_post_completes {k : Conf (mach (ds T))} (h : KReach k) :
    Hist (fun before v =>
      (∀ n, v = .ds (.pdone n) → n < (spec before).posts ∧ (spec before).owe n = [] ∧
        (.ds (.pdone n) : Event T) ∉ before) ∧
      (∀ a n, v = .ds (.acked a n) → a ∈ (spec before).owe n ∧
        ∃ i, Ev.done i (a, some n) ∈ before) ∧
      (∀ a n, v = .ds (.released a n) → a ∈ (spec before).owe n ∧ a ∉ (spec before).att))
      k.sh.log := by
  obtain ⟨ph, hI, _⟩ := reach_inv (lawful T) h
  intro l1 v l2 e
  have := hI.hist l1 v l2 e
  refine ⟨?_, ?_, ?_⟩
  · rintro n rfl; exact this
  · rintro a n rfl; exact this
  · rintro a n rfl; exact this

/-- C32. When all calls have returned, a post has completed exactly if no agent has to acknowledge
it any more; in particular, if no agent was attached. -/
theorem C32_completed_iff {k : Conf (mach (ds T))} (h : KReach k) (hq : Quiescent k) {n : Nat}
    (hn : n < (spec k.sh.log).posts) :
    (.ds (.pdone n) : Event T) ∈ k.sh.log ↔ (spec k.sh.log).owe n = [] := by
  obtain ⟨ph, hI, hC⟩ := reach_inv (lawful T) h
  have hp := hI.B.post n
  rw [dsPend_quiescent hq] at hp
  simp only [List.countP_nil, Nat.zero_add] at hp
  constructor
  · intro hm
    have : 0 < k.sh.log.countP (evPdone n) := List.countP_pos_iff.2 ⟨_, hm, by simp [evPdone]⟩
    by_cases ho : (spec k.sh.log).owe n = []
    · exact ho
    · rw [if_neg (fun h => ho h.2)] at hp; omega
  · intro ho
    rw [if_pos ⟨hn, ho⟩] at hp
    obtain ⟨v, hv, he⟩ := List.countP_pos_iff.1 (by rw [hp]; exact Nat.one_pos :
      0 < k.sh.log.countP (evPdone n))
    cases v <;> try simp [evPdone] at he
    rename_i x
    cases x <;> simp [evPdone] at he
    subst he; exact hv

/-- C33. After a poll that returned an empty handle, the next poll of the agent that returns a post
returns the one that was next before the cancelled poll. -/
theorem C33_cancelled_poll_loses_nothing {k : Conf (mach (ds T))} (h : KReach k)
    {l1 l2 l3 : List (Event T)} {i j : OpId} {a : Agent} {n : Nat}
    (hl : k.sh.log = l1 ++ .done i (a, none) :: l2 ++ .done j (a, some n) :: l3)
    (h1 : ∀ i' m, Ev.done i' (a, some m) ∉ l2) (h2 : (.ds (.attached a) : Event T) ∉ l2) :
    n = (spec l1).cur a := by
  have hn := ((C31_next_post h _ _ _ hl).1 j a n rfl).2.1
  rw [hn]
  have : ∀ l : List (Event T), (∀ i' m, Ev.done i' (a, some m) ∉ l) →
      (.ds (.attached a) : Event T) ∉ l → (spec (l1 ++ .done i (a, none) :: l)).cur a =
        (spec l1).cur a := by
    intro l
    induction l using List.reverseRecOn with
    | nil => intro _ _; rw [show l1 ++ [Ev.done i (a, none)] = l1 ++ [.done i (a, none)] from rfl,
        spec_append]; rfl
    | append_singleton l v ih =>
      intro g1 g2
      rw [← ih (fun i' m hm => g1 i' m (by simp [hm])) (fun hm => g2 (by simp [hm]))]
      rw [show l1 ++ Ev.done i (a, none) :: (l ++ [v]) = (l1 ++ .done i (a, none) :: l) ++ [v] by simp,
        spec_append]
      generalize spec (l1 ++ Ev.done i (a, none) :: l) = s
      match v with
      | .ds (.posted n x) => rfl
      | .ds (.attached b) =>
        have : a ≠ b := by rintro rfl; exact g2 (by simp)
        simp [Spec.step, upd_ne _ _ this]
      | .done i' (b, some m) =>
        have : a ≠ b := by rintro rfl; exact g1 i' m (by simp)
        simp [Spec.step, upd_ne _ _ this]
      | .done i' (b, none) => rfl
      | .ds (.detaching b) => rfl
      | .ds (.acked b n) => rfl
      | .ds (.released b n) => rfl
      | .ds (.pdone n) => rfl
      | .ds (.detached n) => rfl
      | .ds (.enq n) => rfl
      | .ds (.skip n) => rfl
      | .ds (.unq n) => rfl
      | .begin _ _ _ => rfl
      | .cancel _ => rfl
      | .reset _ => rfl
  exact this l2 h1 h2

/-- C33. An empty handle is the result of a cancellation that withdrew the poll. -/
theorem C33_empty_handle {k : Conf (mach (ds T))} (h : KReach k) :
    Hist (fun before v => ∀ i a, v = .done i (a, none) → (.ds (.unq i) : Event T) ∈ before ∧
      ∃ e, Ev.begin i (some e) a ∈ before ∧ Ev.cancel e ∈ before) k.sh.log := by
  obtain ⟨ph, hI, _⟩ := reach_inv (lawful T) h
  rintro l1 v l2 e i a rfl
  exact hI.hist l1 _ l2 e

/-- C34. When all calls have returned, an agent that still has to acknowledge a post has received
it from a poll, or it is attached and the post is still ahead of it. So a detached agent holds back
only posts for which it has a handle. -/
theorem C34_detach_releases {k : Conf (mach (ds T))} (h : KReach k) (hq : Quiescent k)
    {a : Agent} {n : Nat} (ho : a ∈ (spec k.sh.log).owe n) :
    (∃ i, Ev.done i (a, some n) ∈ k.sh.log) ∨
      (a ∈ (spec k.sh.log).att ∧ (spec k.sh.log).cur a ≤ n) := by
  obtain ⟨ph, hI, hC⟩ := reach_inv (lawful T) h
  have hc := hI.B.owe a n
  rw [dsPend_quiescent hq] at hc
  have hpos := List.count_pos_iff.2 ho
  simp only [List.countP_nil, Nat.add_zero] at hc
  by_cases hx : a ∈ (spec k.sh.log).att ∧ k.sh.d.pollSeq a ≤ n ∧ n < (spec k.sh.log).posts
  · exact .inr ⟨hx.1, by rw [← (hI.A.cur a hx.1).1]; exact hx.2.1⟩
  · rw [if_neg hx] at hc
    exact .inl (hI.B.deliv a n (.inl (List.count_pos_iff.1 (by omega))))

/-- C34. Under the contract (each agent has at most one running poll, is detached only while no
poll is running, and every handle is acknowledged once), no assertion fails: the lookups of `poll`
and `detach` find their post. -/
theorem C34_no_assertion {k : Conf (mach (ds T))} (h : KReach k) : k.bad = false :=
  (C04_exactly_once (lawful T) h).1

/-- C04 for `poll`. -/
theorem C04_post_ack {k : Conf (mach (ds T))} (h : KReach k) :
    k.bad = false ∧ (∀ i, completions i k.sh.log ≤ 1) ∧
    (∀ i, 0 < completions i k.sh.log → ∃ ct p, Ev.begin i ct p ∈ k.sh.log) ∧
    (∀ i, completions i k.sh.log = 1 → ∀ x, Pending k.acts x → x.op = some i →
      x = .unregister i) := C04_exactly_once (lawful T) h

/-- C05 for `poll`, partial: schedules without preemption between the `fetch_or` in `transition_`
and the access that follows it. -/
theorem C05_post_ack_partial {k : Conf (mach (ds T))} (h : CoopReach (ds T) init k) {i : OpId}
    (hd : completions i k.sh.log = 1) {x : Instr (ds T)} (hx : Pending k.acts x) :
    x.op ≠ some i := C05_not_touched_after_completion_partial (lawful T) h hd hx

/-- C06 for `poll`. -/
theorem C06_post_ack {k : Conf (mach (ds T))} (h : KReach k) (hq : Quiescent k) {i : OpId}
    {e : EvId} {a : Agent} (hb : Ev.begin i (some e) a ∈ k.sh.log)
    (hc : cancelled e k.sh.log = true) : completions i k.sh.log = 1 :=
  C06_cancellation_prompt (lawful T) h hq hb hc

/-- C07 for `poll`. -/
theorem C07_post_ack {k : Conf (mach (ds T))} (h : KReach k) :
    Hist (fun before v => ∀ i a, v = .done i (a, none) →
      ∃ e, Ev.begin i (some e) a ∈ before ∧ Ev.cancel e ∈ before) k.sh.log :=
  fun l1 v l2 e i a he => (C33_empty_handle h l1 v l2 e i a he).2

/-! ## Concrete executions -/

abbrev M := mach (ds Nat)

/-- Post 100 (nobody attached); agents 0 and 1 attach; agent 0 polls with token 7 and is cancelled;
posts 101 and 102; agent 0 polls 101 and acknowledges; agent 1 polls 101 and acknowledges, so post
1 completes; agent 1 detaches, which releases post 2; agent 0 polls 102. -/
def run1 : List (Lbl M) :=
  [.env (.call (.post 100)), .run 0 true, .run 0 true,
   .env (.call (.attach 0)), .run 1 true, .env (.call (.attach 1)), .run 2 true,
   .env (.newOp 0 (some 7) 0), .run 3 true, .run 3 true, .run 3 true, .run 3 true,
   .env (.cancel 7), .run 4 true, .run 4 true, .run 4 true, .run 4 true,
   .env (.call (.post 101)), .run 5 true, .env (.call (.post 102)), .run 6 true,
   .env (.newOp 1 none 0), .run 7 true, .run 7 true,
   .env (.call (.ack 0 1)), .run 8 true,
   .env (.newOp 2 none 1), .run 9 true, .run 9 true,
   .env (.call (.ack 1 1)), .run 10 true, .run 10 true, .run 10 true,
   .env (.call (.detach 1)), .run 11 true, .run 11 true,
   .env (.newOp 3 none 0), .run 12 true, .run 12 true,
   .env (.newOp 4 none 0), .run 13 true, .run 13 true, .run 13 true]

abbrev log1 : List (Event Nat) :=
  [.ds (.posted 0 100), .ds (.pdone 0), .ds (.attached 0), .ds (.attached 1),
   .begin 0 (some 7) 0, .ds (.enq 0), .cancel 7, .ds (.unq 0), .done 0 (0, none),
   .ds (.posted 1 101), .ds (.posted 2 102), .begin 1 none 0, .ds (.skip 1), .done 1 (0, some 1),
   .ds (.acked 0 1), .begin 2 none 1, .ds (.skip 2), .done 2 (1, some 1), .ds (.acked 1 1),
   .ds (.pdone 1), .ds (.detaching 1), .ds (.released 1 2), .ds (.detached 1),
   .begin 3 none 0, .ds (.skip 3), .done 3 (0, some 2), .begin 4 none 0, .ds (.enq 4)]

theorem run1_log : (M.after (RSt.init init) run1).sh.log = log1 := rfl

theorem run1_acts : (M.after (RSt.init init) run1).acts =
    [[], [], [], [], [], [], [], [], [], [], [], [], [], []] := rfl

/-- Hypotheses of the theorems about configurations at rest: agent 0 is attached and has seen 101
and 102; poll 4 is suspended; posts 0 and 1 have completed, post 2 waits for agent 0 only, which has
a handle. -/
example : ∃ k : Conf M, KReach k ∧ Quiescent k ∧ 0 ∈ (spec k.sh.log).att ∧
    (seen 0 k.sh.log).got = [101, 102] ∧ (seen 0 k.sh.log).since = [101, 102] ∧
    (.begin 4 none 0 : Event Nat) ∈ k.sh.log ∧ completions 4 k.sh.log = 0 ∧
    2 < (spec k.sh.log).posts ∧ (spec k.sh.log).owe 1 = [] ∧ (spec k.sh.log).owe 2 = [0] ∧
    (.ds (.pdone 1) : Event Nat) ∈ k.sh.log ∧ (.ds (.pdone 2) : Event Nat) ∉ k.sh.log ∧
    (.begin 0 (some 7) 0 : Event Nat) ∈ k.sh.log ∧ cancelled 7 k.sh.log = true := by
  refine ⟨M.after (RSt.init init) run1, Reach.after _ _ _, ?_, ?_⟩
  · intro a ha; rw [run1_acts] at ha; simpa using ha
  · rw [run1_log]
    exact ⟨by decide, rfl, rfl, by simp, rfl, by decide, rfl, rfl, by simp, by simp, by simp, rfl⟩

/-- Hypotheses of `C33_cancelled_poll_loses_nothing`. -/
example : ∃ k : Conf M, KReach k ∧ ∃ l1 l2 l3 : List (Event Nat),
    k.sh.log = l1 ++ .done 0 (0, none) :: l2 ++ .done 1 (0, some 1) :: l3 ∧
    (∀ i' m, (.done i' (0, some m) : Event Nat) ∉ l2) ∧ (.ds (.attached 0) : Event Nat) ∉ l2 := by
  refine ⟨M.after (RSt.init init) run1, Reach.after _ _ _, log1.take 8,
    (log1.drop 9).take 4, log1.drop 14, ?_, ?_, ?_⟩
  · rw [run1_log]; rfl
  · intro i' m; simp
  · simp

/-- Hypotheses of `C05_post_ack_partial`. -/
example : ∃ k : Conf M, CoopReach (ds Nat) init k ∧ completions 1 k.sh.log = 1 ∧
    Pending k.acts (.start 2) :=
  ⟨coopAfter init ([.env (.call (.attach 0)), .run 0 true, .env (.call (.attach 1)), .run 1 true,
      .env (.call (.post 5)), .run 2 true, .env (.newOp 1 none 0), .run 3 true, .run 3 true,
      .env (.newOp 2 none 1)]),
    coopAfter_reach _ _, rfl, [.start 2], List.mem_of_getElem? (i := 4) rfl, by simp⟩

/-! Applications of the theorems to `run1`. -/

abbrev demo : Conf M := M.after (RSt.init init) run1

theorem demo_reach : KReach demo := Reach.after _ _ _
theorem demo_log : demo.sh.log = log1 := run1_log
theorem demo_rest : Quiescent demo := by
  intro a ha; rw [show demo.acts = _ from run1_acts] at ha; simpa using ha

example : (seen 0 demo.sh.log).got <+: (seen 0 demo.sh.log).since :=
  C31_in_order demo_reach (by rw [demo_log]; decide)
example : 2 = (spec (demo.sh.log.take 25)).cur 0 ∧ 2 < (spec (demo.sh.log.take 25)).posts :=
  have h := (C31_next_post demo_reach _ _ (demo.sh.log.drop 26) rfl).1 3 0 2 rfl
  ⟨h.2.1, h.2.2.1⟩
example : (seen 0 demo.sh.log).got = (seen 0 demo.sh.log).since :=
  (C31_suspended_has_seen_all demo_reach demo_rest (i := 4) (ct := none) (by rw [demo_log]; simp) rfl).2
example : (spec (demo.sh.log.take 19)).owe 1 = [] :=
  ((C32_post_completes demo_reach _ _ (demo.sh.log.drop 20) rfl).1 1 rfl).2.1
example : 1 ∉ (spec (demo.sh.log.take 21)).att :=
  ((C32_post_completes demo_reach _ _ (demo.sh.log.drop 22) rfl).2.2 1 2 rfl).2
example : (.ds (.pdone 2) : Event Nat) ∈ demo.sh.log ↔ (spec demo.sh.log).owe 2 = [] :=
  C32_completed_iff demo_reach demo_rest (by rw [demo_log]; decide)
example : 1 = (spec (log1.take 8)).cur 0 :=
  C33_cancelled_poll_loses_nothing demo_reach (l1 := log1.take 8) (i := 0) (l2 := (log1.drop 9).take 4) (j := 1) (l3 := log1.drop 14)
    (by rw [demo_log]; rfl) (by intro i' m; simp) (by simp)
example : (.ds (.unq 0) : Event Nat) ∈ demo.sh.log.take 8 :=
  (C33_empty_handle demo_reach _ _ (demo.sh.log.drop 9) rfl 0 0 rfl).1
example : (∃ i, Ev.done i (0, some 2) ∈ demo.sh.log) ∨ (0 ∈ (spec demo.sh.log).att ∧ (spec demo.sh.log).cur 0 ≤ 2) :=
  C34_detach_releases demo_reach demo_rest (by rw [demo_log]; decide)
example : demo.bad = false := C34_no_assertion demo_reach
example : completions 1 demo.sh.log ≤ 1 := (C04_post_ack demo_reach).2.1 1
example : (Instr.start (S := ds Nat) 2).op ≠ some 1 :=
  C05_post_ack_partial (k := coopAfter init ([.env (.call (.attach 0)), .run 0 true, .env (.call (.attach 1)), .run 1 true,
      .env (.call (.post 5)), .run 2 true, .env (.newOp 1 none 0), .run 3 true, .run 3 true,
      .env (.newOp 2 none 1)])) (coopAfter_reach _ _) rfl
    ⟨[.start 2], List.mem_of_getElem? (i := 4) rfl, by simp⟩
example : completions 0 demo.sh.log = 1 :=
  C06_post_ack demo_reach demo_rest (e := 7) (a := 0) (by rw [demo_log]; simp) (by rw [demo_log]; rfl)
example : ∃ e, (.begin 0 (some e) 0 : Event Nat) ∈ demo.sh.log.take 8 ∧ Ev.cancel e ∈ demo.sh.log.take 8 :=
  C07_post_ack demo_reach _ _ (demo.sh.log.drop 9) rfl 0 0 rfl

/-- C73. As long as a delivery is not acknowledged (its handle is one of those that were given out and not acknowledged), the
post is not completed, so its object is still there. -/
theorem C73_object_alive {k : Conf (mach (ds T))} (h : KReach k) {a : Agent} {n : Nat} (hh : (a, n) ∈ k.sh.d.handles) :
    (.ds (.pdone n) : Event T) ∉ k.sh.log ∧ (∃ i, Ev.done i (a, some n) ∈ k.sh.log) := by
  obtain ⟨ph, hI, hC⟩ := reach_inv (lawful T) h
  refine ⟨fun hp => ?_, hI.B.deliv a n (.inl hh)⟩
  have h1 := hI.B.owe a n
  have h2 := List.count_pos_iff.2 hh
  have h3 := hI.B.post n
  have h4 : 0 < k.sh.log.countP (evPdone n) := List.countP_pos_iff.2 ⟨_, hp, by simp [evPdone]⟩
  by_cases ho : (spec k.sh.log).owe n = []
  · rw [ho] at h1; simp only [List.count_nil] at h1; omega
  · rw [if_neg (fun h => ho h.2)] at h3; omega

example : (.ds (.pdone 2) : Event Nat) ∉ demo.sh.log ∧ ∃ i, Ev.done i (0, some 2) ∈ demo.sh.log :=
  C73_object_alive demo_reach (a := 0) (by show (0, 2) ∈ [(0, 2)]; simp)

end Verif.PostAck
