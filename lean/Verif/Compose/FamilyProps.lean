import Verif.Compose.FamilyTerm
import Verif.Liveness.Costs
import Verif.Queue.Props
import Verif.WaitGroup.Props

/-!
# Properties of synchronisation objects that share cancellation events

`S 0, S 1, …` are any objects that keep the contract of `cancellation_resolver` (`Lawful`; proved for `queue`,
`recurring_event` and its users, `wait_group`, `oneshot_event`, `promise` and `post_ack_agent`). Their operations may be given
tokens of the same events, in any combination, and all calls may run at the same time.
-/

namespace Verif.Resolver

variable {own : OpId → Nat} {S : Nat → DS} {d0 : ∀ n, (S n).D}

theorem completions_history {s : RSt (fam own S)} {acts : List (List (Instr (fam own S)))} (T : Typed s acts) (i : OpId) :
    completions i (history (own i) s.log) = completions i s.log := by
  have h : ∀ log : List (Ev (fam own S)), (∀ i v, Ev.done i v ∈ log → v.1 = own i) →
      (history (own i) log).countP (isDone i) = log.countP (isDone i) := by
    intro log
    induction log with
    | nil => intro _; rfl
    | cons v log ih =>
      intro hl
      have ih := ih (fun i v hv => hl i v (List.mem_cons_of_mem _ hv))
      have e : ∀ o : Option (Ev (S (own i))), evPart (own i) v = o →
          history (own i) (v :: log) = o.toList ++ history (own i) log := by
        intro o ho
        cases o <;> simp [history, ho]
      rw [e _ rfl, List.countP_append, ih, List.countP_cons, Nat.add_comm]
      congr 1
      cases v with
      | done j w =>
        have h1 := hl j w (by simp)
        obtain ⟨m, w⟩ := w
        simp only at h1
        subst h1
        by_cases hj : j = i
        · subst hj; simp [evPart, isDone]
        · have h2 : (j == i) = false := by simpa using hj
          simp only [evPart, isDone, h2]
          cases part (own i) (⟨own j, w⟩ : Σ n, (S n).V) <;> simp [isDone, hj]
      | begin j ct p =>
        simp only [evPart, isDone]
        cases part (own i) p <;> simp [isDone]
      | ds x =>
        simp only [evPart, isDone]
        cases part (own i) x <;> simp [isDone]
      | _ => simp [evPart, isDone]
  exact h s.log T.don

theorem cancelled_history (n : Nat) (e : EvId) (log : List (Ev (fam own S))) :
    cancelled e (history n log) = cancelled e log := by
  induction log using List.reverseRecOn with
  | nil => rfl
  | append_singleton log v ih =>
    rw [history_append, cancelled_append]
    cases v with
    | begin j ct p =>
      simp only [history, List.filterMap_cons, List.filterMap_nil, evPart] at ih ⊢
      cases part n p with
      | none => simpa using ih
      | some q => simp only [Option.map_some, cancelled_append]; exact ih
    | done j w =>
      simp only [history, List.filterMap_cons, List.filterMap_nil, evPart] at ih ⊢
      cases part n w with
      | none => simpa using ih
      | some q => simp only [Option.map_some, cancelled_append]; exact ih
    | ds x =>
      simp only [history, List.filterMap_cons, List.filterMap_nil, evPart] at ih ⊢
      cases part n x with
      | none => simpa using ih
      | some q => simp only [Option.map_some, cancelled_append]; exact ih
    | cancel e' => simp only [history, List.filterMap_cons, List.filterMap_nil, evPart, cancelled_append] at ih ⊢; rw [ih]
    | reset e' => simp only [history, List.filterMap_cons, List.filterMap_nil, evPart, cancelled_append] at ih ⊢; rw [ih]

theorem running'_nil {ι : Type} {acts : List (List ι)} : running' acts = [] ↔ ∀ a ∈ acts, a = [] := by
  simp [running']

/-- C80. Every object behaves as if it were the only one. Whatever the other objects and their operations do, the history of
object `n` (its own events, and all cancellations) is a history that it can have alone, with the same state, the same cancelled
events and the same calls running. -/
theorem C80_as_if_alone (L : ∀ n, Lawful (S n) (d0 n)) {c : Conf (mach (fam own S))}
    (h : Reach (mach (fam own S)) (RSt.init d0) c) (n : Nat) :
    ∃ k, Reach (mach (S n)) (RSt.init (d0 n)) k ∧
      k.sh.log = history n c.sh.log ∧ k.sh.d = c.sh.d n ∧ (∀ e, k.sh.req e = c.sh.req e) ∧
      k.acts.filter (· ≠ []) = (calls n c.acts).filter (· ≠ []) ∧ (Quiescent c → Quiescent k) := by
  obtain ⟨k, hk, R⟩ := (simulate L h).2 n
  have e : ∀ l : List (List (Instr (S n))), l.filter (fun a => decide (a ≠ [])) = running' l := by
    intro l
    simp only [running']
    congr 1
    funext a
    cases a <;> rfl
  refine ⟨k, hk, R.st.log, R.st.d, fun e => by rw [R.st.req], ?_, fun hq => ?_⟩
  · rw [e, e]; exact R.acts
  · have h1 : running' (calls n c.acts) = [] := by
      rw [running'_nil]
      intro a ha
      obtain ⟨b, hb, rfl⟩ := List.mem_map.1 ha
      rw [hq b hb]; rfl
    rw [← R.acts, running'_nil] at h1
    exact h1

/-- C80. So what holds of all histories of the object alone holds of its history in any program. -/
theorem C80_transfer (L : ∀ n, Lawful (S n) (d0 n)) {c : Conf (mach (fam own S))}
    (h : Reach (mach (fam own S)) (RSt.init d0) c) (n : Nat) {P : List (Ev (S n)) → Prop}
    (hP : ∀ k, Reach (mach (S n)) (RSt.init (d0 n)) k → P k.sh.log) : P (history n c.sh.log) := by
  obtain ⟨k, hk, hl, _⟩ := C80_as_if_alone L h n
  rw [← hl]; exact hP k hk

/-- C80. The same for what holds whenever all calls have returned. -/
theorem C80_transfer_at_rest (L : ∀ n, Lawful (S n) (d0 n)) {c : Conf (mach (fam own S))}
    (h : Reach (mach (fam own S)) (RSt.init d0) c) (hq : Quiescent c) (n : Nat) {P : List (Ev (S n)) → Prop}
    (hP : ∀ k, Reach (mach (S n)) (RSt.init (d0 n)) k → Quiescent k → P k.sh.log) : P (history n c.sh.log) := by
  obtain ⟨k, hk, hl, _, _, _, h1⟩ := C80_as_if_alone L h n
  rw [← hl]; exact hP k hk (h1 hq)

/-- C80. No assertion fails and no list is corrupted, whichever objects share an event, and every operation of every object
completes at most once, after it was started, with a value of its own object. -/
theorem C80_exactly_once (L : ∀ n, Lawful (S n) (d0 n)) {c : Conf (mach (fam own S))}
    (h : Reach (mach (fam own S)) (RSt.init d0) c) :
    c.bad = false ∧ (∀ i, completions i c.sh.log ≤ 1) ∧
    (∀ i v, Ev.done i v ∈ c.sh.log → ∃ ct p, Ev.begin i ct p ∈ c.sh.log ∧ p.1 = v.1) := by
  have T := typed h
  refine ⟨(simulate L h).1, fun i => ?_, fun i v hv => ?_⟩
  · obtain ⟨k, hk, R⟩ := (simulate L h).2 (own i)
    rw [← completions_history T, ← R.st.log]
    exact completions_le_one (L _) hk i
  · obtain ⟨k, hk, R⟩ := (simulate L h).2 (own i)
    have h1 : 0 < completions i k.sh.log := by
      rw [R.st.log, completions_history T]
      exact List.countP_pos_iff.2 ⟨_, hv, by simp [isDone]⟩
    obtain ⟨ct, p, hb⟩ := begin_of_done (L _) hk h1
    rw [R.st.log] at hb
    obtain ⟨w, hw, hp⟩ := List.mem_filterMap.1 hb
    cases w with
    | begin j ct' p' =>
      simp only [evPart, Option.map_eq_some_iff] at hp
      obtain ⟨q, hq, hq2⟩ := hp
      cases hq2
      exact ⟨ct, p', hw, by rw [T.beg _ _ _ hw, T.don _ _ hv]⟩
    | done => simp [evPart] at hp
    | cancel => simp [evPart] at hp
    | reset => simp [evPart] at hp
    | ds => simp [evPart] at hp

/-- C80. `cancel()` reaches the operations of all objects: once all calls have returned, every operation that was given a token of
a cancelled event has completed, whatever object it belongs to. -/
theorem C80_cancellation_reaches_all (L : ∀ n, Lawful (S n) (d0 n)) {c : Conf (mach (fam own S))}
    (h : Reach (mach (fam own S)) (RSt.init d0) c) (hq : Quiescent c) {i : OpId} {e : EvId} {p : (fam own S).P}
    (hb : Ev.begin i (some e) p ∈ c.sh.log) (hc : cancelled e c.sh.log = true) : completions i c.sh.log = 1 := by
  have T := typed h
  obtain ⟨k, hk, hl, _, _, _, h1⟩ := C80_as_if_alone L h (own i)
  rw [← completions_history T, ← hl]
  have h2 := T.beg _ _ _ hb
  obtain ⟨m, p⟩ := p
  simp only at h2
  subst h2
  refine C06_cancellation_prompt (L _) hk (h1 hq) (e := e) (p := p) ?_ ?_
  · rw [hl]; exact List.mem_filterMap.2 ⟨_, hb, by simp [evPart]⟩
  · rw [hl, cancelled_history]; exact hc

/-- C80. A running call is never stuck. -/
theorem C80_calls_make_progress (L : ∀ n, Lawful (S n) (d0 n)) {c : Conf (mach (fam own S))}
    (h : Reach (mach (fam own S)) (RSt.init d0) c) {k : Nat} {x : Instr (fam own S)} {r : List (Instr (fam own S))}
    (hk : c.acts[k]? = some (x :: r)) (b : Bool) :
    ∃ c', (mach (fam own S)).step c (.run k b) = some c' ∧ c'.bad = false := by
  have hb := (simulate L h).1
  cases hs : (mach (fam own S)).step c (.run k b) with
  | some c' => exact ⟨c', rfl, (simulate L (.step h hs)).1⟩
  | none =>
    exfalso
    simp only [Mach.step, hb, hk] at hs
    cases he : exec c.sh x b with
    | ok => simp [he] at hs
    | fault => simp [he] at hs
    | block => cases x <;> simp only [exec] at he <;> (repeat' (split at he)) <;> cases he

/-- C80. The running calls return: however they are scheduled, they execute a bounded number of instructions altogether (the bound
depends only on the configuration), and then all of them have returned. (`Costs`: the member functions of each object alone
return; proved for all of them in `Verif/Liveness/Costs.lean`.) -/
theorem C80_calls_return (L : ∀ n, Lawful (S n) (d0 n)) (C : ∀ n, Costs (L n)) {c : Conf (mach (fam own S))}
    (h : Reach (mach (fam own S)) (RSt.init d0) c) : (∃ n, Steps c n) ∧ CanFinish c := by
  refine ⟨fam_steps L C h, canFinish_of (fun c h => (simulate L h).1) (fun c h hq => ?_)
    (fun c h => ?_) h⟩
  · obtain ⟨k, x, r, hk⟩ := exists_top hq
    exact ⟨k, fun b => (C80_calls_make_progress L h hk b).imp fun _ h => h.1⟩
  · obtain ⟨n, hn⟩ := fam_steps L C h
    exact ⟨n, hn.bounded⟩

/-! ## A queue and a wait group that share an event -/

namespace FamDemo

/-- Object 0 is a queue, the others are wait groups. -/
def objs : Nat → DS
  | 0 => Queue.ds Nat
  | _ + 1 => WaitGroup.ds Nat WaitGroup.full

/-- The wait groups have one piece of work each. -/
def objs0 : ∀ n, (objs n).D
  | 0 => Queue.init
  | _ + 1 => WaitGroup.init 1

def lawful : ∀ n, Lawful (objs n) (objs0 n)
  | 0 => Queue.lawful Nat
  | _ + 1 => WaitGroup.lawful 1 rfl rfl

def costs : ∀ n, Costs (lawful n)
  | 0 => Queue.costs Nat
  | _ + 1 => WaitGroup.costs 1 rfl rfl

def owner (i : OpId) : Nat := i % 2

abbrev M := mach (fam owner objs)

/-- Consumer 0 of the queue and waiter 1 of the group use tokens of event 7; consumer 2 of the queue does not. While `cancel()` has
withdrawn the consumer but not yet the waiter, an item is put into the queue. -/
def run1 : List (Lbl M) :=
  [.env (.newOp 0 (some 7) ⟨0, ()⟩), .run 0 true, .run 0 true, .run 0 true, .run 0 true,
   .env (.newOp 1 (some 7) ⟨1, ()⟩), .run 1 true, .run 1 true, .run 1 true, .run 1 true,
   .env (.newOp 2 none ⟨0, ()⟩), .run 2 true, .run 2 true, .run 2 true,
   .env (.cancel 7), .run 3 true, .run 3 true,
   .env (.call ⟨0, .put 5⟩), .run 4 true, .run 4 true, .run 4 true, .run 4 true,
   .run 3 true, .run 3 true, .run 3 true, .run 3 true, .run 3 true]

def demo : Conf M := M.after (RSt.init objs0) run1

theorem demo_reach : Reach M (RSt.init objs0) demo := Reach.after _ _ _

def demoLog : List (Ev (fam owner objs)) :=
  [.begin 0 (some 7) ⟨0, ()⟩, .ds ⟨0, .enq 0⟩, .begin 1 (some 7) ⟨1, ()⟩, .ds ⟨1, .enq 1⟩, .begin 2 none ⟨0, ()⟩, .ds ⟨0, .enq 2⟩,
   .cancel 7, .ds ⟨0, .unq 0⟩, .ds ⟨0, .put 5⟩, .ds ⟨0, .claim (some 2) 5⟩, .done 2 ⟨0, some 5⟩, .done 0 ⟨0, none⟩,
   .ds ⟨1, .unq 1⟩, .done 1 ⟨1, false⟩]

theorem demo_log : demo.sh.log = demoLog := by rfl

theorem demo_rest : Quiescent demo := by
  intro a ha
  rw [show demo.acts = [[], [], [], [], []] from rfl] at ha
  simpa using ha

/-- The queue does not notice that there is a wait group. -/
theorem demo_queue : history 0 demo.sh.log = [.begin 0 (some 7) (), .ds (.enq 0), .begin 2 none (), .ds (.enq 2),
    .cancel 7, .ds (.unq 0), .ds (.put 5), .ds (.claim (some 2) 5), .done 2 (some 5), .done 0 none] := by rfl

example : history 1 demo.sh.log = [.begin 1 (some 7) (), .ds (.enq 1), .cancel 7, .ds (.unq 1), .done 1 false] := by rfl

example : ∃ k : Conf (mach (Queue.ds Nat)), Queue.QReach k ∧ k.sh.log = history 0 demo.sh.log :=
  let ⟨k, h1, h2, _⟩ := C80_as_if_alone lawful demo_reach 0
  ⟨k, h1, h2⟩

/-- The queue is a FIFO in this program (C10), by the theorem about the queue alone. -/
example : Queue.claims (T := Nat) (history 0 demo.sh.log) <+: Queue.puts (T := Nat) (history 0 demo.sh.log) :=
  C80_transfer lawful demo_reach 0 (P := fun log => Queue.claims (T := Nat) log <+: Queue.puts (T := Nat) log)
    (fun _ hk => (Queue.C10_queue_fifo hk).1)

/-- Consumer 2 received its item (C11). -/
example : ∀ i x, Queue.claimsOf (T := Nat) i (history 0 demo.sh.log) = [x] →
    (.done i (some x) : Queue.Event Nat) ∈ history 0 demo.sh.log :=
  C80_transfer_at_rest lawful demo_reach demo_rest 0
    (P := fun log => ∀ i x, Queue.claimsOf (T := Nat) i log = [x] → (.done i (some x) : Queue.Event Nat) ∈ log)
    (fun _ hk hq => (Queue.C11_served_receives hk hq).1)

example : demo.bad = false ∧ completions 1 demo.sh.log ≤ 1 :=
  ⟨(C80_exactly_once lawful demo_reach).1, (C80_exactly_once lawful demo_reach).2.1 1⟩

/-- One call of `cancel()` completes the consumer of the queue and the waiter of the group. -/
example : completions 0 demo.sh.log = 1 ∧ completions 1 demo.sh.log = 1 :=
  ⟨C80_cancellation_reaches_all lawful demo_reach demo_rest (e := 7) (p := ⟨0, ()⟩) (by rw [demo_log]; simp [demoLog]) rfl,
   C80_cancellation_reaches_all lawful demo_reach demo_rest (e := 7) (p := ⟨1, ()⟩) (by rw [demo_log]; simp [demoLog]) rfl⟩

/-- `cancel()` has just withdrawn the consumer of the queue. -/
example : ∃ c', M.step (M.after (RSt.init objs0) (run1.take 17)) (.run 3 true) = some c' ∧ c'.bad = false :=
  C80_calls_make_progress lawful (Reach.after _ _ _) (x := .transition 0 { compl := true, canc := true })
    (r := [.tryCancel 1 false]) (by rfl) true

example : (∃ n, Steps (M.after (RSt.init objs0) (run1.take 17)) n) ∧ CanFinish (M.after (RSt.init objs0) (run1.take 17)) :=
  C80_calls_return lawful costs (Reach.after _ _ _)

end FamDemo

end Verif.Resolver
