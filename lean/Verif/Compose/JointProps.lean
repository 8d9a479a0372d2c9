import Verif.Compose.JointSim
import Verif.Compose.FamilyLaws
import Verif.Compose.FamilyProps

/-!
# Properties of expressions over the operations of the library

The history of the algorithms is `c.sh.1.log` (`Tree.Ev`), that of the library is `c.sh.2.log` (`Resolver.Ev`). `S` is any object
that keeps the contract of `cancellation_resolver` (`Lawful`; proved for `queue`, `recurring_event` and its users,
`wait_group`, `oneshot_event`, `promise`, `post_ack_agent`), or a collection of such objects. `G.op p = some (i, ct, a)` says that the leaf
`p` of an expression is operation `i` of the object, created with token `ct` and parameter `a`.
-/

namespace Verif.Joint

open Verif.Resolver (DS RSt OpId EvId completions cancelled Lawful)
open Verif.Tree (Path Snd isDone)

variable {S : DS} {G : Glue S} {d0 : S.D}

/-- C81. The algorithms and the object, put together, behave as each of them does on its own: what the algorithms do is possible
with leaves that complete at any time (C41-C48), and what the object does is possible if its operations are started by
any program (C04-C11, …). -/
theorem C81_as_if_alone (L : Lawful S d0) {c : Conf (mach G)} (hc : JReach G d0 c) :
    (∃ t, Tree.TReach t ∧ t.sh = c.sh.1 ∧ (Quiescent c → Quiescent t)) ∧
    (∃ r, Reach (Resolver.mach S) (RSt.init d0) r ∧ r.sh = c.sh.2 ∧ (Quiescent c → Quiescent r)) := by
  obtain ⟨⟨t, r, h⟩, _⟩ := parts L hc
  exact ⟨⟨t, h.treach, h.tsh, fun hq => (h.rest hq).1⟩, ⟨r, h.rreach, h.rsh, fun hq => (h.rest hq).2⟩⟩

/-- C81. Nothing goes wrong that does not go wrong with other leaves: no operation is started twice, completes twice, or completes
before it was started, and no assertion of the library fails. The only faults are those of `when_all` (C46) and
`race_and_cancel` (C47). -/
theorem C81_faults (L : Lawful S d0) {c : Conf (mach G)} (hc : JReach G d0 c) (hb : c.bad = true) :
    (∃ p n f, c.sh.1.snd p = some (.all n f) ∧ .start p ∈ c.sh.1.log ∧ ∀ k, k ≤ n → ∃ v, .done (k :: p) v ∈ c.sh.1.log) ∨
    (∃ p n f v, c.sh.1.snd p = some (.race n f) ∧ 0 < n ∧ .done p v ∈ c.sh.1.log) := by
  obtain ⟨t, ht, e, hb⟩ := (parts L hc).2 hb
  rw [← e]
  exact Tree.fault_kinds ht hb

/-- C81. In particular there is no fault if `when_all` and `race_and_cancel` are not used. -/
theorem C81_no_fault (L : Lawful S d0) {c : Conf (mach G)} (hc : JReach G d0 c)
    (hp : ∀ n E, c.sh.1.snd [n] = some E → E.plain) : c.bad = false := by
  cases hb : c.bad with
  | false => rfl
  | true =>
    obtain ⟨t, ht, e, hb'⟩ := (parts L hc).2 hb
    rw [← e] at hp
    rw [Tree.C48_no_fault ht hp] at hb'
    cases hb'

/-- C81. The operation is started by its leaf, with the token and the parameter it was created with; if the leaf has completed, it has
completed with the value of the operation. -/
theorem C81_leaf (L : Lawful S d0) {c : Conf (mach G)} (hc : JReach G d0 c) {p : Path} {i : OpId} {ct : Option EvId} {a : S.P}
    (ho : G.op p = some (i, ct, a)) :
    (∀ ct' a', .begin i ct' a' ∈ c.sh.2.log → ct' = ct ∧ a' = a ∧ .start p ∈ c.sh.1.log) ∧
    (c.sh.1.snd p = some .leaf → ∀ v, .done p v ∈ c.sh.1.log → ∃ w, v = G.val w ∧ .done i w ∈ c.sh.2.log) := by
  obtain ⟨⟨t, r, h⟩, _⟩ := parts L hc
  rw [← h.tsh, ← h.rsh]
  obtain ⟨ph, _, hC⟩ := Resolver.reach_inv L h.rreach
  constructor
  · intro ct' a' hb
    have hs := hC.begin_started hb
    obtain ⟨_, h2, _, h4⟩ := h.link0.beg p i ct a ho hs
    obtain ⟨e1, e2⟩ := begin_unique h.rreach hb h4
    exact ⟨e1, e2, h2⟩
  · intro hs v hv
    exact h.link0.val p i ct a ho hs v (.inr hv)

/-- C81. Once all calls have returned, the leaf has completed if and only if the operation has completed. -/
theorem C81_leaf_at_rest (L : Lawful S d0) {c : Conf (mach G)} (hc : JReach G d0 c) (hq : Quiescent c) {p : Path} {i : OpId}
    {ct : Option EvId} {a : S.P} (ho : G.op p = some (i, ct, a)) (hs : c.sh.1.snd p = some .leaf)
    (hst : .start p ∈ c.sh.1.log) :
    .begin i ct a ∈ c.sh.2.log ∧
    (completions i c.sh.2.log = 1 → ∃ w, .done i w ∈ c.sh.2.log ∧ .done p (G.val w) ∈ c.sh.1.log) ∧
    (completions i c.sh.2.log = 0 → ∀ v, .done p v ∉ c.sh.1.log) := by
  obtain ⟨⟨t, r, h⟩, _⟩ := parts L hc
  have hq' := (h.rest hq).1
  rw [← h.tsh] at hs hst ⊢
  rw [← h.rsh]
  have hi := Tree.reach_inv h.treach
  have h2 := Tree.reach_inv2 h.treach
  have h3 := Tree.reach_inv3 h.treach
  have hne := Tree.ne_nil h.treach hs
  have hstd : r.sh.started i = true := by
    cases hsi : r.sh.started i with
    | true => rfl
    | false =>
      exfalso
      rcases (h2.s1 p).1 hst with hph | hph
      · rcases Tree.waits1 hi h3 hq' p hne hph _ hs with ⟨_, h4⟩ | ⟨k, _, h4⟩
        · have := ((h.link0.rdy p i ct a ho).1 h4).1
          rw [hsi] at this; cases this
        · exact h4
      · obtain ⟨v, hv⟩ := h2.s3 p hph
        obtain ⟨w, _, h6⟩ := h.link0.val p i ct a ho hs v (.inr hv)
        have hpos : 0 < completions i r.sh.log :=
          Nat.pos_of_ne_zero (fun h0 => no_done_of_zero h0 w h6)
        obtain ⟨_, _, hb⟩ := Resolver.begin_of_done L h.rreach hpos
        obtain ⟨ph, _, hC⟩ := Resolver.reach_inv L h.rreach
        rw [hC.begin_started hb] at hsi; cases hsi
  refine ⟨(h.link0.beg p i ct a ho hstd).2.2.2, fun hcm => ?_, fun hcm v hv => ?_⟩
  · rcases (h2.s1 p).1 hst with hph | hph
    · exfalso
      rcases Tree.waits1 hi h3 hq' p hne hph _ hs with ⟨_, h4⟩ | ⟨k, _, h4⟩
      · have := ((h.link0.rdy p i ct a ho).1 h4).2
        omega
      · exact h4
    · obtain ⟨v, hv⟩ := h2.s3 p hph
      obtain ⟨w, h5, h6⟩ := h.link0.val p i ct a ho hs v (.inr hv)
      exact ⟨w, h6, h5 ▸ hv⟩
  · obtain ⟨w, _, h6⟩ := h.link0.val p i ct a ho hs v (.inr hv)
    exact no_done_of_zero hcm w h6

/-- C81. Once all calls have returned, an operation of an expression that has not completed waits for a leaf: one of the user's own
senders, or an operation of the object that has been started, has not completed, and has not been cancelled. -/
theorem C81_waits_for (L : Lawful S d0) {c : Conf (mach G)} (hc : JReach G d0 c) (hq : Quiescent c) {p : Path}
    (hs : .start p ∈ c.sh.1.log) (hd : ∀ v, .done p v ∉ c.sh.1.log) :
    ∃ q, p <:+ q ∧ c.sh.1.snd q = some .leaf ∧ .start q ∈ c.sh.1.log ∧ (∀ v, .done q v ∉ c.sh.1.log) ∧
      (G.op q = none ∨ ∃ i ct a, G.op q = some (i, ct, a) ∧ .begin i ct a ∈ c.sh.2.log ∧ completions i c.sh.2.log = 0 ∧
        ∀ e, ct = some e → cancelled e c.sh.2.log = false) := by
  obtain ⟨⟨t, r, h⟩, _⟩ := parts L hc
  obtain ⟨hq1, hq2⟩ := h.rest hq
  rw [← h.tsh] at hs hd ⊢
  rw [← h.rsh]
  have hi := Tree.reach_inv h.treach
  have h2 := Tree.reach_inv2 h.treach
  have h3 := Tree.reach_inv3 h.treach
  have hph : t.sh.phase p = .started := by
    rcases (h2.s1 p).1 hs with h4 | h4
    · exact h4
    · obtain ⟨v, hv⟩ := h2.s3 p h4
      exact absurd hv (hd v)
  have hp : p ≠ [] := by intro e; subst e; rw [hi.root] at hph; cases hph
  cases hS : t.sh.snd p with
  | none => rw [hi.sn] at hS; rw [hS] at hph; cases hph
  | some E =>
    obtain ⟨q, h5, h6, h7, h8⟩ := Tree.waits hi h3 hq1 E p hp hS (.inr hph)
    refine ⟨q, h5, h6, (h2.s1 q).2 (.inl h7), fun v hv => ?_, ?_⟩
    · have := h2.s2 q v hv
      rw [h7] at this; cases this
    · cases ho : G.op q with
      | none => exact .inl rfl
      | some x =>
        obtain ⟨i, ct, a⟩ := x
        obtain ⟨h9, h10⟩ := (h.link0.rdy q i ct a ho).1 h8
        have h11 := (h.link0.beg q i ct a ho h9).2.2.2
        refine .inr ⟨i, ct, a, rfl, h11, h10, ?_⟩
        rintro e rfl
        cases hce : cancelled e r.sh.log with
        | false => rfl
        | true =>
          have := Resolver.C06_cancellation_prompt L h.rreach hq2 h11 hce
          omega

/-- C81. Cancellation completes expressions: once all calls have returned, an operation of an expression has completed, exactly once, if
every leaf below it that was started is an operation of the object with a token of a cancelled event. -/
theorem C81_cancelled_completes (L : Lawful S d0) {c : Conf (mach G)} (hc : JReach G d0 c) (hq : Quiescent c) {p : Path}
    (hs : .start p ∈ c.sh.1.log)
    (hl : ∀ q, p <:+ q → c.sh.1.snd q = some .leaf → .start q ∈ c.sh.1.log →
      ∃ i e a, G.op q = some (i, some e, a) ∧ cancelled e c.sh.2.log = true) :
    c.sh.1.log.countP (isDone p) = 1 := by
  by_cases hd : ∃ v, .done p v ∈ c.sh.1.log
  · obtain ⟨v, hv⟩ := hd
    obtain ⟨⟨t, r, h⟩, _⟩ := parts L hc
    rw [← h.tsh] at hv ⊢
    exact Tree.done_one h.treach hv
  · exfalso
    obtain ⟨q, h1, h2, h3, _, h5⟩ := C81_waits_for L hc hq hs (fun v hv => hd ⟨v, hv⟩)
    obtain ⟨i, e, a, h6, h7⟩ := hl q h1 h2 h3
    rcases h5 with h5 | ⟨i', ct, a', h8, _, _, h9⟩
    · rw [h6] at h5; cases h5
    · rw [h6] at h8
      cases h8
      rw [h9 e rfl] at h7; cases h7

/-- C81. Once all calls have returned, the events that `race_and_cancel` has cancelled are cancelled. -/
theorem C81_cancel_arrives (L : Lawful S d0) {c : Conf (mach G)} (hc : JReach G d0 c) (hq : Quiescent c) {p : Path}
    (h : .cancel p ∈ c.sh.1.log) : cancelled (G.ev p) c.sh.2.log = true := by
  obtain ⟨⟨t, r, hP⟩, _⟩ := parts L hc
  obtain ⟨_, hq2⟩ := hP.rest hq
  rw [← hP.tsh] at h
  rw [← hP.rsh]
  rcases hP.link1 p h with h1 | h1
  · exact absurd h1 (not_pending_iff.2 hq2 _)
  · rw [← Resolver.req_eq hP.rreach]; exact h1

/-- C81. `race_and_cancel` ends: if one of its senders has completed, and the operations below each sender use the token that was given to
that sender, then once all calls have returned all its senders have completed, and it has completed exactly once. -/
theorem C81_race_ends (L : Lawful S d0) {c : Conf (mach G)} (hc : JReach G d0 c) (hq : Quiescent c) {p : Path} {n : Nat}
    {f : Nat → Snd} (hS : c.sh.1.snd p = some (.race n f)) {k v : Nat} (hd : .done (k :: p) v ∈ c.sh.1.log)
    (hl : ∀ j q, j ≤ n → (j :: p) <:+ q → c.sh.1.snd q = some .leaf → .start q ∈ c.sh.1.log →
      ∃ i a, G.op q = some (i, some (G.ev (j :: p)), a)) :
    (∀ j, j ≤ n → c.sh.1.log.countP (isDone (j :: p)) = 1) ∧ c.sh.1.log.countP (isDone p) = 1 := by
  obtain ⟨⟨t, r, h⟩, _⟩ := parts L hc
  obtain ⟨hq1, _⟩ := h.rest hq
  rw [← h.tsh] at hS hd
  have hst := Tree.parent_started h.treach (Tree.ne_nil h.treach hS) (Tree.done_started h.treach hd)
  obtain ⟨k0, hk0, ⟨u, hu⟩, hcan⟩ := Tree.C47_cancels_others h.treach hq1 hS hd
  have all : ∀ j, j ≤ n → c.sh.1.log.countP (isDone (j :: p)) = 1 := by
    intro j hj
    by_cases e : j = k0
    · subst e
      rw [← h.tsh]; exact Tree.done_one h.treach hu
    · have h1 := hcan j hj e
      have h2 : .cancel (j :: p) ∈ c.sh.1.log := by
        rw [← h.tsh]; exact List.count_pos_iff.1 (by omega)
      have h3 := C81_cancel_arrives L hc hq h2
      have h4 := (Tree.C47_starts_all h.treach hq1 hS hst hj).1
      have h5 : .start (j :: p) ∈ c.sh.1.log := by
        rw [← h.tsh]; exact List.count_pos_iff.1 (by omega)
      refine C81_cancelled_completes L hc hq h5 (fun q hp hlf hsq => ?_)
      obtain ⟨i, a, h6⟩ := hl j q hj hp hlf hsq
      exact ⟨i, _, a, h6, h3⟩
  refine ⟨all, ?_⟩
  rw [← h.tsh]
  refine Tree.C47_completes h.treach hq1 hS hst (fun j hj => ?_)
  have := all j hj
  rw [← h.tsh] at this
  exact Tree.isDone_iff.1 (by omega)

/-- C81. A running call is never stuck, unless it is about to start an operation in violation of the contract of the object. -/
theorem C81_calls_make_progress (L : Lawful S d0) {c : Conf (mach G)} (hc : JReach G d0 c) (hb : c.bad = false) {k : Nat}
    {x : JInstr S} {l : List (JInstr S)} (hk : c.acts[k]? = some (x :: l)) (b : Bool) :
    (∃ c', (mach G).step c (.run k b) = some c') ∨
    ∃ p i ct a, x = .inl (.begin p) ∧ G.op p = some (i, ct, a) ∧ S.admit c.sh.2.d i a = none := by
  obtain ⟨⟨t, r, h⟩, _⟩ := parts L hc
  have ok : ∀ o, exec G c.sh x b = o → o ≠ .block → ∃ c', (mach G).step c (.run k b) = some c' := by
    intro o ho hne
    simp only [Mach.step, hb, hk, ho]
    cases o with
    | block => exact absurd rfl hne
    | ok s' ps => exact ⟨_, rfl⟩
    | fault => exact ⟨_, rfl⟩
  cases x with
  | inr x =>
    obtain ⟨s', ps, he, _⟩ := parts_right L h hk b
    exact .inl (ok _ he (by simp))
  | inl x =>
    cases he : exec G c.sh (.inl x) b with
    | ok s' ps => exact .inl (ok _ he (by simp))
    | fault => exact .inl (ok _ he (by simp))
    | block =>
      right
      simp only [exec] at he
      split at he
      · cases he
      · rename_i he1; exact absurd he1 (Tree.exec_not_block _ _ _)
      · split at he
        · cases he
        · cases he
        · rename_i i ct a hd
          obtain ⟨p, rfl, _, ho⟩ := down_start hd
          split at he
          · cases he
          · rename_i hst
            split at he
            · rename_i he2
              refine ⟨p, i, ct, a, rfl, ho, ?_⟩
              simp only [Resolver.env, hst] at he2
              split at he2
              · rename_i h'; exact absurd h' (by simp)
              · split at he2
                · cases he2
                · assumption
            · cases he

/-! ## A race between a consumer of a queue and a waiter of a wait group -/

namespace Demo

open Verif.Resolver (fam)
open Verif.Resolver.FamDemo (objs objs0 owner lawful)

abbrev T := fam owner objs

def val : T.V → Nat
  | ⟨0, v⟩ => (show Option Nat from v).getD 0
  | ⟨_ + 1, v⟩ => if (show Bool from v) then 1 else 0

def op : Path → Option (OpId × Option EvId × T.P)
  | [0, 0] => some (0, some 10, ⟨0, ()⟩)
  | [1, 0] => some (1, some 11, ⟨1, ()⟩)
  | [0, 1] => some (2, some 3, ⟨0, ()⟩)
  | [0, 2] => some (4, none, ⟨0, ()⟩)
  | _ => none

def leaf : OpId → Option Path
  | 0 => some [0, 0]
  | 1 => some [1, 0]
  | 2 => some [0, 1]
  | 4 => some [0, 2]
  | _ => none

def ev : Path → EvId
  | [j, 0] => 10 + j
  | _ => 9

def glue : Glue T where
  op := op
  leaf := leaf
  ev := ev
  priv e := decide (9 ≤ e)
  val := val
  op_leaf := by intro p i ct a h; unfold op at h; split at h <;> cases h <;> rfl
  leaf_op := by intro p i h; unfold leaf at h; split at h <;> cases h <;> exact ⟨_, _, rfl⟩
  ev_priv := by
    intro p
    unfold ev
    split
    · exact decide_eq_true (Nat.le_trans (by decide) (Nat.le_add_right 10 _))
    · rfl

abbrev M := mach glue

def race : Snd := .race 1 (fun _ => .leaf)

/-- The race is started and waits. -/
def r1 : List (Lbl M) := .env (.start 0 race) :: List.replicate 14 (.run 0 true)

/-- An item is put into the queue. The call of `put()` completes the consumer, cancels and completes the waiter of the group, and
completes the race. -/
def r2 : List (Lbl M) := r1 ++ .env (.user (.call ⟨0, .put 5⟩)) :: List.replicate 16 (.run 1 true)

/-- `transform(q.async_get(ct), f)` is started and waits. -/
def r3 : List (Lbl M) := .env (.start 1 (.xform .leaf (fun _ v => v + 1))) :: List.replicate 8 (.run 0 true)

/-- The user cancels it. -/
def r4 : List (Lbl M) := r3 ++ .env (.user (.cancel 3)) :: List.replicate 8 (.run 1 true)

/-- `when_all(q.async_get())`, while there is an item in the queue: the fault of C46. -/
def r5 : List (Lbl M) := .env (.user (.call ⟨0, .put 5⟩)) :: .run 0 true :: .env (.start 2 (.all 0 (fun _ => .leaf))) ::
  List.replicate 11 (.run 1 true)

def c1 : Conf M := M.after (init objs0) r1
def c2 : Conf M := M.after (init objs0) r2
def c4 : Conf M := M.after (init objs0) r4
def c5 : Conf M := M.after (init objs0) r5

theorem c1_reach : JReach glue objs0 c1 := Reach.after _ _ _
theorem c2_reach : JReach glue objs0 c2 := Reach.after _ _ _
theorem c4_reach : JReach glue objs0 c4 := Reach.after _ _ _
theorem c5_reach : JReach glue objs0 c5 := Reach.after _ _ _

def L := Resolver.famLawful owner lawful

theorem c1_rest : Quiescent c1 := by
  intro a ha
  rw [show c1.acts = [[]] from rfl] at ha
  simpa using ha

theorem c2_rest : Quiescent c2 := by
  intro a ha
  rw [show c2.acts = [[], []] from rfl] at ha
  simpa using ha

theorem c4_rest : Quiescent c4 := by
  intro a ha
  rw [show c4.acts = [[], []] from rfl] at ha
  simpa using ha

theorem c1_log : c1.sh.1.log = [.start [0], .start [0, 0], .start [1, 0]] := by rfl

theorem c2_log : c2.sh.1.log = [.start [0], .start [0, 0], .start [1, 0], .done [0, 0] 5, .cancel [1, 0], .done [1, 0] 0,
    .done [0] 0] := by rfl

def lib2 : List (Resolver.Ev T) :=
  [.begin 0 (some 10) ⟨0, ()⟩, .ds ⟨0, .enq 0⟩, .begin 1 (some 11) ⟨1, ()⟩, .ds ⟨1, .enq 1⟩, .ds ⟨0, .put 5⟩,
   .ds ⟨0, .claim (some 0) 5⟩, .done 0 ⟨0, some 5⟩, .cancel 11, .ds ⟨1, .unq 1⟩, .done 1 ⟨1, false⟩]

theorem c2_lib : c2.sh.2.log = lib2 := by rfl

theorem c4_log : c4.sh.1.log = [.start [1], .start [0, 1], .done [0, 1] 0, .call [1] 0 1, .done [1] 1] := by rfl

/-- The queue is a FIFO in this program (C10), by the theorem about the queue alone. -/
example : Queue.claims (T := Nat) (Resolver.history 0 c2.sh.2.log) <+: Queue.puts (T := Nat) (Resolver.history 0 c2.sh.2.log) := by
  obtain ⟨_, r, hr, e, _⟩ := C81_as_if_alone L c2_reach
  rw [← e]
  exact Resolver.C80_transfer lawful hr 0 (P := fun log => Queue.claims (T := Nat) log <+: Queue.puts (T := Nat) log)
    (fun _ hk => (Queue.C10_queue_fifo hk).1)

/-- The race completes once (C47, C48), by the theorem about expressions alone. -/
example : c2.sh.1.log.countP (isDone [0]) ≤ 1 := by
  obtain ⟨⟨t, ht, e, _⟩, _⟩ := C81_as_if_alone L c2_reach
  rw [← e]
  exact Tree.C48_at_most_once ht [0]

example : ∃ p n f, c5.sh.1.snd p = some (.all n f) := by
  rcases C81_faults L c5_reach rfl with ⟨p, n, f, h, _⟩ | ⟨p, n, f, v, h, _⟩
  · exact ⟨p, n, f, h⟩
  · exact ⟨[2], 0, fun _ => .leaf, rfl⟩

theorem c4_snd (p : Path) : c4.sh.1.snd p = if p = [0, 1] then some .leaf else if p = [1] then
    some (.xform .leaf (fun _ v => v + 1)) else none := by
  rfl

example : c4.bad = false :=
  C81_no_fault L c4_reach (fun n E h => by
    rw [c4_snd] at h
    split at h
    · simp at *
    · split at h
      · cases h; exact trivial
      · cases h)

example : ∃ w, 5 = glue.val w ∧ .done 0 w ∈ c2.sh.2.log :=
  (C81_leaf L c2_reach (p := [0, 0]) rfl).2 rfl 5 (by rw [c2_log]; simp)

example : ∃ w, .done 1 w ∈ c2.sh.2.log ∧ .done [1, 0] (glue.val w) ∈ c2.sh.1.log :=
  (C81_leaf_at_rest L c2_reach c2_rest (p := [1, 0]) rfl rfl (by rw [c2_log]; simp)).2.1 rfl

/-- The race waits for an operation of the queue or of the wait group. -/
example : ∃ q i ct a, glue.op q = some (i, ct, a) ∧ completions i c1.sh.2.log = 0 := by
  obtain ⟨q, h1, h2, h3, _, h5⟩ := C81_waits_for L c1_reach c1_rest (p := [0]) (by rw [c1_log]; simp) (by rw [c1_log]; simp)
  rcases h5 with h5 | ⟨i, ct, a, h6, _, h7, _⟩
  · exfalso
    rw [c1_log] at h3
    simp at h3
    rcases h3 with rfl | rfl | rfl
    · exact absurd (show c1.sh.1.snd [0] = some race from rfl) (by rw [h2]; simp [race])
    · cases h5
    · cases h5
  · exact ⟨q, i, ct, a, h6, h7⟩

/-- Cancelling event 3 completes the expression that uses it. -/
example : c4.sh.1.log.countP (isDone [1]) = 1 :=
  C81_cancelled_completes L c4_reach c4_rest (by rw [c4_log]; simp) (fun q _ h2 h3 => by
    rw [c4_log] at h3
    simp at h3
    rcases h3 with rfl | rfl
    · exact absurd (show c4.sh.1.snd [1] = some (.xform .leaf (fun _ v => v + 1)) from rfl) (by rw [h2]; simp)
    · exact ⟨2, 3, ⟨0, ()⟩, rfl, rfl⟩)

example : cancelled 11 c2.sh.2.log = true := C81_cancel_arrives L c2_reach c2_rest (p := [1, 0]) (by rw [c2_log]; simp)

/-- The waiter of the group, which is given the token of the race, is cancelled when the consumer of the queue completes. -/
example : c2.sh.1.log.countP (isDone [1, 0]) = 1 ∧ c2.sh.1.log.countP (isDone [0]) = 1 := by
  have h := C81_race_ends L c2_reach c2_rest (p := [0]) (n := 1) (f := fun _ => .leaf) rfl (k := 0) (v := 5)
    (by rw [c2_log]; simp) (fun j q hj hq h2 h3 => by
      rw [c2_log] at h3
      simp at h3
      rcases h3 with rfl | rfl | rfl
      · exact absurd (show c2.sh.1.snd [0] = some race from rfl) (by rw [h2]; simp [race])
      · cases hq.eq_of_length rfl
        exact ⟨0, ⟨0, ()⟩, rfl⟩
      · cases hq.eq_of_length rfl
        exact ⟨1, ⟨1, ()⟩, rfl⟩)
  exact ⟨h.1 1 (by omega), h.2⟩

/-- `put()` has taken the consumer from the list, and is about to complete it. -/
example : ∃ c', M.step (M.after (init objs0) (r2.take 17)) (.run 1 true) = some c' := by
  rcases C81_calls_make_progress L (Reach.after M (init objs0) (r2.take 17)) rfl (k := 1) (x := .inr (.complete 0)) (l := [])
    (by rfl) true with h | ⟨p, i, ct, a, h, _⟩
  · exact h
  · cases h

end Demo

end Verif.Joint
