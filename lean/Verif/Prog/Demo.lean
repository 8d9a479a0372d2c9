import Verif.Prog.Props

/-!
# A program of three coroutines

Coroutine 2 awaits coroutine 0, which awaits `race_and_cancel` of a consumer of a queue and of coroutine 1, which waits for a wait
group, with the token that the race gives it.
-/

namespace Verif.Prog

/-! ## Numbers for awaited expressions -/

namespace Code

/-- `(a, b)` with `m = 2 ^ a * (2 * b + 1)`. -/
def split : Nat → Nat → Nat × Nat
  | 0, m => (0, m / 2)
  | f + 1, m => if m % 2 = 0 then ((split f (m / 2)).1 + 1, (split f (m / 2)).2) else (0, m / 2)

theorem split_mul (a b f : Nat) (h : a < f) : split f (2 ^ a * (2 * b + 1)) = (a, b) := by
  induction a generalizing f with
  | zero =>
    obtain ⟨f, rfl⟩ : ∃ g, f = g + 1 := ⟨f - 1, by omega⟩
    have h1 : ¬ (2 ^ 0 * (2 * b + 1)) % 2 = 0 := by omega
    simp only [split, h1, if_false]
    simp; omega
  | succ a ih =>
    obtain ⟨f, rfl⟩ : ∃ g, f = g + 1 := ⟨f - 1, by omega⟩
    have e : 2 ^ (a + 1) * (2 * b + 1) = 2 * (2 ^ a * (2 * b + 1)) := by rw [Nat.pow_succ, Nat.mul_comm (2 ^ a) 2, Nat.mul_assoc]
    have h1 : (2 * (2 ^ a * (2 * b + 1))) % 2 = 0 := by omega
    have h2 : (2 * (2 ^ a * (2 * b + 1))) / 2 = 2 ^ a * (2 * b + 1) := by omega
    rw [e]
    simp only [split, h1, if_true, h2, ih f (by omega)]

theorem mul_split (f m : Nat) (h0 : 0 < m) (h : m ≤ f) : 2 ^ (split f m).1 * (2 * (split f m).2 + 1) = m := by
  induction f generalizing m with
  | zero => omega
  | succ f ih =>
    simp only [split]
    split
    · have := ih (m / 2) (by omega) (by omega)
      simp only [Nat.pow_succ]
      rw [Nat.mul_right_comm, this]
      omega
    · simp; omega

def pair (a b : Nat) : Nat := 2 ^ a * (2 * b + 1) - 1

def unpair (n : Nat) : Nat × Nat := split (n + 1) (n + 1)

theorem pos (a b : Nat) : 0 < 2 ^ a * (2 * b + 1) := Nat.mul_pos (Nat.pow_pos (by omega)) (by omega)

theorem unpair_pair (a b : Nat) : unpair (pair a b) = (a, b) := by
  have h := pos a b
  have e : pair a b + 1 = 2 ^ a * (2 * b + 1) := by unfold pair; omega
  unfold unpair
  rw [e]
  refine split_mul a b _ (Nat.lt_of_lt_of_le Nat.lt_two_pow_self (Nat.le_mul_of_pos_right _ (by omega)))

theorem pair_unpair (n : Nat) : pair (unpair n).1 (unpair n).2 = n := by
  have := mul_split (n + 1) (n + 1) (by omega) (Nat.le_refl _)
  unfold pair unpair
  omega

end Code

namespace Demo

open Verif.Resolver (DS OpId EvId completions cancelled Lawful)
open Verif.Tree (Path Snd isDone)
open Verif.Result (Id Body awaited completed dones)
open Verif.Joint (Glue)
open Verif.Resolver (fam)
open Verif.Resolver.FamDemo (objs objs0 owner lawful)

abbrev T := fam owner objs

/-- Await one sender, and return its value plus 1. -/
def body : Body where
  S := Nat × Option Nat
  next s := match s.2 with
    | none => .await s.1 (fun v => (s.1, some v))
    | some v => .ret (v + 1)

def op : Path → Option (OpId × Option EvId × T.P)
  | [0, 4] => some (0, some 10, ⟨0, ()⟩)
  | [17] => some (1, some 11, ⟨1, ()⟩)
  | [0, 335] => some (2, none, ⟨0, ()⟩)
  | _ => none

def leafOp : OpId → Option Path
  | 0 => some [0, 4]
  | 1 => some [17]
  | 2 => some [0, 335]
  | _ => none

def ev : Path → EvId
  | [j, 4] => 10 + j
  | _ => 9

def glue : Glue T where
  op := op
  leaf := leafOp
  ev := ev
  priv e := decide (9 ≤ e)
  val := Joint.Demo.val
  op_leaf := by intro p i ct a h; unfold op at h; split at h <;> cases h <;> rfl
  leaf_op := by intro p i h; unfold leafOp at h; split at h <;> cases h <;> exact ⟨_, _, rfl⟩
  ev_priv := by
    intro p
    unfold ev
    split
    · exact decide_eq_true (Nat.le_trans (by decide) (Nat.le_add_right 10 _))
    · rfl

def race : Snd := .race 1 (fun _ => .leaf)

def expr : Nat → Option Snd
  | 1 => some race
  | 2 => some .leaf
  | 3 => some .leaf
  | 5 => some (.all 0 (fun _ => .leaf))
  | _ => none

def co : Path → Option (Id × body.S)
  | [51] => some (0, (1, none))
  | [1, 4] => some (1, (2, none))
  | _ => none

def leafCo : Id → Option Path
  | 0 => some [51]
  | 1 => some [1, 4]
  | _ => none

def site (n : Nat) : Option (Id × Nat × Nat) :=
  if (expr (Code.unpair (Code.unpair n).2).2).isSome then
    some ((Code.unpair n).1, (Code.unpair (Code.unpair n).2).1, (Code.unpair (Code.unpair n).2).2)
  else none

def wire : Wire T body where
  G := glue
  expr := expr
  root i k a := Code.pair i (Code.pair k a)
  site := site
  co := co
  leaf := leafCo
  root_site := by
    intro i k a h
    simp only [site, Code.unpair_pair, h, if_true]
  site_root := by
    intro n i k a h
    simp only [site] at h
    split at h
    · rename_i h1
      simp only [Option.some.injEq, Prod.mk.injEq] at h
      obtain ⟨rfl, rfl, rfl⟩ := h
      exact ⟨by rw [Code.pair_unpair, Code.pair_unpair], h1⟩
    · cases h
  co_leaf := by intro p j b h; unfold co at h; split at h <;> cases h <;> rfl
  leaf_co := by intro p j h; unfold leafCo at h; split at h <;> cases h <;> exact ⟨_, rfl⟩
  co_user := by intro p x h; unfold co at h; split at h <;> cases h <;> rfl

abbrev M := mach wire

/-- Coroutine 2 is started. It starts coroutine 0, which starts the race, which starts the consumer and coroutine 1. -/
def r1 : List (Lbl M) := .env (.start 2 (3, none)) :: List.replicate 33 (.run 0 true)

/-- An item is put into the queue. The call of `put()` completes the consumer, cancels the waiter of the group, which ends coroutine 1,
which completes the race, which ends coroutine 0, which ends coroutine 2. -/
def r2 : List (Lbl M) := r1 ++ .env (.code (.user (.call ⟨0, .put 5⟩))) :: List.replicate 35 (.run 1 true)

/-- Coroutine 3 awaits a sender of the user. -/
def r3 : List (Lbl M) := .env (.start 3 (0, none)) :: List.replicate 5 (.run 0 true)

/-- Coroutine 4 awaits `when_all(q.async_get())`, while there is an item in the queue: the fault of C46. -/
def r4 : List (Lbl M) := .env (.code (.user (.call ⟨0, .put 5⟩))) :: .run 0 true :: .env (.start 4 (5, none)) ::
  List.replicate 19 (.run 1 true)

def c1 : Conf M := M.after (init objs0) r1
def c2 : Conf M := M.after (init objs0) r2
def c3 : Conf M := M.after (init objs0) r3
def c4 : Conf M := M.after (init objs0) r4

theorem c1_reach : PReach wire objs0 c1 := Reach.after _ _ _
theorem c2_reach : PReach wire objs0 c2 := Reach.after _ _ _
theorem c3_reach : PReach wire objs0 c3 := Reach.after _ _ _
theorem c4_reach : PReach wire objs0 c4 := Reach.after _ _ _

def L := Resolver.famLawful owner lawful

theorem c1_rest : Quiescent c1 := by
  intro a ha
  rw [show c1.acts = [[]] from rfl] at ha
  simpa using ha

theorem c2_rest : Quiescent c2 := by
  intro a ha
  rw [show c2.acts = [[], []] from rfl] at ha
  simpa using ha

theorem c3_rest : Quiescent c3 := by
  intro a ha
  rw [show c3.acts = [[]] from rfl] at ha
  simpa using ha

theorem c1_co : c1.sh.1.log = [.start 2 (3, none), .await 2 3, .start 0 (1, none), .await 0 1, .start 1 (2, none), .await 1 2,
    .left 1, .left 0, .left 2] := by rfl

theorem c1_ex : c1.sh.2.1.log = [.start [51], .start [4], .start [0, 4], .start [1, 4], .start [17]] := by rfl

theorem c2_co : c2.sh.1.log = [.start 2 (3, none), .await 2 3, .start 0 (1, none), .await 0 1, .start 1 (2, none), .await 1 2,
    .left 1, .left 0, .left 2, .complete 1 0, .resume 1 0, .ret 1 1, .fin 1, .done 1 1, .complete 0 0, .resume 0 0, .ret 0 1, .fin 0,
    .done 0 1, .complete 2 1, .resume 2 1, .ret 2 2, .fin 2, .done 2 2] := by rfl

theorem c2_ex : c2.sh.2.1.log = [.start [51], .start [4], .start [0, 4], .start [1, 4], .start [17], .done [0, 4] 5,
    .cancel [1, 4], .done [17] 0, .done [1, 4] 1, .done [4] 0, .done [51] 1] := by rfl

theorem c2_race : c2.sh.2.1.snd [4] = some race := by rfl

/-- The value of coroutine 2 is what its body returns (C37), by the theorem about coroutines alone. -/
example : Hist (fun before e => ∀ i v, e = .done i v → ∃ s, .start i s ∈ before ∧
    Result.Returns body s (completed i before) v) c2.sh.1.log := by
  obtain ⟨⟨t, ht, e, _⟩, _⟩ := C94_as_if_alone L c2_reach
  rw [← e]
  exact Result.C37_value ht

/-- The queue is a FIFO in this program (C10), by the theorem about the queue alone. -/
example : Queue.claims (T := Nat) (Resolver.history 0 c2.sh.2.2.log) <+:
    Queue.puts (T := Nat) (Resolver.history 0 c2.sh.2.2.log) := by
  obtain ⟨_, q, hq, e, _⟩ := C94_as_if_alone L c2_reach
  obtain ⟨_, r, hr, e', _⟩ := Joint.C81_as_if_alone L hq
  rw [← e, ← e']
  exact Resolver.C80_transfer lawful hr 0 (P := fun log => Queue.claims (T := Nat) log <+: Queue.puts (T := Nat) log)
    (fun _ hk => (Queue.C10_queue_fifo hk).1)

example : ∃ p n f, c4.sh.2.1.snd p = some (.all n f) := by
  rcases C94_faults L c4_reach rfl with ⟨p, n, f, h, _⟩ | ⟨p, n, f, v, h, _⟩
  · exact ⟨p, n, f, h⟩
  · exact ⟨[335], 0, fun _ => .leaf, rfl⟩

example : c3.bad = false := C94_no_fault L c3_reach (fun n E h => by
  rw [show c3.sh.2.1.snd = fun _ => none from rfl] at h; cases h)

/-- Coroutine 0 has returned 1, and this is what coroutine 2 gets. -/
example : (completed 2 c2.sh.1.log)[0]? = some 1 :=
  ((C94_await L c2_reach (i := 2) (k := 0) (a := 3) rfl).2 (by rw [c2_co]; rfl) 1).1
    (by rw [c2_ex]; exact .tail _ (.tail _ (.tail _ (.tail _ (.tail _ (.tail _ (.tail _ (.tail _ (.tail _ (.tail _ (.head _)))))))))))

example : .start [17] ∈ c1.sh.2.1.log :=
  (C94_await_at_rest L c1_reach c1_rest (i := 1) (k := 0) (a := 2) rfl (by rw [c1_co]; rfl)).1

example : .done 1 1 ∈ c2.sh.1.log := (C94_leaf L c2_reach (p := [1, 4]) rfl).2 rfl 1 (by rw [c2_ex]; simp)

example : .done [1, 4] 1 ∈ c2.sh.2.1.log :=
  ((C94_leaf_at_rest L c2_reach c2_rest (p := [1, 4]) rfl rfl (by rw [c2_ex]; simp)).2 1).1 (by rw [c2_co]; simp)

/-- Coroutine 1 is started after coroutine 0. -/
example : ∃ s, .start 0 s ∈ c1.sh.1.log.take 4 :=
  C94_outer_first L c1_reach (p := [1, 4]) rfl rfl (n := 4) (i := 0) (k := 0) (a := 1) rfl (c1.sh.1.log.take 4) _
    (c1.sh.1.log.drop 5) (by rw [c1_co]; rfl) rfl

/-- Coroutine 2 waits for an operation of the queue or of the wait group. -/
example : ∃ p o ct y, glue.op p = some (o, ct, y) ∧ completions o c1.sh.2.2.log = 0 := by
  rcases C94_waits_for L c1_reach c1_rest (x := .inl 2) ⟨(3, none), by rw [c1_co]; simp⟩ rfl with
    ⟨i, a, _, ⟨b, h1⟩, _, h2, h3⟩ | ⟨p, _, h2, h3, _, h4, h5⟩
  · exfalso
    rw [c1_co] at h1 h2
    simp at h1
    rcases h1 with ⟨rfl, _⟩ | ⟨rfl, _⟩ | ⟨rfl, _⟩
    · have : some 3 = some a := h2
      cases this; cases h3
    · have : some 1 = some a := h2
      cases this; cases h3
    · have : some 2 = some a := h2
      cases this; cases h3
  · rcases h5 with h5 | ⟨o, ct, y, h6, _, h7, _⟩
    · exfalso
      simp only [Started] at h3
      rw [c1_ex] at h3
      simp at h3
      rcases h3 with rfl | rfl | rfl | rfl | rfl
      · cases h4
      · exact absurd (show c1.sh.2.1.snd [4] = some race from rfl) (by rw [h2]; simp [race])
      · cases h5
      · cases h4
      · cases h5
    · exact ⟨p, o, ct, y, h6, h7⟩

/-- Coroutine 3 waits for a sender of the user. -/
example : WaitsFor wire c3.sh (.inl 3) := C94_waits_for L c3_reach c3_rest ⟨(0, none), by exact .head _⟩ rfl

example : times c2.sh (.inl 2) ≤ 1 := C94_at_most_once L c2_reach _

/-- What the second sender of the race consists of. -/
theorem under1 {x : Id ⊕ Path} (h : Under wire c2.sh (.inr [1, 4]) x) :
    (∀ i, x = .inl i → i = 1) ∧ ∀ p, x = .inr p → [1, 4] <:+ p ∨ [17] <:+ p := by
  induction h with
  | refl => exact ⟨(fun i h => by cases h), (fun p h => by cases h; exact .inl (List.suffix_refl _))⟩
  | child k _ ih =>
    refine ⟨(fun i h => by cases h), fun p h => ?_⟩
    cases h
    exact (ih.2 _ rfl).imp (fun h => h.trans (List.suffix_cons _ _)) (fun h => h.trans (List.suffix_cons _ _))
  | @coro p j b _ h2 ih =>
    refine ⟨fun i h => ?_, (fun p h => by cases h)⟩
    cases h
    have h3 := ih.2 _ rfl
    simp only [wire, co] at h2
    split at h2
    · exact absurd h3 (by decide)
    · cases h2; rfl
    · cases h2
  | @await i k a _ h2 h3 ih =>
    refine ⟨(fun i h => by cases h), fun p h => ?_⟩
    cases h
    have := ih.1 _ rfl
    subst this
    rw [c2_co] at h2
    have h4 : ([2] : List Nat)[k]? = some a := h2
    cases k with
    | zero => simp at h4; subst h4; exact .inr (List.suffix_refl _)
    | succ k => simp at h4

theorem sender1 : (∀ i, Under wire c2.sh (.inr [1, 4]) (.inl i) → ∀ a ∈ awaited i c2.sh.1.log, (wire.expr a).isSome) ∧
    (∀ p, Under wire c2.sh (.inr [1, 4]) (.inr p) → c2.sh.2.1.snd p = some .leaf → Started c2.sh (.inr p) → wire.co p = none →
      ∃ o y, wire.G.op p = some (o, some 11, y)) := by
  constructor
  · intro i h a ha
    have := (under1 h).1 i rfl
    subst this
    rw [c2_co] at ha
    have h1 : a ∈ ([2] : List Nat) := ha
    simp at h1; subst h1; rfl
  · intro p h h1 h2 h3
    have h4 := (under1 h).2 p rfl
    simp only [Started] at h2
    rw [c2_ex] at h2
    simp at h2
    rcases h2 with rfl | rfl | rfl | rfl | rfl
    · exact absurd h4 (by decide)
    · exact absurd h4 (by decide)
    · exact absurd h4 (by decide)
    · cases h3
    · exact ⟨1, ⟨1, ()⟩, rfl⟩

/-- Coroutine 1, whose token is cancelled, has returned. -/
example : times c2.sh (.inr [1, 4]) = 1 :=
  C94_cancelled_completes L c2_reach c2_rest (by simp only [Started]; rw [c2_ex]; simp) sender1.1
    (fun p h1 h2 h3 h4 => by
      obtain ⟨o, y, h5⟩ := sender1.2 p h1 h2 h3 h4
      exact ⟨o, 11, y, h5, rfl⟩)

theorem under0 {x : Id ⊕ Path} (h : Under wire c2.sh (.inr [0, 4]) x) : ∃ p, x = .inr p ∧ [0, 4] <:+ p := by
  induction h with
  | refl => exact ⟨_, rfl, List.suffix_refl _⟩
  | child k _ ih =>
    obtain ⟨p, h1, h2⟩ := ih
    cases h1
    exact ⟨_, rfl, h2.trans (List.suffix_cons _ _)⟩
  | @coro p j b _ h2 ih =>
    exfalso
    obtain ⟨p, h1, h3⟩ := ih
    cases h1
    simp only [wire, co] at h2
    split at h2
    · exact absurd h3 (by decide)
    · exact absurd h3 (by decide)
    · cases h2
  | await _ _ _ ih =>
    obtain ⟨p, h1, _⟩ := ih
    cases h1

/-- The race of the consumer and coroutine 1 has ended. -/
example : times c2.sh (.inr [1, 4]) = 1 ∧ times c2.sh (.inr [4]) = 1 := by
  have h := C94_race_ends L c2_reach c2_rest (p := [4]) (n := 1) c2_race (k := 0) (v := 5) (by rw [c2_ex]; simp)
    (fun j hj i h => by
      rcases j with _ | _ | j
      · obtain ⟨p, h1, _⟩ := under0 h; cases h1
      · exact sender1.1 i h
      · omega)
    (fun j hj q h h1 h2 h3 => by
      rcases j with _ | _ | j
      · obtain ⟨p, h4, h5⟩ := under0 h
        cases h4
        simp only [Started] at h2
        rw [c2_ex] at h2
        simp at h2
        rcases h2 with rfl | rfl | rfl | rfl | rfl
        · exact absurd h5 (by decide)
        · exact absurd h5 (by decide)
        · exact ⟨0, ⟨0, ()⟩, rfl⟩
        · exact absurd h5 (by decide)
        · exact absurd h5 (by decide)
      · exact sender1.2 q h h1 h2 h3
      · omega)
  exact ⟨h.1 1 (by omega), h.2⟩

/-- `put()` has taken the consumer from the list, and is about to complete it. -/
example : ∃ c', M.step (M.after (init objs0) (r2.take 36)) (.run 1 true) = some c' := by
  rcases C94_calls_make_progress L (Reach.after M (init objs0) (r2.take 36)) rfl (k := 1) (x := .inr (.inr (.complete 0))) (l := [])
    (by rfl) true with h | ⟨p, i, ct, a, h, _⟩
  · exact h
  · cases h

end Demo

end Verif.Prog
