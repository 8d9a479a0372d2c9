import Verif.WakeOrder.Lines
import Verif.WakeOrder.Prim
import Verif.Recurring.Props
import Verif.WaitGroup.Props
import Verif.Promise.Props
import Verif.PostAck.Props
import Verif.Queue.Props
import Verif.OneshotPrim.Props

/-!
# C91: the order in which suspended operations are completed

If operation `i` was suspended before operation `j` was started, both are still suspended at some time,
and from then on neither is cancelled, then the receiver of `i` is called before the one of `j`.
-/

namespace Verif

open Resolver

/-- Nothing is running. -/
theorem Resolver.suspended_of_rest {S : DS} {c : Conf (mach S)} {i : OpId} {ct : Option EvId} {p : S.P}
    (hq : Quiescent c) (hb : Ev.begin i ct p ∈ c.sh.log) (hc : completions i c.sh.log = 0) : Suspended c i :=
  ⟨⟨ct, p, hb⟩, hc, fun x ⟨a, ha, hx⟩ => by rw [hq a ha] at hx; simp at hx⟩

/-- `Separate`, as a check of a concrete run. -/
def Resolver.checkSep {S : DS} (c : Conf (mach S)) : List (Lbl (mach S)) → Bool
  | [] => true
  | l :: ls =>
    (match l with
      | .env (.call _) => c.acts.all List.isEmpty
      | _ => true) &&
    (match (mach S).step c l with
      | some c' => checkSep c' ls
      | none => true)

theorem Resolver.separate_of_check {S : DS} {c : Conf (mach S)} {ls : List (Lbl (mach S))}
    (h : checkSep c ls = true) : Separate c ls := by
  induction ls generalizing c with
  | nil => trivial
  | cons l ls ih =>
    simp only [checkSep, Bool.and_eq_true] at h
    refine ⟨?_, ?_⟩
    · rintro x rfl a ha
      have := List.all_eq_true.1 h.1 a ha
      simpa using this
    · intro c' hc'
      have h2 := h.2
      rw [hc'] at h2
      exact ih h2

/-! ## `recurring_event` -/

namespace Recurring

/-- C91, `recurring_event` (`async_wait`, `async_wait_if` and what is built on them). Calls may overlap. -/
theorem C91_recurring_event {X : User} {u0 : X.U} (O : UserOk X u0) {i j : OpId} {c1 c2 c3 : Conf (mach (ds X))}
    {ls : List (Lbl (mach (ds X)))} (h : InLine (init u0) i j c1 c2)
    (hr : (mach (ds X)).runs c2 ls = some c3) (hi : NotCancelled c2 c3 i) (hj : NotCancelled c2 c3 j) :
    First i j c3.sh.log :=
  first_of_whole (line_whole O) h hr hi hj

/-- Wait 2 suspends, then wait 0, then (`fifo2`) wait 1. -/
def fifo1 : List (Lbl M) :=
  [.env (.newOp 2 (some 7) ()), .run 0 true, .run 0 true, .run 0 true, .run 0 true,
   .env (.newOp 0 none ()), .run 1 true, .run 1 true, .run 1 true]
def fifo2 : List (Lbl M) :=
  [.env (.newOp 1 (some 8) ()), .run 2 true, .run 2 true, .run 2 true, .run 2 true]
/-- Wait 2 is cancelled while all waits are being woken. -/
def fifo3 : List (Lbl M) :=
  [.env (.cancel 7), .run 3 true, .env (.call (.act false)), .run 4 true, .run 4 true,
   .run 3 true, .run 3 true] ++ List.replicate 10 (.run 4 true)

abbrev line1 : Conf M := M.after (RSt.init (init true)) fifo1
abbrev line2 : Conf M := M.after (RSt.init (init true)) (fifo1 ++ fifo2)
abbrev line3 : Conf M := M.after (RSt.init (init true)) (fifo1 ++ fifo2 ++ fifo3)

theorem line1_log : line1.sh.log = [.begin 2 (some 7) (), .ds (.enq 2 false), .begin 0 none (), .ds (.enq 0 false)] := rfl
theorem line2_log : line2.sh.log = [.begin 2 (some 7) (), .ds (.enq 2 false), .begin 0 none (), .ds (.enq 0 false), .begin 1 (some 8) (), .ds (.enq 1 false)] := rfl
theorem line3_log : line3.sh.log = [.begin 2 (some 7) (), .ds (.enq 2 false), .begin 0 none (), .ds (.enq 0 false), .begin 1 (some 8) (), .ds (.enq 1 false), .cancel 7, .ds (.act false true ()), .ds (.raise [2, 0, 1]), .done 2 .awaited, .done 0 .awaited, .done 1 .awaited] := rfl

theorem line_in : InLine (init true) 0 1 line1 line2 where
  reach := Reach.after _ _ _
  first := suspended_of_rest (ct := none) (p := ()) (by intro a ha; revert a ha; rw [show line1.acts = [[], []] from rfl]; simp)
    (by rw [line1_log]; simp) rfl
  later := by intro ct p; rw [line1_log]; simp
  runs := ⟨fifo2, rfl⟩
  still := suspended_of_rest (ct := none) (p := ()) (by intro a ha; revert a ha; rw [show line2.acts = [[], [], []] from rfl]; simp)
    (by rw [line2_log]; simp) rfl
  second := suspended_of_rest (ct := some 8) (p := ()) (by intro a ha; revert a ha; rw [show line2.acts = [[], [], []] from rfl]; simp)
    (by rw [line2_log]; simp) rfl

theorem line_kept (k : OpId) (hk : k ≠ 2) : NotCancelled line2 line3 k := by
  intro e p hb hc
  rw [line2_log] at hb
  rw [show line3.sh.log.drop line2.sh.log.length = line3.sh.log.drop 6 from rfl, line3_log] at hc
  simp at hb hc
  grind

example : First 0 1 line3.sh.log :=
  C91_recurring_event (flagOk true) line_in (ls := fifo3) rfl (line_kept 0 (by decide)) (line_kept 1 (by decide))

end Recurring


/-! ## `wait_group` and `oneshot_event` -/

namespace WaitGroup

/-- C91, `wait_group` with initial count `n`, and `oneshot_event` (`c = oneshot`, `n = 1`), used as documented. -/
theorem C91_wait_group {T : Type} {c : Cfg} {n : Nat} (h1 : c.safeAdd = true) (h2 : c.safeDone = true) {i j : OpId} {c1 c2 c3 : Conf (mach (ds T c))}
    {ls : List (Lbl (mach (ds T c)))} (h : InLine (init n) i j c1 c2)
    (hr : (mach (ds T c)).runs c2 ls = some c3) (hi : NotCancelled c2 c3 i) (hj : NotCancelled c2 c3 j) :
    First i j c3.sh.log :=
  first_of_whole (line_whole n h1 h2) h hr hi hj

/-- Wait 2 suspends, then wait 0, then (`fifo2`) wait 1. -/
def fifo1 : List (Lbl (mach (ds Nat oneshot))) :=
  [.env (.newOp 2 (some 7) ()), .run 0 true, .run 0 true, .run 0 true, .run 0 true,
   .env (.newOp 0 none ()), .run 1 true, .run 1 true, .run 1 true]
def fifo2 : List (Lbl (mach (ds Nat oneshot))) :=
  [.env (.newOp 1 (some 8) ()), .run 2 true, .run 2 true, .run 2 true, .run 2 true]
/-- Wait 2 is cancelled while all waits are being woken. -/
def fifo3 : List (Lbl (mach (ds Nat oneshot))) :=
  [.env (.cancel 7), .run 3 true, .env (.call (.ld none)), .run 4 true, .run 4 true,
   .run 3 true, .run 3 true] ++ List.replicate 10 (.run 4 true)

abbrev line1 : Conf (mach (ds Nat oneshot)) := (mach (ds Nat oneshot)).after (RSt.init (init 1)) fifo1
abbrev line2 : Conf (mach (ds Nat oneshot)) := (mach (ds Nat oneshot)).after (RSt.init (init 1)) (fifo1 ++ fifo2)
abbrev line3 : Conf (mach (ds Nat oneshot)) := (mach (ds Nat oneshot)).after (RSt.init (init 1)) (fifo1 ++ fifo2 ++ fifo3)

theorem line1_log : line1.sh.log = [.begin 2 (some 7) (), .ds (.enq 2), .begin 0 none (), .ds (.enq 0)] := rfl
theorem line2_log : line2.sh.log = [.begin 2 (some 7) (), .ds (.enq 2), .begin 0 none (), .ds (.enq 0), .begin 1 (some 8) (), .ds (.enq 1)] := rfl
theorem line3_log : line3.sh.log = [.begin 2 (some 7) (), .ds (.enq 2), .begin 0 none (), .ds (.enq 0), .begin 1 (some 8) (), .ds (.enq 1), .cancel 7, .ds (.zero none [2, 0, 1]), .done 2 true, .done 0 true, .done 1 true] := rfl

theorem line_in : InLine (init 1) 0 1 line1 line2 where
  reach := Reach.after _ _ _
  first := suspended_of_rest (ct := none) (p := ()) (by intro a ha; revert a ha; rw [show line1.acts = [[], []] from rfl]; simp)
    (by rw [line1_log]; simp) rfl
  later := by intro ct p; rw [line1_log]; simp
  runs := ⟨fifo2, rfl⟩
  still := suspended_of_rest (ct := none) (p := ()) (by intro a ha; revert a ha; rw [show line2.acts = [[], [], []] from rfl]; simp)
    (by rw [line2_log]; simp) rfl
  second := suspended_of_rest (ct := some 8) (p := ()) (by intro a ha; revert a ha; rw [show line2.acts = [[], [], []] from rfl]; simp)
    (by rw [line2_log]; simp) rfl

theorem line_kept (k : OpId) (hk : k ≠ 2) : NotCancelled line2 line3 k := by
  intro e p hb hc
  rw [line2_log] at hb
  rw [show line3.sh.log.drop line2.sh.log.length = line3.sh.log.drop 6 from rfl, line3_log] at hc
  simp at hb hc
  grind

example : First 0 1 line3.sh.log :=
  C91_wait_group (T := Nat) (c := oneshot) (n := 1) rfl rfl line_in (ls := fifo3) rfl (line_kept 0 (by decide)) (line_kept 1 (by decide))

end WaitGroup


/-! ## `promise` -/

namespace Promise

/-- C91, `promise` (`future::get`). -/
theorem C91_promise {T : Type} {i j : OpId} {c1 c2 c3 : Conf (mach (ds T))}
    {ls : List (Lbl (mach (ds T)))} (h : InLine (init) i j c1 c2)
    (hr : (mach (ds T)).runs c2 ls = some c3) (hi : NotCancelled c2 c3 i) (hj : NotCancelled c2 c3 j) :
    First i j c3.sh.log :=
  first_of_whole (line_whole T) h hr hi hj

/-- Wait 2 suspends, then wait 0, then (`fifo2`) wait 1. -/
def fifo1 : List (Lbl M) :=
  [.env (.newOp 2 (some 7) ()), .run 0 true, .run 0 true, .run 0 true, .run 0 true,
   .env (.newOp 0 none ()), .run 1 true, .run 1 true, .run 1 true]
def fifo2 : List (Lbl M) :=
  [.env (.newOp 1 (some 8) ()), .run 2 true, .run 2 true, .run 2 true, .run 2 true]
/-- The token of wait 2 is cancelled, too late, while all waits are being woken. -/
def fifo3 : List (Lbl M) :=
  [.env (.cancel 7), .run 3 true, .env (.call (.set 42)), .run 4 true,
   .run 3 true, .run 3 true] ++ List.replicate 11 (.run 4 true)

abbrev line1 : Conf M := M.after (RSt.init (init)) fifo1
abbrev line2 : Conf M := M.after (RSt.init (init)) (fifo1 ++ fifo2)
abbrev line3 : Conf M := M.after (RSt.init (init)) (fifo1 ++ fifo2 ++ fifo3)

theorem line1_log : line1.sh.log = [.begin 2 (some 7) (), .ds (.enq 2), .begin 0 none (), .ds (.enq 0)] := rfl
theorem line2_log : line2.sh.log = [.begin 2 (some 7) (), .ds (.enq 2), .begin 0 none (), .ds (.enq 0), .begin 1 (some 8) (), .ds (.enq 1)] := rfl
theorem line3_log : line3.sh.log = [.begin 2 (some 7) (), .ds (.enq 2), .begin 0 none (), .ds (.enq 0), .begin 1 (some 8) (), .ds (.enq 1), .cancel 7, .ds (.set 42), .ds (.wake [2, 0, 1]), .done 2 (some 42), .done 0 (some 42), .done 1 (some 42)] := rfl

theorem line_in : InLine (init) 0 1 line1 line2 where
  reach := Reach.after _ _ _
  first := suspended_of_rest (ct := none) (p := ()) (by intro a ha; revert a ha; rw [show line1.acts = [[], []] from rfl]; simp)
    (by rw [line1_log]; simp) rfl
  later := by intro ct p; rw [line1_log]; simp
  runs := ⟨fifo2, rfl⟩
  still := suspended_of_rest (ct := none) (p := ()) (by intro a ha; revert a ha; rw [show line2.acts = [[], [], []] from rfl]; simp)
    (by rw [line2_log]; simp) rfl
  second := suspended_of_rest (ct := some 8) (p := ()) (by intro a ha; revert a ha; rw [show line2.acts = [[], [], []] from rfl]; simp)
    (by rw [line2_log]; simp) rfl

theorem line_kept (k : OpId) (hk : k ≠ 2) : NotCancelled line2 line3 k := by
  intro e p hb hc
  rw [line2_log] at hb
  rw [show line3.sh.log.drop line2.sh.log.length = line3.sh.log.drop 6 from rfl, line3_log] at hc
  simp at hb hc
  grind

example : First 0 1 line3.sh.log :=
  C91_promise line_in (ls := fifo3) rfl (line_kept 0 (by decide)) (line_kept 1 (by decide))

end Promise


/-! ## `post_ack_mechanism` -/

namespace PostAck

/-- C91, `post_ack_mechanism` (`poll` operations of all agents; a post completes the polls that are suspended). -/
theorem C91_post_ack {T : Type} {i j : OpId} {c1 c2 c3 : Conf (mach (ds T))}
    {ls : List (Lbl (mach (ds T)))} (h : InLine (init) i j c1 c2)
    (hr : (mach (ds T)).runs c2 ls = some c3) (hi : NotCancelled c2 c3 i) (hj : NotCancelled c2 c3 j) :
    First i j c3.sh.log :=
  first_of_whole (line_whole T) h hr hi hj

/-- Three agents; poll 2 suspends, then poll 0, then (`fifo2`) poll 1. -/
def fifo1 : List (Lbl M) :=
  [.env (.call (.attach 0)), .run 0 true, .env (.call (.attach 1)), .run 1 true, .env (.call (.attach 2)), .run 2 true,
   .env (.newOp 2 (some 7) 2), .run 3 true, .run 3 true, .run 3 true, .run 3 true,
   .env (.newOp 0 none 0), .run 4 true, .run 4 true, .run 4 true]
def fifo2 : List (Lbl M) :=
  [.env (.newOp 1 (some 8) 1), .run 5 true, .run 5 true, .run 5 true, .run 5 true]
/-- A post completes them. -/
def fifo3 : List (Lbl M) :=
  [.env (.call (.post 100)), .run 6 true] ++ List.replicate 11 (.run 6 true)

abbrev line1 : Conf M := M.after (RSt.init (init)) fifo1
abbrev line2 : Conf M := M.after (RSt.init (init)) (fifo1 ++ fifo2)
abbrev line3 : Conf M := M.after (RSt.init (init)) (fifo1 ++ fifo2 ++ fifo3)

theorem line1_log : line1.sh.log = [.ds (.attached 0), .ds (.attached 1), .ds (.attached 2), .begin 2 (some 7) 2, .ds (.enq 2), .begin 0 none 0, .ds (.enq 0)] := rfl
theorem line2_log : line2.sh.log = [.ds (.attached 0), .ds (.attached 1), .ds (.attached 2), .begin 2 (some 7) 2, .ds (.enq 2), .begin 0 none 0, .ds (.enq 0), .begin 1 (some 8) 1, .ds (.enq 1)] := rfl
theorem line3_log : line3.sh.log = [.ds (.attached 0), .ds (.attached 1), .ds (.attached 2), .begin 2 (some 7) 2, .ds (.enq 2), .begin 0 none 0, .ds (.enq 0), .begin 1 (some 8) 1, .ds (.enq 1), .ds (.posted 0 100), .done 2 (2, some 0), .done 0 (0, some 0), .done 1 (1, some 0)] := rfl

theorem line_in : InLine (init) 0 1 line1 line2 where
  reach := Reach.after _ _ _
  first := suspended_of_rest (ct := none) (p := 0) (by intro a ha; revert a ha; rw [show line1.acts = [[], [], [], [], []] from rfl]; simp)
    (by rw [line1_log]; simp) rfl
  later := by intro ct p; rw [line1_log]; simp
  runs := ⟨fifo2, rfl⟩
  still := suspended_of_rest (ct := none) (p := 0) (by intro a ha; revert a ha; rw [show line2.acts = [[], [], [], [], [], []] from rfl]; simp)
    (by rw [line2_log]; simp) rfl
  second := suspended_of_rest (ct := some 8) (p := 1) (by intro a ha; revert a ha; rw [show line2.acts = [[], [], [], [], [], []] from rfl]; simp)
    (by rw [line2_log]; simp) rfl

theorem line_kept (k : OpId) : NotCancelled line2 line3 k := by
  intro e p _ hc
  rw [show line3.sh.log.drop line2.sh.log.length = line3.sh.log.drop 9 from rfl, line3_log] at hc
  simp at hc

example : First 0 1 line3.sh.log :=
  C91_post_ack line_in (ls := fifo3) rfl (line_kept 0) (line_kept 1)

end PostAck


/-! ## `queue` -/

namespace Queue

/-- C91, `queue`, what holds of it: from the time when both operations are suspended, no call of a member
function of the queue (`put`, `maybe_get`, …) overlaps with another call. Missing: overlapping calls
(`C91_queue_false`). -/
theorem C91_queue_partial {T : Type} {i j : OpId} {c1 c2 c3 : Conf (mach (ds T))}
    {ls : List (Lbl (mach (ds T)))} (h : InLine init i j c1 c2)
    (hr : (mach (ds T)).runs c2 ls = some c3) (hq : ∀ x, ¬ Pending c2.acts (.ds x)) (hsep : Separate c2 ls)
    (hi : NotCancelled c2 c3 i) (hj : NotCancelled c2 c3 j) : First i j c3.sh.log :=
  first_of_single (line_single T) h hr hq hsep hi hj

/-- `async_get` 2 suspends, then 0, then (`fifo2`) 1. -/
def fifo1 : List (Lbl M) :=
  [.env (.newOp 2 (some 7) ()), .run 0 true, .run 0 true, .run 0 true, .run 0 true,
   .env (.newOp 0 none ()), .run 1 true, .run 1 true, .run 1 true]
def fifo2 : List (Lbl M) :=
  [.env (.newOp 1 (some 8) ()), .run 2 true, .run 2 true, .run 2 true, .run 2 true]
/-- `async_get` 2 is cancelled; two items are put, one after the other. -/
def fifo3 : List (Lbl M) :=
  [.env (.cancel 7), .run 3 true, .run 3 true, .run 3 true, .run 3 true,
   .env (.call (.put 5)), .run 4 true, .run 4 true, .run 4 true, .run 4 true,
   .env (.call (.put 6)), .run 5 true, .run 5 true, .run 5 true, .run 5 true, .run 5 true]

abbrev line1 : Conf M := M.after (RSt.init (init)) fifo1
abbrev line2 : Conf M := M.after (RSt.init (init)) (fifo1 ++ fifo2)
abbrev line3 : Conf M := M.after (RSt.init (init)) (fifo1 ++ fifo2 ++ fifo3)

theorem line1_log : line1.sh.log = [.begin 2 (some 7) (), .ds (.enq 2), .begin 0 none (), .ds (.enq 0)] := rfl
theorem line2_log : line2.sh.log = [.begin 2 (some 7) (), .ds (.enq 2), .begin 0 none (), .ds (.enq 0), .begin 1 (some 8) (), .ds (.enq 1)] := rfl
theorem line3_log : line3.sh.log = [.begin 2 (some 7) (), .ds (.enq 2), .begin 0 none (), .ds (.enq 0), .begin 1 (some 8) (), .ds (.enq 1), .cancel 7, .ds (.unq 2), .done 2 none, .ds (.put 5), .ds (.claim (some 0) 5), .done 0 (some 5), .ds (.put 6), .ds (.claim (some 1) 6), .done 1 (some 6)] := rfl

theorem line_in : InLine (init) 0 1 line1 line2 where
  reach := Reach.after _ _ _
  first := suspended_of_rest (ct := none) (p := ()) (by intro a ha; revert a ha; rw [show line1.acts = [[], []] from rfl]; simp)
    (by rw [line1_log]; simp) rfl
  later := by intro ct p; rw [line1_log]; simp
  runs := ⟨fifo2, rfl⟩
  still := suspended_of_rest (ct := none) (p := ()) (by intro a ha; revert a ha; rw [show line2.acts = [[], [], []] from rfl]; simp)
    (by rw [line2_log]; simp) rfl
  second := suspended_of_rest (ct := some 8) (p := ()) (by intro a ha; revert a ha; rw [show line2.acts = [[], [], []] from rfl]; simp)
    (by rw [line2_log]; simp) rfl

theorem line_kept (k : OpId) (hk : k ≠ 2) : NotCancelled line2 line3 k := by
  intro e p hb hc
  rw [line2_log] at hb
  rw [show line3.sh.log.drop line2.sh.log.length = line3.sh.log.drop 6 from rfl, line3_log] at hc
  simp at hb hc
  grind

theorem line_separate : Separate line2 fifo3 := separate_of_check rfl

example : First 0 1 line3.sh.log :=
  C91_queue_partial line_in (ls := fifo3) rfl
    (by rintro x ⟨a, ha, hx⟩; rw [show line2.acts = [[], [], []] from rfl] at ha; simp at ha; subst ha; simp at hx)
    line_separate (line_kept 0 (by decide)) (line_kept 1 (by decide))

/-- `async_get` 0 suspends, then `async_get` 1. -/
def over1 : List (Lbl M) := [.env (.newOp 0 none ()), .run 0 true, .run 0 true, .run 0 true]
def over2 : List (Lbl M) := [.env (.newOp 1 none ()), .run 1 true, .run 1 true, .run 1 true]
/-- A `put` takes operation 0 off the list; before it completes it, another `put` takes off operation 1 and
completes it. -/
def over3 : List (Lbl M) :=
  [.env (.call (.put 5)), .run 2 true, .env (.call (.put 6)), .run 3 true, .run 3 true, .run 3 true, .run 3 true]

abbrev late1 : Conf M := M.after (RSt.init init) over1
abbrev late2 : Conf M := M.after (RSt.init init) (over1 ++ over2)
abbrev late3 : Conf M := M.after (RSt.init init) (over1 ++ over2 ++ over3)

theorem late1_log : late1.sh.log = [.begin 0 none (), .ds (.enq 0)] := rfl
theorem late2_log : late2.sh.log = [.begin 0 none (), .ds (.enq 0), .begin 1 none (), .ds (.enq 1)] := rfl
theorem late3_log : late3.sh.log = [.begin 0 none (), .ds (.enq 0), .begin 1 none (), .ds (.enq 1), .ds (.put 5),
    .ds (.claim (some 0) 5), .ds (.put 6), .ds (.claim (some 1) 6), .done 1 (some 6)] := rfl

theorem late_in : InLine init 0 1 late1 late2 where
  reach := Reach.after _ _ _
  first := suspended_of_rest (ct := none) (p := ()) (by intro a ha; revert a ha; rw [show late1.acts = [[]] from rfl]; simp)
    (by rw [late1_log]; simp) rfl
  later := by intro ct p; rw [late1_log]; simp
  runs := ⟨over2, rfl⟩
  still := suspended_of_rest (ct := none) (p := ()) (by intro a ha; revert a ha; rw [show late2.acts = [[], []] from rfl]; simp)
    (by rw [late2_log]; simp) rfl
  second := suspended_of_rest (ct := none) (p := ()) (by intro a ha; revert a ha; rw [show late2.acts = [[], []] from rfl]; simp)
    (by rw [late2_log]; simp) rfl

/-- C91 is false of `queue`: `put` does not complete the operation in the critical section in which it takes
it off the list. -/
theorem C91_queue_false : ∃ (c1 c2 c3 : Conf M) (ls : List (Lbl M)), InLine init 0 1 c1 c2 ∧
    M.runs c2 ls = some c3 ∧ NotCancelled c2 c3 0 ∧ NotCancelled c2 c3 1 ∧ ¬ First 0 1 c3.sh.log := by
  refine ⟨late1, late2, late3, over3, late_in, rfl, ?_, ?_, ?_⟩
  · intro e p hb; rw [late2_log] at hb; simp at hb
  · intro e p hb; rw [late2_log] at hb; simp at hb
  · intro h
    obtain ⟨w, hw⟩ := h (late3.sh.log.take 8) (some 6) [] rfl
    rw [late3_log] at hw
    simp at hw

end Queue

/-! ## `oneshot_primitive` -/

namespace OneshotPrim

/-- C91 for `oneshot_primitive`, what holds of it: the waits that suspended are completed in the reverse
order. Missing: the order itself (`C91_primitive_false`). -/
theorem C91_primitive_partial {c : Conf mach} (h : OReach c) {i j : Id} {a b d l1 l2 : List Ev}
    (hp : c.sh.log = a ++ .push i :: (b ++ .push j :: d)) (hd : c.sh.log = l1 ++ .done i :: l2) :
    .done j ∈ l1 :=
  later_first h hp hd

/-- C91 is false of `oneshot_primitive`: wait 0 suspended before wait 1, and wait 1 is completed first. -/
theorem C91_primitive_false : ∃ (c : Conf mach), OReach c ∧ ∃ a b d l1 l2 : List Ev,
    c.sh.log = a ++ .push 0 :: (b ++ .push 1 :: d) ∧ c.sh.log = l1 ++ .done 1 :: l2 ∧ .done 0 ∉ l1 :=
  ⟨demo, demo_reach, [.begin 0, .begin 1, .begin 2], [], demo.sh.log.drop 5, demo.sh.log.take 7,
    demo.sh.log.drop 8, rfl, rfl, by decide⟩

example : .done 1 ∈ demo.sh.log.take 8 :=
  C91_primitive_partial demo_reach (i := 0) (a := demo.sh.log.take 3) (b := []) (d := demo.sh.log.drop 5)
    (l1 := demo.sh.log.take 8) (l2 := demo.sh.log.drop 9) rfl rfl

end OneshotPrim

end Verif
