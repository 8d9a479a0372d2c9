import Verif.Resolver.Account
import Verif.Mutex.Destroy
import Verif.SharedMutex.Destroy
import Verif.OneshotPrim.Destroy
import Verif.Queue.Props
import Verif.WaitGroup.Props
import Verif.Sequenced.Props
import Verif.Barrier.Props

/-!
# Destroying a synchronisation object after being woken

A call that lets others proceed (`put`, `done`, `raise`, `arrive`, `unlock`) may still be running on another thread when an
operation that it completed, or one that saw its effect, has been told. The theorems say when such a call does not access the
object any more, so that the object may be destroyed. `mutex`, `shared_mutex` and `oneshot_primitive` are in files of their own.
-/

namespace Verif.Resolver

variable {S : DS} {d0 : S.D}

/-- Every wait operation has completed. -/
def AllDone (log : List (Ev S)) : Prop := ∀ i ct p, Ev.begin i ct p ∈ log → completions i log = 1

/-- The instructions that access the data structure: `start()` of a wait operation, its cancellation function, its resume
function (in which the functor of `sequenced_event::async_wait` runs), and the member functions. -/
def touches : Instr S → Prop
  | .start _ | .tryCancel _ _ | .resume _ | .ds _ => True
  | _ => False

theorem touches_ds (L : Lawful S d0) {c : Conf (mach S)} (h : Reach (mach S) (RSt.init d0) c)
    (hd : AllDone c.sh.log) {x : Instr S} (hx : Pending c.acts x) (ht : touches x) : ∃ y, x = .ds y := by
  obtain ⟨ph, _, hC⟩ := reach_inv L h
  have key : ∀ i, x.op = some i → x = .unregister i := by
    intro i hi
    obtain ⟨p, hp⟩ := hC.gl.g4 i (hC.op_started hx hi)
    exact (hC.after (hd i _ p hp) hx hi).1
  cases x with
  | ds y => exact ⟨y, rfl⟩
  | start i => cases key i rfl
  | tryCancel i l => cases key i rfl
  | resume i => cases key i rfl
  | _ => exact ht.elim

theorem mem_dsPend {acts : List (List (Instr S))} {y : S.I} (h : Pending acts (.ds y)) : y ∈ dsPend acts := by
  obtain ⟨a, ha, hy⟩ := h
  rw [dsPend, List.mem_flatten]
  refine ⟨dsl a, List.mem_map_of_mem ha, ?_⟩
  clear ha
  induction a with
  | nil => simp at hy
  | cons z a ih =>
    rcases List.mem_cons.1 hy with rfl | h1
    · simp [dsl]
    · cases z <;> simp [dsl, ih h1]

end Verif.Resolver

/-! ## `queue` -/

namespace Verif.Queue

open Resolver

variable {T : Type}

/-- Number of calls of `put()` in an execution. -/
def putCalls (ls : List (Lbl (mach (ds T)))) : Nat :=
  ls.countP fun l => match l with
    | .env (.call (.put _)) => true
    | _ => false

def fP : I T → Nat
  | .put _ => 1
  | .maybeGet => 0

def gP : E T → Nat
  | .put _ => 1
  | _ => 0

theorem balanced : Balanced (ds T) fP gP (fun _ => 0) where
  start := by
    intro d i b d' r es h
    simp only [start] at h
    split at h
    · split at h <;> simp at h; obtain ⟨-, -, rfl⟩ := h; simp [gP]
    · simp at h; obtain ⟨-, -, rfl⟩ := h; simp [gP]
  tryCancel := by
    intro d i d' r es h
    simp only [tryCancel] at h
    split at h
    · split at h <;> simp at h; obtain ⟨-, -, rfl⟩ := h; simp [gP]
    · simp at h; obtain ⟨-, -, rfl⟩ := h; simp
  exec := by
    intro d x b d' ps es h
    cases x with
    | put v =>
      simp only [exec] at h
      split at h
      · split at h <;> simp at h; obtain ⟨-, rfl, rfl⟩ := h; simp [gP, fP, follow, wI]
      · simp at h; obtain ⟨-, rfl, rfl⟩ := h; simp [gP, fP]
    | maybeGet =>
      simp only [exec] at h
      split at h <;> simp at h <;> obtain ⟨-, rfl, rfl⟩ := h <;> simp [gP, fP]

theorem putCalls_eq (ls : List (Lbl (mach (ds T)))) : (ls.map (wCall fP)).sum = putCalls ls := by
  induction ls with
  | nil => rfl
  | cons l ls ih =>
    rw [List.map_cons, List.sum_cons, ih, putCalls, putCalls, List.countP_cons]
    have : wCall fP l = if (match l with | .env (.call (.put _)) => true | _ => false) = true then 1 else 0 := by
      rcases l with (⟨i, ct, p⟩ | e | (x | _) | e) | ⟨k, b⟩ <;> simp [wCall, fP]
    omega

theorem puts_eq (log : List (Event T)) : wLog gP log = (puts log).length := by
  induction log using List.reverseRecOn with
  | nil => rfl
  | append_singleton l v ih =>
    rw [wLog_append, ih]
    rcases v with _ | _ | _ | _ | (x | _ | _ | _) <;> simp [puts, wLog, wEv, gP]

/-- C79. As many items have been handed out as `put()` was called, all `get` operations have completed and `maybe_get()` is not
running. Then nothing accesses the queue any more, even though calls of `put()` may still be running. -/
theorem C79_queue {ls : List (Lbl (mach (ds T)))} {c : Conf (mach (ds T))}
    (h : (mach (ds T)).runs ((mach (ds T)).init (RSt.init init)) ls = some c) (hd : AllDone c.sh.log)
    (hm : ¬ Pending c.acts (.ds .maybeGet)) (hn : (claims c.sh.log).length = putCalls ls) :
    ∀ x, Pending c.acts x → ¬ touches x := by
  intro x hx ht
  have hr := Reach.of_runs .init h
  obtain ⟨y, rfl⟩ := touches_ds (lawful T) hr hd hx ht
  obtain ⟨ph, hI, _⟩ := reach_inv (lawful T) hr
  have h1 := runs_account balanced h
  rw [putCalls_eq, puts_eq, puts_eq] at h1
  have h2 := congrArg List.length hI.items
  have h3 := hx.le (wI fP)
  have h4 : ∀ log : List (Event T), wLog (S := ds T) (fun _ => 0) log = 0 := by
    intro log
    induction log with
    | nil => rfl
    | cons v log ih => simp only [wLog, List.map_cons, List.sum_cons] at ih ⊢; rw [ih]; cases v <;> rfl
  rw [h4, h4] at h1
  have h5 : puts ((mach (ds T)).init (RSt.init init)).sh.log = [] := rfl
  have h6 : ws (wI (S := ds T) fP) ((mach (ds T)).init (RSt.init init)).acts = 0 := rfl
  rw [h5, h6] at h1
  cases y with
  | maybeGet => exact hm hx
  | put v =>
    simp only [wI, fP, List.length_append, List.length_nil] at h1 h2 h3
    omega

end Verif.Queue

/-! ## `wait_group` and `oneshot_event` -/

namespace Verif.WaitGroup

open Resolver

variable {T : Type} {c : Cfg} {n : Nat}

/-- The instructions that access the group: all except the start of a wrapped sender and the completion of the receiver of
`wait_in_group`. -/
def uses : Instr (ds T c) → Prop
  | .start _ | .tryCancel _ _ | .resume _ => True
  | .ds (.cstart _) | .ds (.wset _ _) => False
  | .ds _ => True
  | _ => False

/-- C79. The work count is zero, all waits have completed and no `add()` is running. Then nothing accesses the group any more,
even though calls of `done()` may still be running. For `oneshot_event`, `done()` is `raise()`. -/
theorem C79_wait_group (h1 : c.safeAdd = true) (h2 : c.safeDone = true) {k : Conf (mach (ds T c))}
    (h : WReach n k) (hd : AllDone k.sh.log) (hz : count n k.sh.log = 0)
    (ha : ∀ m w, ¬ Pending k.acts (.ds (.add m w))) : ∀ x, Pending k.acts x → ¬ uses x := by
  intro x hx hu
  have ht : touches x := by
    cases x <;> first | exact trivial | exact hu.elim
  obtain ⟨y, rfl⟩ := touches_ds (lawful n h1 h2) h hd hx ht
  obtain ⟨ph, ⟨hA, hB⟩, _⟩ := reach_inv (lawful n h1 h2) h
  have hc := hA.cnt
  have h3 := hB.units
  have h4 := hB.pd
  have h5 : ∀ z, z ∈ dsPend k.acts → isDone z = false := by
    intro z hz'
    cases hz2 : isDone z with
    | false => rfl
    | true =>
      have : 0 < (dsPend k.acts).countP isDone := List.countP_pos_iff.2 ⟨z, hz', hz2⟩
      omega
  have h6 := h5 y (mem_dsPend hx)
  cases y with
  | add m w => exact ha m w hx
  | cstart j => exact hu
  | wset j v => exact hu
  | _ => simp [isDone] at h6

end Verif.WaitGroup

/-! ## `recurring_event` and what is built on it -/

namespace Verif.Recurring

open Resolver

variable {X : User} {u0 : X.U}

def fR : I X → Nat
  | .raise => 1
  | .act _ => 0

def gR : E X → Nat
  | .raise _ => 1
  | _ => 0

def uR : E X → Nat
  | .act _ true _ => 1
  | _ => 0

/-- Number of wakeups in a history. -/
def wakeups (log : List (Event X)) : Nat :=
  log.countP fun v => match v with
    | .ds (.raise _) => true
    | _ => false

/-- Number of updates in a history that have to be followed by a wakeup. -/
def updates (log : List (Event X)) : Nat :=
  log.countP fun v => match v with
    | .ds (.act _ true _) => true
    | _ => false

theorem balanced : Balanced (ds X) fR gR uR where
  start := by
    intro d i b d' r es h
    simp only [start] at h
    (repeat' split at h) <;> simp at h <;> obtain ⟨-, -, rfl⟩ := h <;> simp [gR, uR]
  tryCancel := by
    intro d i d' r es h
    simp only [tryCancel] at h
    (repeat' split at h) <;> simp at h <;> obtain ⟨-, -, rfl⟩ := h <;> simp [gR, uR]
  exec := by
    intro d x b d' ps es h
    cases x with
    | raise =>
      simp only [exec] at h
      split at h <;> simp at h
      obtain ⟨-, rfl, rfl⟩ := h
      have : ∀ l : List OpId, wl (wI (S := ds X) fR) ((l.map (Sum.inl : OpId → OpId ⊕ I X)).map follow) = 0 := by
        intro l; apply wl_zero; intro x hx
        simp only [List.map_map, List.mem_map] at hx
        obtain ⟨i, -, rfl⟩ := hx; rfl
      rw [this]; simp [gR, uR, fR]
    | act a =>
      simp only [exec] at h
      split at h <;> simp at h
      rename_i u' f r he
      obtain ⟨-, rfl, rfl⟩ := h
      cases f <;> simp [gR, uR, fR, follow, wI]

theorem wakeups_eq (log : List (Event X)) : wLog gR log = wakeups log := by
  induction log with
  | nil => rfl
  | cons v l ih =>
    rw [wakeups, List.countP_cons, ← wakeups, ← ih]
    rcases v with _ | _ | _ | _ | (x | _ | _ | _ | _) <;> simp [wLog, wEv, gR]; omega

theorem updates_eq (log : List (Event X)) : wLog uR log = updates log := by
  induction log with
  | nil => rfl
  | cons v l ih =>
    rw [updates, List.countP_cons, ← updates, ← ih]
    rcases v with _ | _ | _ | _ | (⟨a, f, r⟩ | _ | _ | _ | _) <;> simp [wLog, wEv, uR]
    cases f <;> simp; omega

theorem no_raise_call (hX : X.direct = false) {ls : List (Lbl (mach (ds X)))} : ∀ {c c' : Conf (mach (ds X))},
    (mach (ds X)).runs c ls = some c' → (ls.map (wCall fR)).sum = 0 := by
  induction ls with
  | nil => intro _ _ _; rfl
  | cons l ls ih =>
    intro c c' h
    simp only [Mach.runs] at h
    split at h
    rotate_left
    · cases h
    rename_i c1 hs
    rw [List.map_cons, List.sum_cons, ih h]
    rcases l with (⟨i, ct, p⟩ | e | (x | _) | e) | ⟨k, b⟩ <;> simp [wCall, fR]
    simp [Mach.step, env, call, hX] at hs

/-- Updates that are to be followed by `raise()` and the pending calls of it. -/
theorem pending_raises (hX : X.direct = false) {c : Conf (mach (ds X))} (h : RReach u0 c) :
    ws (wI (S := ds X) fR) c.acts + wakeups c.sh.log = updates c.sh.log := by
  obtain ⟨ls, hl⟩ := Reach.to_runs h
  have h1 := runs_account balanced hl
  rw [no_raise_call hX hl, wakeups_eq, wakeups_eq, updates_eq, updates_eq] at h1
  have h2 : wakeups ((mach (ds X)).init (RSt.init (init u0))).sh.log = 0 := rfl
  have h3 : updates ((mach (ds X)).init (RSt.init (init u0))).sh.log = 0 := rfl
  have h4 : ws (wI (S := ds X) fR) ((mach (ds X)).init (RSt.init (init u0))).acts = 0 := rfl
  rw [h2, h3, h4] at h1
  omega

/-- C79, partial, for programs that call `raise()` after updates only, such as `sequenced_event` and `barrier`. All waits have
completed, no update is still to come, and each update that has to wake the waiters has done so. Then nothing
accesses the object any more. Missing: that it suffices that the waits have seen the updates (see `C79_sequenced_false`
and `C79_barrier_false`). -/
theorem C79_recurring_event_partial (O : UserOk X u0) (hX : X.direct = false) {c : Conf (mach (ds X))} (h : RReach u0 c)
    (hd : AllDone c.sh.log) (ha : ∀ a, ¬ Pending c.acts (.ds (.act a)))
    (hw : updates c.sh.log ≤ wakeups c.sh.log) : ∀ x, Pending c.acts x → ¬ touches x := by
  intro x hx ht
  obtain ⟨y, rfl⟩ := touches_ds (lawful O) h hd hx ht
  have h1 := pending_raises hX h
  have h2 := hx.le (wI (S := ds X) fR)
  cases y with
  | act a => exact ha a hx
  | raise => simp only [wI, fR] at h2; omega

end Verif.Recurring

namespace Verif.Sequenced

open Resolver Recurring

/-- C79, partial, for `sequenced_event`: `raise()` was called once and a wait that had to suspend was woken by it. Then
`raise()` does not access the event any more. Missing: waits that did not suspend, see `C79_sequenced_false`. -/
theorem C79_sequenced_partial {c : Conf (mach (ds prog))} (h : RReach (X := prog) (0 : Nat) c) (hd : AllDone c.sh.log)
    (ha : ¬ Pending c.acts (.ds (.act ()))) (h1 : seqOf c.sh.log = 1) {i : OpId}
    (hi : Ev.done i Res.awaited ∈ c.sh.log) : ∀ x, Pending c.acts x → ¬ touches x := by
  refine C79_recurring_event_partial progOk rfl h hd (fun a => by cases a; exact ha) ?_
  obtain ⟨l1, l2, e⟩ := List.append_of_mem hi
  obtain ⟨l, hl, -⟩ := C25_awaited_was_raised progOk h l1 _ l2 e i rfl
  have h2 : 0 < wakeups c.sh.log := List.countP_pos_iff.2 ⟨_, by rw [e]; exact List.mem_append_left _ hl, rfl⟩
  have h3 : updates c.sh.log ≤ seqOf c.sh.log := by
    apply List.countP_mono_left
    intro v _ hv
    revert hv
    rcases v with _ | _ | _ | _ | (⟨a, f, r⟩ | _ | _ | _ | _) <;> simp
  omega

/-- A wait starts after the increment of `raise()` and before the wakeup. -/
def lateRun : List (Lbl (mach (ds prog))) :=
  [.env (.call (.act ())), .run 0 true, .env (.newOp 0 none (0 : Nat)), .run 1 true, .run 1 true]

def lateRunConf : Conf (mach (ds prog)) := (mach (ds prog)).after (RSt.init (Recurring.init (0 : Nat))) lateRun

theorem lateRun_log : lateRunConf.sh.log = [.ds (.act () true ()), .begin 0 none (0 : Nat), .ds (.skip 0), .done 0 .conditionFailed] := rfl

theorem lateRun_acts : lateRunConf.acts = [[.ds .raise], []] := rfl

/-- C79 is false for `sequenced_event`: the only wait has completed because it saw the increment of the only `raise()`, and
`raise()` is about to lock the event. -/
theorem C79_sequenced_false : ∃ c : Conf (mach (ds prog)), RReach (X := prog) (0 : Nat) c ∧ AllDone c.sh.log ∧
    Ev.done 0 Res.conditionFailed ∈ c.sh.log ∧ seqOf c.sh.log = 1 ∧ (∀ a, ¬ Pending c.acts (.ds (.act a))) ∧
    ∃ x, Pending c.acts x ∧ touches x := by
  refine ⟨lateRunConf, Reach.after _ _ _, ?_, ?_, rfl, ?_, .ds .raise, ?_, trivial⟩
  · intro i ct p hm
    rw [lateRun_log] at hm ⊢
    simp at hm
    rw [hm.1]; rfl
  · rw [lateRun_log]; simp
  · rintro a ⟨l, hl, hx⟩
    rw [lateRun_acts] at hl
    simp at hl
    rcases hl with rfl | rfl <;> simp at hx
  · exact ⟨_, by rw [lateRun_acts]; exact List.mem_cons_self, by simp⟩

end Verif.Sequenced

namespace Verif.Barrier

open Resolver Recurring

/-- C79, partial, for `barrier`: every completed phase has woken its waiters. Then nothing accesses the barrier any
more. Missing: that it suffices that all waits have completed, see `C79_barrier_false`. -/
theorem C79_barrier_partial {e : Nat} {c : Conf (mach (ds prog))} (h : RReach (X := prog) (start e) c)
    (hd : AllDone c.sh.log) (ha : ∀ a, ¬ Pending c.acts (.ds (.act a))) (hw : phases c.sh.log ≤ wakeups c.sh.log) :
    ∀ x, Pending c.acts x → ¬ touches x := by
  refine C79_recurring_event_partial (progOk e) rfl h hd ha ?_
  have : ∀ (l : List (Event prog)) (k : Nat), l.foldl phaseStep k = k + updates l := by
    intro l
    induction l with
    | nil => intro k; rfl
    | cons v l ih =>
      intro k
      rw [List.foldl_cons, ih, updates, updates, List.countP_cons]
      rcases v with _ | _ | _ | _ | (⟨a, f, r⟩ | _ | _ | _ | _) <;> simp [phaseStep]
      cases f <;> simp; omega
  have h0 := this c.sh.log 0
  rw [phases] at hw
  omega

/-- The second of two participants arrives, and the first one waits before the wakeup. -/
def lateRun : List (Lbl (mach (ds prog))) :=
  [.env (.call (.act (.arrive 1))), .run 0 true, .env (.call (.act (.arrive 1))), .run 1 true,
   .env (.newOp 0 none (0 : Nat)), .run 2 true, .run 2 true]

def lateRunConf : Conf (mach (ds prog)) := (mach (ds prog)).after (RSt.init (Recurring.init (Barrier.start 2))) lateRun

theorem lateRun_log : lateRunConf.sh.log = [.ds (.act (.arrive 1) false (0 : Nat)), .ds (.act (.arrive 1) true (0 : Nat)),
    .begin 0 none (0 : Nat), .ds (.skip 0), .done 0 .conditionFailed] := rfl

theorem lateRun_acts : lateRunConf.acts = [[], [.ds .raise], []] := rfl

/-- C79 is false for `barrier`: both participants have arrived, the first one has been told that the phase is complete, and
the call of the second one is about to lock the event inside the barrier. -/
theorem C79_barrier_false : ∃ c : Conf (mach (ds prog)), RReach (X := prog) (start 2) c ∧ AllDone c.sh.log ∧
    Ev.done 0 Res.conditionFailed ∈ c.sh.log ∧ phases c.sh.log = 1 ∧ (∀ a, ¬ Pending c.acts (.ds (.act a))) ∧
    ∃ x, Pending c.acts x ∧ touches x := by
  refine ⟨lateRunConf, Reach.after _ _ _, ?_, ?_, rfl, ?_, .ds .raise, ?_, trivial⟩
  · intro i ct p hm
    rw [lateRun_log] at hm ⊢
    simp at hm
    rw [hm.1]; rfl
  · rw [lateRun_log]; simp
  · rintro a ⟨l, hl, hx⟩
    rw [lateRun_acts] at hl
    simp at hl
    rcases hl with rfl | rfl | rfl <;> simp at hx
  · exact ⟨_, by rw [lateRun_acts]; exact List.mem_cons_of_mem _ List.mem_cons_self, by simp⟩

end Verif.Barrier
