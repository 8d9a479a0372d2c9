import Verif.Destroy.Object

/-! # The theorems about destruction of objects on example executions -/

namespace Verif.Mutex

/-- `demo` up to the point at which 2 holds the mutex that 1 handed over. -/
example : Quiescent demo :=
  C79_mutex demo_reach (k := 2) (by decide) (by
    intro i hi
    rw [demo_log] at hi ⊢
    simp at hi ⊢
    omega)

/-- The hypothesis on pending requests is needed: in `demo5` 0 holds the mutex and two calls are running. -/
example : 0 ∈ holding demo5.sh.log ∧ ¬ Quiescent demo5 := ⟨by decide, demo5_runs⟩

end Verif.Mutex

namespace Verif.SharedMutex

/-- A reader and a writer: the writer queues up, the reader hands the mutex over to it. -/
def handOverRun : Conf mach := mach.after init
  [.env (.lock (0, false)), .run 0 true, .run 0 true, .run 0 true,
   .env (.lock (1, true)), .run 1 true, .run 1 true, .run 1 true, .run 1 true, .run 1 true, .run 1 true,
   .env (.unlock (0, false)), .run 2 true, .run 2 true, .run 2 true, .run 2 true, .run 2 true, .run 2 true, .run 2 true]

theorem handOverRun_log : handOverRun.sh.log = [.lock (0, false), .fast (0, false), .acq (0, false), .lock (1, true), .enq (1, true),
    .unlock (0, false), .grant (0, false) [(1, true)], .acq (1, true)] := rfl

example : Quiescent handOverRun :=
  C79_shared_mutex (Reach.after _ _ _) (k := 1) (by decide) (by
    intro t ht
    rw [handOverRun_log] at ht ⊢
    simp at ht ⊢
    rcases ht with rfl | rfl <;> simp)

end Verif.SharedMutex

namespace Verif.OneshotPrim

/-- One wait is pushed, `raise()` completes it and is still in its loop. -/
def wokenRun : Conf mach := mach.after init
  [.env (.start 0), .run 0 true, .run 0 true, .env .raise, .run 1 true, .run 1 true, .run 1 true]

theorem wokenRun_log : wokenRun.sh.log = [.begin 0, .push 0, .call, .raise, .done 0] := rfl
theorem wokenRun_acts : wokenRun.acts = [[], [.walk .null]] := rfl

example : ∀ x, Pending wokenRun.acts x → x = .walk .null :=
  C79_oneshot_primitive (Reach.after _ _ _) (k := 0) (by decide) (by
    intro i hi
    rw [wokenRun_log] at hi ⊢
    simp at hi ⊢
    exact hi)

end Verif.OneshotPrim

namespace Verif.Queue

open Resolver

/-- `put()` completes a suspended consumer without token; the call is still running. -/
def servedRun : List (Lbl (mach (ds Nat))) :=
  [.env (.newOp 0 none ()), .run 0 true, .run 0 true, .run 0 true, .env (.call (.put 7)), .env (.newOp 1 none ()),
   .run 1 true, .run 1 true, .run 1 true, .run 1 true, .env (.call (.put 8)), .run 3 true, .run 2 true, .run 2 true]

def servedConf : Conf (mach (ds Nat)) := (mach (ds Nat)).after (RSt.init init) servedRun

theorem servedRun_runs : (mach (ds Nat)).runs ((mach (ds Nat)).init (RSt.init init)) servedRun = some servedConf := rfl

theorem servedRun_log : servedConf.sh.log = [.begin 0 none (), .ds (.enq 0), .begin 1 none (), .ds (.put 7), .ds (.claim (some 0) 7),
    .done 0 (some 7), .ds (.put 8), .ds (.claim (some 1) 8), .done 1 (some 8)] := rfl

theorem servedRun_acts : servedConf.acts = [[], [], [], []] := rfl

example : ∀ x, Pending servedConf.acts x → ¬ touches x :=
  C79_queue servedRun_runs (by
      intro i ct p hm
      rw [servedRun_log] at hm ⊢
      simp at hm
      rcases hm with ⟨rfl, -⟩ | ⟨rfl, -⟩ <;> rfl)
    (by
      rintro ⟨a, ha, hx⟩
      rw [servedRun_acts] at ha
      simp at ha
      subst ha; simp at hx) rfl

end Verif.Queue

namespace Verif.WaitGroup

open Resolver

/-- Two units of work; one wait suspends, the second `done()` completes it. -/
def freedRun : Conf (mach (ds Nat ⟨true, true, true⟩)) := (mach (ds Nat ⟨true, true, true⟩)).after (RSt.init (init 2))
  [.env (.newOp 0 none ()), .run 0 true, .run 0 true, .run 0 true, .env (.call (.ld none)), .run 1 true, .run 1 true,
   .env (.call (.ld none)), .run 2 true, .run 2 true, .run 2 true, .run 2 true, .run 2 true]

theorem freedRun_log : freedRun.sh.log = [.begin 0 none (), .ds (.enq 0), .ds (.dec none), .ds (.zero none [0]), .done 0 true] := rfl
theorem freedRun_acts : freedRun.acts = [[], [], []] := rfl

example : ∀ x, Pending freedRun.acts x → ¬ uses x :=
  C79_wait_group (n := 2) rfl rfl (Reach.after _ _ _) (by
      intro i ct p hm
      rw [freedRun_log] at hm ⊢
      simp at hm
      obtain ⟨rfl, -⟩ := hm; rfl) rfl (by
      rintro m w ⟨a, ha, hx⟩
      rw [freedRun_acts] at ha
      simp at ha
      subst ha; simp at hx)

end Verif.WaitGroup

namespace Verif.Sequenced

open Resolver Recurring

/-- A wait suspends and is wokenRun by the only `raise()`. -/
def earlyRun : Conf (mach (ds prog)) := (mach (ds prog)).after (RSt.init (Recurring.init (0 : Nat)))
  [.env (.newOp 0 none (0 : Nat)), .run 0 true, .run 0 true, .run 0 true, .env (.call (.act ())), .run 1 true, .run 1 true,
   .run 1 true, .run 1 true, .run 1 true]

theorem earlyRun_log : earlyRun.sh.log = [.begin 0 none (0 : Nat), .ds (.enq 0 false), .ds (.act () true ()), .ds (.raise [0]),
    .done 0 .awaited] := rfl
theorem earlyRun_acts : earlyRun.acts = [[], []] := rfl

theorem earlyRun_done : AllDone earlyRun.sh.log := by
  intro i ct p hm
  rw [earlyRun_log] at hm ⊢
  simp at hm
  obtain ⟨rfl, -⟩ := hm; rfl

theorem earlyRun_calls (a : Unit) : ¬ Pending earlyRun.acts (.ds (.act a)) := by
  rintro ⟨l, hl, hx⟩
  rw [earlyRun_acts] at hl
  simp at hl
  subst hl; simp at hx

example : ∀ x, Pending earlyRun.acts x → ¬ touches x :=
  C79_sequenced_partial (Reach.after _ _ _) earlyRun_done (earlyRun_calls ()) rfl (i := 0) (by rw [earlyRun_log]; simp)

example : ∀ x, Pending earlyRun.acts x → ¬ touches x :=
  C79_recurring_event_partial progOk rfl (Reach.after _ _ _) earlyRun_done earlyRun_calls (by rw [earlyRun_log]; decide)

end Verif.Sequenced

namespace Verif.Barrier

open Resolver Recurring

/-- The first of two participants waits, the second one arrives and wakes it. -/
def earlyRun : Conf (mach (ds prog)) := (mach (ds prog)).after (RSt.init (Recurring.init (Barrier.start 2)))
  [.env (.call (.act (.arrive 1))), .run 0 true, .env (.newOp 0 none (0 : Nat)), .run 1 true, .run 1 true, .run 1 true,
   .env (.call (.act (.arrive 1))), .run 2 true, .run 2 true, .run 2 true, .run 2 true, .run 2 true]

theorem earlyRun_log : earlyRun.sh.log = [.ds (.act (.arrive 1) false (0 : Nat)), .begin 0 none (0 : Nat), .ds (.enq 0 false),
    .ds (.act (.arrive 1) true (0 : Nat)), .ds (.raise [0]), .done 0 .awaited] := rfl
theorem earlyRun_acts : earlyRun.acts = [[], [], []] := rfl

example : ∀ x, Pending earlyRun.acts x → ¬ touches x :=
  C79_barrier_partial (e := 2) (Reach.after _ _ _) (by
      intro i ct p hm
      rw [earlyRun_log] at hm ⊢
      simp at hm
      obtain ⟨rfl, -⟩ := hm; rfl) (by
      rintro a ⟨l, hl, hx⟩
      rw [earlyRun_acts] at hl
      simp at hl
      subst hl; simp at hx) (by rw [earlyRun_log]; decide)

end Verif.Barrier
