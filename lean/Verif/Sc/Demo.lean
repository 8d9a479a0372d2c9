import Verif.Sc.Props

/-!
# Examples of executions for C66

Executions to which the theorems of `Verif/Sc/Props.lean` apply: executions in which a load yields an outdated value, and,
for the primitives all of whose accesses are synchronising, two threads that meet at an atomic variable.
-/

namespace Verif

variable {L : Type}

/-- A variable is modified by one thread; another thread still reads the initial value. There is no synchronisation. -/
def stale (l : L) (o : Ord) : CExec L where
  E := Fin 2
  acc := ![.rmw .acqRel l, .load o l]
  hb _ _ := False
  rd := ![0, 0]
  wr := ![1, 0]

theorem stale_valid (l : L) (o : Ord) : (stale l o).Valid := by
  constructor <;> simp only [stale, CExec.same, Fin.forall_fin_two, Fin.exists_fin_two] <;>
    cases o <;> simp [Acc.writes, Acc.reads, Acc.loc, Acc.isRel, Acc.isAcq]

theorem stale_of {M : Mach} {A : Ann M} {l : A.L} {o : Ord} (h1 : ∃ s y b, Acc.rmw .acqRel l ∈ A.eff s y b)
    (h2 : ∃ s y b, Acc.load o l ∈ A.eff s y b) : (stale l o).Of A := by
  intro e
  simp only [stale] at e ⊢
  match e with
  | 0 => exact h1
  | 1 => exact h2

/-- A critical section, a modification of a variable, and on another thread a second modification and a second critical
section. The second modification reads the value of the first one. -/
def meet (a b : L) : CExec L where
  E := Fin 6
  acc := ![.lock a, .unlock a, .rmw .acqRel b, .rmw .acqRel b, .lock a, .unlock a]
  hb i j := i < j
  rd := ![0, 0, 0, 1, 0, 0]
  wr := ![0, 0, 1, 2, 0, 0]

theorem meet_valid (a b : L) : (meet a b).Valid := by
  have hacc : ∀ e : Fin 6, ((meet a b).acc e).writes = true → e = 2 ∨ e = 3 := by
    intro e; match e with
    | 0 | 1 | 4 | 5 => intro h; simp [meet, Acc.writes] at h
    | 2 | 3 => simp
  have hrd : ∀ e : Fin 6, ((meet a b).acc e).reads = true → e = 2 ∨ e = 3 := by
    intro e; match e with
    | 0 | 1 | 4 | 5 => intro h; simp [meet, Acc.reads] at h
    | 2 | 3 => simp
  have hrel : ∀ e : Fin 6, ((meet a b).acc e).isRel = true → e = 2 ∨ e = 3 := by
    intro e; match e with
    | 0 | 1 | 4 | 5 => intro h; simp [meet, Acc.isRel] at h
    | 2 | 3 => simp
  have hacq : ∀ e : Fin 6, ((meet a b).acc e).isAcq = true → e = 2 ∨ e = 3 := by
    intro e; match e with
    | 0 | 1 | 4 | 5 => intro h; simp [meet, Acc.isAcq] at h
    | 2 | 3 => simp
  constructor
  · exact fun i => Fin.lt_irrefl i
  · exact fun i j k => Fin.lt_trans
  · intro i j hi hj _ he
    rcases hacc i hi with rfl | rfl <;> rcases hacc j hj with rfl | rfl <;> first | rfl | simp [meet] at he
  · intro i hi
    rcases hacc i hi with rfl | rfl <;> simp [meet]
  · intro i hi h1
    rcases hacc i hi with rfl | rfl
    · simp [meet] at h1
    · exact ⟨(2 : Fin 6), rfl, rfl, rfl⟩
  · intro i hi _
    rcases hrd i hi with rfl | rfl <;> rfl
  · intro i j h _ hi hj
    rcases hacc i hi with rfl | rfl <;> rcases hacc j hj with rfl | rfl <;> revert h <;> simp [meet]
  · intro i j h _ hi hj
    rcases hacc i hi with rfl | rfl <;> rcases hrd j hj with rfl | rfl <;> revert h <;> simp [meet]
  · intro i j h _ hi hj
    rcases hrd i hi with rfl | rfl <;> rcases hacc j hj with rfl | rfl <;> revert h <;> simp [meet]
  · intro i j h _ hi hj
    rcases hrd i hi with rfl | rfl <;> rcases hrd j hj with rfl | rfl <;> revert h <;> simp [meet]
  · intro i j _ hi hj h
    rcases hrel i hi with rfl | rfl <;> rcases hacq j hj with rfl | rfl <;> revert h <;> simp [meet]

theorem meet_of {M : Mach} {A : Ann M} {a b : A.L} (h1 : ∃ s y b, Acc.lock a ∈ A.eff s y b)
    (h2 : ∃ s y b, Acc.unlock a ∈ A.eff s y b) (h3 : ∃ s y c, Acc.rmw .acqRel b ∈ A.eff s y c) : (meet a b).Of A := by
  intro e
  simp only [meet] at e ⊢
  match e with
  | 0 | 4 => exact h1
  | 1 | 5 => exact h2
  | 2 | 3 => exact h3

/-! ## Primitives that use a resolver

The critical sections are those of `start()`, the variable is the state of the resolver of operation 0. -/

theorem meet_resolver {S : Resolver.DS} (d : S.D) (o : Resolver.Ords S) (entry) :
    (meet (Resolver.Loc.ds : Resolver.Loc o.A) (.bits 0)).Of (Resolver.ann o entry) :=
  meet_of ⟨Resolver.RSt.init d, .start 0, true, Resolver.sect_lock _⟩
    ⟨Resolver.RSt.init d, .start 0, true, Resolver.sect_unlock _⟩
    ⟨Resolver.RSt.init d, .transition 0 ⟨true, false, false⟩, true, List.Mem.head _⟩

section
variable {entry : ∀ S : Resolver.DS, Resolver.RSt S → Resolver.Act S → Nat → Bool}

example : (meet (Resolver.Loc.ds : Resolver.Loc (Queue.ords Nat).A) (.bits 0)).Interleaved :=
  C66_queue (meet_valid _ _) (meet_resolver Queue.init _ (entry _))

example : (meet (Resolver.Loc.ds : Resolver.Loc (Promise.ords Nat).A) (.bits 0)).Interleaved :=
  C66_promise (meet_valid _ _) (meet_resolver Promise.init _ (entry _))

/-- The counter of a wait group is incremented; a wait reads the old value. -/
example : (stale (Resolver.Loc.at () : Resolver.Loc Unit) .rlx).Interleaved :=
  C66_wait_group (stale_valid _ _) (stale_of (A := Resolver.ann (WaitGroup.ords Nat ⟨true, true, true⟩) (entry _))
    ⟨Resolver.RSt.init (WaitGroup.init 1), .ds (.add 1 none), true, List.Mem.head _⟩
    ⟨Resolver.RSt.init (WaitGroup.init 1), .ds (.ld none), true, List.Mem.head _⟩)

/-- The sequence number is incremented; a wait reads the old value. -/
example : (stale (Resolver.Loc.at () : Resolver.Loc Unit) .acq).Interleaved :=
  C66_sequenced_event (stale_valid _ _) (stale_of (A := Resolver.ann (Recurring.ords Sequenced.W) (entry _))
    ⟨Resolver.RSt.init (Recurring.init (X := Sequenced.prog) (0 : Nat)), .ds (.act ()), true, List.Mem.head _⟩
    ⟨Resolver.RSt.init (Recurring.init (X := Sequenced.prog) (0 : Nat)), .setFast 0 .conditionFailed, true,
      List.Mem.head _⟩)

end

/-- A program with a flag around a `recurring_event`; two operations meet at the state of a resolver. -/
example : (meet (Resolver.Loc.ds : Resolver.Loc Unit) (.bits 0)).Interleaved :=
  C66_recurring_event (W := Recurring.flagOrds) (x := some ()) (fun _ _ _ _ => .inl rfl) (fun _ _ _ _ => .inl rfl)
    (fun _ _ _ => .inl rfl) (meet_valid _ _)
    (meet_resolver (Recurring.init (X := Recurring.flag) true) (Recurring.ords Recurring.flagOrds) fun _ _ _ => false)

/-- `seq_` of a barrier is stored to in a critical section; a wait reads the old value. -/
def staleBarrier : CExec (Resolver.Loc Barrier.At) where
  E := Fin 4
  acc := ![.lock (.at .mutex), .store .rlx (.at .seq), .unlock (.at .mutex), .load .rlx (.at .seq)]
  hb a b := a < b ∧ b ≠ 3
  rd := ![0, 0, 0, 0]
  wr := ![0, 1, 0, 0]

theorem staleBarrier_valid : staleBarrier.Valid := by
  constructor <;> simp only [staleBarrier, CExec.same] <;> decide

theorem staleBarrier_of : staleBarrier.Of (Resolver.ann (Recurring.ords Barrier.W) fun _ _ _ => false) := by
  intro e
  simp only [staleBarrier] at e ⊢
  refine ⟨Resolver.RSt.init (Recurring.init (X := Barrier.prog) (Barrier.start 1)), .ds (.act (.arrive 1)), true, ?_⟩
  match e with
  | 0 => exact List.Mem.head _
  | 1 => exact List.Mem.tail _ (List.Mem.tail _ (List.Mem.head _))
  | 2 => exact List.Mem.tail _ (List.Mem.tail _ (List.Mem.tail _ (List.Mem.head _)))
  | 3 => exact List.Mem.tail _ (List.Mem.head _)

example : staleBarrier.Interleaved := C66_barrier staleBarrier_valid staleBarrier_of

/-- A post sets its counter; a handle is acknowledged on another thread, which knows of the post. -/
def posted : CExec (Resolver.Loc Nat) where
  E := Fin 4
  acc := ![.lock .ds, .store .rlx (.at 0), .unlock .ds, .rmw .acqRel (.at 0)]
  hb a b := a < b
  rd := ![0, 0, 0, 1]
  wr := ![0, 1, 0, 2]

theorem posted_valid : posted.Valid := by
  constructor <;> simp only [posted, CExec.same] <;> decide

theorem posted_of : posted.Of (Resolver.ann (PostAck.ords Nat) fun _ _ _ => false) := by
  intro e
  simp only [posted] at e ⊢
  match e with
  | 0 => exact ⟨Resolver.RSt.init PostAck.init, .start 0, true, Resolver.sect_lock _⟩
  | 1 => exact ⟨Resolver.RSt.init { PostAck.init with active := 1 }, .ds (.post 7), true, List.Mem.tail _ (List.Mem.head _)⟩
  | 2 => exact ⟨Resolver.RSt.init PostAck.init, .start 0, true, Resolver.sect_unlock _⟩
  | 3 => exact ⟨Resolver.RSt.init PostAck.init, .ds (.ack 0 0), true, List.Mem.head _⟩

theorem posted_built : ∀ a o l, posted.acc a = .store o l → ∀ b, posted.same a b → b ≠ a → posted.hb a b := by
  simp only [posted, CExec.same]
  intro a o l h
  match a with
  | 1 =>
    intro b hb hn
    match b with
    | 0 | 2 => simp [Acc.loc] at hb
    | 1 => exact absurd rfl hn
    | 3 => decide
  | 0 | 2 | 3 => simp at h

example : posted.Interleaved := C66_post_ack posted_valid posted_of posted_built

/-! ## The others -/

/-- A `shared_mutex` is taken (access 0) and released (accesses 1, 2) by a writer; `try_lock` on another thread (access 3)
still finds it locked. -/
def staleShared : CExec SharedMutex.Loc where
  E := Fin 4
  acc := ![.rmw .acq .st, .load .rlx .st, .rmw .rel .st, .load .rlx .st]
  hb a b := a < b ∧ b ≠ 3
  rd := ![0, 1, 1, 1]
  wr := ![1, 0, 2, 0]

theorem staleShared_valid : staleShared.Valid := by
  constructor <;> simp only [staleShared, CExec.same] <;> decide

theorem staleShared_of : staleShared.Of SharedMutex.ann := by
  intro e
  simp only [staleShared] at e ⊢
  match e with
  | 0 => exact ⟨SharedMutex.init, .lock 0, true, List.Mem.head _⟩
  | 1 => exact ⟨{ SharedMutex.init with st := ⟨.locked, 0⟩ }, .unlock 0, true, List.Mem.head _⟩
  | 2 => exact ⟨{ SharedMutex.init with st := ⟨.locked, 0⟩ }, .casU 0, true, List.Mem.head _⟩
  | 3 => exact ⟨{ SharedMutex.init with st := ⟨.locked, 0⟩ }, .tryLock 1, true, List.Mem.head _⟩

example : staleShared.Interleaved := C66_shared_mutex staleShared_valid staleShared_of

/-- `raise()` on one thread; a wait on another thread does not see it. -/
example : (stale () .acq).Interleaved :=
  C66_oneshot_primitive (stale_valid _ _) (stale_of (A := OneshotPrim.ann fun _ _ _ => false)
    ⟨OneshotPrim.init, .raise, true, List.Mem.head _⟩ ⟨OneshotPrim.init, .start 0, true, List.Mem.head _⟩)

/-- Two modifications of a variable, on two threads; the second one reads the value of the first one. -/
def twice (l : L) : CExec L where
  E := Fin 2
  acc _ := .rmw .acqRel l
  hb a b := a = 0 ∧ b = 1
  rd := ![0, 1]
  wr := ![1, 2]

theorem twice_valid (l : L) : (twice l).Valid := by
  constructor <;> simp only [twice, CExec.same, Fin.forall_fin_two, Fin.exists_fin_two] <;>
    simp [Acc.writes, Acc.reads, Acc.isRel, Acc.isAcq]

/-- A handle of a promise is copied and destroyed. -/
example : (twice ()).Interleaved :=
  C66_refcount (entry := Promise.RefCount.dentry) (twice_valid _) fun _ =>
    ⟨.init, .unref 0, true, List.Mem.head _⟩

/-- Two children of `when_all` complete. -/
example : (twice ([] : Tree.Path)).Interleaved :=
  C66_senders (entry := fun _ _ _ => false) (twice_valid _) fun _ => ⟨Tree.init, .trail [], true, List.Mem.head _⟩

/-- The completion of the inner operation and the cancellation meet. -/
example : (meet (WithCancel.Loc.ev 1) (.cst 0)).Interleaved :=
  C66_with_cancel_cb (meet_valid _ _) (meet_of
    ⟨WithCancel.init, .cancelCS 1, true, List.Mem.head _⟩
    ⟨WithCancel.init, .cancelCS 1, true, List.Mem.tail _ (List.Mem.head _)⟩
    ⟨WithCancel.init, .sub 0 false, true, List.Mem.head _⟩)

example : (meet (Suspend.Loc.ev 1) (.st 0)).Interleaved :=
  C66_suspend_indefinitely (meet_valid _ _) (meet_of
    ⟨Suspend.init, .cancelCS 1, true, List.Mem.head _⟩
    ⟨Suspend.init, .cancelCS 1, true, List.Mem.tail _ (List.Mem.head _)⟩
    ⟨Suspend.init, .sub 0 1, true, List.Mem.head _⟩)

/-- The general theorem. -/
example : (stale () .rlx).Interleaved :=
  CExec.interleaved (stale_valid _ _) (x := some ()) fun _ => .inl rfl

end Verif
