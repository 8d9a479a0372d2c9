import Verif.Sc.Base
import Verif.Hb.Mutex
import Verif.Hb.SharedMutexModel
import Verif.Hb.OneshotPrim
import Verif.Hb.WaitGroup
import Verif.Hb.Barrier
import Verif.Hb.Sequenced
import Verif.Hb.Queue
import Verif.Hb.Promise
import Verif.Hb.RefCount
import Verif.Hb.PostAck
import Verif.Hb.Tree
import Verif.Hb.WithCancel
import Verif.Hb.Suspend
import Mathlib.Data.Fin.VecNotation

/-!
# The primitives have no executions with outdated values

For each primitive: an execution (in the sense of C++, `CExec.Valid`) whose accesses to locks and atomic variables are
those of the primitive is an interleaving in which each read yields the latest value. The accesses are those of the
annotations in `Verif/Hb`.

For `result` and for programs with several objects see `Verif/Sc/PartProps.lean`.
-/

namespace Verif

/-- All accesses of the execution are accesses of instructions of the machine. -/
def CExec.Of {M : Mach} (A : Ann M) (X : CExec A.L) : Prop := ∀ e, ∃ s y b, X.acc e ∈ A.eff s y b

theorem CExec.Of.interleaved {M : Mach} {A : Ann M} {X : CExec A.L} (h : X.Of A) (V : X.Valid) (x : Option A.L)
    (hA : ∀ s y b, ∀ a ∈ A.eff s y b, some a.loc = x ∨ a.isSync = true) : X.Interleaved := by
  refine CExec.interleaved V (x := x) fun e => ?_
  obtain ⟨s, y, b, he⟩ := h e
  rcases hA s y b _ he with h | h
  · exact .inl h
  · exact .inr (.inl h)

/-- C66, `mutex`. -/
theorem C66_mutex {X : CExec Mutex.Loc} (V : X.Valid) (h : X.Of Mutex.ann) : X.Interleaved := by
  refine h.interleaved V (some .st) ?_
  intro s y b a ha
  cases y with
  | chk i v =>
    cases v <;> simp only [Mutex.eff] at ha <;> (try split at ha) <;> simp at ha <;> subst ha <;> simp [Acc.loc]
  | _ =>
    simp only [Mutex.eff] at ha <;> (try split at ha) <;> simp at ha <;> subst ha <;> simp [Acc.loc, Acc.isSync]

/-- C66, `shared_mutex`. -/
theorem C66_shared_mutex {X : CExec SharedMutex.Loc} (V : X.Valid) (h : X.Of SharedMutex.ann) : X.Interleaved := by
  refine h.interleaved V (some .st) ?_
  have cas : ∀ b o, ∀ a ∈ SharedMutex.cas b o, a.loc = .st := by
    intro b o a ha
    cases b <;> simp [SharedMutex.cas] at ha <;> subst ha <;> rfl
  intro s y b a ha
  cases y with
  | chk t v =>
    obtain ⟨i, e⟩ := t
    cases e <;> simp only [SharedMutex.eff] at ha <;> (repeat' split at ha) <;>
      first | exact .inl (congrArg some (cas _ _ _ ha)) | simp at ha
  | _ =>
    simp only [SharedMutex.eff] at ha <;> (repeat' split at ha) <;>
      first
      | exact .inl (congrArg some (cas _ _ _ ha))
      | (simp at ha; done)
      | (simp at ha; subst ha; simp [Acc.loc, Acc.isSync])

/-- C66, `oneshot_primitive`. -/
theorem C66_oneshot_primitive {entry} {X : CExec Unit} (V : X.Valid) (h : X.Of (OneshotPrim.ann entry)) :
    X.Interleaved :=
  h.interleaved V (some ()) fun _ _ _ _ _ => .inl rfl

/-- C66, the reference counter of `promise`. -/
theorem C66_refcount {entry} {X : CExec Unit} (V : X.Valid) (h : X.Of (Promise.RefCount.ann entry)) : X.Interleaved :=
  h.interleaved V (some ()) fun _ _ _ _ _ => .inl rfl

/-- C66, compositions of senders. -/
theorem C66_senders {entry} {X : CExec Tree.Path} (V : X.Valid) (h : X.Of (Tree.ann entry)) : X.Interleaved := by
  refine h.interleaved V none ?_
  intro s y b a ha
  right
  simp only [Tree.ann] at ha
  (repeat' split at ha) <;> simp at ha <;> subst ha <;> rfl

/-- C66, `with_cancel_cb`. -/
theorem C66_with_cancel_cb {X : CExec WithCancel.Loc} (V : X.Valid) (h : X.Of WithCancel.ann) : X.Interleaved := by
  refine h.interleaved V none ?_
  have hs : ∀ t, ∀ a ∈ WithCancel.evSect t, a.isSync = true := by
    intro t a ha
    cases t <;> simp [WithCancel.evSect] at ha
    rcases ha with rfl | rfl <;> rfl
  intro s y b a ha
  right
  simp only [WithCancel.ann, WithCancel.eff] at ha
  (repeat' split at ha) <;> first | exact hs _ _ ha | (simp at ha; done) | (simp at ha; subst ha; rfl)

/-- C66, `suspend_indefinitely`. -/
theorem C66_suspend_indefinitely {X : CExec Suspend.Loc} (V : X.Valid) (h : X.Of Suspend.ann) : X.Interleaved := by
  refine h.interleaved V none ?_
  have hs : ∀ t, ∀ a ∈ Suspend.evSect t, a.isSync = true := by
    intro t a ha
    cases t <;> simp [Suspend.evSect] at ha
    rcases ha with rfl | rfl <;> rfl
  intro s y b a ha
  right
  simp only [Suspend.ann, Suspend.eff] at ha
  (repeat' split at ha) <;> first | exact hs _ _ ha | (simp at ha; done) | (simp at ha; subst ha; rfl)

/-! ## Structures with cancellable operations -/

namespace Resolver

variable {S : DS} {o : Ords S} {entry : RSt S → Act S → Nat → Bool}

theorem loc_map {A L : Type} (f : A → L) (c : Acc A) : (c.map f).loc = f c.loc := by cases c <;> rfl

theorem sync_map {A L : Type} (f : A → L) (c : Acc A) : (c.map f).isSync = c.isSync := by
  cases c with
  | rmw o l => cases o <;> rfl
  | _ => rfl

theorem sect_loc {A : Type} {f : Bool} {as : List (Acc A)} {P : Acc A → Prop} (h : ∀ a ∈ as, P a) {a : Acc (Loc A)}
    (ha : a ∈ sect f as) : a.isSync = true ∨ ∃ c, P c ∧ a = c.map .at := by
  have hm : a ∈ as.map (Acc.map .at) → ∃ c, P c ∧ a = c.map .at := by
    intro hm
    obtain ⟨c, hc, rfl⟩ := List.mem_map.1 hm
    exact ⟨c, h c hc, rfl⟩
  cases f
  · exact .inr (hm ha)
  · simp only [sect, if_true, List.mem_cons, List.mem_append, List.not_mem_nil, or_false] at ha
    rcases ha with rfl | ha | rfl
    · exact .inl rfl
    · exact .inr (hm ha)
    · exact .inl rfl

/-- Accesses of a structure satisfy `P`. -/
structure All (o : Ords S) (P : Acc o.A → Prop) : Prop where
  start : ∀ d i b, ∀ a ∈ o.start d i b, P a
  cancel : ∀ d i, ∀ a ∈ o.tryCancel d i, P a
  exec : ∀ d x b, ∀ a ∈ o.exec d x b, P a
  val : ∀ d i, ∀ a ∈ o.val d i, P a

theorem All.eff {P : Acc o.A → Prop} (h : All o P) (s : RSt S) (y : Instr S) (b : Bool) (a : Acc (Loc o.A))
    (ha : a ∈ eff o s y b) : a.isSync = true ∨ ∃ c, P c ∧ a = c.map .at := by
  have ev : ∀ e, a ∈ evSect e → a.isSync = true := by
    intro e he
    cases e with
    | none => simp [evSect] at he
    | some e => simp [evSect] at he; rcases he with rfl | rfl <;> rfl
  cases y with
  | start i => exact sect_loc (h.start _ _ _) ha
  | setFast i v => exact sect_loc (h.val _ _) ha
  | listen i => simp [Resolver.eff] at ha
  | register i => exact .inl (ev _ ha)
  | tryCancel i e => exact sect_loc (h.cancel _ _) ha
  | transition i f => simp [Resolver.eff] at ha; subst ha; exact .inl rfl
  | unregister i => exact .inl (ev _ ha)
  | resume i => exact sect_loc (h.val _ _) ha
  | complete i => simp [Resolver.eff] at ha
  | cancel e => exact .inl (ev (some e) ha)
  | ds x => exact sect_loc (h.exec _ _ _) ha

theorem All.interleaved {x : Option o.A} (h : All o (fun a => some a.loc = x ∨ a.isSync = true)) {X : CExec (Loc o.A)}
    (V : X.Valid) (hX : X.Of (ann o entry)) : X.Interleaved := by
  refine hX.interleaved V (x.map .at) ?_
  intro s y b a ha
  rcases h.eff s y b a ha with h1 | ⟨c, h1 | h1, rfl⟩
  · exact .inr h1
  · left; rw [← h1, loc_map]; rfl
  · right; rw [sync_map]; exact h1

end Resolver

open Resolver

/-- C66, `queue`. -/
theorem C66_queue {T : Type} {entry} {X : CExec (Loc (Queue.ords T).A)} (V : X.Valid) (h : X.Of (ann (Queue.ords T) entry)) :
    X.Interleaved :=
  All.interleaved (x := none) ⟨fun _ _ _ a _ => (a.loc : Empty).elim, fun _ _ a _ => (a.loc : Empty).elim,
    fun _ _ _ a _ => (a.loc : Empty).elim, fun _ _ a _ => (a.loc : Empty).elim⟩ V h

/-- C66, `promise`. -/
theorem C66_promise {T : Type} {entry} {X : CExec (Loc (Promise.ords T).A)} (V : X.Valid)
    (h : X.Of (ann (Promise.ords T) entry)) : X.Interleaved :=
  All.interleaved (x := none) ⟨fun _ _ _ a _ => (a.loc : Empty).elim, fun _ _ a _ => (a.loc : Empty).elim,
    fun _ _ _ a _ => (a.loc : Empty).elim, fun _ _ a _ => (a.loc : Empty).elim⟩ V h

/-- C66, `wait_group`. -/
theorem C66_wait_group {T : Type} {c : WaitGroup.Cfg} {entry} {X : CExec (Loc Unit)} (V : X.Valid)
    (h : X.Of (ann (WaitGroup.ords T c) entry)) : X.Interleaved :=
  All.interleaved (o := WaitGroup.ords T c) (x := some ())
    ⟨fun _ _ _ _ _ => .inl rfl, fun _ _ _ _ => .inl rfl, fun _ _ _ _ _ => .inl rfl, fun _ _ _ _ => .inl rfl⟩ V h

/-- C66, `recurring_event` with a program around it that has a single atomic variable. -/
theorem C66_recurring_event {U : Recurring.User} {W : Recurring.UOrds U} {x : Option W.A}
    (h1 : ∀ u p, ∀ a ∈ W.cond u p, some a.loc = x ∨ a.isSync = true)
    (h2 : ∀ u p, ∀ a ∈ W.act u p, some a.loc = x ∨ a.isSync = true)
    (h3 : ∀ u, ∀ a ∈ W.res u, some a.loc = x ∨ a.isSync = true)
    {entry} {X : CExec (Loc W.A)} (V : X.Valid) (h : X.Of (ann (Recurring.ords W) entry)) : X.Interleaved := by
  refine All.interleaved (o := Recurring.ords W) (x := x) ⟨?_, by simp, ?_, fun d _ => h3 d.u⟩ V h
  · intro d i _ a ha
    simp only at ha
    split at ha
    · exact h1 _ _ a ha
    · simp at ha
  · intro d y _ a ha
    cases y with
    | raise => simp at ha
    | act p => exact h2 _ _ a ha

/-- C66, `barrier`. -/
theorem C66_barrier {entry} {X : CExec (Loc Barrier.At)} (V : X.Valid)
    (h : X.Of (ann (Recurring.ords Barrier.W) entry)) : X.Interleaved := by
  refine C66_recurring_event (W := Barrier.W) (x := some .seq) ?_ ?_ ?_ V h
  · intro u p a ha; simp at ha; subst ha; exact .inl rfl
  · intro u p a ha
    simp only [List.mem_append, List.mem_cons, List.not_mem_nil, or_false] at ha
    rcases ha with ((rfl | rfl) | ha) | rfl
    · exact .inr rfl
    · exact .inl rfl
    · split at ha <;> simp at ha; subst ha; exact .inl rfl
    · exact .inr rfl
  · intro u a ha; simp at ha

/-- C66, `sequenced_event`. -/
theorem C66_sequenced_event {entry} {X : CExec (Loc Unit)} (V : X.Valid)
    (h : X.Of (ann (Recurring.ords Sequenced.W) entry)) : X.Interleaved :=
  C66_recurring_event (W := Sequenced.W) (x := some ()) (fun _ _ _ _ => .inl rfl) (fun _ _ _ _ => .inl rfl)
    (fun _ _ _ => .inl rfl) V h

/-- C66, `post_ack_mechanism`. `hc`: the counter of a post is constructed before it is accessed. -/
theorem C66_post_ack {T : Type} {entry} {X : CExec (Loc Nat)} (V : X.Valid) (h : X.Of (ann (PostAck.ords T) entry))
    (hc : ∀ a o l, X.acc a = .store o l → ∀ b, X.same a b → b ≠ a → X.hb a b) : X.Interleaved := by
  have hA : All (PostAck.ords T) (fun a => a.isSync = true ∨ ∃ o l, a = .store o l) := by
    refine ⟨by simp, by simp, ?_, by simp⟩
    intro d y b a ha
    cases y <;> simp only at ha <;> (try split at ha) <;> simp at ha <;> subst ha <;>
      first | exact .inl rfl | exact .inr ⟨_, _, rfl⟩
  have hE : ∀ s y b, ∀ a ∈ (ann (PostAck.ords T) entry).eff s y b, a.isSync = true ∨ ∃ o l, a = .store o l := by
    intro s y b a ha
    rcases hA.eff s y b a ha with h1 | ⟨c, h1 | ⟨o, l, rfl⟩, rfl⟩
    · exact .inl h1
    · exact .inl ((sync_map _ _).trans h1)
    · exact .inr ⟨_, _, rfl⟩
  refine CExec.interleaved V (x := none) fun e => ?_
  obtain ⟨s, y, b, he⟩ := h e
  rcases hE s y b _ he with h1 | ⟨o, l, h1⟩
  · exact .inr (.inl h1)
  · exact .inr (.inr (hc e o l h1))

/-! ## Examples -/

/-- The mutex is taken (access 0) and released (accesses 1, 2) by one thread, while `try_lock` on another thread (access
3) fails as it finds the mutex locked. There is no synchronisation, so the load may happen after the release in real
time. -/
def staleMutex : CExec Mutex.Loc where
  E := Fin 4
  acc := ![.rmw .acq .st, .load .rlx .st, .rmw .rel .st, .load .rlx .st]
  hb a b := a < b ∧ b ≠ 3
  rd := ![0, 1, 1, 1]
  wr := ![1, 0, 2, 0]

theorem staleMutex_valid : staleMutex.Valid := by
  constructor <;> simp only [staleMutex, CExec.same] <;> decide

theorem staleMutex_of : staleMutex.Of Mutex.ann := by
  intro e
  simp only [staleMutex] at e ⊢
  match e with
  | 0 => exact ⟨Mutex.init, .lock 0, true, List.Mem.head _⟩
  | 1 => exact ⟨{ Mutex.init with st := .locked }, .unlock 0, true, List.Mem.head _⟩
  | 2 => exact ⟨{ Mutex.init with st := .locked }, .casU 0, true, List.Mem.head _⟩
  | 3 => exact ⟨{ Mutex.init with st := .locked }, .tryLock 1, true, List.Mem.head _⟩

/-- So the load is ordered before the release. -/
example : staleMutex.Interleaved := C66_mutex staleMutex_valid staleMutex_of

/-- With two variables the conclusion fails: each of two threads stores to its own variable and does not see the store of
the other one. -/
def storeBuffering : CExec Bool where
  E := Fin 4
  acc := ![.store .rlx true, .load .rlx false, .store .rlx false, .load .rlx true]
  hb a b := (a = 0 ∧ b = 1) ∨ (a = 2 ∧ b = 3)
  rd := ![0, 0, 0, 0]
  wr := ![1, 0, 1, 0]

example : storeBuffering.Valid := by
  constructor <;> simp only [storeBuffering, CExec.same] <;> decide

example : ¬ storeBuffering.Interleaved := by
  rintro ⟨lt, ⟨ir, tr, tot⟩, hb, -, hr⟩
  have h01 := hb (0 : Fin 4) (1 : Fin 4) (.inl ⟨rfl, rfl⟩)
  have h23 := hb (2 : Fin 4) (3 : Fin 4) (.inr ⟨rfl, rfl⟩)
  have h21 : ¬ lt (2 : Fin 4) (1 : Fin 4) := by
    rw [hr (1 : Fin 4) (2 : Fin 4) rfl rfl rfl (by decide : (2 : Fin 4) ≠ 1)]; simp [storeBuffering]
  have h03 : ¬ lt (0 : Fin 4) (3 : Fin 4) := by
    rw [hr (3 : Fin 4) (0 : Fin 4) rfl rfl rfl (by decide : (0 : Fin 4) ≠ 3)]; simp [storeBuffering]
  have h12 := (tot (1 : Fin 4) (2 : Fin 4) (by decide : (1 : Fin 4) ≠ 2)).resolve_right h21
  exact h03 (tr _ _ _ h01 (tr _ _ _ h12 h23))

end Verif
