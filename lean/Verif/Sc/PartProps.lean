import Verif.Sc.Part

/-!
# Programs with several objects (C93)

In every execution of a program with any number of objects, the accesses to each of the objects can be arranged in a
sequence that respects happens-before of the whole program and in which each read yields the latest value. This includes
`result<T>`. There need not be one such sequence for the whole program.
-/

namespace Verif

section
variable {L : Type} {X : CExec L} (V : X.Valid)
include V

/-- C93, `mutex`. -/
theorem C93_mutex {f : L → Option Mutex.Loc} (hf : Names f) (h : (X.part f).Of Mutex.ann) : (X.part f).Interleaved :=
  C66_mutex (V.part hf) h

/-- C93, `shared_mutex`. -/
theorem C93_shared_mutex {f : L → Option SharedMutex.Loc} (hf : Names f) (h : (X.part f).Of SharedMutex.ann) :
    (X.part f).Interleaved :=
  C66_shared_mutex (V.part hf) h

/-- C93, `oneshot_primitive`. -/
theorem C93_oneshot_primitive {f : L → Option Unit} (hf : Names f) {entry} (h : (X.part f).Of (OneshotPrim.ann entry)) :
    (X.part f).Interleaved :=
  C66_oneshot_primitive (V.part hf) h

/-- C93, the reference counter of a promise. -/
theorem C93_refcount {f : L → Option Unit} (hf : Names f) {entry} (h : (X.part f).Of (Promise.RefCount.ann entry)) :
    (X.part f).Interleaved :=
  C66_refcount (V.part hf) h

/-- C93, compositions of senders. -/
theorem C93_senders {f : L → Option Tree.Path} (hf : Names f) {entry} (h : (X.part f).Of (Tree.ann entry)) :
    (X.part f).Interleaved :=
  C66_senders (V.part hf) h

/-- C93, `with_cancel_cb`. -/
theorem C93_with_cancel_cb {f : L → Option WithCancel.Loc} (hf : Names f) (h : (X.part f).Of WithCancel.ann) :
    (X.part f).Interleaved :=
  C66_with_cancel_cb (V.part hf) h

/-- C93, `suspend_indefinitely`. -/
theorem C93_suspend_indefinitely {f : L → Option Suspend.Loc} (hf : Names f) (h : (X.part f).Of Suspend.ann) :
    (X.part f).Interleaved :=
  C66_suspend_indefinitely (V.part hf) h

open Resolver

/-- C93, `queue`. -/
theorem C93_queue {T : Type} {f : L → Option (Loc (Queue.ords T).A)} (hf : Names f) {entry}
    (h : (X.part f).Of (ann (Queue.ords T) entry)) : (X.part f).Interleaved :=
  C66_queue (V.part hf) h

/-- C93, `promise`. -/
theorem C93_promise {T : Type} {f : L → Option (Loc (Promise.ords T).A)} (hf : Names f) {entry}
    (h : (X.part f).Of (ann (Promise.ords T) entry)) : (X.part f).Interleaved :=
  C66_promise (V.part hf) h

/-- C93, `wait_group` and `oneshot_event`. -/
theorem C93_wait_group {T : Type} {c : WaitGroup.Cfg} {f : L → Option (Loc Unit)} (hf : Names f) {entry}
    (h : (X.part f).Of (ann (WaitGroup.ords T c) entry)) : (X.part f).Interleaved :=
  C66_wait_group (V.part hf) h

/-- C93, `barrier`. -/
theorem C93_barrier {f : L → Option (Loc Barrier.At)} (hf : Names f) {entry}
    (h : (X.part f).Of (ann (Recurring.ords Barrier.W) entry)) : (X.part f).Interleaved :=
  C66_barrier (V.part hf) h

/-- C93, `sequenced_event`. -/
theorem C93_sequenced_event {f : L → Option (Loc Unit)} (hf : Names f) {entry}
    (h : (X.part f).Of (ann (Recurring.ords Sequenced.W) entry)) : (X.part f).Interleaved :=
  C66_sequenced_event (V.part hf) h

/-- C93, `post_ack_mechanism`. `hc`: the counter of a post is constructed before it is accessed. -/
theorem C93_post_ack {T : Type} {f : L → Option (Loc Nat)} (hf : Names f) {entry}
    (h : (X.part f).Of (ann (PostAck.ords T) entry))
    (hc : ∀ a o l, (X.part f).acc a = .store o l → ∀ b, (X.part f).same a b → b ≠ a → (X.part f).hb a b) :
    (X.part f).Interleaved :=
  C66_post_ack (V.part hf) h hc

/-- C93, `result<T>`: the accesses to `cfp_` of coroutine `i`, its only atomic variable. -/
theorem C93_result {i : Result.Id} {f : L → Option Result.Id} (hf : Names f) (hi : ∀ l k, f l = some k → k = i) :
    (X.part f).Interleaved :=
  CExec.interleaved (V.part hf) (x := some i) fun e =>
    .inl (congrArg some (hi _ _ (Acc.part_eq (CExec.part_acc e)).1))

end

/-! ## `result<T>`: who completes the receiver -/

/-- The accesses to `cfp_` of a coroutine (at `l`): `S` is the exchange of `start()`, which is relaxed, and followed by an
acquire fence if it does not yield the initial value (result.hpp 297-300, 332-335); `F` is the exchange at the final
suspension point (123-124, 232-233). The receiver is completed by the one that does not find the initial value (298, 125):
the thread of `S` goes on to `set_value` if `X.rd S ≠ 0`, that of `F` if `X.rd F ≠ 0`. -/
structure Exchanges {L : Type} (X : CExec L) (l : L) (S F : X.E) : Prop where
  start : X.acc S = .rmw (if X.rd S = 0 then .rlx else .acq) l
  final : X.acc F = .rmw .rel l
  ne : S ≠ F
  only : ∀ e, (X.acc e).loc = l → e = S ∨ e = F

/-- C93, `result<T>`. Exactly one of `start()` and the end of the coroutine completes the receiver, and the end of the
coroutine happens before that. This holds in all executions, also in those that are not interleavings. -/
theorem C93_result_agree {L : Type} {X : CExec L} (V : X.Valid) {l : L} {S F : X.E} (h : Exchanges X l S F) :
    ∃ e, (∀ d, d = S ∨ d = F → (X.rd d ≠ 0 ↔ d = e)) ∧ (e = F ∨ (e = S ∧ X.hb F S)) := by
  have rS : (X.acc S).reads = true := by rw [h.start]; rfl
  have wS : (X.acc S).writes = true := by rw [h.start]; rfl
  have rF : (X.acc F).reads = true := by rw [h.final]; rfl
  have wF : (X.acc F).writes = true := by rw [h.final]; rfl
  have lS : (X.acc S).loc = l := by rw [h.start]; rfl
  have lF : (X.acc F).loc = l := by rw [h.final]; rfl
  have sm : X.same S F := lS.trans lF.symm
  have e1 := V.rmw S rS wS
  have e2 := V.rmw F rF wF
  have e3 : X.wr S ≠ X.wr F := fun h1 => h.ne (V.uniq S F wS wF sm h1)
  have g1 : 1 < X.wr S → X.wr F + 1 = X.wr S := by
    intro h1
    obtain ⟨b, -, h2, h3⟩ := V.gap S wS h1
    rcases h.only b (h2.trans lS) with rfl | rfl
    · omega
    · exact h3
  have g2 : 1 < X.wr F → X.wr S + 1 = X.wr F := by
    intro h1
    obtain ⟨b, -, h2, h3⟩ := V.gap F wF h1
    rcases h.only b (h2.trans lF) with rfl | rfl
    · exact h3
    · omega
  by_cases h0 : X.rd S = 0
  · refine ⟨F, ?_, .inl rfl⟩
    rintro d (rfl | rfl)
    · simp [h0, h.ne]
    · simp; omega
  · refine ⟨S, ?_, .inr ⟨rfl, V.sw F S sm.symm ?_ ?_ (by omega)⟩⟩
    · rintro d (rfl | rfl)
      · simp [h0]
      · simp [Ne.symm h.ne]; omega
    · rw [h.final]; rfl
    · rw [h.start, if_neg h0]; rfl

/-- C93, `result<T>`. As long as only one of the two exchanges took place, nobody completes the receiver. -/
theorem C93_result_alone {L : Type} {X : CExec L} (V : X.Valid) {e : X.E} {o : Ord} (h : X.acc e = .rmw o (X.acc e).loc)
    (only : ∀ d, X.same d e → d = e) : X.rd e = 0 := by
  have r : (X.acc e).reads = true := by rw [h]; rfl
  have w : (X.acc e).writes = true := by rw [h]; rfl
  have e1 := V.rmw e r w
  apply Classical.byContradiction
  intro h0
  obtain ⟨b, -, h2, h3⟩ := V.gap e w (by omega)
  rw [only b h2] at h3
  omega

/-! ## Examples, and whole programs -/

/-- Two coroutines. Thread A runs `start()` of the first one, and ends the second one (access 0) before the exchange of
`start()` (access 1). Thread B runs `start()` of the second one, and ends the first one (access 2) before the exchange
(access 3). Both ends of coroutines read the value of the exchange in `start()`, so that both threads complete a
receiver before their exchange. -/
def crossed : CExec Nat where
  E := Fin 4
  acc := ![.rmw .rel 2, .rmw .rlx 1, .rmw .rel 1, .rmw .rlx 2]
  hb a b := (a = 0 ∧ b = 1) ∨ (a = 2 ∧ b = 3)
  rd := ![1, 0, 1, 0]
  wr := ![2, 1, 2, 1]

theorem crossed_valid : crossed.Valid := by
  constructor <;> simp only [crossed, CExec.same] <;> decide

theorem crossed_of : crossed.Of (Result.ann Result.minimal) := by
  intro e
  simp only [crossed] at e ⊢
  match e with
  | 0 => exact ⟨Result.init, .exFin 2, true, List.Mem.head _⟩
  | 1 => exact ⟨Result.init, .exStart 1, true, List.Mem.head _⟩
  | 2 => exact ⟨Result.init, .exFin 1, true, List.Mem.head _⟩
  | 3 => exact ⟨Result.init, .exStart 2, true, List.Mem.head _⟩

theorem crossed_exchanges : Exchanges crossed 1 (1 : Fin 4) (2 : Fin 4) ∧ Exchanges crossed 2 (3 : Fin 4) (0 : Fin 4) := by
  refine ⟨⟨rfl, rfl, by simp [crossed], ?_⟩, ⟨rfl, rfl, by simp [crossed], ?_⟩⟩ <;>
    simp only [crossed] <;> decide

example : ∃ e, (∀ d, d = (1 : Fin 4) ∨ d = (2 : Fin 4) → (crossed.rd d ≠ 0 ↔ d = e)) ∧
    (e = (2 : Fin 4) ∨ (e = (1 : Fin 4) ∧ crossed.hb (2 : Fin 4) (1 : Fin 4))) :=
  C93_result_agree crossed_valid crossed_exchanges.1

/-- C93. There need not be one sequence for the whole program: two coroutines. (Everything that the machine of `Verif/Result` says about each of
them holds, by `C93_result` and `C93_result_agree`.) -/
theorem C93_no_sequence_coroutines : ∃ X : CExec Result.Id, X.Valid ∧ X.Of (Result.ann Result.minimal) ∧
    (∃ S F, Exchanges X 1 S F) ∧ (∃ S F, Exchanges X 2 S F) ∧ ¬ X.Interleaved := by
  refine ⟨crossed, crossed_valid, crossed_of, ⟨_, _, crossed_exchanges.1⟩, ⟨_, _, crossed_exchanges.2⟩, ?_⟩
  rintro ⟨lt, ⟨ir, tr, tot⟩, hb, hw, -⟩
  have h01 := hb (0 : Fin 4) (1 : Fin 4) (.inl ⟨rfl, rfl⟩)
  have h23 := hb (2 : Fin 4) (3 : Fin 4) (.inr ⟨rfl, rfl⟩)
  have h12 : lt (1 : Fin 4) (2 : Fin 4) := (hw (1 : Fin 4) (2 : Fin 4) rfl rfl rfl).2 (by simp [crossed])
  have h30 : lt (3 : Fin 4) (0 : Fin 4) := (hw (3 : Fin 4) (0 : Fin 4) rfl rfl rfl).2 (by simp [crossed])
  exact ir _ (tr _ _ _ h01 (tr _ _ _ h12 (tr _ _ _ h23 h30)))

/-- Two mutexes, `true` and `false`, that are locked (accesses 0 and 1). One thread unlocks the first (2, 3) and then finds
the second one locked (4), another thread unlocks the second one (5, 6) and then finds the first one locked (7). -/
def bothLocked : CExec (Bool × Mutex.Loc) where
  E := Fin 8
  acc := ![.rmw .acq (true, .st), .rmw .acq (false, .st), .load .rlx (true, .st), .rmw .rel (true, .st),
    .load .rlx (false, .st), .load .rlx (false, .st), .rmw .rel (false, .st), .load .rlx (true, .st)]
  hb a b := (a < b ∧ b ≤ 4) ∨ (a < 2 ∧ a < b) ∨ (5 ≤ a ∧ a < b)
  rd := ![0, 0, 1, 1, 1, 1, 1, 1]
  wr := ![1, 1, 0, 2, 0, 0, 2, 0]

theorem bothLocked_valid : bothLocked.Valid := by
  constructor <;> simp only [bothLocked, CExec.same] <;> decide

theorem bothLocked_of (o : Bool) : (bothLocked.part (nameIn o)).Of Mutex.ann := by
  have key : ∀ (e : Fin 8) a, (bothLocked.acc e).part (nameIn o) = some a → ∃ s y b, a ∈ Mutex.ann.eff s y b := by
    intro e a h
    have hl : ∀ b : Bool, (bothLocked.acc e = .rmw .acq (b, .st) ∨ bothLocked.acc e = .rmw .rel (b, .st) ∨
        bothLocked.acc e = .load .rlx (b, .st)) → ∃ s y b, a ∈ Mutex.ann.eff s y b := by
      intro b h1
      rcases h1 with h1 | h1 | h1 <;> rw [h1] at h <;> simp only [Acc.part, nameIn, Option.map_eq_some_iff] at h <;>
        obtain ⟨k, h2, rfl⟩ := h <;> split at h2 <;> simp at h2 <;> subst h2
      · exact ⟨Mutex.init, .lock 0, true, List.Mem.head _⟩
      · exact ⟨{ Mutex.init with st := .locked }, .casU 0, true, List.Mem.head _⟩
      · exact ⟨{ Mutex.init with st := .locked }, .unlock 0, true, List.Mem.head _⟩
    match e, hl with
    | 0, hl => exact hl true (.inl rfl)
    | 1, hl => exact hl false (.inl rfl)
    | 2, hl => exact hl true (.inr (.inr rfl))
    | 3, hl => exact hl true (.inr (.inl rfl))
    | 4, hl => exact hl false (.inr (.inr rfl))
    | 5, hl => exact hl false (.inr (.inr rfl))
    | 6, hl => exact hl false (.inr (.inl rfl))
    | 7, hl => exact hl true (.inr (.inr rfl))
  intro e
  exact key e.1 _ (CExec.part_acc e)

/-- Each of the two mutexes sees an interleaving. -/
example (o : Bool) : (bothLocked.part (nameIn o)).Interleaved :=
  C93_mutex bothLocked_valid (nameIn_names o) (bothLocked_of o)

/-- C93. There need not be one sequence for the whole program: two mutexes. -/
theorem C93_no_sequence_mutexes : ∃ X : CExec (Bool × Mutex.Loc), X.Valid ∧ (∀ o, (X.part (nameIn o)).Of Mutex.ann) ∧
    ¬ X.Interleaved := by
  refine ⟨bothLocked, bothLocked_valid, bothLocked_of, ?_⟩
  rintro ⟨lt, ⟨ir, tr, tot⟩, hb, -, hr⟩
  have h34 := hb (3 : Fin 8) (4 : Fin 8) (.inl (by decide))
  have h67 := hb (6 : Fin 8) (7 : Fin 8) (.inr (.inr (by decide)))
  have h64 : ¬ lt (6 : Fin 8) (4 : Fin 8) := by
    rw [hr (4 : Fin 8) (6 : Fin 8) rfl rfl rfl (by decide : (6 : Fin 8) ≠ 4)]; simp [bothLocked]
  have h37 : ¬ lt (3 : Fin 8) (7 : Fin 8) := by
    rw [hr (7 : Fin 8) (3 : Fin 8) rfl rfl rfl (by decide : (3 : Fin 8) ≠ 7)]; simp [bothLocked]
  have h46 := (tot (4 : Fin 8) (6 : Fin 8) (by decide : (4 : Fin 8) ≠ 6)).resolve_right h64
  exact h37 (tr _ _ _ h34 (tr _ _ _ h46 h67))

/-- The name of `cfp_` of coroutine `i`. -/
def cfpOf (i : Nat) : Nat → Option Nat := fun l => if l = i then some i else none

/-- Each of the two coroutines sees an interleaving. -/
example (i : Nat) : (crossed.part (cfpOf i)).Interleaved := by
  refine C93_result crossed_valid (i := i) (f := cfpOf i) ?_ ?_
  · intro l m k h1 h2
    simp only [cfpOf] at h1 h2
    split at h1 <;> split at h2 <;> simp_all
  · intro l k h
    simp only [cfpOf] at h
    split at h <;> simp_all

/-- A coroutine has ended inside of `start()`, which has not come to its exchange yet. -/
def ended : CExec Nat where
  E := Fin 1
  acc := ![.rmw .rel 1]
  hb _ _ := False
  rd := ![0]
  wr := ![1]

theorem ended_valid : ended.Valid := by
  constructor <;> simp only [ended, CExec.same] <;> decide

example : ended.rd (0 : Fin 1) = 0 :=
  C93_result_alone ended_valid (e := (0 : Fin 1)) (o := .rel) rfl fun d _ => Subsingleton.elim (α := Fin 1) d 0

end Verif
