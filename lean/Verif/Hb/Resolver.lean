import Verif.Hb.Order
import Verif.Resolver.Facts

/-!
# Memory orders of `cancellation_event`, `cancellation_resolver` and of the structures that use them

Annotation of `Verif/Resolver/Model.lean`. The accesses of the data structure are a parameter.
-/

namespace Verif.Resolver

/-- Locks and atomic variables: the lock of the data structure, the lock of each cancellation event (cancellation.hpp
line 54), `state_` of each operation (line 321), and the atomic variables of the data structure. -/
inductive Loc (A : Type) where
  | ds
  | ev (e : EvId)
  | bits (i : OpId)
  | at (a : A)
deriving DecidableEq

/-- Accesses to another set of locations. -/
def _root_.Verif.Acc.map {A L : Type} (f : A → L) : Acc A → Acc L
  | .lock l => .lock (f l)
  | .unlock l => .unlock (f l)
  | .load o l => .load o (f l)
  | .store o l => .store o (f l)
  | .rmw o l => .rmw o (f l)

/-- Memory accesses of a data structure. -/
structure Ords (S : DS) where
  /-- Its atomic variables and further locks. -/
  A : Type
  /-- Their equality is decidable. -/
  dec : DecidableEq A
  /-- Accesses in the critical section of `start()`. -/
  start : S.D → OpId → Bool → List (Acc A)
  /-- Accesses in the critical section of the cancellation function. -/
  tryCancel : S.D → OpId → List (Acc A)
  /-- Is the instruction a critical section of the lock of the structure? -/
  locked : S.D → S.I → Bool → Bool
  /-- Accesses of the instruction. -/
  exec : S.D → S.I → Bool → List (Acc A)
  /-- Accesses of the functor that computes the result when the operation completes, outside of the lock. -/
  val : S.D → OpId → List (Acc A) := fun _ _ => []

instance {S : DS} (o : Ords S) : DecidableEq o.A := o.dec

/-- A critical section of the lock of the data structure (`b`), or accesses outside of it. -/
def sect {A : Type} (b : Bool) (as : List (Acc A)) : List (Acc (Loc A)) :=
  if b then .lock .ds :: (as.map (Acc.map .at) ++ [.unlock .ds]) else as.map (Acc.map .at)

/-- A critical section of the lock of the event of an operation. -/
def evSect {A : Type} : Option EvId → List (Acc (Loc A))
  | some e => [.lock (.ev e), .unlock (.ev e)]
  | none => []

/-- Memory accesses of the instructions. -/
def eff {S : DS} (o : Ords S) (s : RSt S) : Instr S → Bool → List (Acc (Loc o.A))
  | .start i, b => sect true (o.start s.d i b)
  | .setFast i _, _ => sect false (o.val s.d i)
  | .listen _, _ => []
  | .register i, _ => evSect (s.evt i)  -- line 249
  | .tryCancel i _, _ => sect true (o.tryCancel s.d i)
  | .transition i _, _ => [.rmw .acqRel (.bits i)]  -- line 287
  | .unregister i, _ => evSect (s.evt i)  -- line 302
  | .resume i, _ => sect false (o.val s.d i)
  | .complete _, _ => []
  | .cancel e, _ => evSect (some e)  -- line 336
  | .ds x, b => sect (o.locked s.d x b) (o.exec s.d x b)

/-- The annotation. `entry` is what the callers of the functions know: the theorems hold for every choice. -/
abbrev ann {S : DS} (o : Ords S) (entry : RSt S → Act S → Nat → Bool) : Ann (mach S) :=
  ⟨Loc o.A, inferInstance, fun s => s.log.length, entry, eff o⟩

/-! ## Accesses -/

section
variable {S : DS} {o : Ords S}

theorem map_stores {A : Type} [DecidableEq A] {as : List (Acc A)} {a : Acc (Loc A)}
    (h : a ∈ as.map (Acc.map .at)) {l : Loc A} (hl : ∀ a, l ≠ .at a) : a.stores l = false := by
  obtain ⟨x, _, rfl⟩ := List.mem_map.1 h
  cases x <;> simp [Acc.map, Acc.stores]
  exact fun e => hl _ e.symm

theorem sect_stores {A : Type} [DecidableEq A] {b : Bool} {as : List (Acc A)} {a : Acc (Loc A)} (h : a ∈ sect b as)
    {l : Loc A} (hl : ∀ a, l ≠ .at a) : a.stores l = false := by
  unfold sect at h
  split at h
  · simp only [List.mem_cons, List.mem_append, List.mem_nil_iff, or_false] at h
    rcases h with rfl | h | rfl
    · rfl
    · exact map_stores h hl
    · rfl
  · exact map_stores h hl

theorem evSect_stores {A : Type} [DecidableEq A] {e : Option EvId} {a : Acc (Loc A)} (h : a ∈ evSect e) {l : Loc A} :
    a.stores l = false := by
  cases e with
  | none => simp [evSect] at h
  | some e => simp [evSect] at h; rcases h with rfl | rfl <;> rfl

/-- The locks and the state words of the resolvers are never overwritten. -/
theorem eff_stores {s : RSt S} {x : Instr S} {b : Bool} {a : Acc (Loc o.A)} (h : a ∈ eff o s x b) {l : Loc o.A}
    (hl : ∀ a, l ≠ .at a) : a.stores l = false := by
  cases x <;> simp only [eff] at h <;>
    first
    | exact sect_stores h hl
    | exact evSect_stores h
    | (simp at h; done)
    | (simp at h; subst h; rfl)

theorem sect_lock {A : Type} (as : List (Acc A)) : Acc.lock Loc.ds ∈ sect true as := by simp [sect]
theorem sect_unlock {A : Type} (as : List (Acc A)) : Acc.unlock Loc.ds ∈ sect true as := by simp [sect]

end

/-! ## More about one event -/

/-- Does the access add the view to the message of `l`? -/
def _root_.Verif.Acc.releases {L : Type} [DecidableEq L] (l : L) : Acc L → Bool
  | .unlock l' | .rmw .rel l' | .rmw .acqRel l' => l' = l
  | _ => false

theorem _root_.Verif.Mem.release_adds {L : Type} [DecidableEq L] {v : Nat → Bool} {msg : L → Nat → Bool}
    {as : List (Acc L)} {l : L} {e : Nat} (hs : ∀ a ∈ as, a.stores l = false) {a : Acc L} (ha : a ∈ as)
    (hr : a.releases l = true) (h : v e = true) : Mem.release v msg as l e = true := by
  induction as generalizing msg with
  | nil => simp at ha
  | cons x as ih =>
    have h2 : ∀ a ∈ as, a.stores l = false := fun a ha => hs a (by simp [ha])
    rcases List.mem_cons.1 ha with rfl | hm
    · cases a with
      | lock l' => simp [Acc.releases] at hr
      | unlock l' => simp [Acc.releases] at hr; subst hr; (simp only [Mem.release]; exact Mem.release_mono h2 (by simp [h]))
      | load o l' => simp [Acc.releases] at hr
      | store o l' => simp [Acc.releases] at hr
      | rmw o l' =>
        cases o <;> simp [Acc.releases] at hr <;> subst hr <;> (simp only [Mem.release]; exact Mem.release_mono h2 (by simp [h]))
    · cases x with
      | lock l' => exact ih h2 hm
      | unlock l' => exact ih h2 hm
      | load o l' => exact ih h2 hm
      | store o l' => cases o <;> exact ih h2 hm
      | rmw o l' => cases o <;> exact ih h2 hm

/-- A releasing access publishes what the activity knows, and its own events. -/
theorem _root_.Verif.Mem.publish {L : Type} [DecidableEq L] {m : Mem L} {k : Nat} {v : Nat → Bool} {as : List (Acc L)}
    {a b : Nat} {l : L} {e : Nat} (hs : ∀ a ∈ as, a.stores l = false) {x : Acc L} (hx : x ∈ as)
    (hr : x.releases l = true) (h : m.acquire v as e = true ∨ (a ≤ e ∧ e < b)) :
    (m.act k v as a b).msg l e = true := by
  rw [Mem.act_msg]
  apply Mem.release_adds hs hx hr
  rcases h with h | h <;> simp [h]

/-- If nobody has an instruction of kind `T` ahead, then only the activity that appends event `e` can push one. -/
theorem _root_.Verif.AllKnow.fresh {L : Type} [DecidableEq L] {ι : Type} {T : ι → Prop} {acts : List (List ι)}
    {m : Mem L} {e : Nat} (h : ∀ a ∈ acts, ∀ x ∈ a, ¬ T x) {k : Nat} {x : ι} {r p : List ι}
    (_ : acts[k]? = some (x :: r)) {as : List (Acc L)} {v : Nat → Bool} {a b : Nat} (he : a ≤ e ∧ e < b) :
    AllKnow T (acts.set k (p ++ r)) (m.act k v as a b) e := by
  intro j c hj y hy hty
  rw [List.getElem?_set] at hj
  split at hj
  · rename_i ej; subst ej
    exact Mem.act_view_self (.inr he)
  · exact absurd hty (h c (List.mem_of_getElem? hj) y hy)

/-! ## From the decision to the completion -/

variable {S : DS} {o : Ords S}

/-- Instructions that exist only after the fate of operation `i` was decided. -/
def Wk (i : OpId) : Instr S → Prop
  | .setFast j _ | .unregister j | .resume j | .complete j => j = i
  | .transition j b => j = i ∧ b.compl = true
  | _ => False

/-- `i` will be completed by an activity that knows event `e`. -/
structure Kn (i : OpId) (e : Nat) (s : RSt S) (acts : List (List (Instr S))) (m : Mem (Loc o.A)) : Prop where
  w : AllKnow (Wk i) acts m e
  b : (s.bits i).compl = true → m.msg (.bits i) e = true
  d : Done (fun v => ∃ x, v = .done i x) s.log m e

/-- Events of the data structure that an instruction appends. -/
theorem exec_log {s s' : RSt S} {x : Instr S} {b : Bool} {p : List (Instr S)} (h : exec s x b = .ok s' p) :
    ∃ evs, s'.log = s.log ++ evs := by
  cases x <;> simp only [exec] at h <;> repeat' split at h
  all_goals simp at h
  all_goals obtain ⟨rfl, _⟩ := h
  all_goals first
    | exact ⟨_, rfl⟩
    | exact ⟨[], by simp⟩

theorem no_done_ds {i : OpId} {es : List S.E} : ¬ ∃ w ∈ es.map (Ev.ds (S := S)), ∃ x, w = .done i x := by
  rintro ⟨w, hw, x, rfl⟩
  simp at hw

theorem ops_follow {i : OpId} {ps : List (OpId ⊕ S.I)} (h : ∃ y ∈ ps.map follow, Wk i y) : i ∈ ops ps := by
  induction ps with
  | nil => simp at h
  | cons a ps ih =>
    obtain ⟨y, hy, hw⟩ := h
    simp only [List.map_cons, List.mem_cons] at hy
    rcases hy with rfl | hy
    · cases a with
      | inl j => simp [follow, Wk] at hw; subst hw; simp [ops]
      | inr x => simp [follow, Wk] at hw
    · have := ih ⟨y, hy, hw⟩
      cases a <;> simp [ops, this]

/-- What decides the fate of operation `i`: the fast path of `start()`, a successful cancellation, or the regular
completion path. -/
def Decides (i : OpId) (s : RSt S) (x : Instr S) (b : Bool) : Prop :=
  match x with
  | .start j => j = i ∧ ∃ d' v es, S.start s.d j b = some (d', some v, es)
  | .tryCancel j _ => j = i ∧ ∃ d' es, S.tryCancel s.d j = some (d', true, es)
  | .ds x => ∃ d' ps es, S.exec s.d x b = some (d', ps, es) ∧ i ∈ ops ps
  | _ => False

theorem Kn.run {i : OpId} {e : Nat} {s s' : RSt S} {acts : List (List (Instr S))} {m : Mem (Loc o.A)}
    (h : Kn i e s acts m) {k : Nat} {x : Instr S} {r p : List (Instr S)} {b : Bool} (hk : acts[k]? = some (x :: r))
    (he : exec s x b = .ok s' p)
    (hd : Decides i s x b → m.acquire (m.view k) (eff o s x b) e = true) :
    Kn i e s' (acts.set k (p ++ r)) (m.act k (m.view k) (eff o s x b) s.log.length s'.log.length) := by
  have hv : Wk i x → ∀ as, m.acquire (m.view k) as e = true := fun hw as =>
    m.acquire_mono _ (h.w k _ hk x (by simp) hw)
  have keepb : (s.bits i).compl = true →
      (m.act k (m.view k) (eff o s x b) s.log.length s'.log.length).msg (.bits i) e = true := fun hb =>
    Mem.keep (fun a ha => eff_stores ha (by simp)) (h.b hb)
  cases x <;> simp only [exec] at he
  case start j =>
    split at he <;> simp at he <;> obtain ⟨rfl, rfl⟩ := he <;> rename_i hs
    · refine ⟨h.w.run hk fun hy => hd ?_, keepb, h.d.step rfl (fun hn => absurd hn no_done_ds)⟩
      simp [Wk] at hy
      exact ⟨hy, _, _, _, hs⟩
    · refine ⟨h.w.run hk fun hy => ?_, keepb, h.d.step rfl (fun hn => absurd hn no_done_ds)⟩
      simp [Wk] at hy
  case setFast j v =>
    simp at he; obtain ⟨rfl, rfl⟩ := he
    refine ⟨h.w.run hk (by simp), keepb, h.d.step rfl fun hn => hv ?_ _⟩
    simp at hn; simp [Wk, hn]
  case listen j =>
    split at he <;> simp at he <;> obtain ⟨rfl, rfl⟩ := he <;>
      refine ⟨h.w.run hk fun hy => by simp [Wk] at hy, keepb, h.d.step (evs := []) (by simp) (by simp)⟩
  case register j =>
    split at he
    · simp at he
    · split at he <;> simp at he <;> obtain ⟨rfl, rfl⟩ := he <;>
        refine ⟨h.w.run hk fun hy => by simp [Wk] at hy, keepb, h.d.step (evs := []) (by simp) (by simp)⟩
  case tryCancel j l =>
    split at he
    · simp at he
    · rename_i d' rr es hs
      simp at he; obtain ⟨rfl, rfl⟩ := he
      refine ⟨h.w.run hk fun hy => hd ?_, keepb, h.d.step rfl (fun hn => absurd hn no_done_ds)⟩
      simp [Wk] at hy
      obtain ⟨rfl, rfl⟩ := hy
      exact ⟨rfl, _, _, hs⟩
  case transition j nb =>
    split at he
    · simp at he
    · -- the new bits, and whether the transition knows `e`
      have key : j = i → (((s.bits j).or nb).compl = true) →
          m.acquire (m.view k) (eff o s (.transition j nb) b) e = true := by
        rintro rfl hc
        simp only [Bits.or, Bool.or_eq_true] at hc
        rcases hc with hc | hc
        · exact m.acquire_msg (a := .rmw .acqRel (.bits j)) (by simp [eff]) (by simp [Acc.acquires]) (h.b hc)
        · exact hv ⟨rfl, hc⟩ _
      have kb : ((upd s.bits j ((s.bits j).or nb)) i).compl = true →
          (m.act k (m.view k) (eff o s (.transition j nb) b) s.log.length s.log.length).msg (.bits i) e = true := by
        intro hc
        by_cases hj : j = i
        · subst hj
          simp only [upd_same] at hc
          exact Mem.publish (x := .rmw .acqRel (.bits j)) (fun a ha => eff_stores ha (by simp)) (by simp [eff])
            (by simp [Acc.releases]) (.inl (key rfl hc))
        · rw [upd_apply, if_neg (Ne.symm hj)] at hc
          exact Mem.keep (fun a ha => eff_stores ha (by simp)) (h.b hc)
      split at he
      · simp at he; obtain ⟨rfl, rfl⟩ := he
        exact ⟨h.w.run hk (by simp), kb, h.d.step (evs := []) (by simp) (by simp)⟩
      · rename_i hlc
        simp only [Bool.or_eq_true, Bool.not_eq_true', not_or, Bool.not_eq_false] at hlc
        split at he <;> simp at he <;> obtain ⟨rfl, rfl⟩ := he <;>
          refine ⟨h.w.run hk fun hy => key ?_ hlc.2, kb, h.d.step (evs := []) (by simp) (by simp)⟩ <;>
          simpa [Wk] using hy
  case unregister j =>
    split at he
    · simp at he
    · split at he
      · simp at he; obtain ⟨rfl, rfl⟩ := he
        exact ⟨h.w.run hk (by simp), keepb, h.d.step (evs := []) (by simp) (by simp)⟩
      · split at he
        · simp at he; obtain ⟨rfl, rfl⟩ := he
          refine ⟨h.w.run hk fun hy => hv ?_ _, keepb, h.d.step (evs := []) (by simp) (by simp)⟩
          simpa [Wk] using hy
        · simp at he
  case resume j =>
    simp at he; obtain ⟨rfl, rfl⟩ := he
    refine ⟨h.w.run hk (by simp), keepb, h.d.step rfl fun hn => hv ?_ _⟩
    simp at hn; simp [Wk, hn]
  case complete j =>
    simp at he; obtain ⟨rfl, rfl⟩ := he
    refine ⟨h.w.run hk fun hy => hv ?_ _, keepb, h.d.step (evs := []) (by simp) (by simp)⟩
    simpa [Wk] using hy
  case cancel ev =>
    simp at he; obtain ⟨rfl, rfl⟩ := he
    refine ⟨h.w.run hk fun hy => ?_, keepb, h.d.step rfl (by simp)⟩
    obtain ⟨y, hy, hw⟩ := hy
    obtain ⟨z, _, rfl⟩ := List.mem_map.1 hy
    exact hw.elim
  case ds x =>
    split at he
    · simp at he
    · rename_i d' ps es hs
      simp at he; obtain ⟨rfl, rfl⟩ := he
      refine ⟨h.w.run hk fun hy => hd ⟨_, _, _, hs, ops_follow hy⟩, keepb,
        h.d.step rfl (fun hn => absurd hn no_done_ds)⟩

/-- Nothing that leads to the completion of `i` is pending or has happened. -/
structure Open (i : OpId) (s : RSt S) (acts : List (List (Instr S))) : Prop where
  w : ∀ a ∈ acts, ∀ x ∈ a, ¬ Wk i x
  b : (s.bits i).compl = false
  d : ∀ x, Ev.done i x ∉ s.log

/-- An event appended while `i` is open is known to whoever completes `i`, as far as this step is concerned. -/
theorem Kn.new {i : OpId} {e : Nat} {s s' : RSt S} {acts : List (List (Instr S))} {m : Mem (Loc o.A)}
    (h : Open i s acts) {k : Nat} {x : Instr S} {r p : List (Instr S)} {b : Bool} (hk : acts[k]? = some (x :: r))
    (he : exec s x b = .ok s' p) (hn : s.log.length ≤ e ∧ e < s'.log.length) :
    Kn i e s' (acts.set k (p ++ r)) (m.act k (m.view k) (eff o s x b) s.log.length s'.log.length) := by
  obtain ⟨evs, hl⟩ := exec_log he
  have hnot : ¬ Wk i x := h.w _ (List.mem_of_getElem? hk) _ (by simp)
  have noDone : ∀ v, Ev.done i v ∉ s'.log := by
    intro v
    cases x <;> simp only [exec] at he <;> repeat' split at he
    all_goals simp at he
    all_goals obtain ⟨rfl, _⟩ := he
    all_goals try simp only [List.mem_append, not_or]
    all_goals first
      | exact h.d v
      | refine ⟨h.d v, ?_⟩
    all_goals first
      | (simp; done)
      | (intro hm; simp at hm; simp [Wk] at hnot; exact hnot hm.1.symm)
  refine ⟨AllKnow.fresh h.w hk hn, ?_, ?_⟩
  · intro hc
    exfalso
    cases x <;> simp only [exec] at he <;> repeat' split at he
    all_goals simp at he
    all_goals obtain ⟨rfl, _⟩ := he
    all_goals first
      | exact absurd (h.b.symm.trans hc) (by decide)
      | (exact absurd hn (by simp only []; omega))
  · rintro n w hw ⟨v, rfl⟩ _
    exact absurd (List.mem_of_getElem? hw) (noDone v)

theorem done_push {i : OpId} {v : S.V} {s s' : RSt S} {x : Instr S} {b : Bool} {p : List (Instr S)}
    (he : exec s x b = .ok s' p) (h : Ev.done i v ∈ s'.log) : Wk i x ∨ Ev.done i v ∈ s.log := by
  cases x <;> simp only [exec] at he <;> repeat' split at he
  all_goals simp at he
  all_goals obtain ⟨rfl, rfl⟩ := he
  all_goals try simp at h
  all_goals first
    | exact .inr h
    | (rcases h with h | ⟨rfl, _⟩ <;> first | exact .inr h | exact .inl rfl)

/-! ## Contract of the data structure -/

/-- What the data structure has to provide. `LE` are the events of its critical sections. `Dcd before v i` says that event
`v`, after the history `before`, decides the fate of operation `i`. -/
structure HLaw (o : Ords S) {d0 : S.D} (L : Lawful S d0) (LE : S.E → Prop)
    (Dcd : List (Ev S) → S.E → OpId → Prop) : Prop where
  unlocked : ∀ {d x b d' ps es}, S.exec d x b = some (d', ps, es) → o.locked d x b = false →
    ops ps = [] ∧ ∀ e ∈ es, ¬ LE e
  start : ∀ {d i b d' r es v j log}, S.start d i b = some (d', r, es) → v ∈ es → Dcd log v j →
    j = i ∧ ∃ x, r = some x
  cancel : ∀ {d i d' r es v j log}, S.tryCancel d i = some (d', r, es) → v ∈ es → Dcd log v j → j = i ∧ r = true
  exec : ∀ {d ph log pi x b d' ps l1 v l2 j}, L.Inv d ph log (x :: pi) →
    S.exec d x b = some (d', ps, l1 ++ v :: l2) → Dcd (log ++ l1.map .ds) v j → j ∈ ops ps

variable {d0 : S.D} {L : Lawful S d0} {LE : S.E → Prop} {Dcd : List (Ev S) → S.E → OpId → Prop}

theorem env_log {s s' : RSt S} {acts : List (List (Instr S))} {a : Act S} {p : List (Instr S)}
    (he : env s acts a = some (s', p)) : s'.bits = s.bits ∧ (∀ i, ∀ y ∈ p, ¬ Wk i y) ∧
    ∃ evs, s'.log = s.log ++ evs ∧ (∀ i v, Ev.done i v ∉ evs) ∧ ∀ v, Ev.ds v ∉ evs := by
  cases a <;> simp only [env] at he <;> repeat' split at he
  all_goals simp at he
  all_goals obtain ⟨rfl, rfl⟩ := he
  all_goals refine ⟨rfl, by simp [Wk], ?_⟩
  all_goals first
    | exact ⟨_, rfl, by simp, by simp⟩
    | exact ⟨[], by simp, by simp, by simp⟩

/-- An operation that is new or waiting is open. -/
theorem open_of_phase {s : RSt S} {acts : List (List (Instr S))} {ph : OpId → Phase S.V} (hC : Core s acts ph) {i : OpId}
    (hp : ph i = .new ∨ ph i = .waiting) : Open i s acts := by
  have hok := hC.op i
  have hpv : (view s acts ph i).ph = 0 ∨ (view s acts ph i).ph = 3 := by
    simp only [view]; rcases hp with h | h <;> simp [h, Phase.code]
  have a1 := hok.a1; have a2 := hok.a2; have e2 := hok.e2; have d1 := hok.d1; have e4b := hok.e4b; have b0 := hok.b0
  have hz : (view s acts ph i).fas = 0 ∧ (view s acts ph i).co = 0 ∧ (view s acts ph i).trC = 0 ∧
      (view s acts ph i).c = 0 ∧ (view s acts ph i).done = 0 ∧ (view s acts ph i).res = 0 ∧
      (view s acts ph i).un = 0 := by
    clear * - a1 a2 e2 d1 e4b hpv b0; omega
  simp only [view] at hz
  refine ⟨?_, ?_, ?_⟩
  · intro a ha x hx hw
    have hq : ∀ w : Instr S → Nat, w x ≤ ws w acts := fun w => ws_pos_of_mem ha hx
    have q1 := hq (W.fas i); have q2 := hq (W.co i); have q3 := hq (W.trC i)
    have q4 := hq (W.res i); have q5 := hq (W.un i)
    cases x <;> simp_all [Wk, W.fas, W.co, W.trC, W.res, W.un]
  · cases hc : (s.bits i).compl with
    | false => rfl
    | true => simp [hc] at hz
  · intro v hv
    have : 0 < doneCnt i s.log := by
      rw [doneCnt_pos, List.any_eq_true]; exact ⟨_, hv, by simp [isDone]⟩
    omega

/-- Whoever decides finds the operation open. -/
theorem open_of_decides {s : RSt S} {acts : List (List (Instr S))} (h : RInv L s acts) {k : Nat} {x : Instr S}
    {r : List (Instr S)} {b : Bool} {i : OpId} (hk : acts[k]? = some (x :: r)) (hd : Decides i s x b) :
    Open i s acts := by
  obtain ⟨ph, hI, hC⟩ := h
  have hpx : Pending acts x := ⟨_, List.mem_of_getElem? hk, by simp⟩
  have hq : ∀ w : Instr S → Nat, w x ≤ ws w acts := fun w => ws_pos_of_mem (List.mem_of_getElem? hk) (by simp)
  have hok := hC.op i
  cases x <;> simp only [Decides] at hd
  case start j =>
    obtain ⟨rfl, _⟩ := hd
    refine open_of_phase hC (.inl ?_)
    have h1 := hq (W.sta j)
    have h2 := hok.a0.2
    simp only [view] at h2
    simp only [W.sta, if_true] at h1
    have : (ph j).code = 0 := by
      apply Classical.byContradiction
      intro hn; have := h2 hn; omega
    cases hp : ph j <;> simp [hp, Phase.code] at this ⊢
  case tryCancel j l =>
    obtain ⟨rfl, d', es, he⟩ := hd
    refine open_of_phase hC (.inr ?_)
    obtain ⟨e, h1, h2⟩ := hC.gl.g8 _ _ hpx
    obtain ⟨q, h3⟩ := hC.gl.g4 _ (hC.op_started hpx rfl)
    rw [h1] at h3
    have h4 := hq (W.tryL j)
    have h5 := hq (W.tryC j)
    have a2 := hok.a2; have e3 := hok.e3; have e3b := hok.e3b; have e11 := hok.e11
    have h6 : 0 < (view s acts ph j).tryL + (view s acts ph j).tryC := by
      simp only [view]
      cases l <;> simp [W.tryL, W.tryC] at h4 h5 <;> omega
    have hp : (ph j).code = 3 ∨ (ph j).code = 4 := by
      have hv : (view s acts ph j).ph = (ph j).code := rfl
      rw [hv] at a2 e3 e3b e11
      have hlt : (ph j).code ≤ 6 := hok.b0.2.2.2.2.2.2.1
      clear * - a2 e3 e3b e11 h6 hlt; omega
    cases hp' : ph j <;> simp [hp', Phase.code] at hp ⊢
    obtain ⟨d2, es2, he2, _⟩ := L.tryTaken hI hp' h3 h2
    rw [he] at he2
    simp at he2
  case ds x =>
    obtain ⟨d', ps, es, he, hi⟩ := hd
    obtain ⟨rest, hp1, _⟩ := dsPend_set [] hk
    obtain ⟨d'', ps', es', he', _, hw, _⟩ := L.exec b (L.perm hI hp1)
    rw [he] at he'
    simp at he'
    obtain ⟨_, rfl, _⟩ := he'
    exact open_of_phase hC (.inr (hw i hi))

/-- An event that decides is appended by an instruction that decides. -/
theorem HLaw.decides (H : HLaw o L LE Dcd) {s s' : RSt S} {acts : List (List (Instr S))} (h : RInv L s acts) {k : Nat}
    {x : Instr S} {r p : List (Instr S)} {b : Bool} (hk : acts[k]? = some (x :: r))
    (he : Resolver.exec s x b = .ok s' p) {n : Nat} {v : S.E} {i : OpId} (hn : s'.log[n]? = some (.ds v))
    (hlt : s.log.length ≤ n) (hD : Dcd (s'.log.take n) v i) : Decides i s x b := by
  have hsplit : ∀ es : List S.E, s'.log = s.log ++ es.map .ds → ∃ l1 l2, es = l1 ++ v :: l2 ∧
      s'.log.take n = s.log ++ l1.map .ds := by
    intro es hes
    rw [hes, List.getElem?_append_right hlt, List.getElem?_map] at hn
    cases hg : es[n - s.log.length]? with
    | none => rw [hg] at hn; simp at hn
    | some w =>
      rw [hg] at hn
      simp at hn
      subst hn
      refine ⟨es.take (n - s.log.length), es.drop (n - s.log.length + 1), ?_, ?_⟩
      · have hl := (List.getElem?_eq_some_iff.1 hg).1
        have hw := (List.getElem?_eq_some_iff.1 hg).2
        rw [← hw, List.getElem_cons_drop, List.take_append_drop]
      · rw [hes, List.take_append, List.take_of_length_le hlt, List.map_take]
  have hmem : Ev.ds v ∈ s'.log.drop s.log.length := by
    have h2 : (s'.log.drop s.log.length)[n - s.log.length]? = some (.ds v) := by
      rw [List.getElem?_drop]; rwa [Nat.add_sub_cancel' hlt]
    exact List.mem_of_getElem? h2
  cases x <;> simp only [Resolver.exec] at he
  case start j =>
    split at he <;> simp at he <;> obtain ⟨rfl, rfl⟩ := he <;> rename_i hs
    · simp at hmem
      obtain ⟨rfl, x, hx⟩ := H.start hs hmem hD
      exact ⟨rfl, _, _, _, hs⟩
    · simp at hmem
      obtain ⟨rfl, x, hx⟩ := H.start hs hmem hD
      simp at hx
  case tryCancel j l =>
    split at he
    · simp at he
    · rename_i d' rr es hs
      simp at he; obtain ⟨rfl, rfl⟩ := he
      simp at hmem
      obtain ⟨rfl, rfl⟩ := H.cancel hs hmem hD
      exact ⟨rfl, _, _, hs⟩
  case ds x =>
    split at he
    · simp at he
    · rename_i d' ps es hs
      simp at he; obtain ⟨rfl, rfl⟩ := he
      obtain ⟨l1, l2, rfl, h2⟩ := hsplit es rfl
      rw [h2] at hD
      obtain ⟨ph, hI, hC⟩ := h
      obtain ⟨rest, hp1, _⟩ := dsPend_set [] hk
      exact ⟨_, _, _, hs, H.exec (L.perm hI hp1) hs hD⟩
  all_goals
    repeat' split at he
    all_goals simp at he
    all_goals obtain ⟨rfl, rfl⟩ := he
    all_goals simp at hmem

/-! ## The two orders -/

/-- Event `e` of a critical section: later critical sections know it, and operations that it decides complete after it. -/
structure Sec (LE : S.E → Prop) (e : Nat) (s : RSt S) (m : Mem (Loc o.A)) : Prop where
  msg : m.msg .ds e = true
  sec : Done (fun w => ∃ v, w = .ds v ∧ LE v) s.log m e

theorem lock_of (H : HLaw o L LE Dcd) {s s' : RSt S} {x : Instr S} {b : Bool} {p : List (Instr S)} {evs : List (Ev S)}
    (he : exec s x b = .ok s' p) (hl : s'.log = s.log ++ evs) (hw : ∃ w ∈ evs, ∃ v, w = .ds v ∧ LE v) :
    Acc.lock Loc.ds ∈ eff o s x b ∧ Acc.unlock Loc.ds ∈ eff o s x b := by
  obtain ⟨w, hw, v, rfl, hv⟩ := hw
  have hm : Ev.ds v ∈ s'.log.drop s.log.length := by rw [hl]; simpa using hw
  cases x <;> simp only [exec] at he
  case start j => exact ⟨sect_lock _, sect_unlock _⟩
  case tryCancel j l => exact ⟨sect_lock _, sect_unlock _⟩
  case ds x =>
    split at he
    · simp at he
    · rename_i d' ps es hs
      simp at he; obtain ⟨rfl, rfl⟩ := he
      simp at hm
      cases hlk : o.locked s.d x b with
      | true => simp only [eff, hlk]; exact ⟨sect_lock _, sect_unlock _⟩
      | false => exact absurd hv ((H.unlocked hs hlk).2 v hm)
  all_goals
    repeat' split at he
    all_goals simp at he
    all_goals obtain ⟨rfl, rfl⟩ := he
    all_goals simp at hm

theorem lock_of_decides (H : HLaw o L LE Dcd) {s : RSt S} {x : Instr S} {b : Bool} {i : OpId} (hd : Decides i s x b) :
    Acc.lock Loc.ds ∈ eff o s x b := by
  cases x <;> simp only [Decides] at hd
  case start j => exact sect_lock _
  case tryCancel j l => exact sect_lock _
  case ds x =>
    obtain ⟨d', ps, es, h, hi⟩ := hd
    cases hlk : o.locked s.d x b with
    | true => simp only [eff, hlk]; exact sect_lock _
    | false => rw [(H.unlocked h hlk).1] at hi; simp at hi

theorem unlock_of_decides (H : HLaw o L LE Dcd) {s : RSt S} {x : Instr S} {b : Bool} {i : OpId} (hd : Decides i s x b) :
    Acc.unlock Loc.ds ∈ eff o s x b := by
  cases x <;> simp only [Decides] at hd
  case start j => exact sect_unlock _
  case tryCancel j l => exact sect_unlock _
  case ds x =>
    obtain ⟨d', ps, es, h, hi⟩ := hd
    cases hlk : o.locked s.d x b with
    | true => simp only [eff, hlk]; exact sect_unlock _
    | false => rw [(H.unlocked h hlk).1] at hi; simp at hi

theorem Kn.env {i : OpId} {e : Nat} {s s' : RSt S} {acts : List (List (Instr S))} {m : Mem (Loc o.A)}
    (h : Kn i e s acts m) {a : Act S} {p : List (Instr S)} {v : Nat → Bool}
    (he : env s acts a = some (s', p)) :
    Kn i e s' (acts ++ [p]) (m.act acts.length v [] s.log.length s'.log.length) := by
  obtain ⟨h1, h2, evs, h3, h4, h5⟩ := env_log he
  refine ⟨h.w.env ?_, ?_, h.d.step h3 ?_⟩
  · rintro ⟨y, hy, hw⟩; exact absurd hw (h2 i y hy)
  · rw [h1]; intro hb; exact Mem.keep (by simp) (h.b hb)
  · rintro ⟨w, hw, v, rfl⟩; exact absurd hw (h4 i v)

theorem reach_sec (H : HLaw o L LE Dcd) {entry : RSt S → Act S → Nat → Bool} {c : Conf (mach S)} {m : Mem (Loc o.A)}
    (h : HReach (ann o entry) (RSt.init d0) c m) {e : Nat} {v : S.E} (hv : c.sh.log[e]? = some (.ds v)) (hL : LE v) :
    Sec LE e c.sh m := by
  refine HReach.inv (A := ann o entry) (P := fun c => Reach (mach S) (RSt.init d0) c)
    (Q := fun s _ m => ∀ e v, s.log[e]? = some (.ds v) → LE v → Sec LE e s m)
    (fun c hc => hc) ?_ ?_ ?_ h e v hv hL
  · intro e v hv; simp [RSt.init] at hv
  · intro c m a s' p _ _ hQ he e v hv hL
    obtain ⟨h1, h2, evs, h3, h4, h5⟩ := env_log (acts := c.acts) he
    have hlt : e < c.sh.log.length := by
      apply Classical.byContradiction
      intro hn
      rw [h3, List.getElem?_append_right (by omega)] at hv
      exact h5 v (List.mem_of_getElem? hv)
    rw [h3, List.getElem?_append_left hlt] at hv
    have hs := hQ e v hv hL
    refine ⟨Mem.keep (by simp) hs.msg, hs.sec.step h3 ?_⟩
    rintro ⟨w, hw, v, rfl, _⟩; exact absurd hw (h5 v)
  · intro c m k x r b s' p hr _ hQ hk he e v hv hL
    obtain ⟨evs, h3⟩ := exec_log he
    by_cases hlt : e < c.sh.log.length
    · rw [h3, List.getElem?_append_left hlt] at hv
      have hs := hQ e v hv hL
      refine ⟨Mem.keep (fun a ha => eff_stores ha (by simp)) hs.msg, hs.sec.step h3 ?_⟩
      intro hw
      exact m.acquire_msg (lock_of H he h3 hw).1 (by simp [Acc.acquires]) hs.msg
    · have hlt' := (List.getElem?_eq_some_iff.1 hv).1
      have hge := Nat.le_of_not_lt hlt
      have hw : ∃ w ∈ evs, ∃ v, w = .ds v ∧ LE v := by
        rw [h3, List.getElem?_append_right (by omega)] at hv
        exact ⟨_, List.mem_of_getElem? hv, v, rfl, hL⟩
      refine ⟨?_, ?_⟩
      · exact Mem.publish (fun a ha => eff_stores ha (by simp)) (lock_of H he h3 hw).2 (by simp [Acc.releases])
          (.inr ⟨hge, hlt'⟩)
      · intro n w hn _ hen
        have := (List.getElem?_eq_some_iff.1 hn).1
        rw [Mem.act_past_new _ _ _ _ _ _ (Nat.le_trans hge (Nat.le_of_lt hen)) this]
        simp [hge, hen]

/-- A deciding event. -/
structure Dec (i : OpId) (e : Nat) (s : RSt S) (acts : List (List (Instr S))) (m : Mem (Loc o.A)) : Prop where
  msg : m.msg .ds e = true
  kn : Kn i e s acts m
  first : ∀ (n : Nat) x, s.log[n]? = some (.done i x) → e < n

theorem reach_dec (H : HLaw o L LE Dcd) {entry : RSt S → Act S → Nat → Bool} {c : Conf (mach S)} {m : Mem (Loc o.A)}
    (h : HReach (ann o entry) (RSt.init d0) c m) {e : Nat} {v : S.E} {i : OpId}
    (hv : c.sh.log[e]? = some (.ds v)) (hD : Dcd (c.sh.log.take e) v i) : Dec i e c.sh c.acts m := by
  refine HReach.inv (A := ann o entry) (P := fun c => RInv L c.sh c.acts)
    (Q := fun s acts m => ∀ e v i, s.log[e]? = some (.ds v) → Dcd (s.log.take e) v i → Dec i e s acts m)
    (fun c hc => reach_inv L hc) ?_ ?_ ?_ h e v i hv hD
  · intro e v i hv; simp [RSt.init] at hv
  · intro c m a s' p _ _ hQ he e v i hv hD
    obtain ⟨h1, h2, evs, h3, h4, h5⟩ := env_log (acts := c.acts) he
    have hlt : e < c.sh.log.length := by
      apply Classical.byContradiction
      intro hn
      rw [h3, List.getElem?_append_right (by omega)] at hv
      exact h5 v (List.mem_of_getElem? hv)
    rw [h3, List.getElem?_append_left hlt] at hv
    rw [h3, List.take_append_of_le_length (by omega)] at hD
    have hs := hQ e v i hv hD
    refine ⟨Mem.keep (by simp) hs.msg, hs.kn.env he, ?_⟩
    intro n x hn
    by_cases hnl : n < c.sh.log.length
    · rw [h3, List.getElem?_append_left hnl] at hn
      exact hs.first n x hn
    · omega
  · intro c m k x r b s' p hr _ hQ hk he e v i hv hD
    obtain ⟨evs, h3⟩ := exec_log he
    by_cases hlt : e < c.sh.log.length
    · rw [h3, List.getElem?_append_left hlt] at hv
      rw [h3, List.take_append_of_le_length (by omega)] at hD
      have hs := hQ e v i hv hD
      refine ⟨Mem.keep (fun a ha => eff_stores ha (by simp)) hs.msg, hs.kn.run hk he fun hd => ?_, ?_⟩
      · exact m.acquire_msg (lock_of_decides H hd) (by simp [Acc.acquires]) hs.msg
      · intro n x hn
        by_cases hnl : n < c.sh.log.length
        · rw [h3, List.getElem?_append_left hnl] at hn
          exact hs.first n x hn
        · omega
    · have hlt' := (List.getElem?_eq_some_iff.1 hv).1
      have hge := Nat.le_of_not_lt hlt
      have hd := H.decides hr hk he hv hge hD
      have ho := open_of_decides hr hk hd
      refine ⟨?_, Kn.new ho hk he ⟨hge, hlt'⟩, ?_⟩
      · exact Mem.publish (fun a ha => eff_stores ha (by simp)) (unlock_of_decides H hd) (by simp [Acc.releases])
          (.inr ⟨hge, hlt'⟩)
      · intro n x hn
        rcases done_push he (List.mem_of_getElem? hn) with h1 | h1
        · exact absurd h1 (ho.w _ (List.mem_of_getElem? hk) _ (by simp))
        · exact absurd h1 (ho.d x)

end Verif.Resolver
