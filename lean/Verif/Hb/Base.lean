import Verif.Induct

/-!
# Happens-before

The machines of `Verif/Base.lean` interleave activities and let every access read the latest value. This file adds the
order that C++ guarantees between events on different threads: *happens-before*, the transitive closure of program order
and of the synchronisation through locks and atomic variables. Two conflicting accesses to ordinary memory that are not
ordered by happens-before are a data race, hence undefined behaviour.

The events are the entries of the history of a machine, identified by their positions. Every activity has a *view*: the
events that happen before its next step. Every lock and every atomic variable carries a *message*: the events that happen
before an acquire operation that reads its present value. The rules are those of C++20 (intro.races, atomics.order):

* unlocking a mutex adds the view of the activity to its message, locking it adds the message to the view;
* an acquire load, or an acquire read-modify-write, adds the message to the view; relaxed accesses do not;
* a release store replaces the message by the view, a relaxed store by nothing: it begins no release sequence and ends
  the release sequences of earlier stores;
* a read-modify-write continues the release sequence of the value it replaces, whatever its order; with release order it
  adds the view to the message.

Simplification: each read yields the latest value in the modification order (executions are sequentially consistent as far
as the values are concerned). Executions of this kind are possible executions of the C++ program, hence a missing
happens-before is a defect of the program. Conversely, `Verif/Sc` shows that the executions of the primitives are of this
kind.
-/

namespace Verif

/-- Memory orders. -/
inductive Ord where
  | rlx
  | acq
  | rel
  | acqRel
deriving DecidableEq

/-- Accesses to locks and to atomic variables. -/
inductive Acc (L : Type) where
  | lock (l : L)
  | unlock (l : L)
  | load (o : Ord) (l : L)
  | store (o : Ord) (l : L)
  /-- Read-modify-write: exchange, fetch_add, successful compare-exchange. -/
  | rmw (o : Ord) (l : L)

/-- The memory-order annotation of a machine. -/
structure Ann (M : Mach) where
  /-- Locks and atomic variables. -/
  L : Type
  /-- Equality of locations is decidable. -/
  dec : DecidableEq L
  /-- Length of the history. -/
  len : M.σ → Nat
  /-- Events that the caller of action `a` has seen (it calls the function after them). -/
  entry : M.σ → M.α → Nat → Bool
  /-- Accesses of an instruction. All acquire operations are done first, then the events of the instruction happen, then
  the release operations are done. -/
  eff : M.σ → M.ι → Bool → List (Acc L)

/-- Views and messages. -/
structure Mem (L : Type) where
  /-- `view k n`: event `n` happens before the next step of activity `k`. -/
  view : Nat → Nat → Bool
  /-- `msg l n`: event `n` happens before whatever acquires the present value of `l`. -/
  msg : L → Nat → Bool
  /-- `past n a`: event `a` happens before event `n`. -/
  past : Nat → Nat → Bool

/-- Event `a` happens before event `b`. -/
def Mem.hb {L : Type} (m : Mem L) (a b : Nat) : Prop := m.past b a = true

instance {L : Type} (m : Mem L) (a b : Nat) : Decidable (m.hb a b) := by unfold Mem.hb; infer_instance

def Mem.init {L : Type} : Mem L := ⟨fun _ _ => false, fun _ _ => false, fun _ _ => false⟩

/-- Does the access acquire location `l`? -/
def Acc.acquires {L : Type} [DecidableEq L] (l : L) : Acc L → Bool
  | .lock l' | .load .acq l' | .load .acqRel l' | .rmw .acq l' | .rmw .acqRel l' => l' = l
  | _ => false

/-- The view after the acquire operations. -/
def Mem.acquire {L : Type} (m : Mem L) (v : Nat → Bool) : List (Acc L) → Nat → Bool
  | [] => v
  | .lock l :: as | .load .acq l :: as | .load .acqRel l :: as | .rmw .acq l :: as | .rmw .acqRel l :: as =>
    m.acquire (fun n => v n || m.msg l n) as
  | .unlock _ :: as | .load .rlx _ :: as | .load .rel _ :: as | .store _ _ :: as | .rmw .rlx _ :: as | .rmw .rel _ :: as =>
    m.acquire v as

/-- The messages after the release operations. -/
def Mem.release {L : Type} [DecidableEq L] (v : Nat → Bool) (msg : L → Nat → Bool) : List (Acc L) → L → Nat → Bool
  | [] => msg
  | .unlock l :: as | .rmw .rel l :: as | .rmw .acqRel l :: as =>
    Mem.release v (fun l' n => msg l' n || (if l' = l then v n else false)) as
  | .store .rel l :: as | .store .acqRel l :: as => Mem.release v (fun l' n => if l' = l then v n else msg l' n) as
  | .store .rlx l :: as | .store .acq l :: as => Mem.release v (fun l' n => if l' = l then false else msg l' n) as
  | .lock _ :: as | .load _ _ :: as | .rmw .rlx _ :: as | .rmw .acq _ :: as => Mem.release v msg as

/-- Activity `k`, whose view is `v`, makes the accesses `as` and appends the events `a … b - 1` to the history. -/
def Mem.act {L : Type} [DecidableEq L] (m : Mem L) (k : Nat) (v : Nat → Bool) (as : List (Acc L)) (a b : Nat) : Mem L :=
  let v1 := m.acquire v as
  let v2 := fun n => v1 n || (decide (a ≤ n) && decide (n < b))
  { view := upd m.view k v2
    msg := Mem.release v2 m.msg as
    past := fun e n => if a ≤ e ∧ e < b then v1 n || (decide (a ≤ n) && decide (n < e)) else m.past e n }

/-- The events `S` (below `len`) and what happens before them. -/
def Mem.known {L : Type} (m : Mem L) (len : Nat) (S : Nat → Bool) (n : Nat) : Bool :=
  (List.range len).any (fun e => S e && (e == n || m.past e n))

/-- Effect of a step on views and messages. -/
def Ann.next {M : Mach} (A : Ann M) (c : Conf M) (l : Lbl M) (c' : Conf M) (m : Mem A.L) : Mem A.L :=
  letI := A.dec
  match l with
  | .env a => m.act c.acts.length (m.known (A.len c.sh) (A.entry c.sh a)) [] (A.len c.sh) (A.len c'.sh)
  | .run k b =>
    match c.acts[k]? with
    | some (x :: _) => if c'.bad then m else m.act k (m.view k) (A.eff c.sh x b) (A.len c.sh) (A.len c'.sh)
    | _ => m

/-- Reachable configurations with views and messages. -/
inductive HReach {M : Mach} (A : Ann M) (s0 : M.σ) : Conf M → Mem A.L → Prop where
  | init : HReach A s0 (M.init s0) .init
  | step {c c' : Conf M} {m : Mem A.L} {l : Lbl M} : HReach A s0 c m → M.step c l = some c' →
      HReach A s0 c' (A.next c l c' m)

theorem HReach.reach {M : Mach} {A : Ann M} {s0 : M.σ} {c : Conf M} {m : Mem A.L} (h : HReach A s0 c m) :
    Reach M s0 c := by
  induction h with
  | init => exact .init
  | step _ hs ih => exact .step ih hs

/-- The events of every execution can be ordered: the annotation restricts nothing. -/
theorem Reach.hreach {M : Mach} (A : Ann M) {s0 : M.σ} {c : Conf M} (h : Reach M s0 c) : ∃ m, HReach A s0 c m := by
  induction h with
  | init => exact ⟨_, .init⟩
  | step _ hs ih => obtain ⟨m, hm⟩ := ih; exact ⟨_, .step hm hs⟩

/-- Execution of a schedule; labels that are not enabled are skipped. -/
def Ann.go {M : Mach} (A : Ann M) (s0 : M.σ) (ls : List (Lbl M)) : Conf M × Mem A.L :=
  ls.foldl (fun cm l => match M.step cm.1 l with
    | some c' => (c', A.next cm.1 l c' cm.2)
    | none => cm) (M.init s0, .init)

theorem HReach.go {M : Mach} (A : Ann M) (s0 : M.σ) (ls : List (Lbl M)) :
    HReach A s0 (A.go s0 ls).1 (A.go s0 ls).2 := by
  have h : ∀ (ls : List (Lbl M)) (cm : Conf M × Mem A.L), HReach A s0 cm.1 cm.2 →
      HReach A s0 (ls.foldl (fun cm l => match M.step cm.1 l with
        | some c' => (c', A.next cm.1 l c' cm.2)
        | none => cm) cm).1 (ls.foldl (fun cm l => match M.step cm.1 l with
        | some c' => (c', A.next cm.1 l c' cm.2)
        | none => cm) cm).2 := by
    intro ls
    induction ls with
    | nil => intro cm h; exact h
    | cons l ls ih =>
      intro cm h
      simp only [List.foldl_cons]
      apply ih
      split
      · rename_i c' hs; exact .step h hs
      · exact h
  exact h ls _ .init

/-! ## Reasoning -/

/-- All events in `F` are in the view `v`. -/
def Sees (F : Nat → Prop) (v : Nat → Bool) : Prop := ∀ n, F n → v n = true

variable {L : Type}

theorem Mem.acquire_mono (m : Mem L) (as : List (Acc L)) {v : Nat → Bool} {n : Nat} (h : v n = true) :
    m.acquire v as n = true := by
  induction as generalizing v with
  | nil => exact h
  | cons a as ih =>
    cases a with
    | lock l => exact ih (by simp [h])
    | unlock l => exact ih h
    | load o l => cases o <;> first | exact ih h | exact ih (by simp [h])
    | store o l => exact ih h
    | rmw o l => cases o <;> first | exact ih h | exact ih (by simp [h])

theorem Sees.acquire {F : Nat → Prop} {v : Nat → Bool} (h : Sees F v) (m : Mem L) (as : List (Acc L)) :
    Sees F (m.acquire v as) := fun n hn => m.acquire_mono as (h n hn)

theorem Mem.acquire_msg [DecidableEq L] (m : Mem L) {as : List (Acc L)} {a : Acc L} (ha : a ∈ as) {l : L}
    (hl : a.acquires l = true) {v : Nat → Bool} {n : Nat} (h : m.msg l n = true) : m.acquire v as n = true := by
  induction as generalizing v with
  | nil => simp at ha
  | cons x as ih =>
    rcases List.mem_cons.1 ha with rfl | hm
    · cases a with
      | lock l' => simp [Acc.acquires] at hl; subst hl; exact m.acquire_mono as (by simp [h])
      | unlock l' => simp [Acc.acquires] at hl
      | load o l' =>
        cases o <;> simp [Acc.acquires] at hl <;> subst hl <;> exact m.acquire_mono as (by simp [h])
      | store o l' => simp [Acc.acquires] at hl
      | rmw o l' =>
        cases o <;> simp [Acc.acquires] at hl <;> subst hl <;> exact m.acquire_mono as (by simp [h])
    · cases x with
      | lock l' => exact ih hm
      | unlock l' => exact ih hm
      | load o l' => cases o <;> exact ih hm
      | store o l' => exact ih hm
      | rmw o l' => cases o <;> exact ih hm

/-- An invariant of the annotated machine, on top of facts about reachable configurations. -/
theorem HReach.inv {M : Mach} {A : Ann M} {s0 : M.σ} {P : Conf M → Prop}
    {Q : M.σ → List (List M.ι) → Mem A.L → Prop}
    (hP : ∀ c : Conf M, Reach M s0 c → P c) (h0 : Q s0 [] .init)
    (henv : ∀ c m a s' p, P c → P ⟨s', c.acts ++ [p], false⟩ → Q c.sh c.acts m →
      M.env c.sh c.acts a = some (s', p) →
      letI := A.dec
      Q s' (c.acts ++ [p])
        (m.act c.acts.length (m.known (A.len c.sh) (A.entry c.sh a)) [] (A.len c.sh) (A.len s')))
    (hrun : ∀ c m k x r b s' p, P c → P ⟨s', c.acts.set k (p ++ r), false⟩ → Q c.sh c.acts m →
      c.acts[k]? = some (x :: r) → M.exec c.sh x b = .ok s' p →
      letI := A.dec
      Q s' (c.acts.set k (p ++ r)) (m.act k (m.view k) (A.eff c.sh x b) (A.len c.sh) (A.len s')))
    {c : Conf M} {m : Mem A.L} (h : HReach A s0 c m) : Q c.sh c.acts m := by
  induction h with
  | init => exact h0
  | @step c c' m l hr hs ih =>
    have h1 := hP c hr.reach
    have h2 := hP c' (.step hr.reach hs)
    cases l with
    | env a =>
      simp only [Mach.step] at hs
      split at hs
      · simp at hs
      · split at hs
        · rename_i s' p he; simp at hs; subst hs; exact henv _ _ _ _ _ h1 h2 ih he
        · simp at hs
    | run k b =>
      simp only [Mach.step] at hs
      split at hs
      · simp at hs
      · split at hs
        · rename_i x r hk
          split at hs
          · rename_i s' p he
            simp at hs; subst hs
            simp only [Ann.next, hk]
            exact hrun _ _ _ _ _ _ _ _ h1 h2 ih hk he
          · simp at hs
          · simp at hs; subst hs
            simp only [Ann.next, hk, if_true]
            exact ih
        · simp at hs

/-! ### The parts of `act` -/

section
variable [DecidableEq L] (m : Mem L) (k : Nat) (v : Nat → Bool) (as : List (Acc L)) (a b : Nat)

theorem Mem.act_view (j : Nat) : (m.act k v as a b).view j =
    if j = k then fun n => m.acquire v as n || (decide (a ≤ n) && decide (n < b)) else m.view j := by
  simp only [Mem.act, upd_apply]

theorem Mem.act_past_old {e : Nat} (h : e < a) : (m.act k v as a b).past e = m.past e := by
  funext n
  simp only [Mem.act]
  rw [if_neg (by omega)]

theorem Mem.act_past_new {e : Nat} (h : a ≤ e) (h' : e < b) (n : Nat) :
    (m.act k v as a b).past e n = (m.acquire v as n || (decide (a ≤ n) && decide (n < e))) := by
  simp only [Mem.act]
  rw [if_pos ⟨h, h'⟩]

theorem Mem.act_msg : (m.act k v as a b).msg =
    Mem.release (fun n => m.acquire v as n || (decide (a ≤ n) && decide (n < b))) m.msg as := rfl

end

theorem Mem.known_of {m : Mem L} {len : Nat} {S : Nat → Bool} {n e : Nat} (he : e < len) (hs : S e = true)
    (h : e = n ∨ m.past e n = true) : m.known len S n = true := by
  simp only [Mem.known, List.any_eq_true, List.mem_range]
  refine ⟨e, he, ?_⟩
  simpa [hs] using h

/-! ### One event

The following lemmas are about the knowledge of one event `e`. -/

section
variable [DecidableEq L]

/-- Does the access overwrite location `l` without continuing its release sequence? -/
def Acc.stores (l : L) : Acc L → Bool
  | .store _ l' => l' = l
  | _ => false

theorem Mem.release_mono {v : Nat → Bool} {msg : L → Nat → Bool} {as : List (Acc L)} {l : L} {e : Nat}
    (hs : ∀ a ∈ as, a.stores l = false) (h : msg l e = true) : Mem.release v msg as l e = true := by
  induction as generalizing msg with
  | nil => exact h
  | cons a as ih =>
    have h1 := hs a (by simp)
    have h2 : ∀ a ∈ as, a.stores l = false := fun a ha => hs a (by simp [ha])
    cases a with
    | lock l' => exact ih h2 h
    | unlock l' => exact ih h2 (by simp [h])
    | load o l' => exact ih h2 h
    | store o l' =>
      have h3 : ¬ l = l' := by simpa [Acc.stores, eq_comm] using h1
      cases o <;> exact ih h2 (by simp [h3, h])
    | rmw o l' => cases o <;> first | exact ih h2 h | exact ih h2 (by simp [h])

theorem Mem.keep {m : Mem L} {k : Nat} {v : Nat → Bool} {as : List (Acc L)} {a b : Nat} {l : L} {e : Nat}
    (hs : ∀ a ∈ as, a.stores l = false) (h : m.msg l e = true) : (m.act k v as a b).msg l e = true := by
  rw [Mem.act_msg]; exact Mem.release_mono hs h

theorem Mem.act_view_self {m : Mem L} {k : Nat} {v : Nat → Bool} {as : List (Acc L)} {a b : Nat} {e : Nat}
    (h : m.acquire v as e = true ∨ (a ≤ e ∧ e < b)) : (m.act k v as a b).view k e = true := by
  rw [Mem.act_view, if_pos rfl]
  rcases h with h | h
  · simp [h]
  · simp [h]

theorem Mem.act_view_ne {m : Mem L} {k j : Nat} (hj : j ≠ k) {v : Nat → Bool} {as : List (Acc L)} {a b : Nat} {e : Nat} :
    (m.act k v as a b).view j e = m.view j e := by
  rw [Mem.act_view, if_neg hj]

/-- Views of the activities grow. -/
theorem Mem.act_view_mono {m : Mem L} {k j : Nat} {as : List (Acc L)} {a b : Nat} {e : Nat} (h : m.view j e = true) :
    (m.act k (m.view k) as a b).view j e = true := by
  by_cases hj : j = k
  · subst hj; exact Mem.act_view_self (.inl (m.acquire_mono _ h))
  · rw [Mem.act_view_ne hj]; exact h

end

/-- All activities that have an instruction of kind `T` ahead know event `e`. -/
def AllKnow {ι : Type} (T : ι → Prop) (acts : List (List ι)) (m : Mem L) (e : Nat) : Prop :=
  ∀ (k : Nat) a, acts[k]? = some a → ∀ x ∈ a, T x → m.view k e = true

/-- Some activity that has an instruction of kind `T` ahead knows event `e`. -/
def OneKnows {ι : Type} (T : ι → Prop) (acts : List (List ι)) (m : Mem L) (e : Nat) : Prop :=
  ∃ (k : Nat) (a : List ι) (x : ι), acts[k]? = some a ∧ x ∈ a ∧ T x ∧ m.view k e = true

section
variable [DecidableEq L] {ι : Type} {T : ι → Prop} {acts : List (List ι)} {m : Mem L} {e : Nat}

theorem AllKnow.run (h : AllKnow T acts m e) {k : Nat} {x : ι} {r p : List ι} (hk : acts[k]? = some (x :: r))
    {as : List (Acc L)} {a b : Nat} (hp : (∃ y ∈ p, T y) → m.acquire (m.view k) as e = true) :
    AllKnow T (acts.set k (p ++ r)) (m.act k (m.view k) as a b) e := by
  intro j c hj y hy hty
  rw [List.getElem?_set] at hj
  split at hj
  · rename_i ej; subst ej
    split at hj
    · simp at hj; subst hj
      apply Mem.act_view_self
      left
      rcases List.mem_append.1 hy with hy | hy
      · exact hp ⟨y, hy, hty⟩
      · exact m.acquire_mono _ (h k _ hk y (by simp [hy]) hty)
    · simp at hj
  · rename_i hne
    rw [Mem.act_view_ne (Ne.symm hne)]
    exact h j c hj y hy hty

theorem AllKnow.env (h : AllKnow T acts m e) {p : List ι} {v : Nat → Bool} {as : List (Acc L)} {a b : Nat}
    (hp : (∃ y ∈ p, T y) → m.acquire v as e = true ∨ (a ≤ e ∧ e < b)) :
    AllKnow T (acts ++ [p]) (m.act acts.length v as a b) e := by
  intro j c hj y hy hty
  by_cases hl : j < acts.length
  · rw [List.getElem?_append_left hl] at hj
    rw [Mem.act_view_ne (by omega)]
    exact h j c hj y hy hty
  · have hj' : j = acts.length := by
      have := (List.getElem?_eq_some_iff.1 hj).1
      simp at this; omega
    subst hj'
    simp at hj; subst hj
    exact Mem.act_view_self (hp ⟨y, hy, hty⟩)

theorem OneKnows.env (h : OneKnows T acts m e) {p : List ι} {v : Nat → Bool} {as : List (Acc L)} {a b : Nat} :
    OneKnows T (acts ++ [p]) (m.act acts.length v as a b) e := by
  obtain ⟨k, c, x, hk, hx, ht, hv⟩ := h
  have hl := (List.getElem?_eq_some_iff.1 hk).1
  refine ⟨k, c, x, by rw [List.getElem?_append_left hl]; exact hk, hx, ht, ?_⟩
  rw [Mem.act_view_ne (by omega)]; exact hv

theorem OneKnows.run (h : OneKnows T acts m e) {k : Nat} {x : ι} {r p : List ι} (hk : acts[k]? = some (x :: r))
    {as : List (Acc L)} {a b : Nat} (hp : T x → ∃ y ∈ p, T y) :
    OneKnows T (acts.set k (p ++ r)) (m.act k (m.view k) as a b) e := by
  obtain ⟨j, c, y, hj, hy, ht, hv⟩ := h
  by_cases hjk : j = k
  · subst hjk
    have hl := (List.getElem?_eq_some_iff.1 hk).1
    rw [hk] at hj; simp at hj; subst hj
    rcases List.mem_cons.1 hy with rfl | hy
    · obtain ⟨z, hz, hz'⟩ := hp ht
      exact ⟨j, p ++ r, z, by simp [hl], by simp [hz], hz', Mem.act_view_mono hv⟩
    · exact ⟨j, p ++ r, y, by simp [hl], by simp [hy], ht, Mem.act_view_mono hv⟩
  · exact ⟨j, c, y, by rw [List.getElem?_set_ne (Ne.symm hjk)]; exact hj, hy, ht, Mem.act_view_mono hv⟩

/-- Either the instruction that is executed is the one that knows, or another one is. -/
theorem OneKnows.run_or (h : OneKnows T acts m e) {k : Nat} {x : ι} {r p : List ι} (hk : acts[k]? = some (x :: r))
    {as : List (Acc L)} {a b : Nat} :
    (T x ∧ m.view k e = true) ∨ OneKnows T (acts.set k (p ++ r)) (m.act k (m.view k) as a b) e := by
  obtain ⟨j, c, y, hj, hy, ht, hv⟩ := h
  by_cases hjk : j = k
  · subst hjk
    have hl := (List.getElem?_eq_some_iff.1 hk).1
    rw [hk] at hj; simp at hj; subst hj
    rcases List.mem_cons.1 hy with rfl | hy
    · exact .inl ⟨ht, hv⟩
    · exact .inr ⟨j, p ++ r, y, by simp [hl], by simp [hy], ht, Mem.act_view_mono hv⟩
  · exact .inr ⟨j, c, y, by rw [List.getElem?_set_ne (Ne.symm hjk)]; exact hj, hy, ht, Mem.act_view_mono hv⟩

end

/-- All events of kind `P` after event `e` know event `e`. -/
def Done {E : Type} (P : E → Prop) (log : List E) (m : Mem L) (e : Nat) : Prop :=
  ∀ (n : Nat) v, log[n]? = some v → P v → e < n → m.past n e = true

theorem Done.step [DecidableEq L] {E : Type} {P : E → Prop} {log : List E} {m : Mem L} {e : Nat} (h : Done P log m e)
    {evs log' : List E} (hl : log' = log ++ evs) {k : Nat} {v : Nat → Bool} {as : List (Acc L)}
    (hn : (∃ w ∈ evs, P w) → m.acquire v as e = true) :
    Done P log' (m.act k v as log.length log'.length) e := by
  subst hl
  intro n w hw hP hlt
  by_cases hl : n < log.length
  · rw [Mem.act_past_old _ _ _ _ _ _ hl]
    rw [List.getElem?_append_left hl] at hw
    exact h n w hw hP hlt
  · have h2 := (List.getElem?_eq_some_iff.1 hw).1
    rw [Mem.act_past_new _ _ _ _ _ _ (by omega) h2]
    rw [List.getElem?_append_right (by omega)] at hw
    rw [hn ⟨w, List.mem_of_getElem? hw, hP⟩]; rfl

theorem Done.new [DecidableEq L] {E : Type} {P : E → Prop} {log : List E} {m : Mem L} : Done P log m log.length := by
  intro n v hv _ hlt
  have := (List.getElem?_eq_some_iff.1 hv).1
  omega

end Verif
