import Verif.Linear.Log
import Verif.SharedMutex.Order
import Verif.SharedMutex.Live

/-!
# C98, `shared_mutex`: locking and unlocking behave like operations on the set of holders

A waiting `async_lock` or `async_lock_shared` takes effect when it is admitted, that is directly after the `unlock` or
`unlock_shared` that admits it. A `try_lock_shared` that fails takes effect when it reads the value of `st_` that makes it fail,
which is before it returns.
-/

namespace Verif.SharedMutex

/-- Calls: a request, and the `unlock` or `unlock_shared` that ends it. -/
inductive Call where
  | attempt (t : Req)
  | release (t : Req)
deriving DecidableEq

/-- Operations of the sequential object. A request is a number with the mode (exclusive or shared). -/
inductive Op where
  | lock (t : Req)
  | tryLock (t : Req)
  | unlock (t : Req)
deriving DecidableEq

/-- Results: admitted, `try_lock` or `try_lock_shared` returned false, `unlock` or `unlock_shared` returned. -/
inductive Res where
  | got
  | refused
  | ret
deriving DecidableEq

/-- The sequential object, a list of the holders. A writer is admitted if there are no holders, a reader if all holders are readers.
`try_lock` and `try_lock_shared` fail only if there are holders. (`try_lock_shared` may fail although all holders are readers: this
happens when others are waiting.) `unlock` and `unlock_shared` end a holding. -/
def seq : List Req → Op → Res → List Req → Prop
  | q, .lock t, .got, q' => compat q t ∧ q' = q ++ [t]
  | q, .tryLock t, .got, q' => compat q t ∧ q' = q ++ [t]
  | q, .tryLock _, .refused, q' => q ≠ [] ∧ q' = q
  | q, .unlock t, .ret, q' => t ∈ q ∧ q' = q.erase t
  | _, _, _, _ => False

/-- Which calls were invoked: read off the history of the user's calls. -/
def invoked (log : List Ev) : Call → Op → Prop
  | .attempt t, .lock u => t = u ∧ .lock t ∈ log
  | .attempt t, .tryLock u => t = u ∧ .tryLock t ∈ log
  | .release t, .unlock u => t = u ∧ .unlock t ∈ log
  | _, _ => False

/-- Which calls have returned: the receiver was completed, the `try` function returned, the activity that calls `unlock` or
`unlock_shared` is over. -/
def returned (ls : List (Lbl mach)) (c : Conf mach) : Call → Res → Prop
  | .attempt t, .got => .acq t ∈ c.sh.log
  | .attempt t, .refused => .fail t ∈ c.sh.log
  | .release t, .ret => ∃ k : Nat, (envs ls)[k]? = some (.unlock t) ∧ c.acts[k]? = some []
  | _, _ => False

/-- How to watch a shared mutex. -/
def watch : Watch mach Call Op Res where
  invoked ls x o := ∃ c, mach.runs (mach.init init) ls = some c ∧ invoked c.sh.log x o
  returned ls x r := ∃ c, mach.runs (mach.init init) ls = some c ∧ returned ls c x r

/-! ## The order -/

/-- The operation of a request. -/
def opOf (log : List Ev) (t : Req) : Op := if .tryLock t ∈ log then .tryLock t else .lock t

/-- Calls that take effect at an event. -/
def effect (before : List Ev) : Ev → List (Call × Op × Res)
  | .fast t => [(.attempt t, opOf before t, .got)]
  | .fail (i, true) => [(.attempt (i, true), .tryLock (i, true), .refused)]
  | .rel t => [(.release t, .unlock t, .ret)]
  | .grant t ts => (.release t, .unlock t, .ret) :: ts.map fun u => (.attempt u, opOf before u, .got)
  | _ => []

/-- Values of `st_` with which `try_lock_shared` gives up (lines 433-438). -/
def refuses (v : Wd) : Bool := v.c ≠ .none ∧ ¬ (v.c = .locked ∧ v.n ≠ 0)

/-- Calls of `try_lock_shared` that read a value with which they give up. -/
def refusals (s : St) : Instr → List Id
  | .tryLockS i => if refuses s.st then [i] else []
  | .lsT i false v => if ¬ refuses v ∧ s.st ≠ v ∧ refuses s.st then [i] else []
  | _ => []

/-- Calls that take effect at a step. -/
def at' (c : Conf mach) (l : Lbl mach) : List (Call × Op × Res) :=
  (match mach.step c l with
    | some c' => (c'.sh.log.drop c.sh.log.length).flatMap (effect c.sh.log)
    | none => []) ++
  match l with
  | .env _ => []
  | .run k _ => match c.acts[k]? with
    | some (x :: _) => (refusals c.sh x).map fun i => (.attempt (i, false), .tryLock (i, false), .refused)
    | _ => []

/-- The order of calls of a schedule. -/
def lin (ls : List (Lbl mach)) : List (Call × Op × Res) := linRun at' (mach.init init) ls

/-! ## Instructions -/

/-- Calls of `try_lock_shared` that have read a value with which they give up. -/
def rf : Instr → List Id
  | .lsT i false v => if refuses v then [i] else []
  | _ => []

theorem exec_rf {s : St} {x : Instr} {b : Bool} {s' : St} {p : List Instr} (he : exec s x b = .ok s' p) (i : Id) :
    (p.flatMap rf).count i + s'.log.count (.fail (i, false)) =
      (rf x).count i + s.log.count (.fail (i, false)) + (refusals s x).count i := by
  have hacq : ∀ js : List Id, (js.map (fun j => Instr.acq (j, false))).flatMap rf = [] := by
    intro js; induction js <;> simp_all [rf]
  cases x with
  | chk t v =>
    obtain ⟨j, e⟩ := t
    cases e <;> simp only [exec] at he <;> (repeat' split at he) <;>
      simp only [Out.ok.injEq] at he <;> obtain ⟨rfl, rfl⟩ := he <;>
      simp [St.admit, rf, refusals]
  | stR js =>
    simp only [exec, Out.ok.injEq] at he; obtain ⟨rfl, rfl⟩ := he
    simp [hacq, rf, refusals]
  | lsT j f v =>
    cases f <;> simp only [exec] at he <;> (repeat' split at he) <;>
      simp only [Out.ok.injEq] at he <;> obtain ⟨rfl, rfl⟩ := he <;>
      simp_all [St.admit, rf, refusals, refuses, List.count_cons] <;> grind
  | tryLockS j =>
    simp only [exec, Out.ok.injEq] at he; obtain ⟨rfl, rfl⟩ := he
    simp only [List.flatMap_cons, List.flatMap_nil, List.append_nil, rf, refusals, List.count_nil]
    omega
  | _ =>
    simp only [exec] at he <;> (repeat' split at he) <;>
      simp only [Out.ok.injEq, reduceCtorEq] at he <;> obtain ⟨rfl, rfl⟩ := he <;>
      simp [St.admit, rf, refusals]

/-- The instruction belongs to the `unlock` or `unlock_shared` that ends this request, and the call has not taken effect. -/
def unlOf : Instr → Option Req
  | .unlock i | .casU i | .acqU i | .popU i => some (i, true)
  | .unlockS i | .usL i _ | .usC i _ | .acqS i | .popS i => some (i, false)
  | _ => none

/-- The event ends a request. -/
def Ev.gives : Ev → Option Req
  | .rel t => some t
  | .grant t _ => some t
  | _ => none

theorem exec_unl {s : St} {x : Instr} {b : Bool} {s' : St} {p : List Instr} (he : exec s x b = .ok s' p) :
    (∀ y ∈ p, ∀ t, unlOf y = some t → unlOf x = some t) ∧
    (∀ t, unlOf x = some t → (∃ y q, p = y :: q ∧ unlOf y = some t) ∨ ∃ v, s'.log = s.log ++ [v] ∧ v.gives = some t) ∧
    (s'.log = s.log ∨ ∃ v, s'.log = s.log ++ [v] ∧ (∀ t, v.gives = some t → unlOf x = some t) ∧
      (∀ t, v = .fast t → ∃ f, (t, f) ∈ mI x) ∧ (∀ u ts, v = .grant u ts → ∀ t ∈ ts, t ∈ s.waiters) ∧
      (∀ t, v = .fail t → (t, true) ∈ mI x)) := by
  cases x with
  | chk t v =>
    obtain ⟨j, e⟩ := t
    cases e <;> simp only [exec] at he <;> (repeat' split at he) <;>
      simp only [Out.ok.injEq] at he <;> obtain ⟨rfl, rfl⟩ := he <;>
      simp [St.admit, unlOf, Ev.gives, mI]
  | stR js =>
    simp only [exec, Out.ok.injEq] at he; obtain ⟨rfl, rfl⟩ := he
    simp [unlOf]
  | popU i =>
    simp only [exec] at he
    split at he
    · simp at he
    · rename_i j w hw
      simp only [Out.ok.injEq] at he; obtain ⟨rfl, rfl⟩ := he
      simp [unlOf, Ev.gives, hw]
    · rename_i j w hw
      simp only [Out.ok.injEq] at he; obtain ⟨rfl, rfl⟩ := he
      refine ⟨by simp [unlOf], fun t ht => .inr ⟨_, rfl, by simpa [unlOf, Ev.gives] using ht⟩,
        .inr ⟨_, rfl, by simp [unlOf, Ev.gives], by simp, ?_, by simp⟩⟩
      intro u ts h t ht
      simp only [Ev.grant.injEq] at h
      rw [hw]
      exact (List.takeWhile_sublist _).subset (h.2 ▸ ht)
  | popS i =>
    simp only [exec] at he
    split at he
    · simp at he
    · simp at he
    · rename_i j w hw
      simp only [Out.ok.injEq] at he; obtain ⟨rfl, rfl⟩ := he
      simp [unlOf, Ev.gives, hw]
  | lsT j f v =>
    cases f <;> simp only [exec] at he <;> (repeat' split at he) <;>
      simp only [Out.ok.injEq] at he <;> obtain ⟨rfl, rfl⟩ := he <;>
      simp_all [St.admit, unlOf, Ev.gives, mI]
  | _ =>
    simp only [exec] at he <;> (repeat' split at he) <;>
      simp only [Out.ok.injEq, reduceCtorEq] at he <;> obtain ⟨rfl, rfl⟩ := he <;>
      simp [St.admit, unlOf, Ev.gives, mI]

/-! ## Histories -/

theorem seq_lock {q : List Req} {t : Req} (log : List Ev) (h : compat q t) : seq q (opOf log t) .got (q ++ [t]) := by
  simp only [opOf]; split <;> exact ⟨h, rfl⟩

theorem accepts_readers (log : List Ev) : ∀ (ts q : List Req), (∀ t ∈ ts, t.2 = false) → (∀ t ∈ q, t.2 = false) →
    Accepts seq q (ts.map fun u => (Call.attempt u, opOf log u, Res.got)) (q ++ ts) := by
  intro ts
  induction ts with
  | nil => intro q _ _; simp [Accepts]
  | cons t ts ih =>
    intro q h1 h2
    have ht := h1 t (by simp)
    refine ⟨q ++ [t], seq_lock log (by unfold compat; rw [if_neg (by simp [ht])]; exact h2), ?_⟩
    have := ih (q ++ [t]) (fun u hu => h1 u (by simp [hu]))
      (by intro u hu; rcases List.mem_append.1 hu with hu | hu; exact h2 u hu; simp at hu; rw [hu]; exact ht)
    simpa using this

/-- One event. -/
theorem accepts_event {l : List Ev} {v : Ev} (hl : legal l v) :
    Accepts seq (spec l).own (effect l v) ((spec l).step v).own := by
  cases v with
  | fast t => exact ⟨_, seq_lock l hl.2, rfl⟩
  | rel t => exact ⟨_, ⟨hl.1, rfl⟩, rfl⟩
  | grant t ts =>
    obtain ⟨h1, h2, h3⟩ := hl
    refine ⟨[], by rw [h1]; simp [seq], ?_⟩
    simp only [Spec.step, h1, List.erase_cons_head, List.nil_append]
    rw [h2]
    unfold batch
    split
    · rename_i j w hw
      exact ⟨[(j, true)], seq_lock l (by simp [compat]), rfl⟩
    · have := List.all_takeWhile (p := fun t : Req => !t.2) (l := (spec l).q)
      rw [List.all_eq_true] at this
      have h := accepts_readers l ((spec l).q.takeWhile (fun t => !t.2)) [] (fun u hu => by simpa using this u hu) (by simp)
      simpa using h
  | fail t =>
    obtain ⟨i, e⟩ := t
    cases e with
    | true =>
      have := hl rfl
      simp only [compat, if_true] at this
      exact ⟨_, ⟨this, rfl⟩, rfl⟩
    | false => exact rfl
  | _ => exact rfl

theorem count_map_attempt (log : List Ev) (t : Req) (ts : List Req) :
    ((ts.map fun u => (Call.attempt u, opOf log u, Res.got)).map (·.1)).count (.attempt t) = ts.count t := by
  induction ts with
  | nil => rfl
  | cons u ts ih => simp only [List.map_cons, List.count_cons, ih]; simp

theorem count_map_release (log : List Ev) (t : Req) (ts : List Req) :
    ((ts.map fun u => (Call.attempt u, opOf log u, Res.got)).map (·.1)).count (.release t) = 0 := by
  induction ts with
  | nil => rfl
  | cons u ts ih => simp only [List.map_cons, List.count_cons, ih]; simp

theorem count_attempt (t : Req) (l : List Ev) (v : Ev) :
    ((effect l v).map (·.1)).count (.attempt t) = (v.wins).count t + if t.2 ∧ v = .fail t then 1 else 0 := by
  obtain ⟨i, e⟩ := t
  cases v with
  | grant u ts =>
    simp only [effect, List.map_cons, List.count_cons, count_map_attempt, Ev.wins]
    simp
  | fail u =>
    obtain ⟨j, f⟩ := u
    cases f <;> cases e <;> simp [effect, Ev.wins, List.count_cons]
  | _ => simp [effect, Ev.wins, List.count_cons]

theorem count_release (t : Req) {l : List Ev} {v : Ev} (hl : legal l v) :
    ((effect l v).map (·.1)).count (.release t) + (((spec l).step v).own).count t = (v.wins).count t + (spec l).own.count t := by
  cases v with
  | grant u ts =>
    obtain ⟨h1, -, -⟩ := hl
    simp only [effect, List.map_cons, List.count_cons, count_map_release, Ev.wins, Spec.step, h1]
    simp [List.count_cons]; omega
  | fast u => simp [effect, Ev.wins, Spec.step, List.count_cons]; omega
  | rel u =>
    have h1 := hl.1
    simp [effect, Ev.wins, Spec.step, List.count_cons, List.count_erase]
    have := List.count_pos_iff.2 h1
    split <;> rename_i h <;> simp_all
  | fail u =>
    obtain ⟨j, f⟩ := u
    cases f <;> simp [effect, Ev.wins, Spec.step]
  | _ => simp [effect, Ev.wins, Spec.step]

theorem count_settled (t : Req) (l : List Ev) :
    (enqs l).count t + l.count (.fast t) + l.count (.fail t) ≤ (setts l).count t.1 := by
  induction l using List.reverseRecOn with
  | nil => simp [enqs, setts]
  | append_singleton l v ih =>
    rw [enqs_append, setts_append, List.count_append, List.count_append, List.count_append, List.count_append]
    obtain ⟨i, e⟩ := t
    cases v <;> simp [Ev.enqs, Ev.setts, List.count_singleton] <;> grind

theorem count_wins (t : Req) (l : List Ev) : (wins l).count t = l.count (.fast t) + (grants l).count t := by
  induction l using List.reverseRecOn with
  | nil => simp [wins, grants]
  | append_singleton l v ih =>
    rw [wins_append, grants_append, List.count_append, List.count_append, List.count_append]
    cases v <;> simp [Ev.wins, Ev.grants, List.count_singleton] <;> omega

theorem opOf_invoked {log : List Ev} {t : Req} (h : .lock t ∈ log ∨ .tryLock t ∈ log) :
    invoked log (.attempt t) (opOf log t) := by
  simp only [opOf]
  split
  · rename_i h'; exact ⟨rfl, h'⟩
  · rename_i h'; exact ⟨rfl, h.resolve_right h'⟩

theorem invoked_mono {l1 l2 : List Ev} {x : Call} {o : Op} (h : invoked l1 x o) : invoked (l1 ++ l2) x o := by
  cases x <;> cases o <;> simp only [invoked] at h ⊢ <;> try exact h
  all_goals exact ⟨h.1, List.mem_append_left _ h.2⟩

/-- Who gives up the mutex has called `unlock`. -/
structure Asked (s : St) (acts : List (List Instr)) : Prop where
  pend : ∀ x, Pending acts x → ∀ t, unlOf x = some t → .unlock t ∈ s.log
  log : ∀ v ∈ s.log, ∀ t, v.gives = some t → .unlock t ∈ s.log

theorem reach_asked {c : Conf mach} (h : Reach mach init c) : Asked c.sh c.acts := by
  refine Reach.inv (P := Asked) ?_ ?_ ?_ h
  · exact ⟨by simp [Pending], by simp [init]⟩
  · rintro s acts a s' p ⟨h1, h2⟩ he
    have hp : ∀ y, Pending (acts ++ [p]) y → y ∈ p ∨ Pending acts y := fun y => pending_append
    cases a with
    | lock t =>
      obtain ⟨j, e⟩ := t
      simp only [env] at he; split at he <;>
        simp only [Option.some.injEq, Prod.mk.injEq, reduceCtorEq] at he; obtain ⟨rfl, rfl⟩ := he
      refine ⟨?_, ?_⟩
      · intro x hx t ht
        rcases hp x hx with hx | hx
        · cases e <;> simp [Instr.ofLock] at hx <;> subst hx <;> simp [unlOf] at ht
        · exact List.mem_append_left _ (h1 x hx t ht)
      · intro v hv t ht
        rcases List.mem_append.1 hv with hv | hv
        · exact List.mem_append_left _ (h2 v hv t ht)
        · simp at hv; subst hv; simp [Ev.gives] at ht
    | tryLock t =>
      obtain ⟨j, e⟩ := t
      simp only [env] at he; split at he <;>
        simp only [Option.some.injEq, Prod.mk.injEq, reduceCtorEq] at he; obtain ⟨rfl, rfl⟩ := he
      refine ⟨?_, ?_⟩
      · intro x hx t ht
        rcases hp x hx with hx | hx
        · cases e <;> simp [Instr.ofTry] at hx <;> subst hx <;> simp [unlOf] at ht
        · exact List.mem_append_left _ (h1 x hx t ht)
      · intro v hv t ht
        rcases List.mem_append.1 hv with hv | hv
        · exact List.mem_append_left _ (h2 v hv t ht)
        · simp at hv; subst hv; simp [Ev.gives] at ht
    | unlock t =>
      obtain ⟨j, e⟩ := t
      simp only [env] at he; split at he <;>
        simp only [Option.some.injEq, Prod.mk.injEq, reduceCtorEq] at he; obtain ⟨rfl, rfl⟩ := he
      refine ⟨?_, ?_⟩
      · intro x hx t ht
        rcases hp x hx with hx | hx
        · cases e <;> simp [Instr.ofUnlock] at hx <;> subst hx <;> simp [unlOf] at ht <;> subst ht <;> simp
        · exact List.mem_append_left _ (h1 x hx t ht)
      · intro v hv t ht
        rcases List.mem_append.1 hv with hv | hv
        · exact List.mem_append_left _ (h2 v hv t ht)
        · simp at hv; subst hv; simp [Ev.gives] at ht
  · rintro s acts k x r b s' p ⟨h1, h2⟩ hk he
    have hp : ∀ y, Pending (acts.set k (p ++ r)) y → y ∈ p ∨ Pending acts y := fun y => pending_set hk
    obtain ⟨k1, -, k3⟩ := exec_unl he
    have hx := h1 x (pending_top hk)
    have hsub : ∀ v ∈ s.log, v ∈ s'.log := by
      rcases k3 with k3 | ⟨v, k3, -⟩ <;> rw [k3] <;> intro u hu
      · exact hu
      · exact List.mem_append_left _ hu
    refine ⟨?_, ?_⟩
    · intro y hy t ht
      rcases hp y hy with hy | hy
      · exact hsub _ (hx t (k1 y hy t ht))
      · exact hsub _ (h1 y hy t ht)
    · intro u hu t ht
      rcases k3 with k3 | ⟨v, k3, k4, -⟩
      · rw [k3] at hu; exact hsub _ (h2 u hu t ht)
      · rw [k3] at hu
        rcases List.mem_append.1 hu with hu | hu
        · exact hsub _ (h2 u hu t ht)
        · simp at hu; subst hu; exact hsub _ (hx t (k4 t ht))

theorem Inv.own_ne {s : St} {acts : List (List Instr)} (h : Inv s acts) (hr : refuses s.st = true) : (spec s.log).own ≠ [] := by
  intro ho
  have hc := h.own_nil.1 ho
  simp [refuses, hc] at hr

/-- The order and the state. -/
structure Tie (ls : List (Lbl mach)) (c : Conf mach) : Prop where
  acc : Accepts seq [] (lin ls) (spec c.sh.log).own
  att : ∀ t, ((lin ls).map (·.1)).count (.attempt t) = (wins c.sh.log).count t + c.sh.log.count (.fail t) +
    if t.2 then 0 else ws (cw rf (· == t.1)) c.acts
  rel : ∀ t, ((lin ls).map (·.1)).count (.release t) + (spec c.sh.log).own.count t = (wins c.sh.log).count t
  has : ∀ l1 v l2, c.sh.log = l1 ++ v :: l2 → ∀ e ∈ effect l1 v, e ∈ lin ls
  refP : ∀ x, Pending c.acts x → ∀ i ∈ rf x, (.attempt (i, false), .tryLock (i, false), .refused) ∈ lin ls
  refL : ∀ i, .fail (i, false) ∈ c.sh.log → (.attempt (i, false), .tryLock (i, false), .refused) ∈ lin ls
  inv : ∀ e ∈ lin ls, invoked c.sh.log e.1 e.2.1
  unl : ∀ (k : Nat) t, (envs ls)[k]? = some (Act.unlock t) →
    (∃ x r, c.acts[k]? = some (x :: r) ∧ unlOf x = some t) ∨ ∃ v ∈ c.sh.log, v.gives = some t

theorem has_snoc {l : List Ev} {v : Ev} {L L' : List (Call × Op × Res)}
    (h : ∀ l1 w l2, l = l1 ++ w :: l2 → ∀ e ∈ effect l1 w, e ∈ L) (hL : ∀ e ∈ L, e ∈ L') (hv : ∀ e ∈ effect l v, e ∈ L') :
    ∀ l1 w l2, l ++ [v] = l1 ++ w :: l2 → ∀ e ∈ effect l1 w, e ∈ L' := by
  intro l1 w l2 he e hm
  have H : Hist (fun b w => ∀ e ∈ effect b w, e ∈ L') (l ++ [v]) :=
    Hist.snoc.2 ⟨fun l1 w l2 he e hm => hL e (h l1 w l2 he e hm), hv⟩
  exact H l1 w l2 he e hm

theorem tie_env {ls : List (Lbl mach)} {c c' : Conf mach} {a : Act} (hr : mach.runs (mach.init init) ls = some c)
    (h : Tie ls c) (hs : mach.step c (.env a) = some c') : Tie (ls ++ [.env a]) c' := by
  have hlen := envs_length hr
  have hlin : lin (ls ++ [.env a]) = lin ls ++ at' c (.env a) := linRun_snoc at' hr hs
  simp only [at', hs, List.append_nil] at hlin
  simp only [Mach.step] at hs
  split at hs
  · simp at hs
  split at hs
  · rename_i s' p he
    simp only [Option.some.injEq] at hs; subst hs
    have key : ∃ v x, s'.log = c.sh.log ++ [v] ∧ p = [x] ∧ effect c.sh.log v = [] ∧ v.wins = [] ∧ (∀ t, v ≠ .fail t) ∧
        rf x = [] ∧ (∀ q : Spec, q.step v = q) ∧ (∀ t, a = .unlock t → unlOf x = some t) := by
      cases a with
      | lock t =>
        obtain ⟨j, e⟩ := t
        simp only [env] at he; split at he <;>
          simp only [Option.some.injEq, Prod.mk.injEq, reduceCtorEq] at he; obtain ⟨rfl, rfl⟩ := he
        cases e <;> exact ⟨_, _, rfl, rfl, rfl, rfl, by simp, rfl, fun _ => rfl, by simp⟩
      | tryLock t =>
        obtain ⟨j, e⟩ := t
        simp only [env] at he; split at he <;>
          simp only [Option.some.injEq, Prod.mk.injEq, reduceCtorEq] at he; obtain ⟨rfl, rfl⟩ := he
        cases e <;> exact ⟨_, _, rfl, rfl, rfl, rfl, by simp, rfl, fun _ => rfl, by simp⟩
      | unlock t =>
        obtain ⟨j, e⟩ := t
        simp only [env] at he; split at he <;>
          simp only [Option.some.injEq, Prod.mk.injEq, reduceCtorEq] at he; obtain ⟨rfl, rfl⟩ := he
        cases e <;> exact ⟨_, _, rfl, rfl, rfl, rfl, by simp, rfl, fun _ => rfl, by simp [Instr.ofUnlock, unlOf]⟩
    obtain ⟨v, x, k1, k2, k3, k4, k5, k6, k7, k8⟩ := key
    have hd : (s'.log.drop c.sh.log.length).flatMap (effect c.sh.log) = [] := by
      rw [k1]; simp [k3]
    have hsp : spec s'.log = spec c.sh.log := by rw [k1, spec_append, k7]
    have hw : wins s'.log = wins c.sh.log := by rw [k1, wins_append, k4, List.append_nil]
    have hlin0 : lin (ls ++ [.env a]) = lin ls := by rw [hlin, hd, List.append_nil]
    clear hlin
    rename' hlin0 => hlin
    subst k2
    constructor
    · simp only [hlin, hsp]; exact h.acc
    · intro t
      simp only [hlin, hw]
      simp only [k1, List.count_append]
      rw [h.att t, cw_app]
      simp [k6, k5 t]
    · intro t; simp only [hlin, hw, hsp]; exact h.rel t
    · simp only [k1]
      exact has_snoc h.has (by rw [hlin]; exact fun _ h => h) (by rw [k3]; simp)
    · intro y hy i hi
      rw [hlin]
      rcases pending_append hy with hy | hy
      · simp at hy; subst hy; rw [k6] at hi; simp at hi
      · exact h.refP y hy i hi
    · intro i hi
      rw [hlin]
      simp only [k1] at hi
      rcases List.mem_append.1 hi with hi | hi
      · exact h.refL i hi
      · simp at hi; exact absurd hi.symm (k5 _)
    · intro e hm
      rw [hlin] at hm
      simp only [k1]
      exact invoked_mono (h.inv e hm)
    · intro k t hk
      rw [envs_snoc_env] at hk
      by_cases hlt : k < (envs ls).length
      · rw [List.getElem?_append_left hlt] at hk
        rcases h.unl k t hk with ⟨y, r, h1, h2⟩ | ⟨w, h1, h2⟩
        · exact .inl ⟨y, r, by simp only; rw [List.getElem?_append_left (by omega)]; exact h1, h2⟩
        · exact .inr ⟨w, by simp only [k1]; exact List.mem_append_left _ h1, h2⟩
      · have hkl : k = (envs ls).length := by
          have := (List.getElem?_eq_some_iff.1 hk).1
          simp at this; omega
        subst hkl
        simp at hk
        exact .inl ⟨x, [], by simp [hlen], k8 t hk⟩
  · simp at hs

theorem tie_run {ls : List (Lbl mach)} {c c' : Conf mach} {k : Nat} {b : Bool} (hr : mach.runs (mach.init init) ls = some c)
    (h : Tie ls c) (hs : mach.step c (.run k b) = some c') : Tie (ls ++ [.run k b]) c' := by
  have hc : Reach mach init c := .of_runs .init hr
  have hI := reach_inv hc
  have hI' := reach_inv (.step hc hs)
  have hK := reach_kind hc
  have hA := reach_asked hc
  have hlin : lin (ls ++ [.run k b]) = lin ls ++ at' c (.run k b) := linRun_snoc at' hr hs
  simp only [at', hs] at hlin
  simp only [Mach.step] at hs
  split at hs
  · simp at hs
  split at hs
  · rename_i x r hx
    simp only [hx] at hlin
    split at hs
    · rename_i s' p he
      have he : exec c.sh x b = .ok s' p := he
      simp only [Option.some.injEq] at hs; subst hs
      obtain ⟨k1, k2, k3⟩ := exec_unl he
      have hrf := exec_rf he
      have hpend := pending_top hx
      -- the refusals
      generalize hR : ((refusals c.sh x).map fun i => ((.attempt (i, false), .tryLock (i, false), .refused) : Call × Op × Res)) = R at hlin
      have hRacc : Accepts seq (spec c.sh.log).own R (spec c.sh.log).own := by
        have hown : refusals c.sh x ≠ [] → (spec c.sh.log).own ≠ [] := by
          intro hne
          refine hI.own_ne ?_
          cases x with
          | tryLockS j =>
            simp only [refusals] at hne
            split at hne
            · assumption
            · exact absurd rfl hne
          | lsT j f v =>
            cases f with
            | true => exact absurd rfl hne
            | false =>
              simp only [refusals] at hne
              split at hne
              · rename_i h3; exact h3.2.2
              · exact absurd rfl hne
          | _ => exact absurd rfl hne
        rw [← hR]
        revert hown
        generalize refusals c.sh x = js
        intro hown
        induction js with
        | nil => exact rfl
        | cons j js ih => exact ⟨_, ⟨hown (by simp), rfl⟩, ih (fun _ => hown (by simp))⟩
      have hRc : ∀ t, (R.map (·.1)).count (.attempt t) = if t.2 then 0 else (refusals c.sh x).count t.1 := by
        rw [← hR]
        rintro ⟨i, e⟩
        generalize refusals c.sh x = js
        induction js with
        | nil => cases e <;> rfl
        | cons j js ih => cases e <;> simp_all [List.count_cons]
      have hRr : ∀ t, (R.map (·.1)).count (.release t) = 0 := by
        rw [← hR]
        intro t
        generalize refusals c.sh x = js
        induction js with
        | nil => rfl
        | cons j js ih => simp_all [List.count_cons]
      have hRi : ∀ e ∈ R, invoked c.sh.log e.1 e.2.1 := by
        rw [← hR]
        intro e hm
        rw [List.mem_map] at hm
        obtain ⟨i, hi, rfl⟩ := hm
        have hk : ((i, false), true) ∈ mI x := by
          cases x with
          | tryLockS j =>
            simp only [refusals] at hi
            split at hi
            · simp at hi; simp [mI, hi]
            · simp at hi
          | lsT j f v =>
            cases f with
            | true => simp [refusals] at hi
            | false =>
              simp only [refusals] at hi
              split at hi
              · simp at hi; simp [mI, hi]
              · simp at hi
          | _ => simp [refusals] at hi
        rcases hK.pend x hpend _ hk with h1 | ⟨h1, -⟩
        · exact ⟨rfl, h1⟩
        · simp at h1
      have hmemR : ∀ i ∈ refusals c.sh x, ((.attempt (i, false), .tryLock (i, false), .refused) : Call × Op × Res) ∈ R := by
        intro i hi; rw [← hR]; exact List.mem_map.2 ⟨i, hi, rfl⟩
      have hws : ∀ t : Req, ws (cw rf (· == t.1)) (c.acts.set k (p ++ r)) + (rf x).count t.1 =
          ws (cw rf (· == t.1)) c.acts + (p.flatMap rf).count t.1 := fun t => cw_set rf (· == t.1) p hx
      -- common parts
      have hrefP : (∀ e ∈ R, e ∈ lin (ls ++ [.run k b])) → (∀ e ∈ lin ls, e ∈ lin (ls ++ [.run k b])) →
          ∀ y, Pending (c.acts.set k (p ++ r)) y → ∀ i ∈ rf y,
            (.attempt (i, false), .tryLock (i, false), .refused) ∈ lin (ls ++ [.run k b]) := by
        intro hR1 hR2 y hy i hi
        rcases pending_set hx hy with hy | hy
        · have h1 : 0 < (p.flatMap rf).count i := List.count_pos_iff.2 (List.mem_flatMap.2 ⟨y, hy, hi⟩)
          have h2 := hrf i
          by_cases h3 : i ∈ refusals c.sh x
          · exact hR1 _ (hmemR i h3)
          · have h4 := List.count_eq_zero.2 h3
            by_cases h5 : i ∈ rf x
            · exact hR2 _ (h.refP x hpend i h5)
            · have h6 := List.count_eq_zero.2 h5
              have h7 : c.sh.log.count (.fail (i, false)) ≤ s'.log.count (.fail (i, false)) := by
                rcases k3 with k3 | ⟨v, k3, -⟩ <;> rw [k3]
                · exact Nat.le_refl _
                · rw [List.count_append]; omega
              omega
        · exact hR2 _ (h.refP y hy i hi)
      have hrefL : (∀ e ∈ R, e ∈ lin (ls ++ [.run k b])) → (∀ e ∈ lin ls, e ∈ lin (ls ++ [.run k b])) →
          ∀ i, .fail (i, false) ∈ s'.log → (.attempt (i, false), .tryLock (i, false), .refused) ∈ lin (ls ++ [.run k b]) := by
        intro hR1 hR2 i hi
        have h1 := List.count_pos_iff.2 hi
        have h2 := hrf i
        by_cases h3 : i ∈ refusals c.sh x
        · exact hR1 _ (hmemR i h3)
        · have h4 := List.count_eq_zero.2 h3
          by_cases h5 : i ∈ rf x
          · exact hR2 _ (h.refP x hpend i h5)
          · have h6 := List.count_eq_zero.2 h5
            exact hR2 _ (h.refL i (List.count_pos_iff.1 (by omega)))
      have hunl : (∀ v ∈ c.sh.log, v ∈ s'.log) → ∀ (k' : Nat) t, (envs (ls ++ [.run k b]))[k']? = some (Act.unlock t) →
          (∃ y q, (c.acts.set k (p ++ r))[k']? = some (y :: q) ∧ unlOf y = some t) ∨ ∃ v ∈ s'.log, v.gives = some t := by
        intro hsub k' t hk'
        rw [envs_snoc_run] at hk'
        rcases h.unl k' t hk' with ⟨y, q, h1, h2⟩ | ⟨w, h1, h2⟩
        · by_cases hkk : k' = k
          · subst hkk
            rw [hx] at h1; simp at h1; obtain ⟨rfl, rfl⟩ := h1
            have hkl : k' < c.acts.length := (List.getElem?_eq_some_iff.1 hx).1
            rcases k2 t h2 with ⟨y, q, rfl, h3⟩ | ⟨v, h3, h4⟩
            · exact .inl ⟨y, q ++ r, by simp [hkl], h3⟩
            · exact .inr ⟨v, by rw [h3]; simp, h4⟩
          · exact .inl ⟨y, q, by rw [List.getElem?_set_ne (by omega)]; exact h1, h2⟩
        · exact .inr ⟨w, hsub w h1, h2⟩
      rcases k3 with k3 | ⟨v, k3, k4, k5, k6, k7⟩
      · have hd : (s'.log.drop c.sh.log.length).flatMap (effect c.sh.log) = [] := by rw [k3]; simp
        rw [hd, List.nil_append] at hlin
        have hR1 : ∀ e ∈ R, e ∈ lin (ls ++ [.run k b]) := by rw [hlin]; exact fun e he => List.mem_append_right _ he
        have hR2 : ∀ e ∈ lin ls, e ∈ lin (ls ++ [.run k b]) := by rw [hlin]; exact fun e he => List.mem_append_left _ he
        constructor
        · rw [hlin]; simp only [k3]; exact h.acc.append hRacc
        · intro t
          rw [hlin]; simp only [k3, List.map_append, List.count_append, h.att t, hRc t]
          have h1 := hws t
          have h2 := hrf t.1
          rw [k3] at h2
          split <;> omega
        · intro t
          rw [hlin]; simp only [k3, List.map_append, List.count_append, hRr t, Nat.add_zero]
          exact h.rel t
        · simp only [k3]; intro l1 v l2 e1 e hm; exact hR2 e (h.has l1 v l2 e1 e hm)
        · exact hrefP hR1 hR2
        · exact hrefL hR1 hR2
        · intro e hm
          rw [hlin] at hm
          simp only [k3]
          rcases List.mem_append.1 hm with hm | hm
          · exact h.inv e hm
          · exact hRi e hm
        · exact hunl (by rw [k3]; exact fun _ h => h)
      · have hd : (s'.log.drop c.sh.log.length).flatMap (effect c.sh.log) = effect c.sh.log v := by rw [k3]; simp
        rw [hd] at hlin
        have hleg : legal c.sh.log v := by
          have := hI'.legal
          simp only [k3] at this
          exact (Hist.snoc.1 this).2
        have hR1 : ∀ e ∈ R, e ∈ lin (ls ++ [.run k b]) := by
          rw [hlin]; exact fun e he => List.mem_append_right _ (List.mem_append_right _ he)
        have hR2 : ∀ e ∈ lin ls, e ∈ lin (ls ++ [.run k b]) := by rw [hlin]; exact fun e he => List.mem_append_left _ he
        -- an instruction does not do both
        have hboth : R = [] ∨ effect c.sh.log v = [] := by
          rw [← hR]
          cases x with
          | tryLockS j =>
            simp only [exec, Out.ok.injEq] at he; obtain ⟨rfl, rfl⟩ := he
            simp at k3
          | lsT j f w =>
            cases f with
            | true => exact .inl rfl
            | false =>
              simp only [refusals]
              simp only [exec] at he
              split
              · rename_i h3
                repeat' split at he
                all_goals simp only [Out.ok.injEq] at he
                all_goals obtain ⟨rfl, rfl⟩ := he
                all_goals clear hlin hrefP hrefL hunl hI hI' hK hA
                all_goals first
                  | (exfalso; rename_i g; exact h3.2.1 g)
                  | (exfalso; simp at k3; done)
                  | (exfalso; refine h3.1 ?_; simp only [refuses, decide_eq_true_eq]; exact ⟨by assumption, by assumption⟩)
              · exact .inl rfl
          | _ => exact .inl rfl
        have hacc : Accepts seq (spec c.sh.log).own (effect c.sh.log v ++ R) ((spec c.sh.log).step v).own := by
          rcases hboth with h1 | h1
          · rw [h1, List.append_nil]; exact accepts_event hleg
          · have h2 := accepts_event hleg
            rw [h1] at h2 ⊢
            have h2 : (spec c.sh.log).own = ((spec c.sh.log).step v).own := h2
            rw [← h2]; exact hRacc
        constructor
        · rw [hlin]; simp only [k3, spec_append]; exact h.acc.append hacc
        · intro t
          rw [hlin]; simp only [k3, List.map_append, List.count_append, h.att t, hRc t, wins_append, count_attempt]
          have h1 := hws t
          have h2 := hrf t.1
          rw [k3, List.count_append] at h2
          obtain ⟨i, e⟩ := t
          cases e with
          | true =>
            have h3 : [v].count (.fail (i, true)) = if v = .fail (i, true) then 1 else 0 := by
              rw [List.count_singleton]; simp
            rw [h3]
            simp
            split <;> omega
          | false => simp at h1 h2 ⊢; omega
        · intro t
          rw [hlin]; simp only [k3, List.map_append, List.count_append, hRr t, wins_append, spec_append]
          have h1 := count_release t hleg
          have h2 := h.rel t
          omega
        · simp only [k3]
          exact has_snoc h.has hR2 (by rw [hlin]; exact fun e he => List.mem_append_right _ (List.mem_append_left _ he))
        · exact hrefP hR1 hR2
        · exact hrefL hR1 hR2
        · intro e hm
          rw [hlin] at hm
          simp only [k3]
          refine invoked_mono ?_
          rcases List.mem_append.1 hm with hm | hm
          · exact h.inv e hm
          rcases List.mem_append.1 hm with hm | hm
          · have known : ∀ t, Known c.sh.log (t, false) → invoked c.sh.log (.attempt t) (opOf c.sh.log t) := by
              rintro t (h1 | ⟨-, h1⟩)
              · exact opOf_invoked (.inr h1)
              · exact opOf_invoked (.inl h1)
            cases v with
            | fast t =>
              simp only [effect, List.mem_singleton] at hm; subst hm
              obtain ⟨f, hf⟩ := k5 t rfl
              refine known t ?_
              rcases hK.pend x hpend _ hf with h1 | ⟨-, h1⟩
              · exact .inl h1
              · exact .inr ⟨rfl, h1⟩
            | fail t =>
              obtain ⟨i, e⟩ := t
              cases e with
              | false => simp [effect] at hm
              | true =>
                simp only [effect, List.mem_singleton] at hm; subst hm
                rcases hK.pend x hpend _ (k7 _ rfl) with h1 | ⟨h1, -⟩
                · exact ⟨rfl, h1⟩
                · simp at h1
            | rel t =>
              simp only [effect, List.mem_singleton] at hm; subst hm
              exact ⟨rfl, hA.pend x hpend t (k4 t rfl)⟩
            | grant t ts =>
              simp only [effect, List.mem_cons, List.mem_map] at hm
              rcases hm with rfl | ⟨u, hu, rfl⟩
              · exact ⟨rfl, hA.pend x hpend t (k4 t rfl)⟩
              · exact known u (hK.wt u (k6 t ts rfl u hu))
            | _ => simp [effect] at hm
          · exact hRi e hm
        · exact hunl (by rw [k3]; exact fun _ h => List.mem_append_left _ h)
    · simp at hs
    · rename_i he
      exact absurd he (no_fault hI hx b)
  · simp at hs

theorem tie {ls : List (Lbl mach)} {c : Conf mach} (hr : mach.runs (mach.init init) ls = some c) : Tie ls c := by
  refine runs_ind (M := mach) (P := Tie) ?_ ?_ hr
  · constructor <;> simp [lin, linRun, Mach.init, init, spec, wins, Pending, envs, Accepts]
  · intro ls c l c' h1 h2 h3
    cases l with
    | env a => exact tie_env h1 h2 h3
    | run k b => exact tie_run h1 h2 h3

theorem rf_le_pre (i : Id) (acts : List (List Instr)) : ws (cw rf (· == i)) acts ≤ ws (cw pre (· == i)) acts := by
  apply ws_mono
  intro x
  cases x with
  | lsT j f v => cases f <;> simp only [cw, rf, pre] <;> (try split) <;> simp
  | _ => simp [cw, rf]

/-- **C98** (shared_mutex). The shared mutex is strongly linearizable with respect to the set of holders: all calls of `async_lock`,
`async_lock_shared`, `try_lock`, `try_lock_shared`, `unlock` and `unlock_shared` that have returned appear to take effect one after
the other, at a moment between invocation and return, and the order is never revised. -/
theorem C98_shared_mutex_linearizable : StronglyLinearizable (M := mach) init watch seq [] := by
  refine ⟨lin, fun ls ls' => linRun_prefix at' _ ls ls', ?_⟩
  intro ls c hr
  have hc : Reach mach init c := .of_runs .init hr
  have h := tie hr
  have f := reach_facts hc
  have hO := reach_one hc
  have hle : ∀ t, (wins c.sh.log).count t + c.sh.log.count (.fail t) +
      (if t.2 then 0 else ws (cw rf (· == t.1)) c.acts) ≤ 1 := by
    intro t
    have h1 := hO t.1
    have h2 := count_settled t c.sh.log
    have h3 := count_wins t c.sh.log
    have h4 := congrArg (List.count t) (queue_eq f.legal)
    have h5 := rf_le_pre t.1 c.acts
    rw [List.count_append] at h4
    have h6 : (setts c.sh.log).count t.1 = (setts c.sh.log).countP (· == t.1) := rfl
    split at h1 <;> split <;> omega
  refine ⟨⟨_, h.acc⟩, ?_, fun e he => ⟨c, hr, h.inv e he⟩, ?_⟩
  · rw [List.nodup_iff_count]
    intro x
    cases x with
    | attempt t => rw [h.att t]; exact hle t
    | release t =>
      have := h.rel t
      have := hle t
      omega
  · rintro x r ⟨c', hr', hret⟩
    rw [hr] at hr'; simp at hr'; subst hr'
    cases x with
    | attempt t =>
      cases r with
      | got =>
        obtain ⟨l1, l2, e⟩ := List.append_of_mem (show .acq t ∈ c.sh.log from hret)
        have hw : t ∈ wins c.sh.log := by
          have := win_of_acq hc e
          rw [e, wins, app_flat]
          exact List.mem_append_left _ this
        rcases mem_wins.1 hw with h1 | h1
        · obtain ⟨l1, l2, e⟩ := List.append_of_mem h1
          exact ⟨_, h.has l1 _ l2 e _ (by simp only [effect, List.mem_singleton]; rfl)⟩
        · obtain ⟨u, ts, h1, h2⟩ := mem_grants.1 h1
          obtain ⟨l1, l2, e⟩ := List.append_of_mem h1
          exact ⟨_, h.has l1 _ l2 e _ (List.mem_cons_of_mem _ (List.mem_map.2 ⟨t, h2, rfl⟩))⟩
      | refused =>
        have hret : .fail t ∈ c.sh.log := hret
        obtain ⟨i, e⟩ := t
        cases e with
        | true =>
          obtain ⟨l1, l2, e⟩ := List.append_of_mem hret
          exact ⟨_, h.has l1 _ l2 e _ (by simp only [effect, List.mem_singleton]; rfl)⟩
        | false => exact ⟨_, h.refL i hret⟩
      | ret => exact hret.elim
    | release t =>
      cases r with
      | ret =>
        obtain ⟨k, h1, h2⟩ := hret
        rcases h.unl k t h1 with ⟨x, r, h3, -⟩ | ⟨v, h3, h4⟩
        · rw [h2] at h3; simp at h3
        · obtain ⟨l1, l2, e⟩ := List.append_of_mem h3
          cases v <;> simp [Ev.gives] at h4 <;> subst h4
          · exact ⟨_, h.has l1 _ l2 e _ (by simp only [effect, List.mem_singleton]; rfl)⟩
          · exact ⟨_, h.has l1 _ l2 e _ (by simp only [effect, List.mem_cons]; exact .inl rfl)⟩
      | _ => exact hret.elim

/-- **C98** (shared_mutex), in the classical form. -/
theorem C98_shared_mutex_real_time : Linearizable (M := mach) init watch seq [] := C98_shared_mutex_linearizable.linearizable

/-! An execution in which a reader gets the mutex, a writer waits, a `try_lock_shared` fails because of it and takes effect when it
reads `st_`, although the reader unlocks before the call returns. -/

def linDemo : List (Lbl mach) :=
  [.env (.lock (0, false)), .run 0 true, .run 0 true, .run 0 true,
    .env (.lock (1, true)), .run 1 true, .run 1 true, .run 1 true, .run 1 true, .run 1 true, .run 1 true,
    .env (.tryLock (2, false)), .run 2 true,
    .env (.unlock (0, false)), .run 3 true, .run 3 true, .run 3 true, .run 3 true, .run 3 true, .run 3 true, .run 3 true, .run 2 true]

example : (mach.runs (mach.init init) linDemo).map (fun c => (c.bad, c.acts.all (·.isEmpty))) = some (false, true) := by decide
example : lin linDemo = [(.attempt (0, false), .lock (0, false), .got), (.attempt (2, false), .tryLock (2, false), .refused),
    (.release (0, false), .unlock (0, false), .ret), (.attempt (1, true), .lock (1, true), .got)] := by decide

end Verif.SharedMutex
