import Verif.Linear.Log
import Verif.Mutex.Order

/-!
# C98, `mutex`: `async_lock`, `try_lock` and `unlock` behave like operations on a variable that holds the owner

An `async_lock` that waits takes effect when it gets the mutex, that is directly after the `unlock` that hands it over.
-/

namespace Verif.Mutex

/-- Calls: an attempt to lock, and the `unlock` of the acquisition. -/
inductive Call where
  | attempt (i : Id)
  | release (i : Id)
deriving DecidableEq

/-- Operations of the sequential mutex; the number identifies the acquisition. -/
inductive Op where
  | lock (i : Id)
  | tryLock (i : Id)
  | unlock (i : Id)
deriving DecidableEq

/-- Results: the attempt succeeded, `try_lock` returned false, `unlock` returned. -/
inductive Res where
  | got
  | refused
  | ret
deriving DecidableEq

/-- The sequential mutex, a variable with the owner. `async_lock` and a successful `try_lock` need a free mutex. `try_lock` fails
only if somebody owns the mutex. `unlock` ends the ownership of the owner. -/
def seq : Option Id → Op → Res → Option Id → Prop
  | q, .lock i, .got, q' => q = none ∧ q' = some i
  | q, .tryLock i, .got, q' => q = none ∧ q' = some i
  | q, .tryLock _, .refused, q' => q ≠ none ∧ q' = q
  | q, .unlock i, .ret, q' => q = some i ∧ q' = none
  | _, _, _, _ => False

/-- Which calls were invoked: read off the history of the user's calls. -/
def invoked (log : List Ev) : Call → Op → Prop
  | .attempt i, .lock j => i = j ∧ .lock i ∈ log
  | .attempt i, .tryLock j => i = j ∧ .tryLock i ∈ log
  | .release i, .unlock j => i = j ∧ .unlock i ∈ log
  | _, _ => False

/-- Which calls have returned: the receiver of the `async_lock` was completed, `try_lock` returned true or false, the activity that
calls `unlock` is over. -/
def returned (ls : List (Lbl mach)) (c : Conf mach) : Call → Res → Prop
  | .attempt i, .got => .acq i ∈ c.sh.log
  | .attempt i, .refused => .fail i ∈ c.sh.log
  | .release i, .ret => ∃ k : Nat, (envs ls)[k]? = some (.unlock i) ∧ c.acts[k]? = some []
  | _, _ => False

/-- How to watch a mutex. -/
def watch : Watch mach Call Op Res where
  invoked ls x o := ∃ c, mach.runs (mach.init init) ls = some c ∧ invoked c.sh.log x o
  returned ls x r := ∃ c, mach.runs (mach.init init) ls = some c ∧ returned ls c x r

/-! ## The order -/

/-- The operation of an attempt. -/
def opOf (log : List Ev) (i : Id) : Op := if .tryLock i ∈ log then .tryLock i else .lock i

/-- Calls that take effect at an event. -/
def effect (before : List Ev) : Ev → List (Call × Op × Res)
  | .fast i => [(.attempt i, opOf before i, .got)]
  | .fail i => [(.attempt i, .tryLock i, .refused)]
  | .rel i => [(.release i, .unlock i, .ret)]
  | .grant i j => [(.release i, .unlock i, .ret), (.attempt j, opOf before j, .got)]
  | _ => []

theorem seq_lock (log : List Ev) (i : Id) : seq none (opOf log i) .got (some i) := by
  simp only [opOf]; split <;> simp [seq]

theorem accepts_log {log : List Ev} (h : Hist legal log) : Accepts seq none (effects effect log) (spec log).owner := by
  induction log using List.reverseRecOn with
  | nil => simp [Accepts, spec]
  | append_singleton l v ih =>
    rw [Hist.snoc] at h
    rw [effects_snoc, spec_append]
    refine (ih h.1).append ?_
    have hv := h.2
    cases v <;> simp only [legal, effect, Spec.step] at hv ⊢ <;> try exact rfl
    · rw [hv.1]; exact ⟨_, seq_lock _ _, rfl⟩
    · rw [hv.1]; exact ⟨none, ⟨rfl, rfl⟩, rfl⟩
    · rw [hv.1]; exact ⟨none, ⟨rfl, rfl⟩, _, seq_lock _ _, rfl⟩
    · exact ⟨_, ⟨hv, rfl⟩, rfl⟩

/-- How often the attempt takes effect. -/
theorem count_attempt (i : Id) (log : List Ev) :
    ((effects effect log).map (·.1)).count (.attempt i) = (wins log).count i + log.count (.fail i) := by
  induction log using List.reverseRecOn with
  | nil => simp [wins]
  | append_singleton l v ih =>
    rw [effects_snoc, List.map_append, List.count_append, ih, wins_append, List.count_append, List.count_append]
    cases v <;> simp [effect, List.count_cons] <;> grind

theorem count_settled (i : Id) (l : List Ev) : (enqs l).count i + l.count (.fast i) + l.count (.fail i) ≤ settled i l := by
  induction l using List.reverseRecOn with
  | nil => simp [enqs, settled]
  | append_singleton l v ih =>
    rw [enqs_append, settled_append, List.count_append, List.count_append, List.count_append]
    cases v <;> simp [decides, List.count_singleton] <;> grind

theorem count_wins (i : Id) (l : List Ev) : (wins l).count i = l.count (.fast i) + (grants l).count i := by
  induction l using List.reverseRecOn with
  | nil => simp [wins, grants]
  | append_singleton l v ih =>
    rw [wins_append, grants_append, List.count_append, List.count_append, List.count_append]
    cases v <;> simp [List.count_singleton] <;> grind

/-- How often the `unlock` takes effect. -/
theorem count_release (i : Id) {log : List Ev} (h : Hist legal log) :
    ((effects effect log).map (·.1)).count (.release i) + (if (spec log).owner = some i then 1 else 0) = (wins log).count i := by
  induction log using List.reverseRecOn with
  | nil => simp [wins, spec]
  | append_singleton l v ih =>
    rw [Hist.snoc] at h
    have ih := ih h.1
    have hv := h.2
    rw [effects_snoc, List.map_append, List.count_append, wins_append, List.count_append, spec_append]
    cases v <;> simp only [legal, Spec.step] at hv ⊢ <;> simp [effect, List.count_cons] <;> grind

theorem wins_le {log : List Ev} (f : Facts log) (i : Id) : (wins log).count i + log.count (.fail i) ≤ 1 := by
  have h1 := f.one i
  have h2 := count_settled i log
  have h3 := count_wins i log
  have h4 := congrArg (List.count i) (queue_eq f.legal)
  rw [List.count_append] at h4
  omega

theorem once {log : List Ev} (f : Facts log) : ((effects effect log).map (·.1)).Nodup := by
  rw [List.nodup_iff_count]
  intro x
  cases x with
  | attempt i => rw [count_attempt]; exact wins_le f i
  | release i =>
    have := count_release i f.legal
    have := wins_le f i
    omega

theorem opOf_invoked {log : List Ev} {i : Id} (h : .lock i ∈ log ∨ .tryLock i ∈ log) :
    invoked log (.attempt i) (opOf log i) := by
  simp only [opOf]
  split
  · rename_i h'; exact ⟨rfl, h'⟩
  · rename_i h'; exact ⟨rfl, h.resolve_right h'⟩

theorem invoked_mono {l1 l2 : List Ev} {x : Call} {o : Op} (h : invoked l1 x o) : invoked (l1 ++ l2) x o := by
  cases x <;> cases o <;> simp only [invoked] at h ⊢ <;> try exact h
  all_goals exact ⟨h.1, List.mem_append_left _ h.2⟩

/-- Who gives up the mutex has called `unlock`. -/
structure Asked (s : St) (acts : List (List Instr)) : Prop where
  pend : ∀ i, Pending acts (.unlock i) ∨ Pending acts (.casU i) ∨ Pending acts (.acqU i) ∨ Pending acts (.popU i) → .unlock i ∈ s.log
  rel : ∀ i, .rel i ∈ s.log → .unlock i ∈ s.log
  grant : ∀ i j, .grant i j ∈ s.log → .unlock i ∈ s.log

theorem reach_asked {c : Conf mach} (h : Reach mach init c) : Asked c.sh c.acts := by
  refine Reach.inv (P := Asked) ?_ ?_ ?_ h
  · exact ⟨by simp [Pending], by simp [init], by simp [init]⟩
  · rintro s acts a s' p ⟨h1, h2, h3⟩ he
    have hp : ∀ y, Pending (acts ++ [p]) y → y ∈ p ∨ Pending acts y := fun y => pending_append
    cases a <;> simp only [env] at he <;> split at he <;>
      simp only [Option.some.injEq, Prod.mk.injEq, reduceCtorEq] at he <;> obtain ⟨rfl, rfl⟩ := he <;>
      (constructor <;> intro j <;> simp <;> grind)
  · rintro s acts k x r b s' p ⟨h1, h2, h3⟩ hk he
    have hp : ∀ y, Pending (acts.set k (p ++ r)) y → y ∈ p ∨ Pending acts y :=
      fun y => pending_set hk
    have ht := pending_top hk
    cases x with
    | chk j v =>
      cases v <;> simp only [exec] at he <;> (repeat' split at he) <;>
      simp only [Out.ok.injEq] at he <;> obtain ⟨rfl, rfl⟩ := he <;>
      (constructor <;> intro j <;> (try simp) <;> grind)
    | _ =>
      simp only [exec] at he <;> (repeat' split at he) <;>
      simp only [Out.ok.injEq, reduceCtorEq] at he <;> obtain ⟨rfl, rfl⟩ := he <;>
      (constructor <;> intro j <;> (try simp) <;> grind)

theorem grow {c c' : Conf mach} {l : Lbl mach} (hs : mach.step c l = some c') : c.sh.log <+: c'.sh.log := by
  cases l with
  | env a =>
    simp only [Mach.step] at hs
    split at hs
    · simp at hs
    split at hs
    · rename_i s' p he
      simp only [Option.some.injEq] at hs; subst hs
      cases a <;> simp only [env] at he <;> split at he <;>
        simp only [Option.some.injEq, Prod.mk.injEq, reduceCtorEq] at he <;> obtain ⟨rfl, rfl⟩ := he <;> exact ⟨_, rfl⟩
    · simp at hs
  | run k b =>
    simp only [Mach.step] at hs
    split at hs
    · simp at hs
    split at hs
    · rename_i x r hx
      split at hs
      · rename_i s' p he
        simp only [Option.some.injEq] at hs; subst hs
        have he : exec c.sh x b = .ok s' p := he
        cases x with
        | chk j v =>
          cases v <;> simp only [exec] at he <;> (repeat' split at he) <;>
          simp only [Out.ok.injEq] at he <;> obtain ⟨rfl, rfl⟩ := he <;>
          first | exact List.prefix_rfl | exact ⟨_, rfl⟩
        | _ =>
          simp only [exec] at he <;> (repeat' split at he) <;>
          simp only [Out.ok.injEq, reduceCtorEq] at he <;> obtain ⟨rfl, rfl⟩ := he <;>
          first | exact List.prefix_rfl | exact ⟨_, rfl⟩
      · simp at hs
      · simp only [Option.some.injEq] at hs; subst hs; exact List.prefix_rfl
    · simp at hs

/-- The next instruction belongs to `unlock` of `i`, which has not taken effect. -/
def unlocking (i : Id) : List Instr → Prop
  | x :: _ => x = .unlock i ∨ x = .casU i ∨ x = .acqU i ∨ x = .popU i
  | [] => False

/-- A call of `unlock` has taken effect or is going to. -/
theorem unlock_effect {ls : List (Lbl mach)} {c : Conf mach} (h : mach.runs (mach.init init) ls = some c) :
    ∀ (k : Nat) (i : Id), (envs ls)[k]? = some (Act.unlock i) →
      (∃ a, c.acts[k]? = some a ∧ unlocking i a) ∨ .rel i ∈ c.sh.log ∨ ∃ j, .grant i j ∈ c.sh.log := by
  refine runs_ind (M := mach) (P := fun ls c => ∀ (k : Nat) (i : Id), (envs ls)[k]? = some (Act.unlock i) →
      (∃ a, c.acts[k]? = some a ∧ unlocking i a) ∨ .rel i ∈ c.sh.log ∨ ∃ j, .grant i j ∈ c.sh.log) (by simp [envs]) ?_ h
  intro ls c l c' hr ih hs k i hk
  have hlen := envs_length hr
  have hg := grow hs
  cases l with
  | env a =>
    simp only [Mach.step] at hs
    split at hs
    · simp at hs
    split at hs
    · rename_i s' p he
      simp only [Option.some.injEq] at hs; subst hs
      rw [envs_snoc_env] at hk
      obtain ⟨t, ht⟩ := hg
      by_cases hlt : k < (envs ls).length
      · rw [List.getElem?_append_left hlt] at hk
        rcases ih k i hk with ⟨a', h1, h2⟩ | h1 | ⟨j, h1⟩
        · exact .inl ⟨a', by simp only; rw [List.getElem?_append_left (by omega)]; exact h1, h2⟩
        · exact .inr (.inl (by rw [← ht]; exact List.mem_append_left _ h1))
        · exact .inr (.inr ⟨j, by rw [← ht]; exact List.mem_append_left _ h1⟩)
      · have hkl : k = (envs ls).length := by
          have := (List.getElem?_eq_some_iff.1 hk).1
          simp at this; omega
        subst hkl
        simp at hk; subst hk
        simp only [env] at he
        split at he
        · simp only [Option.some.injEq, Prod.mk.injEq] at he; obtain ⟨rfl, rfl⟩ := he
          exact .inl ⟨[.unlock i], by simp [hlen], .inl rfl⟩
        · simp at he
    · simp at hs
  | run k' b =>
    rw [envs_snoc_run] at hk
    simp only [Mach.step] at hs
    split at hs
    · simp at hs
    split at hs
    · rename_i x r hx
      split at hs
      · rename_i s' p he
        simp only [Option.some.injEq] at hs; subst hs
        obtain ⟨t, ht⟩ := hg
        rcases ih k i hk with ⟨a', h1, h2⟩ | h1 | ⟨j, h1⟩
        · by_cases hkk : k = k'
          · subst hkk
            rw [hx] at h1; simp at h1; subst h1
            have hkl : k < c.acts.length := (List.getElem?_eq_some_iff.1 hx).1
            have he : exec c.sh x b = .ok s' p := he
            simp only [unlocking] at h2
            rcases h2 with rfl | rfl | rfl | rfl <;> simp only [exec] at he <;> (repeat' split at he) <;>
              simp only [Out.ok.injEq, reduceCtorEq] at he <;> obtain ⟨rfl, rfl⟩ := he <;>
              simp [hkl, unlocking]
          · exact .inl ⟨a', by simp only; rw [List.getElem?_set_ne (by omega)]; exact h1, h2⟩
        · exact .inr (.inl (by rw [← ht]; exact List.mem_append_left _ h1))
        · exact .inr (.inr ⟨j, by rw [← ht]; exact List.mem_append_left _ h1⟩)
      · simp at hs
      · simp only [Option.some.injEq] at hs; subst hs
        exact ih k i hk
    · simp at hs

theorem opOf_mono {l1 l2 : List Ev} {i : Id} (h : .lock i ∈ l1 ∨ .tryLock i ∈ l1)
    (hx : .lock i ∈ l1 ++ l2 → .tryLock i ∉ l1 ++ l2) : opOf (l1 ++ l2) i = opOf l1 i := by
  simp only [opOf]
  by_cases h1 : .tryLock i ∈ l1
  · simp [h1]
  · rw [if_neg (hx (List.mem_append_left _ (h.resolve_right h1))), if_neg h1]

theorem settled_of_win {log : List Ev} (f : Facts log) {i : Id} (h : i ∈ wins log) : .lock i ∈ log ∨ .tryLock i ∈ log := by
  apply Classical.byContradiction
  intro hn
  rw [not_or] at hn
  have h1 := f.beg i hn.1 hn.2
  have h2 := count_settled i log
  have h3 := count_wins i log
  have h4 := congrArg (List.count i) (queue_eq f.legal)
  rw [List.count_append] at h4
  have := List.count_pos_iff.2 h
  omega

/-- **C98** (mutex). The mutex is strongly linearizable with respect to a variable that holds the owner: all calls of `async_lock`,
`try_lock` and `unlock` that have returned appear to take effect one after the other, at a moment between invocation and
return, and the order is never revised. -/
theorem C98_mutex_linearizable : StronglyLinearizable (M := mach) init watch seq none := by
  refine StronglyLinearizable.of_log (M := mach) (fun s : St => s.log) effect (fun c l c' hs => grow hs) ?_
  intro ls c hr
  have hc : Reach mach init c := .of_runs .init hr
  have f := reach_facts hc
  have hk := reach_kind hc
  have ha := reach_asked hc
  refine ⟨⟨_, accepts_log f.legal⟩, once f, ?_, ?_⟩
  · intro e he
    refine ⟨c, hr, ?_⟩
    obtain ⟨l1, v, l2, e1, e2⟩ := of_mem_effects he
    have hmem : v ∈ c.sh.log := by simp only [e1]; simp
    have win : ∀ i, i ∈ wins (l1 ++ [v]) → (∀ j, v ≠ .lock j ∧ v ≠ .tryLock j) →
        invoked c.sh.log (.attempt i) (opOf l1 i) := by
      intro i hi hv
      have hp := reach_prefixes (Q := Facts) (fun c hc => reach_facts hc) hc
      have hf : Facts (l1 ++ [v]) := by
        cases l2 with
        | nil => rw [← e1]; exact f
        | cons w l2 => exact hp _ w l2 (by simp only [e1]; simp)
      have hb : .lock i ∈ l1 ∨ .tryLock i ∈ l1 := by
        have := settled_of_win hf hi
        simp only [List.mem_append, List.mem_singleton] at this
        rcases this with (h | h) | (h | h)
        · exact .inl h
        · exact absurd h.symm (hv i).1
        · exact .inr h
        · exact absurd h.symm (hv i).2
      have he : c.sh.log = l1 ++ (v :: l2) := e1
      have hx := hk.excl i
      rw [he] at hx ⊢
      rw [← opOf_mono hb hx]
      exact opOf_invoked (hb.imp (List.mem_append_left _) (List.mem_append_left _))
    cases v <;> simp only [effect, List.mem_cons, List.not_mem_nil, or_false] at e2
    · subst e2; exact win _ (by rw [wins_append]; simp) (by simp)
    · subst e2; exact ⟨rfl, ha.rel _ hmem⟩
    · rcases e2 with rfl | rfl
      · exact ⟨rfl, ha.grant _ _ hmem⟩
      · exact win _ (by rw [wins_append]; simp) (by simp)
    · subst e2; exact ⟨rfl, hk.fail _ hmem⟩
  · rintro x r ⟨c', hr', hret⟩
    rw [hr] at hr'; simp at hr'; subst hr'
    cases x with
    | attempt i =>
      cases r with
      | got =>
        have hret : .acq i ∈ c.sh.log := hret
        have hw : i ∈ wins c.sh.log := by
          obtain ⟨l1, l2, e⟩ := List.append_of_mem hret
          have := wins_of_acq hc e
          rw [e]
          exact wins_mono (by rw [← this]; simp)
        rcases mem_wins hw with h | h
        · obtain ⟨l1, l2, e⟩ := List.append_of_mem h
          exact ⟨_, by rw [e]; exact mem_effects (by simp only [effect, List.mem_singleton]; rfl)⟩
        · simp only [grants, List.mem_filterMap] at h
          obtain ⟨v, hv, e⟩ := h
          cases v <;> simp at e
          subst e
          obtain ⟨l1, l2, e⟩ := List.append_of_mem hv
          exact ⟨_, by rw [e]; exact mem_effects (by simp only [effect, List.mem_cons]; exact .inr (.inl rfl))⟩
      | refused =>
        obtain ⟨l1, l2, e⟩ := List.append_of_mem (show .fail i ∈ c.sh.log from hret)
        exact ⟨_, by rw [e]; exact mem_effects (by simp only [effect, List.mem_singleton]; rfl)⟩
      | ret => exact hret.elim
    | release i =>
      cases r with
      | ret =>
        obtain ⟨k, h1, h2⟩ := hret
        rcases unlock_effect hr k i h1 with ⟨a, h3, h4⟩ | h3 | ⟨j, h3⟩
        · rw [h2] at h3; simp at h3; subst h3; exact h4.elim
        · obtain ⟨l1, l2, e⟩ := List.append_of_mem h3
          exact ⟨_, by rw [e]; exact mem_effects (by simp only [effect, List.mem_singleton]; rfl)⟩
        · obtain ⟨l1, l2, e⟩ := List.append_of_mem h3
          exact ⟨_, by rw [e]; exact mem_effects (by simp only [effect, List.mem_cons]; exact .inl rfl)⟩
      | _ => exact hret.elim

/-- **C98** (mutex), in the classical form: calls that do not overlap keep their order. -/
theorem C98_mutex_real_time : Linearizable (M := mach) init watch seq none := C98_mutex_linearizable.linearizable

/-! An execution in which an `async_lock` waits, a `try_lock` fails, and `unlock` hands the mutex over. -/

def linDemo : List (Lbl mach) :=
  [.env (.tryLock 0), .run 0 true, .run 0 true, .env (.lock 1), .run 1 true, .run 1 true, .run 1 true, .run 1 true, .run 1 true,
    .run 1 true, .env (.tryLock 2), .run 2 true, .env (.unlock 0), .run 3 true, .run 3 true, .run 3 true, .run 3 true, .run 3 true,
    .run 3 true]

example : (mach.runs (mach.init init) linDemo).map (fun c => (c.bad, c.acts.all (·.isEmpty), effects effect c.sh.log)) =
    some (false, true, [(.attempt 0, .tryLock 0, .got), (.attempt 2, .tryLock 2, .refused), (.release 0, .unlock 0, .ret),
      (.attempt 1, .lock 1, .got)]) := by decide

end Verif.Mutex
