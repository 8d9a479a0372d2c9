import Verif.Mutex.Proof
import Verif.Termination
import Mathlib.Data.List.Induction

/-! # Helper lemmas about the order of acquisitions -/

namespace Verif.Mutex

def preId : Instr → Option Id
  | .lock i => some i
  | .tryLock i => some i
  | .acqM i => some i
  | .ld i => some i
  | .chk i _ => some i
  | .push i => some i
  | _ => none

def preW (i : Id) (x : Instr) : Nat := if preId x = some i then 1 else 0

def decides (i : Id) : Ev → Bool
  | .enq j => j == i
  | .fast j => j == i
  | .fail j => j == i
  | _ => false

def settled (i : Id) (log : List Ev) : Nat := log.countP (decides i)

@[simp] theorem settled_append (i : Id) (l : List Ev) (v : Ev) :
    settled i (l ++ [v]) = settled i l + if decides i v then 1 else 0 := by
  simp [settled, List.countP_cons]

/-- Every attempt takes one way only: queued, taken at once, or failed. -/
def One (s : St) (acts : List (List Instr)) : Prop :=
  ∀ i, ws (preW i) acts + settled i s.log = if s.used i then 1 else 0

theorem one_run {s : St} {acts : List (List Instr)} (h : One s acts) {k : Nat} {x : Instr}
    {r p : List Instr} (hk : acts[k]? = some (x :: r)) {b : Bool} {s' : St}
    (he : exec s x b = .ok s' p) : One s' (acts.set k (p ++ r)) := by
  intro i
  have h := h i
  have e := ws_set (preW i) p hk
  generalize acts.set k (p ++ r) = acts' at *
  cases x with
  | chk j v =>
    cases v <;> simp only [exec] at he <;> (repeat' split at he) <;>
    simp only [Out.ok.injEq] at he <;> obtain ⟨rfl, rfl⟩ := he <;>
    simp only [preW, preId, wl_cons, wl_nil, settled_append, decides, Option.some.injEq, reduceCtorEq,
      if_false, beq_iff_eq] at e h ⊢ <;> (try (split at e)) <;> simp_all <;> omega
  | _ =>
    simp only [exec] at he <;> (repeat' split at he) <;>
    simp only [Out.ok.injEq, reduceCtorEq] at he <;> obtain ⟨rfl, rfl⟩ := he <;>
    simp only [preW, preId, wl_cons, wl_nil, settled_append, decides, Option.some.injEq, reduceCtorEq,
      if_false, beq_iff_eq, Bool.false_eq_true] at e h ⊢ <;> (try (split at e)) <;> simp_all <;> omega

theorem one_env {s : St} {acts : List (List Instr)} (h : One s acts) {a : Act} {s' : St}
    {p : List Instr} (he : env s acts a = some (s', p)) : One s' (acts ++ [p]) := by
  intro i
  have h := h i
  cases a <;> simp only [env] at he <;> split at he <;>
    simp only [Option.some.injEq, Prod.mk.injEq, reduceCtorEq] at he <;> obtain ⟨rfl, rfl⟩ := he <;>
    simp [preW, preId, decides, upd] <;> (try split) <;> simp_all <;> grind

theorem reach_one {c : Conf mach} (h : Reach mach init c) : One c.sh c.acts :=
  Reach.inv (P := One) (by intro i; rfl) (fun _ _ _ _ _ h he => one_env h he)
    (fun _ _ _ _ _ _ _ _ h hk he => one_run h hk he) h

theorem reach_prefixes {Q : List Ev → Prop} (hQ : ∀ c : Conf mach, Reach mach init c → Q c.sh.log)
    {c : Conf mach} (h : Reach mach init c) : Hist (fun before _ => Q before) c.sh.log := by
  refine Reach.prefixes (M := mach) (fun s : St => s.log) rfl ?_ ?_ hQ h
  · intro s acts a s' p he
    cases a <;> simp only [env] at he <;> split at he <;>
      simp only [Option.some.injEq, Prod.mk.injEq, reduceCtorEq] at he <;> obtain ⟨rfl, rfl⟩ := he <;>
      exact .inr ⟨_, rfl⟩
  · intro s x b s' p he
    cases x with
    | chk j v =>
      cases v <;> simp only [exec] at he <;> (repeat' split at he) <;>
      simp only [Out.ok.injEq] at he <;> obtain ⟨rfl, rfl⟩ := he <;>
      first | exact .inl rfl | exact .inr ⟨_, rfl⟩
    | _ =>
      simp only [exec] at he <;> (repeat' split at he) <;>
      simp only [Out.ok.injEq, reduceCtorEq] at he <;> obtain ⟨rfl, rfl⟩ := he <;>
      first | exact .inl rfl | exact .inr ⟨_, rfl⟩

/-! ## The queue -/

theorem enqs_append (l : List Ev) (v : Ev) : enqs (l ++ [v]) =
    enqs l ++ match v with | .enq i => [i] | _ => [] := by
  rw [enqs, List.filterMap_append]
  cases v <;> rfl

theorem grants_append (l : List Ev) (v : Ev) : grants (l ++ [v]) =
    grants l ++ match v with | .grant _ j => [j] | _ => [] := by
  rw [grants, List.filterMap_append]
  cases v <;> rfl

theorem queue_eq {l : List Ev} (h : Hist legal l) : grants l ++ (spec l).q = enqs l := by
  induction l using List.reverseRecOn with
  | nil => rfl
  | append_singleton l v ih =>
    rw [Hist.snoc] at h
    have ih := ih h.1
    have hv := h.2
    rw [enqs_append, grants_append, spec_append]
    cases v <;> simp only [legal, Spec.step, List.append_nil] at hv ⊢ <;>
      (try exact ih)
    · rw [← ih, List.append_assoc]
    · obtain ⟨_, r, hr⟩ := hv
      rw [← ih, hr]; simp

theorem mem_enqs {i : Id} {l : List Ev} : i ∈ enqs l ↔ .enq i ∈ l := by
  simp only [enqs, List.mem_filterMap]
  constructor
  · rintro ⟨v, hv, e⟩; cases v <;> simp at e; subst e; exact hv
  · intro h; exact ⟨_, h, rfl⟩

theorem mem_acqs {i : Id} {l : List Ev} : i ∈ acqs l ↔ .acq i ∈ l := by
  simp only [acqs, List.mem_filterMap]
  constructor
  · rintro ⟨v, hv, e⟩; cases v <;> simp at e; subst e; exact hv
  · intro h; exact ⟨_, h, rfl⟩

theorem grants_sub_wins {l : List Ev} {i : Id} (h : i ∈ grants l) : i ∈ wins l := by
  simp only [grants, wins, List.mem_filterMap] at *
  obtain ⟨v, hv, e⟩ := h
  refine ⟨v, hv, ?_⟩
  cases v <;> simp_all

theorem mem_wins {l : List Ev} {i : Id} (h : i ∈ wins l) : .fast i ∈ l ∨ i ∈ grants l := by
  simp only [grants, wins, List.mem_filterMap] at *
  obtain ⟨v, hv, e⟩ := h
  cases v <;> simp at e
  · subst e; exact .inl hv
  · subst e; exact .inr ⟨_, hv, rfl⟩

theorem count_enqs_le (i : Id) (l : List Ev) :
    (enqs l).count i + l.count (.fast i) ≤ settled i l := by
  induction l using List.reverseRecOn with
  | nil => simp [enqs, settled]
  | append_singleton l v ih =>
    rw [enqs_append, settled_append, List.count_append, List.count_append, List.count_singleton]
    cases v <;> simp [decides, List.count_singleton] <;> grind

/-- Facts about a history. -/
structure Facts (log : List Ev) : Prop where
  legal : Hist legal log
  win : acqs log = wins log ∨ ∃ i, acqs log ++ [i] = wins log
  one : ∀ i, settled i log ≤ 1
  beg : ∀ i, .lock i ∉ log → .tryLock i ∉ log → settled i log = 0
  over : ∀ i, over i log ≤ 1

theorem reach_facts {c : Conf mach} (h : Reach mach init c) : Facts c.sh.log := by
  have hI := reach_inv h
  have hO := reach_one h
  refine ⟨hI.legal, ?_, ?_, ?_, ?_⟩
  · have := hI.win
    cases ho : (spec c.sh.log).owner with
    | none => rw [ho] at this; simp at this; exact .inl this.symm
    | some i =>
      rw [ho] at this; simp only at this
      split at this
      · exact .inr ⟨i, this.symm⟩
      · simp at this; exact .inl this.symm
  · intro i; have := hO i; split at this <;> omega
  · intro i h1 h2
    have := hO i
    rw [if_neg (by rw [hI.beg i]; simp [h1, h2])] at this; omega
  · intro i; have := hI.op i; split at this <;> omega

theorem wins_mono {a b : List Ev} {i : Id} (h : i ∈ wins a) : i ∈ wins (a ++ b) := by
  rw [wins, List.filterMap_append]; exact List.mem_append_left _ h

theorem wins_app (a b : List Ev) : wins (a ++ b) = wins a ++ wins b := by
  simp only [wins, List.filterMap_append]

theorem enqs_app (a b : List Ev) : enqs (a ++ b) = enqs a ++ enqs b := by
  simp only [enqs, List.filterMap_append]

theorem grants_app (a b : List Ev) : grants (a ++ b) = grants a ++ grants b := by
  simp only [grants, List.filterMap_append]

theorem count_split {a : List Id} {i k : Id} {p q r : List Id} (h : a = p ++ i :: q ++ k :: r)
    (hk : a.count k ≤ 1) {g t : List Id} (e : g ++ t = a) (hg : k ∈ g) : i ∈ g := by
  have hkp : k ∉ p ++ i :: q := by
    intro hm
    have := List.count_pos_iff.2 hm
    rw [h, List.count_append, List.count_cons_self] at hk; omega
  rw [h] at e
  rcases List.append_eq_append_iff.1 e with ⟨u, h1, h2⟩ | ⟨u, h1, h2⟩
  · -- g is a prefix of the part before k
    exact absurd (by rw [h1]; exact List.mem_append_left _ hg) hkp
  · rw [h1]; simp

/-- At the moment of an acquisition, everybody else who won has been told. -/
theorem wins_of_acq {c : Conf mach} (h : Reach mach init c) {m l3 : List Ev} {k : Id}
    (e : c.sh.log = m ++ .acq k :: l3) : acqs m ++ [k] = wins m := by
  have hp := reach_prefixes (Q := Facts) (fun c hc => reach_facts hc) h
  have f := hp m (.acq k) l3 e
  have fn : Facts (m ++ [.acq k]) := by
    cases l3 with
    | nil => rw [← e]; exact reach_facts h
    | cons v l3 => exact hp _ v l3 (by rw [e]; simp)
  have h2 := fn.win
  rcases f.win with hw | ⟨j, hw⟩
  · exfalso
    rw [wins_append, acqs_append, ← hw] at h2
    simp only [List.append_nil] at h2
    rcases h2 with h3 | ⟨j, h3⟩ <;> have := congrArg List.length h3 <;> simp at this
  · rw [wins_append, acqs_append, ← hw] at h2
    simp only [List.append_nil] at h2
    rcases h2 with h3 | ⟨j, h3⟩
    · rw [h3, hw]
    · have := congrArg List.length h3; simp at this

/-- The order in which users learn of their acquisitions respects the queue. -/
theorem order {c : Conf mach} (h : Reach mach init c) {l1 l2 l3 : List Ev} {i k : Id}
    (e : c.sh.log = l1 ++ .enq i :: l2 ++ .acq k :: l3) (hne : i ≠ k)
    (h1 : .lock k ∉ l1) (h2 : .tryLock k ∉ l1) :
    .acq i ∈ l1 ++ .enq i :: l2 := by
  have hp := reach_prefixes (Q := Facts) (fun c hc => reach_facts hc) h
  -- facts at the moment of `acq k`
  have f := hp (l1 ++ .enq i :: l2) (.acq k) l3 e
  have f1 := hp l1 (.enq i) (l2 ++ .acq k :: l3) (by rw [e]; simp)
  have hleg := (reach_inv h).legal (l1 ++ .enq i :: l2) (.acq k) l3 e
  have fk := wins_of_acq h e
  have hkw : k ∈ wins (l1 ++ .enq i :: l2) := by rw [← fk]; simp
  have hq := queue_eq f.legal
  have hcnt : (enqs (l1 ++ .enq i :: l2)).count k ≤ 1 := by
    have := count_enqs_le k (l1 ++ .enq i :: l2); have := f.one k; omega
  -- `k` had not been queued before `i`
  have s0 : settled k l1 = 0 := f1.beg k h1 h2
  have hk1 : k ∉ enqs l1 := by
    intro hm; have := List.count_pos_iff.2 hm; have := count_enqs_le k l1; omega
  have hf1 : Ev.fast k ∉ l1 := by
    intro hm; have := List.count_pos_iff.2 hm; have := count_enqs_le k l1; omega
  have hi : i ∈ wins (l1 ++ .enq i :: l2) := by
    rcases mem_wins hkw with hf | hg
    · -- `k` took the free mutex: nobody was queued at that time
      have hf2 : Ev.fast k ∈ l2 := by
        rcases List.mem_append.1 hf with hf | hf
        · exact absurd hf hf1
        · simpa using hf
      obtain ⟨m1, m2, hm⟩ := List.append_of_mem hf2
      have e2 : c.sh.log = (l1 ++ .enq i :: m1) ++ .fast k :: (m2 ++ .acq k :: l3) := by
        rw [e, hm]; simp
      have fm := hp _ _ _ e2
      have hl := (reach_inv h).legal _ _ _ e2
      have hqm := queue_eq fm.legal
      rw [hl.2, List.append_nil] at hqm
      have : i ∈ grants (l1 ++ .enq i :: m1) := by
        rw [hqm, enqs_app]; simp [enqs]
      rw [hm]
      have h5 := grants_sub_wins this
      have : l1 ++ .enq i :: (m1 ++ .fast k :: m2) = (l1 ++ .enq i :: m1) ++ .fast k :: m2 := by simp
      rw [this]; exact wins_mono h5
    · -- `k` was queued after `i`
      have hke : k ∈ enqs l2 := by
        have : k ∈ enqs (l1 ++ .enq i :: l2) := by rw [← hq]; exact List.mem_append_left _ hg
        rw [enqs_app] at this
        rcases List.mem_append.1 this with h3 | h3
        · exact absurd h3 hk1
        · have h4 : k = i ∨ k ∈ enqs l2 := by simpa [enqs] using h3
          rcases h4 with h4 | h4
          · exact absurd h4.symm hne
          · exact h4
      obtain ⟨m1, m2, hm⟩ := List.append_of_mem hke
      have : enqs (l1 ++ .enq i :: l2) = enqs l1 ++ i :: m1 ++ k :: m2 := by
        rw [enqs_app]
        have : enqs (.enq i :: l2) = i :: enqs l2 := by simp [enqs]
        rw [this, hm]; simp
      exact grants_sub_wins (count_split this hcnt hq hg)
  rw [← fk] at hi
  rcases List.mem_append.1 hi with h3 | h3
  · exact mem_acqs.1 h3
  · simp at h3; exact absurd h3 hne

theorem holding_keep {l m : List Ev} {i : Id} (h : i ∈ holding l) (hm : .unlock i ∉ m) :
    i ∈ holding (l ++ m) := by
  induction m using List.reverseRecOn with
  | nil => simpa using h
  | append_singleton m v ih =>
    have h1 := ih (by intro hx; exact hm (by simp [hx]))
    rw [← List.append_assoc, holding_append]
    cases v <;> simp only [holding.step] <;> try exact h1
    · rename_i j
      have : i ≠ j := by rintro rfl; simp at hm
      exact (List.mem_erase_of_ne this).2 h1
    · exact List.mem_append_left _ h1

theorem holding_acq {l : List Ev} {i : Id} (h : i ∈ holding l) : .acq i ∈ l := by
  induction l using List.reverseRecOn with
  | nil => simp [holding] at h
  | append_singleton l v ih =>
    rw [holding_append] at h
    cases v <;> simp only [holding.step] at h <;> (try (have := ih h; simp [this]))
    · have := ih (List.mem_of_mem_erase h); simp [this]
    · rcases List.mem_append.1 h with h | h
      · have := ih h; simp [this]
      · simp at h; simp [h]

/-- `fail` is an outcome of `try_lock` only. -/
structure Kind (s : St) (acts : List (List Instr)) : Prop where
  used : ∀ i, s.used i = true ↔ .lock i ∈ s.log ∨ .tryLock i ∈ s.log
  excl : ∀ i, .lock i ∈ s.log → .tryLock i ∉ s.log
  pend : ∀ i, Pending acts (.tryLock i) → .tryLock i ∈ s.log
  fail : ∀ i, .fail i ∈ s.log → .tryLock i ∈ s.log

theorem reach_kind {c : Conf mach} (h : Reach mach init c) : Kind c.sh c.acts := by
  refine Reach.inv (P := Kind) ?_ ?_ ?_ h
  · exact ⟨by simp [init], by simp [init], by simp [Pending], by simp [init]⟩
  · rintro s acts a s' p ⟨h1, h2, h3, h4⟩ he
    have hp : ∀ y, Pending (acts ++ [p]) y → y ∈ p ∨ Pending acts y := fun y => pending_append
    cases a <;> simp only [env] at he <;> split at he <;>
      simp only [Option.some.injEq, Prod.mk.injEq, reduceCtorEq] at he <;> obtain ⟨rfl, rfl⟩ := he <;>
      (constructor <;> intro j <;> simp [upd] <;> grind)
  · rintro s acts k x r b s' p ⟨h1, h2, h3, h4⟩ hk he
    have hp : ∀ y, Pending (acts.set k (p ++ r)) y → y ∈ p ∨ Pending acts y :=
      fun y => pending_set hk
    have ht := pending_top hk
    cases x with
    | chk j v =>
      cases v <;> simp only [exec] at he <;> (repeat' split at he) <;>
      simp only [Out.ok.injEq] at he <;> obtain ⟨rfl, rfl⟩ := he <;>
      (constructor <;> intro j <;> (try simp) <;> grind)
    | _ =>
      simp only [exec] at he <;> (repeat' split at he) <;>
      simp only [Out.ok.injEq, reduceCtorEq] at he <;> obtain ⟨rfl, rfl⟩ := he <;>
      (constructor <;> intro j <;> (try simp) <;> grind)

theorem fail_not_lock {c : Conf mach} (h : Reach mach init c) {i : Id} (hb : .lock i ∈ c.sh.log) :
    .fail i ∉ c.sh.log :=
  fun hf => (reach_kind h).excl i hb ((reach_kind h).fail i hf)

end Verif.Mutex
