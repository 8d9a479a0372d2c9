import Verif.SharedMutex.Live
import Mathlib.Data.List.Induction

/-! # Helper lemmas about histories of the shared mutex -/

namespace Verif.SharedMutex

/-- Requests that are neither admitted nor queued yet. -/
def pre : Instr → List Id
  | .lock i => [i]
  | .tryLock i => [i]
  | .lockS i => [i]
  | .tryLockS i => [i]
  | .lsT i _ _ => [i]
  | .acqM t => [t.1]
  | .ld t => [t.1]
  | .chk t _ => [t.1]
  | .push t => [t.1]
  | _ => []

def Ev.setts : Ev → List Id
  | .enq t => [t.1]
  | .fast t => [t.1]
  | .fail t => [t.1]
  | _ => []

def setts (log : List Ev) : List Id := log.flatMap Ev.setts

theorem setts_append (l : List Ev) (v : Ev) : setts (l ++ [v]) = setts l ++ v.setts := by
  simp [setts]

/-- Every request takes one way only: queued, admitted at once, or failed. -/
def One (s : St) (acts : List (List Instr)) : Prop :=
  ∀ i, ws (cw pre (· == i)) acts + (setts s.log).countP (· == i) = if s.used i then 1 else 0

/-- What an instruction settles. -/
theorem exec_setts {s : St} {x : Instr} {b : Bool} {s' : St} {p : List Instr}
    (he : exec s x b = .ok s' p) :
    s'.used = s.used ∧ (s'.log = s.log ∨ ∃ v, s'.log = s.log ++ [v]) ∧
    ∀ q, (p.flatMap pre).countP q + (setts s'.log).countP q = (pre x).countP q + (setts s.log).countP q := by
  have hacq : ∀ js : List Id, (js.map (fun j => Instr.acq (j, false))).flatMap pre = [] := by
    intro js; induction js <;> simp_all [pre]
  cases x with
  | chk t v =>
    obtain ⟨i, e⟩ := t
    cases e <;> simp only [exec] at he <;> (repeat' split at he) <;>
      simp only [Out.ok.injEq] at he <;> obtain ⟨rfl, rfl⟩ := he <;>
      (refine ⟨rfl, ?_, ?_⟩
       · first | exact .inl rfl | exact .inr ⟨_, rfl⟩
       · intro q; simp only [St.admit, setts_append, Ev.setts, pre, List.flatMap_cons, List.flatMap_nil,
          List.countP_append, List.countP_nil, List.append_nil] <;> omega)
  | stR js =>
    simp only [exec, Out.ok.injEq] at he; obtain ⟨rfl, rfl⟩ := he
    refine ⟨rfl, .inl rfl, ?_⟩
    intro q; simp only [List.flatMap_cons, hacq]; rfl
  | _ =>
    simp only [exec] at he <;> (repeat' split at he) <;>
      simp only [Out.ok.injEq, reduceCtorEq] at he <;> obtain ⟨rfl, rfl⟩ := he <;>
      (refine ⟨rfl, ?_, ?_⟩
       · first | exact .inl rfl | exact .inr ⟨_, rfl⟩
       · intro q; simp only [St.admit, setts_append, Ev.setts, pre, List.flatMap_cons, List.flatMap_nil,
          List.countP_append, List.countP_nil, List.append_nil] <;> omega)

theorem env_log {s : St} {acts : List (List Instr)} {a : Act} {s' : St}
    {p : List Instr} (he : env s acts a = some (s', p)) : ∃ v, s'.log = s.log ++ [v] := by
  cases a <;> simp only [env] at he <;> split at he <;>
    simp only [Option.some.injEq, Prod.mk.injEq, reduceCtorEq] at he <;> obtain ⟨rfl, rfl⟩ := he <;>
    exact ⟨_, rfl⟩

theorem reach_one {c : Conf mach} (h : Reach mach init c) : One c.sh c.acts := by
  refine Reach.inv (P := One) (by intro i; rfl) ?_ ?_ h
  · intro s acts a s' p h he i
    have h := h i
    rw [cw_app]
    cases a with
    | lock t =>
      obtain ⟨j, e⟩ := t
      simp only [env] at he; split at he <;>
        simp only [Option.some.injEq, Prod.mk.injEq, reduceCtorEq] at he; obtain ⟨rfl, rfl⟩ := he
      rename_i hu
      have hx : pre (.ofLock (j, e)) = [j] := by cases e <;> rfl
      simp only [setts_append, Ev.setts, List.flatMap_cons, List.flatMap_nil, List.append_nil, hx]
      by_cases hi : j = i
      · subst hi; simp_all
      · have hi' : ¬ i = j := fun h => hi h.symm
        simpa [upd, hi, hi'] using h
    | tryLock t =>
      obtain ⟨j, e⟩ := t
      simp only [env] at he; split at he <;>
        simp only [Option.some.injEq, Prod.mk.injEq, reduceCtorEq] at he; obtain ⟨rfl, rfl⟩ := he
      rename_i hu
      have hx : pre (.ofTry (j, e)) = [j] := by cases e <;> rfl
      simp only [setts_append, Ev.setts, List.flatMap_cons, List.flatMap_nil, List.append_nil, hx]
      by_cases hi : j = i
      · subst hi; simp_all
      · have hi' : ¬ i = j := fun h => hi h.symm
        simpa [upd, hi, hi'] using h
    | unlock t =>
      obtain ⟨j, e⟩ := t
      simp only [env] at he; split at he <;>
        simp only [Option.some.injEq, Prod.mk.injEq, reduceCtorEq] at he; obtain ⟨rfl, rfl⟩ := he
      have hx : pre (.ofUnlock (j, e)) = [] := by cases e <;> rfl
      simpa [setts_append, Ev.setts, hx] using h
  · intro s acts k x r b s' p h hk he i
    have h := h i
    obtain ⟨h1, -, h2⟩ := exec_setts he
    have h2 := h2 (· == i)
    have e := cw_set pre (· == i) p hk
    rw [h1]; omega

theorem reach_prefixes {Q : List Ev → Prop} (hQ : ∀ c : Conf mach, Reach mach init c → Q c.sh.log)
    {c : Conf mach} (h : Reach mach init c) : Hist (fun before _ => Q before) c.sh.log :=
  Reach.prefixes (M := mach) (fun s : St => s.log) rfl (fun _ acts _ _ _ he => .inr (env_log (acts := acts) he))
    (fun _ _ _ _ _ he => (exec_setts he).2.1) hQ h

/-! ## Queue -/

def Ev.enqs : Ev → List Req
  | .enq t => [t]
  | _ => []

/-- Order in which requests are queued. -/
def enqs (log : List Ev) : List Req := log.flatMap Ev.enqs

def Ev.grants : Ev → List Req
  | .grant _ ts => ts
  | _ => []

/-- Order in which queued requests are admitted. -/
def grants (log : List Ev) : List Req := log.flatMap Ev.grants

theorem enqs_append (l : List Ev) (v : Ev) : enqs (l ++ [v]) = enqs l ++ v.enqs := by simp [enqs]
theorem grants_append (l : List Ev) (v : Ev) : grants (l ++ [v]) = grants l ++ v.grants := by
  simp [grants]

theorem batch_prefix (q : List Req) : batch q ++ q.drop (batch q).length = q := by
  have : ∀ l : List Req, l.takeWhile (fun t => !t.2) ++ l.drop (l.takeWhile (fun t => !t.2)).length = l := by
    intro l
    induction l with
    | nil => rfl
    | cons x l ih =>
      rw [List.takeWhile_cons]; split
      · simp [ih]
      · rfl
  unfold batch
  split
  · rfl
  · exact this q

theorem queue_eq {l : List Ev} (h : Hist legal l) : grants l ++ (spec l).q = enqs l := by
  induction l using List.reverseRecOn with
  | nil => rfl
  | append_singleton l v ih =>
    rw [Hist.snoc] at h
    have ih := ih h.1
    have hv := h.2
    rw [enqs_append, grants_append, spec_append]
    cases v <;> simp only [Ev.enqs, Ev.grants, Spec.step, List.append_nil] <;> (try exact ih)
    · rw [← ih, List.append_assoc]
    · obtain ⟨-, hb, -⟩ := hv
      rw [← ih, List.append_assoc, hb, batch_prefix]

/-- Writers are alone. -/
theorem own_ok {l : List Ev} (h : Hist legal l) :
    (spec l).own.length ≤ 1 ∨ ∀ t ∈ (spec l).own, t.2 = false := by
  induction l using List.reverseRecOn with
  | nil => left; simp [spec]
  | append_singleton l v ih =>
    rw [Hist.snoc] at h
    have ih := ih h.1
    have hv := h.2
    rw [spec_append]
    cases v <;> simp only [Spec.step] <;> (try exact ih)
    · rename_i t
      obtain ⟨-, hc⟩ := hv
      unfold compat at hc
      cases ht : t.2 with
      | true => rw [ht] at hc; simp at hc; left; simp [hc]
      | false =>
        rw [ht] at hc; right
        intro u hu
        rcases List.mem_append.1 hu with hu | hu
        · exact hc u hu
        · simp at hu; rw [hu, ht]
    · rename_i t
      rcases ih with ih | ih
      · left; have := List.length_erase_le (a := t) (l := (spec l).own); omega
      · right; intro u hu; exact ih u (List.mem_of_mem_erase hu)
    · rename_i t ts
      obtain ⟨ho, hb, -⟩ := hv
      rw [ho]; simp only [List.erase_cons_head, List.nil_append]
      rw [hb]
      unfold batch; split
      · left; simp
      · right; intro u hu
        have := List.all_takeWhile (p := fun t : Req => !t.2) (l := (spec l).q)
        rw [List.all_eq_true] at this
        simpa using this u hu

theorem mem_flat {α β : Type} {f : α → List β} {l : List α} {v : α} {t : β} (hv : v ∈ l) (ht : t ∈ f v) :
    t ∈ l.flatMap f := List.mem_flatMap.2 ⟨v, hv, ht⟩

theorem mem_enqs {t : Req} {l : List Ev} : t ∈ enqs l ↔ .enq t ∈ l := by
  simp only [enqs, List.mem_flatMap]
  constructor
  · rintro ⟨v, hv, e⟩; cases v <;> simp [Ev.enqs] at e; subst e; exact hv
  · intro h; exact ⟨_, h, by simp [Ev.enqs]⟩

theorem mem_acqs {t : Req} {l : List Ev} : t ∈ acqs l ↔ .acq t ∈ l := by
  simp only [acqs, List.mem_flatMap]
  constructor
  · rintro ⟨v, hv, e⟩; cases v <;> simp [Ev.acqs] at e; subst e; exact hv
  · intro h; exact ⟨_, h, by simp [Ev.acqs]⟩

theorem mem_grants {t : Req} {l : List Ev} : t ∈ grants l ↔ ∃ u ts, .grant u ts ∈ l ∧ t ∈ ts := by
  simp only [grants, List.mem_flatMap]
  constructor
  · rintro ⟨v, hv, e⟩; cases v <;> simp [Ev.grants] at e; exact ⟨_, _, hv, e⟩
  · rintro ⟨u, ts, h, ht⟩; exact ⟨_, h, ht⟩

theorem mem_wins {t : Req} {l : List Ev} : t ∈ wins l ↔ .fast t ∈ l ∨ t ∈ grants l := by
  simp only [wins, grants, List.mem_flatMap]
  constructor
  · rintro ⟨v, hv, e⟩; cases v <;> simp [Ev.wins] at e
    · subst e; exact .inl hv
    · exact .inr ⟨_, hv, e⟩
  · rintro (h | ⟨v, hv, e⟩)
    · exact ⟨_, h, by simp [Ev.wins]⟩
    · cases v <;> simp [Ev.grants] at e; exact ⟨_, hv, e⟩

theorem count_setts (t : Req) (l : List Ev) :
    (enqs l).count t + l.count (.fast t) ≤ (setts l).count t.1 := by
  induction l using List.reverseRecOn with
  | nil => simp [enqs, setts]
  | append_singleton l v ih =>
    rw [enqs_append, setts_append, List.count_append, List.count_append, List.count_append,
      List.count_singleton]
    obtain ⟨i, e⟩ := t
    cases v <;> simp [Ev.enqs, Ev.setts, List.count_singleton] <;> grind

/-- Facts about a history. -/
structure Facts (log : List Ev) : Prop where
  legal : Hist legal log
  pend : ∀ t, t ∈ wins log → .acq t ∉ log → t ∈ (spec log).own
  own : ∀ q, (holding log).countP q ≤ (spec log).own.countP q
  acqs : ∀ q, (acqs log).countP q ≤ (wins log).countP q
  one : ∀ i, (setts log).count i ≤ 1
  beg : ∀ i, (∀ e, .lock (i, e) ∉ log) → (∀ e, .tryLock (i, e) ∉ log) → (setts log).count i = 0
  over : ∀ i, (overs log).count i ≤ 1

theorem wn_le_toks (q : Req → Bool) (acts : List (List Instr)) :
    ws (cw wn q) acts ≤ ws (cw toks q) acts := by
  apply ws_mono
  intro x
  cases x <;> simp [cw, wn, toks]

theorem reach_facts {c : Conf mach} (h : Reach mach init c) : Facts c.sh.log := by
  have hI := reach_inv h
  have hO := reach_one h
  refine ⟨hI.legal, ?_, ?_, ?_, ?_, ?_, ?_⟩
  · intro t h1 h2
    have e1 := hI.win (· == t)
    have e2 := hI.own (· == t)
    have e3 := wn_le_toks (· == t) c.acts
    have e4 : 0 < (wins c.sh.log).countP (· == t) := List.countP_pos_iff.2 ⟨t, h1, by simp⟩
    have e5 : (acqs c.sh.log).countP (· == t) = 0 := by
      rw [List.countP_eq_zero]
      intro u hu hx
      simp at hx; subst hx
      exact h2 (mem_acqs.1 hu)
    have e6 : 0 < (spec c.sh.log).own.countP (· == t) := by omega
    obtain ⟨u, hu, hx⟩ := List.countP_pos_iff.1 e6
    simp at hx; subst hx; exact hu
  · intro q; have := hI.own q; omega
  · intro q; have := hI.win q; omega
  · intro i; have := hO i
    replace this : _ + (setts c.sh.log).count i = _ := this
    split at this <;> omega
  · intro i h1 h2
    have := hO i
    replace this : _ + (setts c.sh.log).count i = _ := this
    rw [if_neg (by rw [hI.beg i]; simp [h1, h2])] at this; omega
  · intro i; have := hI.op i; split at this <;> omega

theorem count_split {a : List Req} {i k : Req} {p q r : List Req} (h : a = p ++ i :: q ++ k :: r)
    (hk : a.count k ≤ 1) {g t : List Req} (e : g ++ t = a) (hg : k ∈ g) : i ∈ g := by
  have hkp : k ∉ p ++ i :: q := by
    intro hm
    have := List.count_pos_iff.2 hm
    rw [h, List.count_append, List.count_cons_self] at hk; omega
  rw [h] at e
  rcases List.append_eq_append_iff.1 e with ⟨u, h1, h2⟩ | ⟨u, h1, h2⟩
  · exact absurd (by rw [h1]; exact List.mem_append_left _ hg) hkp
  · rw [h1]; simp

theorem prefix_facts {c : Conf mach} (h : Reach mach init c) {m l : List Ev} (e : c.sh.log = m ++ l) :
    Facts m := by
  cases l with
  | nil => rw [List.append_nil] at e; rw [← e]; exact reach_facts h
  | cons v l => exact reach_prefixes (Q := Facts) (fun c hc => reach_facts hc) h m v l e

theorem win_of_acq {c : Conf mach} (h : Reach mach init c) {m l3 : List Ev} {k : Req}
    (e : c.sh.log = m ++ .acq k :: l3) : k ∈ wins m := by
  have f := prefix_facts h (m := m ++ [.acq k]) (l := l3) (by rw [e]; simp)
  have := f.acqs (· == k)
  rw [wins_append, acqs_append] at this
  simp only [Ev.acqs, Ev.wins, List.append_nil, List.countP_append] at this
  have h1 : 0 < (wins m).countP (· == k) := by
    have : [k].countP (· == k) = 1 := by simp
    omega
  obtain ⟨u, hu, hx⟩ := List.countP_pos_iff.1 h1
  simp at hx; subst hx; exact hu

theorem app_flat {β : Type} (f : Ev → List β) (a b : List Ev) :
    (a ++ b).flatMap f = a.flatMap f ++ b.flatMap f := by simp

/-- Whoever was queued before is admitted before. -/
theorem order {c : Conf mach} (h : Reach mach init c) {l1 l2 l3 : List Ev} {i k : Req}
    (e : c.sh.log = l1 ++ .enq i :: l2 ++ .acq k :: l3) (hne : i ≠ k)
    (h1 : ∀ e, .lock (k.1, e) ∉ l1) (h2 : ∀ e, .tryLock (k.1, e) ∉ l1) :
    i ∈ grants (l1 ++ .enq i :: l2) := by
  have f := prefix_facts h e
  have f1 := prefix_facts h (m := l1) (l := .enq i :: l2 ++ .acq k :: l3) (by rw [e]; simp)
  have hkw := win_of_acq h e
  have hq := queue_eq f.legal
  have hcnt : (enqs (l1 ++ .enq i :: l2)).count k ≤ 1 := by
    have := count_setts k (l1 ++ .enq i :: l2); have := f.one k.1; omega
  have s0 := f1.beg k.1 h1 h2
  have hk1 : k ∉ enqs l1 := by
    intro hm; have := List.count_pos_iff.2 hm; have := count_setts k l1; omega
  have hf1 : Ev.fast k ∉ l1 := by
    intro hm; have := List.count_pos_iff.2 hm; have := count_setts k l1; omega
  rcases mem_wins.1 hkw with hf | hg
  · have hf2 : Ev.fast k ∈ l2 := by
      rcases List.mem_append.1 hf with hf | hf
      · exact absurd hf hf1
      · simpa using hf
    obtain ⟨m1, m2, hm⟩ := List.append_of_mem hf2
    have e2 : c.sh.log = (l1 ++ .enq i :: m1) ++ .fast k :: (m2 ++ .acq k :: l3) := by
      rw [e, hm]; simp
    have fm := prefix_facts h e2
    have hl := (reach_inv h).legal _ _ _ e2
    have hqm := queue_eq fm.legal
    rw [hl.1, List.append_nil] at hqm
    have : i ∈ grants (l1 ++ .enq i :: m1) := by
      rw [hqm]; exact mem_enqs.2 (by simp)
    rw [hm, show l1 ++ .enq i :: (m1 ++ .fast k :: m2) = (l1 ++ .enq i :: m1) ++ .fast k :: m2 by simp]
    unfold grants at this ⊢
    rw [app_flat]
    exact List.mem_append_left _ this
  · have hke : k ∈ enqs l2 := by
      have : k ∈ enqs (l1 ++ .enq i :: l2) := by rw [← hq]; exact List.mem_append_left _ hg
      rw [mem_enqs] at this ⊢
      rcases List.mem_append.1 this with h3 | h3
      · exact absurd (mem_enqs.2 h3) hk1
      · rcases List.mem_cons.1 h3 with h4 | h4
        · simp at h4; exact absurd h4.symm hne
        · exact h4
    obtain ⟨m1, m2, hm⟩ := List.append_of_mem hke
    have : enqs (l1 ++ .enq i :: l2) = enqs l1 ++ i :: m1 ++ k :: m2 := by
      have h5 : enqs (.enq i :: l2) = i :: enqs l2 := by simp [enqs, Ev.enqs]
      have h6 : enqs (l1 ++ .enq i :: l2) = enqs l1 ++ enqs (.enq i :: l2) := app_flat _ _ _
      rw [h6, h5, hm]; simp
    exact count_split this hcnt hq hg

/-- If somebody is told that they hold the mutex, then whoever was admitted before and excludes them has been
told. -/
theorem told {c : Conf mach} (h : Reach mach init c) {m l3 : List Ev} {i k : Req}
    (e : c.sh.log = m ++ .acq k :: l3) (hne : i ≠ k) (hi : i ∈ wins m) (hx : i.2 = true ∨ k.2 = true) :
    .acq i ∈ m := by
  apply Classical.byContradiction
  intro hn
  have f := prefix_facts h e
  have h1 := f.pend i hi hn
  have h2 : k ∈ (spec m).own := (reach_inv h).legal _ _ _ e
  rcases own_ok f.legal with h3 | h3
  · cases ho : (spec m).own with
    | nil => rw [ho] at h1; simp at h1
    | cons a l =>
      rw [ho] at h1 h2 h3
      cases l with
      | nil => simp at h1 h2; rw [h1, h2] at hne; exact hne rfl
      | cons b l => simp at h3
  · rcases hx with hx | hx
    · rw [h3 i h1] at hx; simp at hx
    · rw [h3 k h2] at hx; simp at hx

theorem holding_keep {l m : List Ev} {i : Req} (h : i ∈ holding l) (hm : .unlock i ∉ m) :
    i ∈ holding (l ++ m) := by
  induction m using List.reverseRecOn with
  | nil => simpa using h
  | append_singleton m v ih =>
    have h1 := ih (by intro hx; exact hm (by simp [hx]))
    rw [← List.append_assoc, holding_append]
    cases v <;> simp only [holding.step] <;> try exact h1
    · rename_i j
      have : i ≠ j := by rintro rfl; simp at hm
      exact (List.mem_erase_of_ne this).2 h1
    · exact List.mem_append_left _ h1

theorem holding_acq {l : List Ev} {i : Req} (h : i ∈ holding l) : .acq i ∈ l := by
  induction l using List.reverseRecOn with
  | nil => simp [holding] at h
  | append_singleton l v ih =>
    rw [holding_append] at h
    cases v <;> simp only [holding.step] at h <;> (try (have := ih h; simp [this]))
    · have := ih (List.mem_of_mem_erase h); simp [this]
    · rcases List.mem_append.1 h with h | h
      · have := ih h; simp [this]
      · simp at h; simp [h]

/-! ## Modes and kinds of requests -/

/-- Requests an instruction belongs to, with their modes, and whether they may fail. -/
def mI : Instr → List (Req × Bool)
  | .lock i => [((i, true), false)]
  | .tryLock i => [((i, true), true)]
  | .lockS i => [((i, false), false)]
  | .tryLockS i => [((i, false), true)]
  | .lsT i f _ => [((i, false), !f)]
  | .acqM t => [(t, false)]
  | .ld t => [(t, false)]
  | .chk t _ => [(t, false)]
  | .push t => [(t, false)]
  | .acq t => [(t, false)]
  | .stE j => [((j, true), false)]
  | .stS j => [((j, true), false)]
  | .stR js => js.map (fun j => ((j, false), false))
  | _ => []

/-- Requests that an event reports on, and whether it reports a failure. -/
def mE : Ev → List (Req × Bool)
  | .enq t => [(t, false)]
  | .acq t => [(t, false)]
  | .fail t => [(t, true)]
  | _ => []

theorem exec_known {K : Req × Bool → Prop} (hK : ∀ t, K (t, true) → K (t, false)) {s : St} {x : Instr} {b : Bool}
    {s' : St} {p : List Instr} (he : exec s x b = .ok s' p) (hx : ∀ t ∈ mI x, K t)
    (hw : ∀ t ∈ s.waiters, K (t, false)) :
    (∀ y ∈ p, ∀ t ∈ mI y, K t) ∧ (∀ t ∈ s'.waiters, K (t, false)) ∧
    (s'.log = s.log ∨ ∃ v, s'.log = s.log ++ [v] ∧ (∀ t ∈ mE v, K t) ∧
      (∀ t, v ≠ .lock t ∧ v ≠ .tryLock t)) := by
  cases x with
  | chk t v =>
    obtain ⟨i, e⟩ := t
    cases e <;> simp only [exec] at he <;> (repeat' split at he) <;>
      simp only [Out.ok.injEq] at he <;> obtain ⟨rfl, rfl⟩ := he <;>
      simp_all [mI, mE, St.admit]
  | lsT i f v =>
    have := hK (i, false)
    cases f <;> simp only [exec] at he <;> (repeat' split at he) <;>
      simp only [Out.ok.injEq] at he <;> obtain ⟨rfl, rfl⟩ := he <;>
      simp_all [mI, mE, St.admit]
  | stR js =>
    simp only [exec, Out.ok.injEq] at he; obtain ⟨rfl, rfl⟩ := he
    simp_all [mI]
  | popU i =>
    simp only [exec] at he
    split at he
    · simp at he
    · rename_i j w h
      simp only [Out.ok.injEq] at he; obtain ⟨rfl, rfl⟩ := he
      simp_all [mI, mE]
    · rename_i j w h
      simp only [Out.ok.injEq] at he; obtain ⟨rfl, rfl⟩ := he
      rw [h] at hw
      refine ⟨?_, ?_, .inr ⟨_, rfl, by simp [mE], by simp⟩⟩
      · intro y hy t ht
        simp only [List.mem_singleton] at hy; subst hy
        simp only [mI, List.map_map, List.mem_map, Function.comp] at ht
        obtain ⟨u, hu, rfl⟩ := ht
        have h1 := hw u ((List.takeWhile_sublist _).subset hu)
        have h2 := List.all_takeWhile (p := fun t : Req => !t.2) (l := (j, false) :: w)
        rw [List.all_eq_true] at h2
        have h3 := h2 u hu
        obtain ⟨a, e⟩ := u
        simp at h3; subst h3; exact h1
      · intro t ht; exact hw t ((List.dropWhile_sublist (fun t => !t.2)).subset ht)
  | popS i =>
    simp only [exec] at he
    split at he
    · simp at he
    · simp at he
    · rename_i j w h
      simp only [Out.ok.injEq] at he; obtain ⟨rfl, rfl⟩ := he
      simp_all [mI, mE]
  | _ =>
    simp only [exec] at he <;> (repeat' split at he) <;>
      simp only [Out.ok.injEq, reduceCtorEq] at he <;> obtain ⟨rfl, rfl⟩ := he <;>
      simp_all [mI, mE, St.admit] <;> grind

/-- `t` was requested (and may fail). -/
def Known (log : List Ev) (t : Req × Bool) : Prop :=
  .tryLock t.1 ∈ log ∨ (t.2 = false ∧ .lock t.1 ∈ log)

/-- Provenance of requests. -/
structure Kind (s : St) (acts : List (List Instr)) : Prop where
  used : ∀ i, s.used i = true ↔ ∃ e, .lock (i, e) ∈ s.log ∨ .tryLock (i, e) ∈ s.log
  excl : ∀ i e e', .lock (i, e) ∈ s.log → .tryLock (i, e') ∉ s.log
  uniq : ∀ i e e', .lock (i, e) ∈ s.log → .lock (i, e') ∈ s.log → e = e'
  pend : ∀ x, Pending acts x → ∀ t ∈ mI x, Known s.log t
  wt : ∀ t ∈ s.waiters, Known s.log (t, false)
  log : ∀ v ∈ s.log, ∀ t ∈ mE v, Known s.log t

theorem Known.mono {log : List Ev} {t : Req × Bool} (v : Ev) (h : Known log t) : Known (log ++ [v]) t := by
  rcases h with h | ⟨h1, h2⟩
  · exact .inl (by simp [h])
  · exact .inr ⟨h1, by simp [h2]⟩

theorem reach_kind {c : Conf mach} (h : Reach mach init c) : Kind c.sh c.acts := by
  refine Reach.inv (P := Kind) ?_ ?_ ?_ h
  · exact ⟨by simp [init], by simp [init], by simp [init], by simp [Pending], by simp [init], by simp [init]⟩
  · rintro s acts a s' p ⟨h1, h2, h3, h4, h5, h6⟩ he
    have hp : ∀ y, Pending (acts ++ [p]) y → y ∈ p ∨ Pending acts y := fun y => pending_append
    have key : ∀ (v : Ev) (x : Instr), mE v = [] → (∀ t ∈ mI x, Known (s.log ++ [v]) t) → p = [x] →
        s'.log = s.log ++ [v] → s'.waiters = s.waiters →
        (∀ x, Pending (acts ++ [p]) x → ∀ t ∈ mI x, Known s'.log t) ∧
        (∀ t ∈ s'.waiters, Known s'.log (t, false)) ∧ (∀ v ∈ s'.log, ∀ t ∈ mE v, Known s'.log t) := by
      intro v x hv hx hpx hl hw
      rw [hl, hw]
      refine ⟨?_, fun t ht => (h5 t ht).mono v, ?_⟩
      · intro y hy t ht
        rcases hp y hy with hy | hy
        · rw [hpx] at hy; simp at hy; subst hy; exact hx t ht
        · exact (h4 y hy t ht).mono v
      · intro u hu t ht
        rcases List.mem_append.1 hu with hu | hu
        · exact (h6 u hu t ht).mono v
        · simp at hu; subst hu; rw [hv] at ht; simp at ht
    cases a with
    | lock t =>
      obtain ⟨j, e⟩ := t
      simp only [env] at he; split at he <;>
        simp only [Option.some.injEq, Prod.mk.injEq, reduceCtorEq] at he; obtain ⟨rfl, rfl⟩ := he
      have k := key (.lock (j, e)) (.ofLock (j, e)) rfl
        (by cases e <;> simp [Instr.ofLock, mI, Known]) rfl rfl rfl
      refine ⟨?_, ?_, ?_, k.1, k.2.1, k.2.2⟩
      · intro i
        by_cases hi : i = j
        · subst hi; simp only [upd_same, true_iff]; exact ⟨e, by simp⟩
        · simpa [upd, hi] using h1 i
      all_goals
        clear key k hp h4 h5 h6
        intro i; simp; grind
    | tryLock t =>
      obtain ⟨j, e⟩ := t
      simp only [env] at he; split at he <;>
        simp only [Option.some.injEq, Prod.mk.injEq, reduceCtorEq] at he; obtain ⟨rfl, rfl⟩ := he
      have k := key (.tryLock (j, e)) (.ofTry (j, e)) rfl
        (by cases e <;> simp [Instr.ofTry, mI, Known]) rfl rfl rfl
      refine ⟨?_, ?_, ?_, k.1, k.2.1, k.2.2⟩
      · intro i
        by_cases hi : i = j
        · subst hi; simp only [upd_same, true_iff]; exact ⟨e, by simp⟩
        · simpa [upd, hi] using h1 i
      all_goals
        clear key k hp h4 h5 h6
        intro i; simp; grind
    | unlock t =>
      obtain ⟨j, e⟩ := t
      simp only [env] at he; split at he <;>
        simp only [Option.some.injEq, Prod.mk.injEq, reduceCtorEq] at he; obtain ⟨rfl, rfl⟩ := he
      have k := key (.unlock (j, e)) (.ofUnlock (j, e)) rfl
        (by cases e <;> simp [Instr.ofUnlock, mI]) rfl rfl rfl
      refine ⟨?_, ?_, ?_, k.1, k.2.1, k.2.2⟩
      · intro i; simpa using h1 i
      · intro i; simpa using h2 i
      · intro i; simpa using h3 i
  · rintro s acts k x r b s' p ⟨h1, h2, h3, h4, h5, h6⟩ hk he
    have hp : ∀ y, Pending (acts.set k (p ++ r)) y → y ∈ p ∨ Pending acts y :=
      fun y => pending_set hk
    obtain ⟨k1, k2, k3⟩ := exec_known (K := Known s.log)
      (by rintro t (h | ⟨h, -⟩); exact .inl h; simp at h) he (h4 x (pending_top hk)) h5
    have hu := (exec_setts he).1
    rcases k3 with k3 | ⟨v, k3, k4, k5⟩
    · constructor
      · rw [hu, k3]; exact h1
      · rw [k3]; exact h2
      · rw [k3]; exact h3
      · rw [k3]; intro y hy
        rcases hp y hy with hy | hy
        · exact k1 y hy
        · exact h4 y hy
      · rw [k3]; exact k2
      · rw [k3]; exact h6
    · have e1 : ∀ t, .lock t ∈ s.log ++ [v] ↔ .lock t ∈ s.log := by
        intro t; simp [(k5 t).1.symm]
      have e2 : ∀ t, .tryLock t ∈ s.log ++ [v] ↔ .tryLock t ∈ s.log := by
        intro t; simp [(k5 t).2.symm]
      constructor
      · rw [hu, k3]; simpa only [e1, e2] using h1
      · rw [k3]; simpa only [e1, e2] using h2
      · rw [k3]; simpa only [e1, e2] using h3
      · rw [k3]; intro y hy t ht
        rcases hp y hy with hy | hy
        · exact (k1 y hy t ht).mono v
        · exact (h4 y hy t ht).mono v
      · rw [k3]; intro t ht; exact (k2 t ht).mono v
      · rw [k3]; intro u hu t ht
        rcases List.mem_append.1 hu with hu | hu
        · exact (h6 u hu t ht).mono v
        · simp at hu; subst hu; exact (k4 t ht).mono u

end Verif.SharedMutex
