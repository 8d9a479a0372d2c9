import Verif.Mutex.Model

namespace Verif.Mutex

/-! ## Weights -/

def isA : Instr → Nat | .acq _ => 1 | _ => 0
def isU0 : Instr → Nat | .unlock _ => 1 | .casU _ => 1 | _ => 0
def isU1 : Instr → Nat | .acqU _ => 1 | _ => 0
def isP : Instr → Nat | .popU _ => 1 | _ => 0
def isT : Instr → Nat | .stU _ => 1 | _ => 0
def isPu : Instr → Nat | .push _ => 1 | _ => 0
def isCC : Instr → Nat | .chk _ .contended => 1 | _ => 0
def isCO : Instr → Nat | .chk _ .none => 1 | .chk _ .locked => 1 | .ld _ => 1 | _ => 0
def isR : Instr → Nat | .relM => 1 | _ => 0

/-- Who holds the mutex through this instruction. -/
def tokId : Instr → Option Id
  | .acq i => some i
  | .unlock i => some i
  | .casU i => some i
  | .acqU i => some i
  | .popU i => some i
  | .stU i => some i
  | _ => none

/-- Which acquisition attempt this instruction belongs to. -/
def opId : Instr → Option Id
  | .lock i => some i
  | .tryLock i => some i
  | .acqM i => some i
  | .ld i => some i
  | .chk i _ => some i
  | .push i => some i
  | .acq i => some i
  | .stU i => some i
  | _ => none

def winId : Instr → Option Id
  | .acq i => some i
  | .stU i => some i
  | _ => none

def tok (i : Id) (x : Instr) : Nat := if tokId x = some i then 1 else 0
def opW (i : Id) (x : Instr) : Nat := if opId x = some i then 1 else 0
def winW (i : Id) (x : Instr) : Nat := if winId x = some i then 1 else 0

/-- Numeric view. -/
structure View where
  st : LSt
  mtx : Bool
  len : Nat
  held : Nat
  A : Nat
  U0 : Nat
  U1 : Nat
  P : Nat
  T : Nat
  Pu : Nat
  CC : Nat
  CO : Nat
  R : Nat

def view (s : St) (acts : List (List Instr)) : View :=
  ⟨s.st, s.mtx, s.waiters.length, (holding s.log).length, ws isA acts, ws isU0 acts, ws isU1 acts,
    ws isP acts, ws isT acts, ws isPu acts, ws isCC acts, ws isCO acts, ws isR acts⟩

/-- Invariant of the numeric view. -/
structure OK (v : View) : Prop where
  tok : v.held + v.A + v.U0 + v.U1 + v.P + v.T = if v.st = .none then 0 else 1
  crit : v.P + v.T + v.Pu + v.CC + v.CO + v.R = if v.mtx then 1 else 0
  cont : v.st = .contended → 0 < v.len + v.Pu + v.T
  ncont : v.st ≠ .contended → v.len = 0 ∧ v.Pu = 0 ∧ v.T = 0 ∧ v.CC = 0 ∧ v.U1 = 0 ∧ v.P = 0

/-- Invariant. -/
structure Inv (s : St) (acts : List (List Instr)) : Prop where
  ok : OK (view s acts)
  own : ∀ i, (holding s.log).count i + ws (tok i) acts =
    if (spec s.log).owner = some i then 1 else 0
  none : s.st = .none ↔ (spec s.log).owner = none
  q : s.waiters = (spec s.log).q
  op : ∀ i, ws (opW i) acts + s.waiters.count i + over i s.log = if s.used i then 1 else 0
  win : wins s.log = acqs s.log ++ match (spec s.log).owner with
    | some i => if 0 < ws (winW i) acts then [i] else []
    | Option.none => []
  beg : ∀ i, s.used i = true ↔ .lock i ∈ s.log ∨ .tryLock i ∈ s.log
  legal : Hist legal s.log
  shape : ∀ a ∈ acts, ∀ x ∈ a.tail, ∃ j, x = .acq j

theorem shape_set {acts : List (List Instr)} {k : Nat} {x : Instr} {r p : List Instr}
    (h : ∀ a ∈ acts, ∀ x ∈ a.tail, ∃ j, x = .acq j) (hk : acts[k]? = some (x :: r))
    (hp : ∀ y ∈ p.tail, ∃ j, y = .acq j) :
    ∀ a ∈ acts.set k (p ++ r), ∀ x ∈ a.tail, ∃ j, x = .acq j := by
  intro a ha y hy
  rcases List.mem_or_eq_of_mem_set ha with ha | rfl
  · exact h a ha y hy
  · have hr := h _ (List.mem_of_getElem? hk)
    simp only [List.tail_cons] at hr
    cases p with
    | nil => simp only [List.nil_append] at hy; exact hr y (List.mem_of_mem_tail hy)
    | cons z p =>
      simp only [List.cons_append, List.tail_cons, List.mem_append] at hy hp
      rcases hy with hy | hy
      · exact hp y hy
      · exact hr y hy

theorem shape_append {acts : List (List Instr)} {p : List Instr}
    (h : ∀ a ∈ acts, ∀ x ∈ a.tail, ∃ j, x = .acq j) (hp : ∀ y ∈ p.tail, ∃ j, y = .acq j) :
    ∀ a ∈ acts ++ [p], ∀ x ∈ a.tail, ∃ j, x = .acq j := by
  intro a ha
  rcases List.mem_append.1 ha with ha | ha
  · exact h a ha
  · simp at ha; subst ha; exact hp

theorem wins_append (l : List Ev) (v : Ev) : wins (l ++ [v]) =
    wins l ++ match v with | .fast i => [i] | .grant _ j => [j] | _ => [] := by
  rw [wins, List.filterMap_append]
  cases v <;> rfl

theorem acqs_append (l : List Ev) (v : Ev) : acqs (l ++ [v]) =
    acqs l ++ match v with | .acq i => [i] | _ => [] := by
  rw [acqs, List.filterMap_append]
  cases v <;> rfl

theorem over_append (i : Id) (l : List Ev) (v : Ev) : over i (l ++ [v]) =
    over i l + match v with
      | .acq j => if j = i then 1 else 0 | .fail j => if j = i then 1 else 0 | _ => 0 := by
  rw [over, List.countP_append]
  cases v <;> simp [List.countP_cons, over]

theorem winW_le (i : Id) (acts : List (List Instr)) : ws (winW i) acts ≤ ws (tok i) acts := by
  have h : ∀ x, winW i x ≤ tok i x := by intro x; cases x <;> simp [winW, tok, winId, tokId]
  have hl : ∀ l : List Instr, wl (winW i) l ≤ wl (tok i) l := by
    intro l; induction l with
    | nil => simp
    | cons x l ih => simp only [wl_cons]; have := h x; omega
  induction acts with
  | nil => simp
  | cons a acts ih => simp only [ws_cons]; have := hl a; omega

/-- Everything that does not concern the numeric view, for steps that leave the history alone. -/
theorem Inv.quiet {s : St} {acts : List (List Instr)} (h : Inv s acts) {k : Nat} {x : Instr}
    {r p : List Instr} (hk : acts[k]? = some (x :: r)) (st : LSt) (mtx : Bool)
    (hp : ∀ y ∈ p.tail, ∃ j, y = .acq j)
    (hn : st = .none ↔ s.st = .none)
    (ht : ∀ i, wl (tok i) p = tok i x) (ho : ∀ i, wl (opW i) p = opW i x)
    (hw : ∀ i, wl (winW i) p = winW i x)
    (hok : OK (view { s with st := st, mtx := mtx } (acts.set k (p ++ r)))) :
    Inv { s with st := st, mtx := mtx } (acts.set k (p ++ r)) := by
  have wset := fun w => ws_set w p hk
  refine ⟨hok, ?_, ?_, h.q, ?_, ?_, h.beg, h.legal, shape_set h.shape hk hp⟩
  · intro i; have := h.own i; have e := wset (tok i); rw [ht] at e; simp only; omega
  · simp only [hn]; exact h.none
  · intro i; have := h.op i; have e := wset (opW i); rw [ho] at e; simp only; omega
  · have := h.win
    simp only at this ⊢
    rw [this]; congr 1
    cases hc : (spec s.log).owner with
    | none => rfl
    | some i => have e := wset (winW i); rw [hw] at e
                simp only [show ws (winW i) (acts.set k (p ++ r)) = ws (winW i) acts by omega]

/-- The numeric invariant is preserved by instructions. -/
theorem OK.run {s : St} {acts : List (List Instr)} (h : OK (view s acts)) {k : Nat} {x : Instr}
    {r p : List Instr} (hk : acts[k]? = some (x :: r)) {b : Bool} {s' : St}
    (he : exec s x b = .ok s' p) : OK (view s' (acts.set k (p ++ r))) := by
  have eA := ws_set isA p hk
  have eU0 := ws_set isU0 p hk
  have eU1 := ws_set isU1 p hk
  have eP := ws_set isP p hk
  have eT := ws_set isT p hk
  have ePu := ws_set isPu p hk
  have eCC := ws_set isCC p hk
  have eCO := ws_set isCO p hk
  have eR := ws_set isR p hk
  have gA := ws_pos (w := isA) hk
  have gU0 := ws_pos (w := isU0) hk
  have gU1 := ws_pos (w := isU1) hk
  have gP := ws_pos (w := isP) hk
  have gT := ws_pos (w := isT) hk
  have gPu := ws_pos (w := isPu) hk
  have gCC := ws_pos (w := isCC) hk
  have gCO := ws_pos (w := isCO) hk
  have gR := ws_pos (w := isR) hk
  obtain ⟨h1, h2, h3, h4⟩ := h
  generalize acts.set k (p ++ r) = acts' at *
  cases x <;> simp only [exec] at he
  case chk i v =>
    cases v <;> simp only [exec] at he <;>
    (repeat' split at he) <;>
    simp only [Out.ok.injEq, reduceCtorEq] at he <;> obtain ⟨rfl, rfl⟩ := he <;>
    cases hst : s.st <;> cases hm : s.mtx <;>
    simp only [view, wl_cons, wl_nil, isA, isU0, isU1, isP, isT, isPu, isCC, isCO, isR,
      holding_append, holding.step, hst, hm, if_true, if_false, ne_eq, reduceCtorEq, not_false_eq_true,
      not_true_eq_false, forall_const, false_implies, Bool.false_eq_true, List.length_append,
      List.length_cons, List.length_nil, false_and, true_and, and_true] at * <;>
    (refine ⟨?_, ?_, ?_, ?_⟩ <;> simp only [hst, hm, if_true, if_false, ne_eq, reduceCtorEq, not_false_eq_true,
      not_true_eq_false, forall_const, false_implies, Bool.false_eq_true] <;> omega)
  case stU i =>
    simp only [Out.ok.injEq] at he; obtain ⟨rfl, rfl⟩ := he
    have hl : s.waiters = [] ∨ 0 < s.waiters.length := by
      cases s.waiters <;> simp
    have hst : s.st = .contended := by
      by_cases hst : s.st = .contended
      · exact hst
      · have := (h4 hst).2.2.1; simp only [view, isT] at this gT; omega
    have hm : s.mtx = true := by
      by_cases hm : s.mtx = true
      · exact hm
      · replace h2 : ws isP acts + ws isT acts + ws isPu acts + ws isCC acts + ws isCO acts +
          ws isR acts = if s.mtx then 1 else 0 := h2
        rw [if_neg hm] at h2; simp only [isT] at gT; omega
    simp only [view, wl_cons, wl_nil, isA, isU0, isU1, isP, isT, isPu, isCC, isCO, isR,
      hst, hm, if_true, if_false, ne_eq, reduceCtorEq, not_false_eq_true,
      not_true_eq_false, forall_const, false_implies, Bool.false_eq_true] at h1 h2 h3 h4 eA eU0 eU1 eP eT ePu eCC eCO eR gT ⊢
    by_cases hw : s.waiters = []
    · have hw0 : s.waiters.length = 0 := by rw [hw]; rfl
      simp only [if_pos hw]
      refine ⟨?_, ?_, ?_, ?_⟩ <;> simp only [hm, if_true, if_false, ne_eq, reduceCtorEq, not_false_eq_true,
        not_true_eq_false, forall_const, false_implies, Bool.false_eq_true] <;> omega
    · have hw0 : 0 < s.waiters.length := by simpa only [hw, false_or] using hl
      simp only [if_neg hw]
      refine ⟨?_, ?_, ?_, ?_⟩ <;> simp only [hst, hm, if_true, if_false, ne_eq, reduceCtorEq, not_false_eq_true,
        not_true_eq_false, forall_const, false_implies, Bool.false_eq_true] <;> omega
  all_goals
    (repeat' split at he) <;>
    simp only [Out.ok.injEq, reduceCtorEq] at he <;> obtain ⟨rfl, rfl⟩ := he <;>
    cases hst : s.st <;> cases hm : s.mtx <;>
    simp only [view, wl_cons, wl_nil, isA, isU0, isU1, isP, isT, isPu, isCC, isCO, isR,
      holding_append, holding.step, hst, hm, if_true, if_false, ne_eq, reduceCtorEq, not_false_eq_true,
      not_true_eq_false, forall_const, false_implies, Bool.false_eq_true, List.length_append,
      List.length_cons, List.length_nil, false_and, true_and, and_true] at * <;>
    (refine ⟨?_, ?_, ?_, ?_⟩ <;> simp only [hst, hm, if_true, if_false, ne_eq, reduceCtorEq, not_false_eq_true,
      not_true_eq_false, forall_const, false_implies, Bool.false_eq_true] <;> omega)

theorem Inv.fast {s : St} {acts : List (List Instr)} (h : Inv s acts) {k : Nat} {x : Instr}
    {r p : List Instr} (hk : acts[k]? = some (x :: r)) {i : Id}
    (hp : ∀ y ∈ p.tail, ∃ j, y = .acq j) (hst : s.st = .none)
    (ht : ∀ j, wl (tok j) p = if j = i then 1 else 0) (ht' : ∀ j, tok j x = 0)
    (ho : ∀ j, wl (opW j) p = opW j x)
    (hw : wl (winW i) p = 1)
    (hok : OK (view { s with st := .locked, log := s.log ++ [.fast i] } (acts.set k (p ++ r)))) :
    Inv { s with st := .locked, log := s.log ++ [.fast i] } (acts.set k (p ++ r)) := by
  have wset := fun w => ws_set w p hk
  have hown := h.none.1 hst
  have hq : s.waiters = [] := by
    have := (h.ok.ncont (by simp [view, hst])).1
    simpa [view] using this
  refine ⟨hok, ?_, ?_, ?_, ?_, ?_, ?_, ?_, shape_set h.shape hk hp⟩
  · intro j
    have := h.own j; have e := wset (tok j); rw [ht, ht'] at e
    simp only [spec_append, Spec.step, holding_append, holding.step, Option.some.injEq]
    rw [hown] at this; simp only [reduceCtorEq, if_false] at this
    by_cases hj : j = i
    · subst hj; simp at e ⊢; omega
    · have hj' : ¬ i = j := fun h => hj h.symm
      simp [hj] at e; simp [hj']; omega
  · simp [Spec.step]
  · simp only [spec_append, Spec.step]; exact h.q
  · intro j; have := h.op j; have e := wset (opW j); rw [ho] at e
    simp only [over_append]; omega
  · have := h.win
    rw [hown] at this
    simp only [List.append_nil] at this
    simp only [wins_append, acqs_append, spec_append, Spec.step, List.append_nil]
    have e := wset (winW i)
    rw [hw] at e
    have : winW i x = 0 := by
      have := ht' i; simp only [winW, tok] at *; cases x <;> simp_all [winId, tokId]
    rw [if_pos (by omega)]
    grind
  · simpa using h.beg
  · rw [Hist.snoc]; exact ⟨h.legal, hown, by rw [← h.q]; exact hq⟩

theorem run_inv {s : St} {acts : List (List Instr)} (h : Inv s acts) {k : Nat} {x : Instr}
    {r p : List Instr} (hk : acts[k]? = some (x :: r)) {b : Bool} {s' : St}
    (he : exec s x b = .ok s' p) : Inv s' (acts.set k (p ++ r)) := by
  have hok := h.ok.run hk he
  have wset := fun w => ws_set w p hk
  have hc := h.ok
  cases x with
  | lock i =>
    simp only [exec] at he
    split at he
    · rename_i hst
      simp only [Out.ok.injEq] at he; obtain ⟨rfl, rfl⟩ := he
      exact h.fast hk (by simp) hst (by intro j; simp [tok, tokId]; grind) (by intro j; simp [tok, tokId])
        (by intro j; simp [opW, opId]) (by simp [winW, winId]) hok
    · simp only [Out.ok.injEq] at he; obtain ⟨rfl, rfl⟩ := he
      exact h.quiet hk s.st s.mtx (by simp) Iff.rfl (by intro j; simp [tok, tokId])
        (by intro j; simp [opW, opId]) (by intro j; simp [winW, winId]) hok
  | tryLock i =>
    simp only [exec] at he
    split at he
    · rename_i hst
      simp only [Out.ok.injEq] at he; obtain ⟨rfl, rfl⟩ := he
      exact h.fast hk (by simp) hst (by intro j; simp [tok, tokId]; grind) (by intro j; simp [tok, tokId])
        (by intro j; simp [opW, opId]) (by simp [winW, winId]) hok
    · rename_i hst
      simp only [Out.ok.injEq] at he; obtain ⟨rfl, rfl⟩ := he
      refine ⟨hok, ?_, ?_, ?_, ?_, ?_, ?_, ?_, shape_set h.shape hk (by simp)⟩
      · intro j; have := h.own j; have e := wset (tok j)
        simp [tok, tokId] at e; simp [Spec.step, holding.step]; rw [← this]; simpa using e
      · simpa [Spec.step] using h.none
      · simpa [Spec.step] using h.q
      · intro j; have := h.op j; have e := wset (opW j)
        simp only [opW, opId, Option.some.injEq, wl_nil, Nat.add_zero] at e
        simp only [over_append]; split at e <;> simp_all <;> omega
      · have := h.win
        simp only [wins_append, acqs_append, spec_append, Spec.step, List.append_nil]
        rw [this]; congr 1
        cases hc : (spec s.log).owner with
        | none => rfl
        | some j =>
          have e := wset (winW j)
          have hx : winW j (.tryLock i) = 0 := rfl
          simp only [wl_nil, hx, Nat.add_zero] at e
          simp only [e]
      · simpa using h.beg
      · rw [Hist.snoc]; exact ⟨h.legal, fun hn => hst (h.none.2 hn)⟩
  | acqM i =>
    simp only [exec] at he
    split at he
    · simp at he
    · simp only [Out.ok.injEq] at he; obtain ⟨rfl, rfl⟩ := he
      exact h.quiet hk s.st true (by simp) Iff.rfl (by intro j; simp [tok, tokId])
        (by intro j; simp [opW, opId]) (by intro j; simp [winW, winId]) hok
  | ld i =>
    simp only [exec, Out.ok.injEq] at he; obtain ⟨rfl, rfl⟩ := he
    exact h.quiet hk s.st s.mtx (by simp) Iff.rfl (by intro j; simp [tok, tokId])
      (by intro j; simp [opW, opId]) (by intro j; simp [winW, winId]) hok
  | chk i v =>
    cases v with
    | none =>
      simp only [exec] at he
      split at he
      · rename_i hst
        simp only [Out.ok.injEq] at he; obtain ⟨rfl, rfl⟩ := he
        exact h.fast hk (by simp) hst.1 (by intro j; simp [tok, tokId]; grind) (by intro j; simp [tok, tokId])
          (by intro j; simp [opW, opId]) (by simp [winW, winId]) hok
      · simp only [Out.ok.injEq] at he; obtain ⟨rfl, rfl⟩ := he
        exact h.quiet hk s.st s.mtx (by simp) Iff.rfl (by intro j; simp [tok, tokId])
          (by intro j; simp [opW, opId]) (by intro j; simp [winW, winId]) hok
    | locked =>
      simp only [exec] at he
      split at he
      · rename_i hst
        simp only [Out.ok.injEq] at he; obtain ⟨rfl, rfl⟩ := he
        exact h.quiet hk .contended s.mtx (by simp) (by simp [hst.1]) (by intro j; simp [tok, tokId])
          (by intro j; simp [opW, opId]) (by intro j; simp [winW, winId]) hok
      · simp only [Out.ok.injEq] at he; obtain ⟨rfl, rfl⟩ := he
        exact h.quiet hk s.st s.mtx (by simp) Iff.rfl (by intro j; simp [tok, tokId])
          (by intro j; simp [opW, opId]) (by intro j; simp [winW, winId]) hok
    | contended =>
      simp only [exec, Out.ok.injEq] at he; obtain ⟨rfl, rfl⟩ := he
      exact h.quiet hk s.st s.mtx (by simp) Iff.rfl (by intro j; simp [tok, tokId])
        (by intro j; simp [opW, opId]) (by intro j; simp [winW, winId]) hok
  | push i =>
    simp only [exec, Out.ok.injEq] at he; obtain ⟨rfl, rfl⟩ := he
    have hPu := ws_pos (w := isPu) hk
    have hst : s.st = .contended := by
      by_cases hst : s.st = .contended
      · exact hst
      · have := (hc.ncont hst).2.1; simp only [view] at this; simp [isPu] at hPu; omega
    have hni : i ∉ s.waiters := by
      intro hm
      have h1 := h.op i
      have h2 := ws_pos (w := opW i) hk
      have h3 := List.count_pos_iff.2 hm
      simp [opW, opId] at h2
      split at h1 <;> omega
    refine ⟨hok, ?_, ?_, ?_, ?_, ?_, ?_, ?_, shape_set h.shape hk (by simp)⟩
    · intro j; have := h.own j; have e := wset (tok j)
      simp [tok, tokId] at e; simp [Spec.step, holding.step]; rw [← this]; simpa using e
    · simpa [Spec.step] using h.none
    · simp [Spec.step, h.q]
    · intro j; have := h.op j; have e := wset (opW j)
      simp only [opW, opId, Option.some.injEq, wl_nil, wl_cons, Nat.add_zero, reduceCtorEq, if_false] at e
      simp only [over_append, List.count_append, List.count_singleton, beq_iff_eq]
      split at e <;> simp_all <;> omega
    · have := h.win
      simp only [wins_append, acqs_append, spec_append, Spec.step, List.append_nil]
      rw [this]; congr 1
      cases hc : (spec s.log).owner with
      | none => rfl
      | some j =>
        have e := wset (winW j)
        have hx : winW j (.push i) = 0 := rfl
        simp only [wl_cons, wl_nil, hx, show winW j .relM = 0 from rfl, Nat.add_zero] at e
        simp only [e]
    · simpa using h.beg
    · rw [Hist.snoc]
      refine ⟨h.legal, ?_, by rw [← h.q]; exact hni⟩
      intro hn; have := h.none.2 hn; rw [hst] at this; cases this
  | relM =>
    simp only [exec, Out.ok.injEq] at he; obtain ⟨rfl, rfl⟩ := he
    exact h.quiet hk s.st false (by simp) Iff.rfl (by intro j; simp [tok, tokId])
      (by intro j; simp [opW, opId]) (by intro j; simp [winW, winId]) hok
  | acq i =>
    simp only [exec, Out.ok.injEq] at he; obtain ⟨rfl, rfl⟩ := he
    have h1 := h.own i
    have h2 := ws_pos (w := tok i) hk
    simp only [tok, tokId, if_true] at h2
    have hown : (spec s.log).owner = some i := by
      by_cases hx : (spec s.log).owner = some i
      · exact hx
      · rw [if_neg hx] at h1; omega
    have hhold : holding s.log = [] := by
      have h3 := hc.tok
      have h4 := ws_pos (w := isA) hk
      replace h3 : (holding s.log).length + ws isA acts + ws isU0 acts + ws isU1 acts + ws isP acts +
        ws isT acts = if s.st = .none then 0 else 1 := h3
      simp only [isA] at h4
      rw [← List.length_eq_zero_iff]
      by_cases hn : s.st = .none
      · rw [if_pos hn] at h3; omega
      · rw [if_neg hn] at h3; omega
    refine ⟨hok, ?_, ?_, ?_, ?_, ?_, ?_, ?_, shape_set h.shape hk (by simp)⟩
    · intro j; have := h.own j; have e := wset (tok j)
      simp only [tok, tokId, Option.some.injEq, wl_nil, Nat.add_zero] at e
      simp only [spec_append, Spec.step, holding_append, holding.step, List.count_append,
        List.count_singleton, beq_iff_eq]
      split at e <;> simp_all <;> omega
    · simpa [Spec.step] using h.none
    · simpa [Spec.step] using h.q
    · intro j; have := h.op j; have e := wset (opW j)
      simp only [opW, opId, Option.some.injEq, wl_nil, Nat.add_zero] at e
      simp only [over_append]; split at e <;> simp_all <;> omega
    · have := h.win
      simp only [wins_append, acqs_append, spec_append, Spec.step, List.append_nil]
      rw [this, hown]
      have e := wset (winW i)
      have e2 := winW_le i acts
      have h5 := h.own i
      rw [if_pos hown] at h5
      have h6 := ws_pos (w := winW i) hk
      simp only [winW, winId, if_true, wl_nil, Nat.add_zero] at e h6
      simp only
      rw [if_pos (by omega), if_neg (by omega)]; simp
    · simpa using h.beg
    · rw [Hist.snoc]; exact ⟨h.legal, hown, hhold⟩
  | unlock i =>
    simp only [exec] at he
    split at he
    · simp at he
    · simp only [Out.ok.injEq] at he; obtain ⟨rfl, rfl⟩ := he
      exact h.quiet hk s.st s.mtx (by simp) Iff.rfl (by intro j; simp [tok, tokId])
        (by intro j; simp [opW, opId]) (by intro j; simp [winW, winId]) hok
    · simp only [Out.ok.injEq] at he; obtain ⟨rfl, rfl⟩ := he
      exact h.quiet hk s.st s.mtx (by simp) Iff.rfl (by intro j; simp [tok, tokId])
        (by intro j; simp [opW, opId]) (by intro j; simp [winW, winId]) hok
  | casU i =>
    have hown : (spec s.log).owner = some i := by
      have h1 := h.own i
      have h2 := ws_pos (w := tok i) hk
      simp only [tok, tokId, if_true] at h2
      by_cases hx : (spec s.log).owner = some i
      · exact hx
      · rw [if_neg hx] at h1; omega
    simp only [exec] at he
    split at he
    · rename_i hst
      simp only [Out.ok.injEq] at he; obtain ⟨rfl, rfl⟩ := he
      refine ⟨hok, ?_, ?_, ?_, ?_, ?_, ?_, ?_, shape_set h.shape hk (by simp)⟩
      · intro j; have := h.own j; have e := wset (tok j)
        simp only [tok, tokId, Option.some.injEq, wl_nil, Nat.add_zero] at e
        simp only [spec_append, Spec.step, holding_append, holding.step]
        rw [hown] at this
        simp only [Option.some.injEq] at this
        simp only [reduceCtorEq, if_false]
        split at e <;> simp_all <;> omega
      · simp [Spec.step]
      · simpa [Spec.step] using h.q
      · intro j; have := h.op j; have e := wset (opW j)
        simp only [opW, opId, wl_nil, Nat.add_zero, reduceCtorEq, if_false] at e
        simp only [over_append]; omega
      · have := h.win
        simp only [wins_append, acqs_append, spec_append, Spec.step, List.append_nil]
        rw [this, hown]; simp only
        -- the token is in this instruction, so no acquisition is pending
        have h1 := h.own i
        rw [if_pos hown] at h1
        have hw : ws (winW i) acts = 0 := by
          have e2 := winW_le i (acts.set k ([] ++ r))
          have e3 := wset (winW i)
          have e4 := wset (tok i)
          simp only [winW, winId, tok, tokId, reduceCtorEq, if_true, if_false, wl_nil] at e3 e4
          omega
        rw [if_neg (by omega)]; simp
      · simpa using h.beg
      · rw [Hist.snoc]
        refine ⟨h.legal, hown, ?_⟩
        have := (hc.ncont (by simp [view, hst])).1
        rw [← h.q]; simpa [view] using this
    · simp only [Out.ok.injEq] at he; obtain ⟨rfl, rfl⟩ := he
      exact h.quiet hk s.st s.mtx (by simp) Iff.rfl (by intro j; simp [tok, tokId])
        (by intro j; simp [opW, opId]) (by intro j; simp [winW, winId]) hok
    · simp at he
  | acqU i =>
    simp only [exec] at he
    split at he
    · simp at he
    · simp only [Out.ok.injEq] at he; obtain ⟨rfl, rfl⟩ := he
      exact h.quiet hk s.st true (by simp) Iff.rfl (by intro j; simp [tok, tokId])
        (by intro j; simp [opW, opId]) (by intro j; simp [winW, winId]) hok
  | popU i =>
    have hown : (spec s.log).owner = some i := by
      have h1 := h.own i
      have h2 := ws_pos (w := tok i) hk
      simp only [tok, tokId, if_true] at h2
      by_cases hx : (spec s.log).owner = some i
      · exact hx
      · rw [if_neg hx] at h1; omega
    have hst : s.st = .contended := by
      have hP := ws_pos (w := isP) hk
      by_cases hst : s.st = .contended
      · exact hst
      · have := (hc.ncont hst).2.2.2.2.2; simp only [view] at this; simp [isP] at hP; omega
    simp only [exec] at he
    split at he
    · simp at he
    · rename_i j w hw
      simp only [Out.ok.injEq] at he; obtain ⟨rfl, rfl⟩ := he
      refine ⟨hok, ?_, ?_, ?_, ?_, ?_, ?_, ?_, shape_set h.shape hk (by simp)⟩
      · intro m; have := h.own m; have e := wset (tok m)
        simp only [tok, tokId, Option.some.injEq, wl_nil, wl_cons, Nat.add_zero] at e
        simp only [spec_append, Spec.step, holding_append, holding.step]
        rw [hown] at this
        simp only [Option.some.injEq] at this ⊢
        omega
      · simp [Spec.step, hst]
      · simp [Spec.step, ← h.q, hw]
      · intro m; have := h.op m; have e := wset (opW m)
        rw [hw, List.count_cons] at this
        simp only [opW, opId, wl_nil, wl_cons, Nat.add_zero, reduceCtorEq, if_false, Option.some.injEq,
          beq_iff_eq] at e this
        simp only [over_append]; omega
      · have := h.win
        simp only [wins_append, acqs_append, spec_append, Spec.step, List.append_nil]
        rw [this, hown]; simp only
        have h1 := h.own i
        rw [if_pos hown] at h1
        have hw : ws (winW i) acts = 0 := by
          have e0 := ws_set (tok i) [] hk
          have e2 := winW_le i (acts.set k ([] ++ r))
          have e3 := ws_set (winW i) [] hk
          simp only [winW, winId, tok, tokId, reduceCtorEq, if_true, if_false, wl_nil] at e3 e0
          omega
        have e := wset (winW j)
        have : winW j (.popU i) = 0 := rfl
        simp only [wl_cons, wl_nil, this] at e
        simp only [show winW j (.stU j) = 1 by simp [winW, winId]] at e
        rw [if_neg (by omega), if_pos (by omega)]; simp
      · simpa using h.beg
      · rw [Hist.snoc]; exact ⟨h.legal, hown, w, by rw [← h.q, hw]⟩
  | stU j =>
    simp only [exec, Out.ok.injEq] at he; obtain ⟨rfl, rfl⟩ := he
    have hst : s.st = .contended := by
      have hP := ws_pos (w := isT) hk
      by_cases hst : s.st = .contended
      · exact hst
      · have := (hc.ncont hst).2.2.1; simp only [view] at this; simp [isT] at hP; omega
    exact h.quiet hk _ s.mtx (by simp) (by rw [hst]; split <;> simp) (by intro j; simp [tok, tokId])
      (by intro j; simp [opW, opId]) (by intro j; simp [winW, winId]) hok


theorem init_inv : Inv init [] where
  ok := ⟨rfl, rfl, by simp [view, init], by simp [view, init]⟩
  own := by intro i; rfl
  none := by simp [init, spec]
  q := rfl
  op := by intro i; rfl
  win := rfl
  beg := by intro i; simp [init]
  legal := Hist.nil
  shape := by simp

/-- The environment starts an acquisition. -/
theorem env_begin {s : St} {acts : List (List Instr)} (h : Inv s acts) {i : Id}
    (hu : s.used i = false) {v : Ev} {x : Instr} (hx : x = .lock i ∧ v = .lock i ∨
      x = .tryLock i ∧ v = .tryLock i) :
    Inv { s with used := upd s.used i true, log := s.log ++ [v] } (acts ++ [[x]]) := by
  refine ⟨?_, ?_, ?_, ?_, ?_, ?_, ?_, ?_, shape_append h.shape (by simp)⟩
  · have hc := h.ok
    have e : view { s with used := upd s.used i true, log := s.log ++ [v] } (acts ++ [[x]]) =
        view s acts := by
      rcases hx with ⟨rfl, rfl⟩ | ⟨rfl, rfl⟩ <;>
      simp [view, isA, isU0, isU1, isP, isT, isPu, isCC, isCO, isR, holding.step]
    rw [e]; exact hc
  · intro j; have := h.own j
    rcases hx with ⟨rfl, rfl⟩ | ⟨rfl, rfl⟩ <;> simp [holding.step, Spec.step, this, tok, tokId]
  · rcases hx with ⟨rfl, rfl⟩ | ⟨rfl, rfl⟩ <;> simpa [Spec.step] using h.none
  · rcases hx with ⟨rfl, rfl⟩ | ⟨rfl, rfl⟩ <;> simpa [Spec.step] using h.q
  · intro j; have := h.op j
    by_cases hj : j = i
    · subst hj
      rw [hu] at this
      rcases hx with ⟨rfl, rfl⟩ | ⟨rfl, rfl⟩ <;> simp [opW, opId, over_append] <;> simp at this <;> omega
    · have hj' : ¬ i = j := fun h => hj h.symm
      rcases hx with ⟨rfl, rfl⟩ | ⟨rfl, rfl⟩ <;> simp [opW, opId, over_append, hj, hj', upd] <;> omega
  · have := h.win
    rcases hx with ⟨rfl, rfl⟩ | ⟨rfl, rfl⟩ <;>
    simp only [wins_append, acqs_append, spec_append, Spec.step, List.append_nil, ws_append, ws_cons, ws_nil,
      wl_cons, wl_nil, winW, winId, reduceCtorEq, if_false, Nat.add_zero] <;> exact this
  · intro j; have := h.beg j
    by_cases hj : j = i
    · subst hj; rcases hx with ⟨rfl, rfl⟩ | ⟨rfl, rfl⟩ <;> simp
    · rcases hx with ⟨rfl, rfl⟩ | ⟨rfl, rfl⟩ <;> simp [upd, hj, this]
  · rw [Hist.snoc]; refine ⟨h.legal, ?_⟩
    rcases hx with ⟨rfl, rfl⟩ | ⟨rfl, rfl⟩ <;> trivial

theorem env_inv {s : St} {acts : List (List Instr)} (h : Inv s acts) {a : Act} {s' : St}
    {p : List Instr} (he : env s acts a = some (s', p)) : Inv s' (acts ++ [p]) := by
  cases a with
  | lock i =>
    simp only [env] at he
    split at he
    · simp at he
    · rename_i hu; simp only [Option.some.injEq, Prod.mk.injEq] at he; obtain ⟨rfl, rfl⟩ := he
      exact env_begin h (by simpa using hu) (.inl ⟨rfl, rfl⟩)
  | tryLock i =>
    simp only [env] at he
    split at he
    · simp at he
    · rename_i hu; simp only [Option.some.injEq, Prod.mk.injEq] at he; obtain ⟨rfl, rfl⟩ := he
      exact env_begin h (by simpa using hu) (.inr ⟨rfl, rfl⟩)
  | unlock i =>
    simp only [env] at he
    split at he
    · rename_i hi; simp only [Option.some.injEq, Prod.mk.injEq] at he; obtain ⟨rfl, rfl⟩ := he
      have hl := List.length_erase_of_mem hi
      have hp := List.length_pos_of_mem hi
      refine ⟨?_, ?_, ?_, ?_, ?_, ?_, ?_, ?_, shape_append h.shape (by simp)⟩
      · obtain ⟨h1, h2, h3, h4⟩ := h.ok
        refine ⟨?_, ?_, ?_, ?_⟩
        · refine Eq.trans ?_ h1
          simp only [view, holding_append, holding.step, ws_append, ws_cons, ws_nil, wl_cons, wl_nil,
            isA, isU0, isU1, isP, isT]
          omega
        · refine Eq.trans ?_ h2
          simp [view, isP, isT, isPu, isCC, isCO, isR]
        · simpa [view, isPu, isT] using h3
        · simpa [view, isPu, isT, isCC, isU1, isP] using h4
      · intro j; have := h.own j
        have hc := List.count_pos_iff.2 hi
        by_cases hj : j = i
        · subst hj
          simp only [holding_append, holding.step, spec_append, Spec.step, ws_append, ws_cons, ws_nil,
            wl_cons, wl_nil, tok, tokId, if_true, List.count_erase_self]
          rw [← this]; omega
        · have hj' : ¬ i = j := fun h => hj h.symm
          simp only [holding_append, holding.step, spec_append, Spec.step, ws_append, ws_cons, ws_nil,
            wl_cons, wl_nil, tok, tokId, Option.some.injEq, if_neg hj', List.count_erase_of_ne hj]
          rw [← this]; omega
      · simpa [Spec.step] using h.none
      · simpa [Spec.step] using h.q
      · intro j; have := h.op j
        simpa [opW, opId, over_append] using this
      · have := h.win
        simp only [wins_append, acqs_append, spec_append, Spec.step, List.append_nil, ws_append, ws_cons, ws_nil,
          wl_cons, wl_nil, winW, winId, reduceCtorEq, if_false, Nat.add_zero]; exact this
      · intro j; simpa using h.beg j
      · rw [Hist.snoc]; exact ⟨h.legal, trivial⟩
    · simp at he

theorem reach_inv {c : Conf mach} (h : Reach mach init c) : Inv c.sh c.acts :=
  Reach.inv (P := Inv) init_inv (fun _ _ _ _ _ h he => env_inv h he)
    (fun _ _ _ _ _ _ _ _ h hk he => run_inv h hk he) h

theorem no_fault {s : St} {acts : List (List Instr)} (h : Inv s acts) {k : Nat} {x : Instr}
    {r : List Instr} (hk : acts[k]? = some (x :: r)) (b : Bool) : exec s x b ≠ .fault := by
  obtain ⟨h1, h2, h3, h4⟩ := h.ok
  replace h1 : (holding s.log).length + ws isA acts + ws isU0 acts + ws isU1 acts + ws isP acts +
    ws isT acts = if s.st = .none then 0 else 1 := h1
  replace h2 : ws isP acts + ws isT acts + ws isPu acts + ws isCC acts + ws isCO acts +
    ws isR acts = if s.mtx then 1 else 0 := h2
  simp only [view] at h3 h4
  cases x with
  | unlock i =>
    have := ws_pos (w := isU0) hk
    simp only [isU0] at this
    simp only [exec]
    cases hst : s.st <;> simp [hst] at h1 ⊢
    omega
  | casU i =>
    have := ws_pos (w := isU0) hk
    simp only [isU0] at this
    simp only [exec]
    cases hst : s.st <;> simp [hst] at h1 ⊢
    omega
  | popU i =>
    have h5 := ws_pos (w := isP) hk
    simp only [isP] at h5
    simp only [exec]
    cases hw : s.waiters with
    | nil =>
      exfalso
      have h6 : s.st = .contended := by
        by_cases hst : s.st = .contended
        · exact hst
        · have := (h4 hst).2.2.2.2.2; omega
      have h7 := h3 h6
      rw [hw] at h7; simp only [List.length_nil] at h7
      have : (if s.mtx then 1 else 0) ≤ 1 := by split <;> omega
      omega
    | cons j w => simp
  | chk i v => cases v <;> simp only [exec] <;> (repeat' split) <;> simp
  | _ => simp only [exec] <;> (repeat' split) <;> simp

/-- An instruction that may have to wait does so only while somebody else holds the internal
mutex; that one does not wait. -/
theorem progress {s : St} {acts : List (List Instr)} (h : Inv s acts)
    (hq : ¬ ∀ a ∈ acts, a = []) :
    ∃ (k : Nat) (x : Instr) (r : List Instr), acts[k]? = some (x :: r) ∧ ∀ b, ∃ s' p, exec s x b = .ok s' p := by
  have go : ∀ x : Instr, (s.mtx = true → (∀ i, x ≠ .acqM i) ∧ ∀ i, x ≠ .acqU i) →
      (∀ b, exec s x b ≠ .fault) → ∀ b, ∃ s' p, exec s x b = .ok s' p := by
    intro x hx hf b
    cases hm : s.mtx with
    | true =>
      have := hx hm
      have hf := hf b
      cases x with
      | acqM i => exact absurd rfl (this.1 i)
      | acqU i => exact absurd rfl (this.2 i)
      | chk i v => cases v <;> simp only [exec] <;> (repeat' split) <;> simp
      | _ => simp only [exec] at hf ⊢ <;> (repeat' split) <;> simp_all
    | false =>
      have hf := hf b
      cases x with
      | chk i v => cases v <;> simp only [exec] <;> (repeat' split) <;> simp
      | _ => simp only [exec] at hf ⊢ <;> (repeat' split) <;> simp_all
  have top : ∀ a ∈ acts, ∀ x ∈ a, (∀ j, x ≠ .acq j) → ∃ (k : Nat) (r : List Instr), acts[k]? = some (x :: r) := by
    intro a ha x hx hn
    cases a with
    | nil => simp at hx
    | cons y r =>
      rcases List.mem_cons.1 hx with hx | hx
      · subst hx
        obtain ⟨k, hk⟩ := List.getElem?_of_mem ha
        exact ⟨k, r, hk⟩
      · obtain ⟨j, hj⟩ := h.shape _ ha x hx
        exact absurd hj (hn j)
  cases hm : s.mtx with
  | true =>
    have h2 := h.ok.crit
    simp only [view, hm, if_true] at h2
    have : ∃ w : Instr → Nat, 0 < ws w acts ∧
        ∀ x, 0 < w x → (∀ i, x ≠ .acqM i) ∧ (∀ i, x ≠ .acqU i) ∧ ∀ j, x ≠ .acq j := by
      by_cases a1 : 0 < ws isP acts
      · exact ⟨isP, a1, by intro x; cases x <;> simp [isP]⟩
      by_cases a2 : 0 < ws isT acts
      · exact ⟨isT, a2, by intro x; cases x <;> simp [isT]⟩
      by_cases a3 : 0 < ws isPu acts
      · exact ⟨isPu, a3, by intro x; cases x <;> simp [isPu]⟩
      by_cases a4 : 0 < ws isCC acts
      · exact ⟨isCC, a4, by intro x; cases x <;> simp [isCC]⟩
      by_cases a5 : 0 < ws isCO acts
      · exact ⟨isCO, a5, by intro x; cases x <;> simp [isCO]⟩
      · exact ⟨isR, by omega, by intro x; cases x <;> simp [isR]⟩
    obtain ⟨w, hw, hx⟩ := this
    obtain ⟨a, ha, x, hxa, hwx⟩ := exists_of_ws_pos hw
    obtain ⟨e1, e2, e3⟩ := hx x hwx
    obtain ⟨k, r, hk⟩ := top a ha x hxa e3
    exact ⟨k, x, r, hk, go x (fun _ => ⟨e1, e2⟩) (fun b => no_fault h hk b)⟩
  | false =>
    have : ∃ a ∈ acts, a ≠ [] := by
      apply Classical.byContradiction
      intro hn; apply hq
      intro a ha
      apply Classical.byContradiction
      intro hne; exact hn ⟨a, ha, hne⟩
    obtain ⟨a, ha, hne⟩ := this
    cases a with
    | nil => simp at hne
    | cons x r =>
      obtain ⟨k, hk⟩ := List.getElem?_of_mem ha
      exact ⟨k, x, r, hk, go x (by simp [hm]) (fun b => no_fault h hk b)⟩

/-! ## Termination -/

/-- Upper bound of the number of instructions that follow. -/
def pw (st : LSt) : Instr → Nat
  | .relM => 1
  | .acq _ => 1
  | .push _ => 2
  | .stU _ => 3
  | .popU _ => 4
  | .acqU _ => 5
  | .casU _ => 6
  | .unlock _ => 7
  | .chk _ v => if v = st then 4 else 5
  | .ld _ => 5
  | .acqM _ => 6
  | .lock _ => 7
  | .tryLock _ => 3

def isChk : Instr → Nat | .chk _ _ => 1 | _ => 0

theorem pw_change (st st' : LSt) (acts : List (List Instr)) :
    ws (pw st') acts ≤ ws (pw st) acts + ws isChk acts := by
  have h : ∀ x, pw st' x ≤ pw st x + isChk x := by
    intro x; cases x <;> simp [pw, isChk]
    repeat' split
    all_goals omega
  have hl : ∀ l : List Instr, wl (pw st') l ≤ wl (pw st) l + wl isChk l := by
    intro l; induction l with
    | nil => simp
    | cons x l ih => simp only [wl_cons]; have := h x; omega
  induction acts with
  | nil => simp
  | cons a acts ih => simp only [ws_cons]; have := hl a; omega

theorem isChk_le (acts : List (List Instr)) : ws isChk acts ≤ ws isCC acts + ws isCO acts := by
  have h : ∀ x, isChk x ≤ isCC x + isCO x := by
    intro x; cases x <;> simp [isChk]
    rename_i v; cases v <;> simp [isCC, isCO]
  have hl : ∀ l : List Instr, wl isChk l ≤ wl isCC l + wl isCO l := by
    intro l; induction l with
    | nil => simp
    | cons x l ih => simp only [wl_cons]; have := h x; omega
  induction acts with
  | nil => simp
  | cons a acts ih => simp only [ws_cons]; have := hl a; omega

theorem decreases {s : St} {acts : List (List Instr)} (h : Inv s acts) {k : Nat} {x : Instr}
    {r p : List Instr} (hk : acts[k]? = some (x :: r)) {b : Bool} {s' : St}
    (he : exec s x b = .ok s' p) :
    ws (pw s'.st) (acts.set k (p ++ r)) + (if b then 1 else 0) ≤ ws (pw s.st) acts := by
  have e := ws_set (pw s'.st) p hk
  have e2 := pw_change s.st s'.st acts
  have e3 := isChk_le acts
  have e4 := ws_pos (w := pw s.st) hk
  have e5 := ws_pos (w := isT) hk
  have h2 := h.ok.crit
  replace h2 : ws isP acts + ws isT acts + ws isPu acts + ws isCC acts + ws isCO acts +
    ws isR acts = if s.mtx then 1 else 0 := h2
  have h3 : (if s.mtx then 1 else 0) ≤ 1 := by split <;> omega
  have hb : (if b then 1 else 0) ≤ 1 := by split <;> omega
  generalize acts.set k (p ++ r) = acts' at *
  cases x with
  | chk i v =>
    cases v <;> simp only [exec] at he <;> (repeat' split at he) <;>
    simp only [Out.ok.injEq] at he <;> obtain ⟨rfl, rfl⟩ := he <;>
    simp only [pw, wl_cons, wl_nil, if_true] at * <;> cases hst : s.st <;>
    simp only [hst, reduceCtorEq, if_true, if_false, false_and, true_and, and_false, Bool.not_eq_true] at * <;>
    cases b <;> simp_all <;> omega
  | _ =>
    simp only [exec] at he <;> (repeat' split at he) <;>
    simp only [Out.ok.injEq, reduceCtorEq] at he <;> obtain ⟨rfl, rfl⟩ := he <;>
    simp only [pw, isT, wl_cons, wl_nil, if_true] at * <;> omega

end Verif.Mutex
