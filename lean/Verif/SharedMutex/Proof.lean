import Verif.SharedMutex.View
import Verif.Weights

/-! # Invariant of the shared mutex -/

namespace Verif.SharedMutex

/-- Rights that are held through an instruction. -/
def toks : Instr → List Req
  | .acq t => [t]
  | .unlock i => [(i, true)]
  | .casU i => [(i, true)]
  | .acqU i => [(i, true)]
  | .popU i => [(i, true)]
  | .stE j => [(j, true)]
  | .stS j => [(j, true)]
  | .stR js => js.map (·, false)
  | .unlockS i => [(i, false)]
  | .usL i _ => [(i, false)]
  | .usC i _ => [(i, false)]
  | .acqS i => [(i, false)]
  | .popS i => [(i, false)]
  | _ => []

/-- Requests that have been admitted but have not been told. -/
def wn : Instr → List Req
  | .acq t => [t]
  | .stE j => [(j, true)]
  | .stS j => [(j, true)]
  | .stR js => js.map (·, false)
  | _ => []

/-- Requests that an instruction works on. -/
def ops : Instr → List Id
  | .lock i => [i]
  | .tryLock i => [i]
  | .lockS i => [i]
  | .tryLockS i => [i]
  | .lsT i _ _ => [i]
  | .acqM t => [t.1]
  | .ld t => [t.1]
  | .chk t _ => [t.1]
  | .push t => [t.1]
  | .acq t => [t.1]
  | .stE j => [j]
  | .stS j => [j]
  | .stR js => js
  | _ => []

/-! ## Functions of histories -/

def Ev.wins : Ev → List Req
  | .fast t => [t]
  | .grant _ ts => ts
  | _ => []

/-- Order in which requests are admitted. -/
def wins (log : List Ev) : List Req := log.flatMap Ev.wins

def Ev.acqs : Ev → List Req
  | .acq t => [t]
  | _ => []

/-- Order in which users learn of their admission. -/
def acqs (log : List Ev) : List Req := log.flatMap Ev.acqs

def Ev.overs : Ev → List Id
  | .acq t => [t.1]
  | .fail t => [t.1]
  | _ => []

/-- Requests that are over. -/
def overs (log : List Ev) : List Id := log.flatMap Ev.overs

theorem wins_append (l : List Ev) (v : Ev) : wins (l ++ [v]) = wins l ++ v.wins := by
  simp [wins]
theorem acqs_append (l : List Ev) (v : Ev) : acqs (l ++ [v]) = acqs l ++ v.acqs := by
  simp [acqs]
theorem overs_append (l : List Ev) (v : Ev) : overs (l ++ [v]) = overs l ++ v.overs := by
  simp [overs]

/-- Invariant. -/
structure Inv (s : St) (acts : List (List Instr)) : Prop where
  ok : OK (view s acts)
  own : ∀ q, (holding s.log).countP q + ws (cw toks q) acts = (spec s.log).own.countP q
  q : s.waiters = (spec s.log).q
  op : ∀ i, ws (cw ops (· == i)) acts + (s.waiters.map (·.1)).count i + (overs s.log).count i =
    if s.used i then 1 else 0
  win : ∀ q, (wins s.log).countP q = (acqs s.log).countP q + ws (cw wn q) acts
  beg : ∀ i, s.used i = true ↔ ∃ e, .lock (i, e) ∈ s.log ∨ .tryLock (i, e) ∈ s.log
  legal : Hist legal s.log
  shape : ∀ a ∈ acts, ∀ x ∈ a.tail, ∃ t, x = .acq t

theorem shape_set {acts : List (List Instr)} {k : Nat} {x : Instr} {r p : List Instr}
    (h : ∀ a ∈ acts, ∀ x ∈ a.tail, ∃ j, x = .acq j) (hk : acts[k]? = some (x :: r))
    (hp : ∀ y ∈ p.tail, ∃ j, y = .acq j) :
    ∀ a ∈ acts.set k (p ++ r), ∀ x ∈ a.tail, ∃ j, x = .acq j := by
  intro a ha y hy
  rcases List.mem_or_eq_of_mem_set ha with ha | rfl
  · exact h a ha y hy
  · have hr := h _ (List.mem_of_getElem? hk)
    simp only [List.tail_cons] at hr
    cases p with
    | nil => simp only [List.nil_append] at hy; exact hr y (List.mem_of_mem_tail hy)
    | cons z p =>
      simp only [List.cons_append, List.tail_cons, List.mem_append] at hy hp
      rcases hy with hy | hy
      · exact hp y hy
      · exact hr y hy

theorem shape_append {acts : List (List Instr)} {p : List Instr}
    (h : ∀ a ∈ acts, ∀ x ∈ a.tail, ∃ j, x = .acq j) (hp : ∀ y ∈ p.tail, ∃ j, y = .acq j) :
    ∀ a ∈ acts ++ [p], ∀ x ∈ a.tail, ∃ j, x = .acq j := by
  intro a ha
  rcases List.mem_append.1 ha with ha | ha
  · exact h a ha
  · simp at ha; subst ha; exact hp

/-- Steps that leave history and queue alone. -/
theorem Inv.quiet {s : St} {acts : List (List Instr)} (h : Inv s acts) {k : Nat} {x : Instr}
    {r p : List Instr} (hk : acts[k]? = some (x :: r)) (st : Wd) (mtx : Bool)
    (hp : ∀ y ∈ p.tail, ∃ t, y = .acq t)
    (ht : p.flatMap toks = toks x) (ho : p.flatMap ops = ops x) (hw : p.flatMap wn = wn x)
    (hok : OK (view { s with st := st, mtx := mtx } (acts.set k (p ++ r)))) :
    Inv { s with st := st, mtx := mtx } (acts.set k (p ++ r)) := by
  refine ⟨hok, ?_, h.q, ?_, ?_, h.beg, h.legal, shape_set h.shape hk hp⟩
  · intro q; have := h.own q; have e := cw_set toks q p hk; rw [ht] at e; simp only; omega
  · intro i; have := h.op i; have e := cw_set ops (· == i) p hk; rw [ho] at e; simp only; omega
  · intro q; have := h.win q; have e := cw_set wn q p hk; rw [hw] at e; simp only; omega

/-! ## Who holds the mutex, according to the state -/

def lenR : Instr → Nat | .stR js => js.length | _ => 0

theorem toks_E (acts : List (List Instr)) :
    ws (cw toks (·.2)) acts = ws wE acts + ws isX acts := by
  apply ws_add
  intro x
  cases x <;> simp [cw, toks, wE, isX]
  all_goals first | (rename_i t; obtain ⟨i, e⟩ := t; cases e <;> simp) | skip

theorem toks_S (acts : List (List Instr)) :
    ws (cw toks (!·.2)) acts = ws wS acts + ws lenR acts := by
  apply ws_add
  intro x
  cases x <;> simp [cw, toks, wS, lenR]
  all_goals first | (rename_i t; obtain ⟨i, e⟩ := t; cases e <;> simp) | skip

theorem lenR_zero {acts : List (List Instr)} (h : ws isR acts = 0) : ws lenR acts = 0 := by
  by_cases hz : 0 < ws lenR acts
  · obtain ⟨a, ha, x, hx, hw⟩ := exists_of_ws_pos hz
    have := ws_pos_of_mem (w := isR) ha hx
    cases x <;> simp [lenR] at hw
    simp [isR] at this; omega
  · omega

theorem lenR_ge {acts : List (List Instr)} (h : ws isBad acts = 0) : ws isR acts ≤ ws lenR acts := by
  have h1 : ∀ x : Instr, isR x ≤ lenR x + isBad x := by
    intro x; cases x <;> simp [isR, lenR, isBad]
    rename_i js; cases js <;> simp
  have h2 := ws_mono (w' := fun x => lenR x + isBad x) h1 acts
  have h3 := ws_add (w := fun x => lenR x + isBad x) (w' := lenR) (w'' := isBad) (fun _ => rfl) acts
  omega

theorem count_two (l : List Req) : l.length = l.countP (·.2) + l.countP (!·.2) := by
  induction l with
  | nil => rfl
  | cons x l ih => obtain ⟨i, e⟩ := x; cases e <;> simp <;> omega

theorem Inv.numE {s : St} {acts : List (List Instr)} (h : Inv s acts) :
    (spec s.log).own.countP (·.2) = (view s acts).HE + (view s acts).E + (view s acts).nX := by
  have := h.own (·.2); rw [toks_E] at this; simp only [view]; omega

theorem Inv.numS {s : St} {acts : List (List Instr)} (h : Inv s acts) :
    (spec s.log).own.countP (!·.2) = (view s acts).HS + (view s acts).S + ws lenR acts := by
  have := h.own (!·.2); rw [toks_S] at this; simp only [view]; omega

theorem Inv.own_nil {s : St} {acts : List (List Instr)} (h : Inv s acts) :
    (spec s.log).own = [] ↔ s.st.c = .none := by
  have hE := h.numE
  have hS := h.numS
  have hl := count_two (spec s.log).own
  obtain ⟨h1, h2, h3, h4, h5, h6, h7, h8, h9, h10⟩ := h.ok
  have hr := lenR_ge (acts := acts) h10
  have hz := lenR_zero (acts := acts)
  simp only [view] at *
  constructor
  · intro hn
    rw [hn] at hE hS
    simp only [List.countP_nil] at hE hS
    apply Classical.byContradiction
    intro hc
    have := h2 hc (by omega) (by omega)
    omega
  · intro hc
    have a1 := h1 hc
    have a2 := h7 (by rw [hc]; simp)
    have a3 := hz (by omega)
    rw [← List.length_eq_zero_iff]; omega

/-- When no hand-over is being recorded, the state tells who holds the mutex. -/
theorem Inv.own_count {s : St} {acts : List (List Instr)} (h : Inv s acts) (hc : s.st.c ≠ .none)
    (hr : ws isR acts = 0) (hx : ws isX acts = 0) :
    (spec s.log).own.countP (!·.2) = s.st.n ∧
    (spec s.log).own.countP (·.2) = (if s.st.n = 0 then 1 else 0) ∧
    (spec s.log).own.length = if s.st.n = 0 then 1 else s.st.n := by
  have hE := h.numE
  have hS := h.numS
  have hl := count_two (spec s.log).own
  obtain ⟨a1, a2, a3⟩ := h.ok.norm hc hr hx
  rw [lenR_zero hr] at hS
  have hx' : (view s acts).nX = 0 := hx
  replace a1 : _ = s.st.n := a1
  by_cases hn : s.st.n = 0
  · have := a2 hn; simp only [if_pos hn]; omega
  · have := a3 (Nat.pos_of_ne_zero hn); simp only [if_neg hn]; omega

theorem eq_singleton {l : List Req} {t : Req} (h : l.length = 1) (ht : t ∈ l) : l = [t] := by
  obtain ⟨u, hu⟩ := List.length_eq_one_iff.1 h
  rw [hu] at ht ⊢; simp at ht; rw [ht]

theorem Inv.mem_own {s : St} {acts : List (List Instr)} (h : Inv s acts) {k : Nat} {x : Instr}
    {r : List Instr} (hk : acts[k]? = some (x :: r)) {t : Req} (ht : t ∈ toks x) :
    t ∈ (spec s.log).own := by
  have h1 := h.own (· == t)
  have h2 := cw_pos (f := toks) (q := (· == t)) hk
  have h3 : 0 < (toks x).countP (· == t) := List.countP_pos_iff.2 ⟨t, ht, by simp⟩
  have h4 : 0 < (spec s.log).own.countP (· == t) := by omega
  obtain ⟨u, hu, e⟩ := List.countP_pos_iff.1 h4
  simp at e; rw [← e]; exact hu

theorem Inv.cont {s : St} {acts : List (List Instr)} (h : Inv s acts) {k : Nat} {x : Instr}
    {r : List Instr} (hk : acts[k]? = some (x :: r))
    (hx : 0 < isPu x + isE x + isR x + isX x + isK x) : s.st.c = .contended := by
  by_cases hc : s.st.c = .contended
  · exact hc
  · have := (h.ok.ncont hc).2
    have g1 := ws_pos (w := isPu) hk
    have g2 := ws_pos (w := isE) hk
    have g3 := ws_pos (w := isR) hk
    have g4 := ws_pos (w := isX) hk
    have g5 := ws_pos (w := isK) hk
    simp only [view] at this; omega

/-- Nobody else is in the critical section. -/
theorem Inv.alone {s : St} {acts : List (List Instr)} (h : Inv s acts) {k : Nat} {x : Instr}
    {r : List Instr} (hk : acts[k]? = some (x :: r)) (hx : 0 < isC x + isPu x) :
    ws isR acts = 0 ∧ ws isX acts = 0 := by
  have h5 := h.ok.crit
  have h6 : (if (view s acts).mtx then 1 else 0) ≤ 1 := by split <;> omega
  have g1 := ws_pos (w := isC) hk
  have g2 := ws_pos (w := isPu) hk
  simp only [view] at h5 h6
  omega

/-! ## Steps that are recorded in the history -/

theorem countP_erase {l : List Req} {t : Req} (h : t ∈ l) (q : Req → Bool) :
    l.countP q = (l.erase t).countP q + if q t then 1 else 0 := by
  have := (List.perm_cons_erase h).countP_eq q
  rw [this, List.countP_cons]

theorem Inv.fast {s : St} {acts : List (List Instr)} (h : Inv s acts) {k : Nat} {x : Instr}
    {r p : List Instr} (hk : acts[k]? = some (x :: r)) {t : Req} {v : Wd}
    (hp : ∀ y ∈ p.tail, ∃ j, y = .acq j)
    (hst : s.st.c = .none ∨ (t.2 = false ∧ s.st.c = .locked ∧ s.st.n ≠ 0))
    (ht : p.flatMap toks = [t]) (ht' : toks x = []) (ho : p.flatMap ops = ops x)
    (hw : p.flatMap wn = [t]) (hw' : wn x = [])
    (hok : OK (view (s.admit t v) (acts.set k (p ++ r)))) :
    Inv (s.admit t v) (acts.set k (p ++ r)) := by
  have hnc : s.st.c ≠ .contended := by rcases hst with h | h <;> simp [h]
  have hnc' := h.ok.ncont hnc
  have hq : (spec s.log).q = [] := by
    rw [← h.q, ← List.length_eq_zero_iff]; exact hnc'.1
  refine ⟨hok, ?_, ?_, ?_, ?_, ?_, ?_, shape_set h.shape hk hp⟩
  · intro q; have := h.own q; have e := cw_set toks q p hk; rw [ht, ht'] at e
    simp only [St.admit, spec_append, Spec.step, holding_append, holding.step, List.countP_append]
    simp only [List.countP_nil] at e; omega
  · simp only [St.admit, spec_append, Spec.step]; exact h.q
  · intro i; have := h.op i; have e := cw_set ops (· == i) p hk; rw [ho] at e
    refine Eq.trans ?_ this
    simp only [St.admit, overs_append, Ev.overs, List.append_nil]; omega
  · intro q; have := h.win q; have e := cw_set wn q p hk; rw [hw, hw'] at e
    simp only [St.admit, wins_append, acqs_append, Ev.wins, Ev.acqs, List.countP_append, List.countP_nil] at *
    omega
  · simpa [St.admit] using h.beg
  · simp only [St.admit, Hist.snoc]
    refine ⟨h.legal, hq, ?_⟩
    rcases hst with hc | ⟨h1, h2, h3⟩
    · have := h.own_nil.2 hc
      unfold compat; rw [this]; simp
    · have hz : ws isR acts = 0 ∧ ws isX acts = 0 := by
        have := hnc'.2; simp only [view] at this; omega
      have := (h.own_count (by rw [h2]; simp) hz.1 hz.2).2.1
      rw [if_neg h3] at this
      unfold compat; rw [h1]
      simp only [Bool.false_eq_true, if_false]
      intro u hu
      have := List.countP_eq_zero.1 this u hu
      simpa using this

theorem Inv.rel {s : St} {acts : List (List Instr)} (h : Inv s acts) {k : Nat} {x : Instr}
    {r : List Instr} (hk : acts[k]? = some (x :: r)) {t : Req} {v : Wd}
    (ht : toks x = [t]) (ho : ops x = []) (hw : wn x = [])
    (hl : (spec s.log).q = [] ∨ 1 < (spec s.log).own.length)
    (hok : OK (view { s with st := v, log := s.log ++ [.rel t] } (acts.set k ([] ++ r)))) :
    Inv { s with st := v, log := s.log ++ [.rel t] } (acts.set k ([] ++ r)) := by
  have hm := h.mem_own hk (t := t) (by rw [ht]; simp)
  refine ⟨hok, ?_, ?_, ?_, ?_, ?_, ?_, shape_set h.shape hk (by simp)⟩
  · intro q; have := h.own q; have e := cw_set toks q [] hk; rw [ht] at e
    have e2 := countP_erase hm q
    simp only [spec_append, Spec.step, holding_append, holding.step]
    simp only [List.flatMap_nil, List.countP_nil, List.countP_cons] at e; omega
  · simp only [spec_append, Spec.step]; exact h.q
  · intro i; have := h.op i; have e := cw_set ops (· == i) [] hk; rw [ho] at e
    simp only [overs_append, Ev.overs, List.append_nil]
    simp only [List.flatMap_nil, List.countP_nil] at e; omega
  · intro q; have := h.win q; have e := cw_set wn q [] hk; rw [hw] at e
    simp only [wins_append, acqs_append, Ev.wins, Ev.acqs, List.append_nil]
    simp only [List.flatMap_nil, List.countP_nil] at e; omega
  · simpa using h.beg
  · simp only [Hist.snoc]; exact ⟨h.legal, hm, hl⟩

theorem Inv.grant {s : St} {acts : List (List Instr)} (h : Inv s acts) {k : Nat} {x y : Instr}
    {r : List Instr} (hk : acts[k]? = some (x :: r)) {t : Req} {ts w : List Req}
    (ht : toks x = [t]) (ho : ops x = []) (hw : wn x = [])
    (hown : (spec s.log).own = [t]) (hwt : s.waiters = ts ++ w) (hb : ts = batch s.waiters)
    (hne : ts ≠ [])
    (hy : toks y = ts) (hyo : ops y = ts.map (·.1)) (hyw : wn y = ts)
    (hok : OK (view { s with waiters := w, log := s.log ++ [.grant t ts] } (acts.set k ([y] ++ r)))) :
    Inv { s with waiters := w, log := s.log ++ [.grant t ts] } (acts.set k ([y] ++ r)) := by
  refine ⟨hok, ?_, ?_, ?_, ?_, ?_, ?_, shape_set h.shape hk (by simp)⟩
  · intro q; have := h.own q; have e := cw_set toks q [y] hk
    rw [hown] at this
    simp only [List.flatMap_cons, List.flatMap_nil, List.append_nil, ht, hy] at e
    simp only [spec_append, Spec.step, holding_append, holding.step, hown, List.erase_cons_head,
      List.nil_append]
    omega
  · simp only [spec_append, Spec.step]
    rw [← h.q, hwt]; simp
  · intro i; have := h.op i; have e := cw_set ops (· == i) [y] hk
    rw [hwt] at this
    simp only [List.flatMap_cons, List.flatMap_nil, List.append_nil, ho, hyo, List.countP_nil] at e
    simp only [List.map_append, List.count, List.countP_append] at this
    simp only [overs_append, Ev.overs, List.append_nil, List.count]
    omega
  · intro q; have := h.win q; have e := cw_set wn q [y] hk
    simp only [List.flatMap_cons, List.flatMap_nil, List.append_nil, hw, hyw, List.countP_nil] at e
    simp only [wins_append, acqs_append, Ev.wins, Ev.acqs, List.append_nil, List.countP_append]
    omega
  · simpa using h.beg
  · simp only [Hist.snoc]; exact ⟨h.legal, hown, by rw [← h.q]; exact hb, hne⟩

theorem Inv.event {s : St} {acts : List (List Instr)} (h : Inv s acts) {k : Nat} {x : Instr}
    {r : List Instr} (hk : acts[k]? = some (x :: r)) {v : Ev} {t : Req}
    (hv : (v = .acq t ∧ x = .acq t) ∨ (v = .fail t ∧ toks x = [] ∧ wn x = [] ∧ ops x = [t.1] ∧
      (t.2 = true → (spec s.log).own ≠ [])))
    (hok : OK (view { s with log := s.log ++ [v] } (acts.set k ([] ++ r)))) :
    Inv { s with log := s.log ++ [v] } (acts.set k ([] ++ r)) := by
  have hx : ops x = [t.1] := by
    rcases hv with ⟨_, rfl⟩ | h
    · rfl
    · exact h.2.2.2.1
  refine ⟨hok, ?_, ?_, ?_, ?_, ?_, ?_, shape_set h.shape hk (by simp)⟩
  · intro q; have := h.own q; have e := cw_set toks q [] hk
    rcases hv with ⟨rfl, rfl⟩ | ⟨rfl, e1, -⟩
    · simp only [spec_append, Spec.step, holding_append, holding.step, List.countP_append]
      simp only [List.flatMap_nil, List.countP_nil, toks] at e; omega
    · simp only [spec_append, Spec.step, holding_append, holding.step]
      simp only [List.flatMap_nil, List.countP_nil, e1] at e; omega
  · rcases hv with ⟨rfl, -⟩ | ⟨rfl, -⟩ <;> simpa [Spec.step] using h.q
  · intro i; have := h.op i; have e := cw_set ops (· == i) [] hk; rw [hx] at e
    refine Eq.trans ?_ this
    have ho : overs (s.log ++ [v]) = overs s.log ++ [t.1] := by
      rcases hv with ⟨rfl, -⟩ | ⟨rfl, -⟩ <;> simp [overs_append, Ev.overs]
    simp only [ho, List.count, List.countP_append]
    simp only [List.flatMap_nil, List.countP_nil, List.count] at e; omega
  · intro q; have := h.win q; have e := cw_set wn q [] hk
    rcases hv with ⟨rfl, rfl⟩ | ⟨rfl, e1, e2, -⟩
    · simp only [wins_append, acqs_append, Ev.wins, Ev.acqs, List.append_nil, List.countP_append]
      simp only [List.flatMap_nil, List.countP_nil, wn] at e; omega
    · simp only [wins_append, acqs_append, Ev.wins, Ev.acqs, List.append_nil]
      simp only [List.flatMap_nil, List.countP_nil, e2] at e; omega
  · rcases hv with ⟨rfl, -⟩ | ⟨rfl, -⟩ <;> simpa using h.beg
  · simp only [Hist.snoc]
    refine ⟨h.legal, ?_⟩
    rcases hv with ⟨rfl, rfl⟩ | ⟨rfl, -, -, -, hn⟩
    · exact h.mem_own hk (t := t) (by simp [toks])
    · intro ht; unfold compat; rw [ht]; exact hn ht

theorem Inv.push {s : St} {acts : List (List Instr)} (h : Inv s acts) {k : Nat} {t : Req}
    {r : List Instr} (hk : acts[k]? = some (.push t :: r))
    (hok : OK (view { s with waiters := s.waiters ++ [t], log := s.log ++ [.enq t] }
      (acts.set k ([.relM] ++ r)))) :
    Inv { s with waiters := s.waiters ++ [t], log := s.log ++ [.enq t] }
      (acts.set k ([.relM] ++ r)) := by
  refine ⟨hok, ?_, ?_, ?_, ?_, ?_, ?_, shape_set h.shape hk (by simp)⟩
  · intro q; have := h.own q; have e := cw_set toks q [.relM] hk
    simp only [spec_append, Spec.step, holding_append, holding.step]
    simp only [List.flatMap_cons, List.flatMap_nil, List.countP_nil, List.append_nil, toks] at e; omega
  · simp only [spec_append, Spec.step, h.q]
  · intro i; have := h.op i; have e := cw_set ops (· == i) [.relM] hk
    refine Eq.trans ?_ this
    simp only [overs_append, Ev.overs, List.append_nil, List.count, List.map_append, List.countP_append,
      List.map_cons, List.map_nil]
    simp only [List.flatMap_cons, List.flatMap_nil, List.countP_nil, List.append_nil, ops] at e; omega
  · intro q; have := h.win q; have e := cw_set wn q [.relM] hk
    simp only [wins_append, acqs_append, Ev.wins, Ev.acqs, List.append_nil]
    simp only [List.flatMap_cons, List.flatMap_nil, List.countP_nil, List.append_nil, wn] at e; omega
  · simpa using h.beg
  · simp only [Hist.snoc]
    refine ⟨h.legal, ?_⟩
    simp only [Verif.SharedMutex.legal]
    rw [← h.q]
    by_cases hw : s.waiters = []
    · right
      have hc := h.cont hk (by simp only [isPu]; omega)
      obtain ⟨hr, hx⟩ := h.alone hk (by simp [isPu])
      obtain ⟨-, a2, a3⟩ := h.own_count (by rw [hc]; simp) hr hx
      have hne : (spec s.log).own ≠ [] := by
        intro hn; have := h.own_nil.1 hn; rw [hc] at this; simp at this
      by_cases hn : s.st.n = 0
      · rw [if_pos hn] at a2
        obtain ⟨u, hu, hu2⟩ := List.countP_pos_iff.1 (show 0 < (spec s.log).own.countP (·.2) by omega)
        unfold compat; split
        · exact hne
        · intro hall; have := hall u hu; simp [hu2] at this
      · have h8 := (h.ok.front hc (.inl ⟨Nat.pos_of_ne_zero hn, hx⟩)).2 (by simp [view, hw])
        have g := ws_pos (w := isPuS) hk
        have ht : t.2 = true := by
          cases ht : t.2 with
          | true => rfl
          | false => simp [isPuS, ht, view] at g h8; omega
        unfold compat; rw [ht]; exact hne
    · exact .inl hw

theorem run_inv {s : St} {acts : List (List Instr)} (h : Inv s acts) {k : Nat} {x : Instr}
    {r p : List Instr} (hk : acts[k]? = some (x :: r)) {b : Bool} {s' : St}
    (he : exec s x b = .ok s' p) : Inv s' (acts.set k (p ++ r)) := by
  have hok := h.ok.run hk he
  have qt : ∀ (st : Wd) (mtx : Bool), s' = { s with st := st, mtx := mtx } →
      (∀ y ∈ p.tail, ∃ t, y = .acq t) → p.flatMap toks = toks x → p.flatMap ops = ops x →
      p.flatMap wn = wn x → Inv s' (acts.set k (p ++ r)) := by
    intro st mtx hs a1 a2 a3 a4
    subst hs
    exact h.quiet hk st mtx a1 a2 a3 a4 hok
  have own_ne : ∀ i, x = .tryLock i → ¬ s.st = ⟨.none, 0⟩ → (spec s.log).own ≠ [] := by
    intro i _ hn ho
    have hc := h.own_nil.1 ho
    have := (h.ok.none hc).2.2
    simp only [view] at this
    apply hn
    cases hs : s.st with
    | mk c n => rw [hs] at hc this; simp at hc this; rw [hc, this]
  cases x with
  | lock i =>
    simp only [exec] at he
    split at he <;> (simp only [Out.ok.injEq] at he; obtain ⟨rfl, rfl⟩ := he)
    · rename_i hs; exact h.fast hk (by simp) (by simp [hs]) rfl rfl rfl rfl rfl hok
    · exact qt _ _ rfl (by simp) rfl rfl rfl
  | tryLock i =>
    simp only [exec] at he
    split at he <;> (simp only [Out.ok.injEq] at he; obtain ⟨rfl, rfl⟩ := he)
    · rename_i hs; exact h.fast hk (by simp) (by simp [hs]) rfl rfl rfl rfl rfl hok
    · rename_i hs; exact h.event hk (t := (i, true)) (.inr ⟨rfl, rfl, rfl, rfl, fun _ => own_ne i rfl hs⟩) hok
  | lockS i =>
    simp only [exec, Out.ok.injEq] at he; obtain ⟨rfl, rfl⟩ := he
    exact qt _ _ rfl (by simp) rfl rfl rfl
  | tryLockS i =>
    simp only [exec, Out.ok.injEq] at he; obtain ⟨rfl, rfl⟩ := he
    exact qt _ _ rfl (by simp) rfl rfl rfl
  | lsT i f v =>
    simp only [exec] at he
    split at he
    · split at he <;> (simp only [Out.ok.injEq] at he; obtain ⟨rfl, rfl⟩ := he)
      · rename_i h1 hs; subst hs; exact h.fast hk (by simp) (.inl h1) rfl rfl rfl rfl rfl hok
      · exact qt _ _ rfl (by simp) rfl rfl rfl
    · split at he
      · split at he <;> (simp only [Out.ok.injEq] at he; obtain ⟨rfl, rfl⟩ := he)
        · rename_i h1 hs; subst hs; exact h.fast hk (by simp) (.inr ⟨rfl, h1⟩) rfl rfl rfl rfl rfl hok
        · exact qt _ _ rfl (by simp) rfl rfl rfl
      · split at he <;> (simp only [Out.ok.injEq] at he; obtain ⟨rfl, rfl⟩ := he)
        · exact qt _ _ rfl (by simp) rfl rfl rfl
        · exact h.event hk (t := (i, false)) (.inr ⟨rfl, rfl, rfl, rfl, by simp⟩) hok
  | acqM t =>
    simp only [exec] at he
    split at he <;> simp only [Out.ok.injEq, reduceCtorEq] at he; obtain ⟨rfl, rfl⟩ := he
    exact qt _ _ rfl (by simp) rfl rfl rfl
  | ld t =>
    simp only [exec, Out.ok.injEq] at he; obtain ⟨rfl, rfl⟩ := he
    exact qt _ _ rfl (by simp) rfl rfl rfl
  | chk t v =>
    obtain ⟨i, e⟩ := t
    cases e with
    | true =>
      simp only [exec] at he
      split at he
      · split at he <;> (simp only [Out.ok.injEq] at he; obtain ⟨rfl, rfl⟩ := he)
        · rename_i h1 hs; obtain ⟨hs, -⟩ := hs; subst hs
          exact h.fast hk (by simp) (.inl h1) rfl rfl rfl rfl rfl hok
        · exact qt _ _ rfl (by simp) rfl rfl rfl
      · split at he
        · split at he <;> (simp only [Out.ok.injEq] at he; obtain ⟨rfl, rfl⟩ := he)
          · exact qt _ _ rfl (by simp) rfl rfl rfl
          · exact qt _ _ rfl (by simp) rfl rfl rfl
        · simp only [Out.ok.injEq] at he; obtain ⟨rfl, rfl⟩ := he
          exact qt _ _ rfl (by simp) rfl rfl rfl
    | false =>
      simp only [exec] at he
      split at he
      · split at he <;> (simp only [Out.ok.injEq] at he; obtain ⟨rfl, rfl⟩ := he)
        · rename_i h1 hs; obtain ⟨hs, -⟩ := hs; subst hs
          exact h.fast hk (by simp) (.inl h1) rfl rfl rfl rfl rfl hok
        · exact qt _ _ rfl (by simp) rfl rfl rfl
      · split at he
        · split at he <;> (simp only [Out.ok.injEq] at he; obtain ⟨rfl, rfl⟩ := he)
          · rename_i h1 hs; obtain ⟨hs, -⟩ := hs; subst hs
            exact h.fast hk (by simp) (.inr ⟨rfl, h1⟩) rfl rfl rfl rfl rfl hok
          · exact qt _ _ rfl (by simp) rfl rfl rfl
        · split at he
          · split at he <;> (simp only [Out.ok.injEq] at he; obtain ⟨rfl, rfl⟩ := he)
            · exact qt _ _ rfl (by simp) rfl rfl rfl
            · exact qt _ _ rfl (by simp) rfl rfl rfl
          · simp only [Out.ok.injEq] at he; obtain ⟨rfl, rfl⟩ := he
            exact qt _ _ rfl (by simp) rfl rfl rfl
  | push t =>
    simp only [exec, Out.ok.injEq] at he; obtain ⟨rfl, rfl⟩ := he
    exact h.push hk hok
  | relM =>
    simp only [exec, Out.ok.injEq] at he; obtain ⟨rfl, rfl⟩ := he
    exact qt _ _ rfl (by simp) rfl rfl rfl
  | acq t =>
    simp only [exec, Out.ok.injEq] at he; obtain ⟨rfl, rfl⟩ := he
    exact h.event hk (t := t) (.inl ⟨rfl, rfl⟩) hok
  | unlock i =>
    simp only [exec] at he
    repeat' split at he
    all_goals simp only [Out.ok.injEq, reduceCtorEq] at he
    all_goals obtain ⟨rfl, rfl⟩ := he
    all_goals exact qt _ _ rfl (by simp) rfl rfl rfl
  | casU i =>
    simp only [exec] at he
    repeat' split at he
    all_goals simp only [Out.ok.injEq, reduceCtorEq] at he
    all_goals obtain ⟨rfl, rfl⟩ := he
    · rename_i hs
      refine h.rel hk (t := (i, true)) rfl rfl rfl (.inl ?_) hok
      rw [← h.q, ← List.length_eq_zero_iff]
      exact (h.ok.ncont (by simp [view, hs])).1
    · exact qt _ _ rfl (by simp) rfl rfl rfl
  | acqU i =>
    simp only [exec] at he
    split at he <;> simp only [Out.ok.injEq, reduceCtorEq] at he; obtain ⟨rfl, rfl⟩ := he
    exact qt _ _ rfl (by simp) rfl rfl rfl
  | popU i =>
    have hown : (spec s.log).own = [(i, true)] := by
      have hc := h.cont hk (by simp only [isK]; omega)
      obtain ⟨hr, hx⟩ := h.alone hk (by simp only [isC]; omega)
      obtain ⟨a1, a2, a3⟩ := h.own_count (by rw [hc]; simp) hr hx
      have hm := h.mem_own hk (t := (i, true)) (by simp [toks])
      have : 0 < (spec s.log).own.countP (·.2) := List.countP_pos_iff.2 ⟨_, hm, rfl⟩
      by_cases hn : s.st.n = 0
      · rw [if_pos hn] at a3; exact eq_singleton a3 hm
      · rw [if_neg hn] at a2; omega
    simp only [exec] at he
    split at he
    · simp at he
    · rename_i j w hw
      simp only [Out.ok.injEq] at he; obtain ⟨rfl, rfl⟩ := he
      exact h.grant hk rfl rfl rfl hown (ts := [(j, true)]) hw (by rw [hw]; rfl) (by simp) rfl rfl rfl hok
    · rename_i j w hw
      simp only [Out.ok.injEq] at he; obtain ⟨rfl, rfl⟩ := he
      have hall : (((j, false) :: w).takeWhile (fun t => !t.2)).map (fun t => (t.1, false)) =
          ((j, false) :: w).takeWhile (fun t => !t.2) := by
        generalize (j, false) :: w = l
        induction l with
        | nil => rfl
        | cons t l ih => obtain ⟨i, e⟩ := t; cases e <;> simp [ih]
      refine h.grant hk rfl rfl rfl hown (ts := ((j, false) :: w).takeWhile (fun t => !t.2))
        (by rw [hw, List.takeWhile_append_dropWhile]) (by rw [hw]; rfl) (by simp) ?_ rfl ?_ hok
      · simp only [toks, List.map_map]; exact hall
      · simp only [wn, List.map_map]; exact hall
  | stE j =>
    simp only [exec, Out.ok.injEq] at he; obtain ⟨rfl, rfl⟩ := he
    exact qt _ _ rfl (by simp) rfl rfl rfl
  | stR js =>
    simp only [exec, Out.ok.injEq] at he; obtain ⟨rfl, rfl⟩ := he
    refine qt _ _ rfl (by simp) ?_ ?_ ?_
    · simp only [List.flatMap_cons, toks, List.nil_append]
      clear hok hk qt
      induction js with
      | nil => rfl
      | cons j js ih => simp [toks] at ih ⊢; exact ih
    · simp only [List.flatMap_cons, ops, List.nil_append]
      clear hok hk qt
      induction js with
      | nil => rfl
      | cons j js ih => simp [ops] at ih ⊢; exact ih
    · simp only [List.flatMap_cons, wn, List.nil_append]
      clear hok hk qt
      induction js with
      | nil => rfl
      | cons j js ih => simp [wn] at ih ⊢; exact ih
  | unlockS i =>
    simp only [exec] at he
    repeat' split at he
    all_goals simp only [Out.ok.injEq, reduceCtorEq] at he
    all_goals obtain ⟨rfl, rfl⟩ := he
    all_goals exact qt _ _ rfl (by simp) rfl rfl rfl
  | usL i n =>
    simp only [exec] at he
    split at he
    · simp at he
    · split at he
      · rename_i hs
        simp only [Out.ok.injEq] at he; obtain ⟨rfl, rfl⟩ := he
        refine h.rel hk (t := (i, false)) rfl rfl rfl (.inl ?_) hok
        rw [← h.q, ← List.length_eq_zero_iff]
        exact (h.ok.ncont (by simp [view, hs.1])).1
      · repeat' split at he
        all_goals simp only [Out.ok.injEq, reduceCtorEq] at he
        all_goals obtain ⟨rfl, rfl⟩ := he
        all_goals exact qt _ _ rfl (by simp) rfl rfl rfl
  | usC i v =>
    simp only [exec] at he
    split at he
    · split at he
      · rename_i h1 hs
        simp only [Out.ok.injEq] at he; obtain ⟨rfl, rfl⟩ := he
        refine h.rel hk (t := (i, false)) rfl rfl rfl (.inr ?_) hok
        rw [← hs.1] at h1
        have hc := h.cont hk (by simp only [isK]; omega)
        have hm : (i, false) ∈ (spec s.log).own := h.mem_own hk (by simp [toks])
        have g : 0 < ws wS acts := by
          have := ws_pos (w := wS) hk; simp [wS] at this; omega
        have hr : ws isR acts = 0 := by
          by_cases hr : 0 < ws isR acts
          · have := (h.ok.rr hr).2.2; simp only [view] at this; omega
          · omega
        have hx : ws isX acts = 0 := by
          by_cases hr : 0 < ws isX acts
          · have := (h.ok.xx hr).2.2; simp only [view] at this; omega
          · omega
        have := (h.own_count (by rw [hc]; simp) hr hx).2.2
        rw [if_neg (by omega)] at this; omega
      · simp only [Out.ok.injEq] at he; obtain ⟨rfl, rfl⟩ := he
        exact qt _ _ rfl (by simp) rfl rfl rfl
    · split at he <;> simp only [Out.ok.injEq, reduceCtorEq] at he
      obtain ⟨rfl, rfl⟩ := he
      exact qt _ _ rfl (by simp) rfl rfl rfl
  | acqS i =>
    simp only [exec] at he
    split at he <;> simp only [Out.ok.injEq, reduceCtorEq] at he; obtain ⟨rfl, rfl⟩ := he
    exact qt _ _ rfl (by simp) rfl rfl rfl
  | popS i =>
    have hown : (spec s.log).own = [(i, false)] := by
      have g := ws_pos (w := isOne) hk
      obtain ⟨hc, hn⟩ := h.ok.one (by simp [isOne] at g; exact g)
      simp only [view] at hc hn
      obtain ⟨hr, hx⟩ := h.alone hk (by simp only [isC]; omega)
      obtain ⟨a1, a2, a3⟩ := h.own_count (by rw [hc]; simp) hr hx
      have hm := h.mem_own hk (t := (i, false)) (by simp [toks])
      rw [hn] at a3
      exact eq_singleton a3 hm
    simp only [exec] at he
    split at he
    · simp at he
    · simp at he
    · rename_i j w hw
      simp only [Out.ok.injEq] at he; obtain ⟨rfl, rfl⟩ := he
      exact h.grant hk rfl rfl rfl hown (ts := [(j, true)]) hw (by rw [hw]; rfl) (by simp) rfl rfl rfl hok
  | stS j =>
    simp only [exec, Out.ok.injEq] at he; obtain ⟨rfl, rfl⟩ := he
    exact qt _ _ rfl (by simp) rfl rfl rfl

/-! ## The user -/

theorem init_inv : Inv init [] := by
  refine ⟨⟨?_, ?_, ?_, ?_, ?_, ?_, ?_, ?_, ?_, ?_⟩, ?_, ?_, ?_, ?_, ?_, ?_, ?_⟩ <;>
    simp [init, view, holding, spec, overs, wins, acqs, frontR, Hist.nil]

theorem env_begin {s : St} {acts : List (List Instr)} (h : Inv s acts) {t : Req}
    (hu : s.used t.1 = false) {v : Ev} {x : Instr}
    (hx : (v = .lock t ∧ x = .ofLock t) ∨ (v = .tryLock t ∧ x = .ofTry t)) :
    Inv { s with used := upd s.used t.1 true, log := s.log ++ [v] } (acts ++ [[x]]) := by
  obtain ⟨i, e⟩ := t
  have hx1 : toks x = [] ∧ wn x = [] ∧ ops x = [i] ∧ wE x = 0 ∧ wS x = 0 ∧ isR x = 0 ∧ isX x = 0 ∧
      isE x = 0 ∧ isPu x = 0 ∧ isPuS x = 0 ∧ isC x = 0 ∧ isK x = 0 ∧ isOne x = 0 ∧ isBad x = 0 := by
    rcases hx with ⟨-, rfl⟩ | ⟨-, rfl⟩ <;> cases e <;>
      simp [Instr.ofLock, Instr.ofTry, toks, wn, ops, wE, wS, isR, isX, isE, isPu, isPuS, isC, isK, isOne, isBad]
  obtain ⟨x1, x2, x3, y1, y2, y3, y4, y5, y6, y7, y8, y9, y10, y11⟩ := hx1
  have hv : holding.step (holding s.log) v = holding s.log ∧ (spec s.log).step v = spec s.log ∧
      v.wins = [] ∧ v.acqs = [] ∧ v.overs = [] := by
    rcases hx with ⟨rfl, -⟩ | ⟨rfl, -⟩ <;> simp [holding.step, Spec.step, Ev.wins, Ev.acqs, Ev.overs]
  obtain ⟨v1, v2, v3, v4, v5⟩ := hv
  refine ⟨?_, ?_, ?_, ?_, ?_, ?_, ?_, shape_append h.shape (by simp)⟩
  · have : view { s with used := upd s.used i true, log := s.log ++ [v] } (acts ++ [[x]]) = view s acts := by
      simp [view, v1, y1, y2, y3, y4, y5, y6, y7, y8, y9, y10, y11]
    rw [this]; exact h.ok
  · intro q; have := h.own q
    rw [cw_app]; simp [v1, v2, x1]; omega
  · simp only [spec_append, v2]; exact h.q
  · intro j; have := h.op j
    rw [cw_app]; simp only [overs_append, v5, List.append_nil, List.flatMap_cons, List.flatMap_nil, x3]
    by_cases hj : j = i
    · subst hj; rw [hu] at this; simp at this ⊢; omega
    · have hj' : ¬ i = j := fun h => hj h.symm
      simp [hj, hj', upd] at this ⊢; omega
  · intro q; have := h.win q
    rw [cw_app]; simp [wins_append, acqs_append, v3, v4, x2]; omega
  · intro j; have := h.beg j
    by_cases hj : j = i
    · subst hj
      simp only [upd_same, true_iff]
      rcases hx with ⟨rfl, -⟩ | ⟨rfl, -⟩
      · exact ⟨e, .inl (by simp)⟩
      · exact ⟨e, .inr (by simp)⟩
    · rcases hx with ⟨rfl, -⟩ | ⟨rfl, -⟩ <;> simp [upd, hj, this]
  · rw [Hist.snoc]; refine ⟨h.legal, ?_⟩
    rcases hx with ⟨rfl, -⟩ | ⟨rfl, -⟩ <;> trivial

theorem env_inv {s : St} {acts : List (List Instr)} (h : Inv s acts) {a : Act} {s' : St}
    {p : List Instr} (he : env s acts a = some (s', p)) : Inv s' (acts ++ [p]) := by
  cases a with
  | lock t =>
    simp only [env] at he
    split at he
    · simp at he
    · rename_i hu; simp only [Option.some.injEq, Prod.mk.injEq] at he; obtain ⟨rfl, rfl⟩ := he
      exact env_begin h (by simpa using hu) (.inl ⟨rfl, rfl⟩)
  | tryLock t =>
    simp only [env] at he
    split at he
    · simp at he
    · rename_i hu; simp only [Option.some.injEq, Prod.mk.injEq] at he; obtain ⟨rfl, rfl⟩ := he
      exact env_begin h (by simpa using hu) (.inr ⟨rfl, rfl⟩)
  | unlock t =>
    simp only [env] at he
    split at he
    · rename_i hi; simp only [Option.some.injEq, Prod.mk.injEq] at he; obtain ⟨rfl, rfl⟩ := he
      obtain ⟨i, e⟩ := t
      have hx : toks (.ofUnlock (i, e)) = [(i, e)] ∧ wn (.ofUnlock (i, e)) = [] ∧ ops (.ofUnlock (i, e)) = [] := by
        cases e <;> simp [Instr.ofUnlock, toks, wn, ops]
      obtain ⟨x1, x2, x3⟩ := hx
      have c1 := countP_erase hi (·.2)
      have c2 := countP_erase hi (!·.2)
      refine ⟨?_, ?_, ?_, ?_, ?_, ?_, ?_, shape_append h.shape (by simp)⟩
      · have : view { s with log := s.log ++ [.unlock (i, e)] } (acts ++ [[.ofUnlock (i, e)]]) =
          { view s acts with
            HE := ((holding s.log).erase (i, e)).countP (·.2)
            HS := ((holding s.log).erase (i, e)).countP (!·.2)
            E := (view s acts).E + b2 e
            S := (view s acts).S + b2 (!e) } := by
          cases e <;>
          simp [view, holding.step, Instr.ofUnlock, wE, wS, isR, isX, isE, isPu, isPuS, isC, isK, isOne, isBad, b2]
        rw [this]
        obtain ⟨h1, h2, h3, h4, h5, h6, h7, h8, h9, h10⟩ := h.ok
        have e1 : (view s acts).HE = (holding s.log).countP (·.2) := rfl
        have e2 : (view s acts).HS = (holding s.log).countP (!·.2) := rfl
        simp only [e1, e2] at h1 h2 h3 h4
        constructor <;> simp only
        · intro hc; have := h1 hc; cases e <;> simp only [b2, Bool.not_true, Bool.not_false, Bool.false_eq_true, if_true, if_false] at c1 c2 ⊢ <;> omega
        · intro hc hr hx; have := h2 hc hr hx; cases e <;> simp only [b2, Bool.not_true, Bool.not_false, Bool.false_eq_true, if_true, if_false] at c1 c2 ⊢ <;> omega
        · intro hr; have := h3 hr; cases e <;> simp only [b2, Bool.not_true, Bool.not_false, Bool.false_eq_true, if_true, if_false] at c1 c2 ⊢ <;> omega
        · intro hr; have := h4 hr; cases e <;> simp only [b2, Bool.not_true, Bool.not_false, Bool.false_eq_true, if_true, if_false] at c1 c2 ⊢ <;> omega
        all_goals assumption
      · intro q; have := h.own q; have := countP_erase hi q
        rw [cw_app]; simp only [holding_append, holding.step, spec_append, Spec.step, List.flatMap_cons,
          List.flatMap_nil, List.append_nil, x1, List.countP_cons, List.countP_nil]; omega
      · simpa [Spec.step] using h.q
      · intro j; have := h.op j
        rw [cw_app]; simpa [overs_append, Ev.overs, x3] using this
      · intro q; have := h.win q
        rw [cw_app]; simpa [wins_append, acqs_append, Ev.wins, Ev.acqs, x2] using this
      · intro j; simpa using h.beg j
      · rw [Hist.snoc]; exact ⟨h.legal, trivial⟩
    · simp at he

theorem reach_inv {c : Conf mach} (h : Reach mach init c) : Inv c.sh c.acts :=
  Reach.inv (P := Inv) init_inv (fun _ _ _ _ _ h he => env_inv h he)
    (fun _ _ _ _ _ _ _ _ h hk he => run_inv h hk he) h

end Verif.SharedMutex
