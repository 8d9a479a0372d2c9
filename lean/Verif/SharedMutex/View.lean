import Verif.SharedMutex.Model

/-! # Numeric invariant of the shared mutex -/

namespace Verif.SharedMutex

/-! ## Weights -/

def b2 (b : Bool) : Nat := if b then 1 else 0
@[simp] theorem b2_true : b2 true = 1 := rfl
@[simp] theorem b2_false : b2 false = 0 := rfl

/-- Exclusive rights held through this instruction (`stS` is counted separately). -/
def wE : Instr → Nat
  | .acq t => b2 t.2
  | .unlock _ => 1 | .casU _ => 1 | .acqU _ => 1 | .popU _ => 1
  | .stE _ => 1 | _ => 0

/-- Shared rights held through this instruction (`stR` is counted separately). -/
def wS : Instr → Nat
  | .acq t => b2 (!t.2)
  | .unlockS _ => 1 | .usL _ _ => 1 | .usC _ _ => 1 | .acqS _ => 1 | .popS _ => 1
  | _ => 0

def isR : Instr → Nat | .stR _ => 1 | _ => 0
def isX : Instr → Nat | .stS _ => 1 | _ => 0
def isE : Instr → Nat | .stE _ => 1 | _ => 0
def isPu : Instr → Nat | .push _ => 1 | _ => 0
def isPuS : Instr → Nat | .push t => b2 (!t.2) | _ => 0

/-- Inside the critical section of the internal mutex; not counting the instructions above. -/
def isC : Instr → Nat
  | .popU _ => 1 | .popS _ => 1 | .ld _ => 1 | .chk _ _ => 1 | .relM => 1 | _ => 0

/-- Pending only while the mutex is contended; not counting the instructions above. -/
def isK : Instr → Nat
  | .chk _ v => if v.c = .contended then 1 else 0
  | .acqU _ => 1 | .popU _ => 1 | .usC _ _ => 1 | .acqS _ => 1 | .popS _ => 1
  | _ => 0

/-- Belongs to the last reader. -/
def isOne : Instr → Nat
  | .usC _ v => if v.n = 1 then 1 else 0
  | .acqS _ => 1 | .popS _ => 1 | _ => 0

/-- Never pending. -/
def isBad : Instr → Nat
  | .usL _ n => if n = 0 then 1 else 0
  | .usC _ v => if v.n = 0 ∨ v.c ≠ .contended then 1 else 0
  | .stR js => if js = [] then 1 else 0
  | _ => 0

/-- 1 if a reader is at the head of the queue. -/
def frontR : List Req → Nat
  | (_, false) :: _ => 1
  | _ => 0

structure View where
  c : Cn
  n : Nat
  mtx : Bool
  len : Nat
  fr : Nat
  HE : Nat
  HS : Nat
  E : Nat
  S : Nat
  nR : Nat
  nX : Nat
  nE : Nat
  Pu : Nat
  PuS : Nat
  C : Nat
  K : Nat
  One : Nat
  Bad : Nat

def view (s : St) (acts : List (List Instr)) : View :=
  ⟨s.st.c, s.st.n, s.mtx, s.waiters.length, frontR s.waiters,
    (holding s.log).countP (·.2), (holding s.log).countP (!·.2),
    ws wE acts, ws wS acts, ws isR acts, ws isX acts, ws isE acts, ws isPu acts,
    ws isPuS acts, ws isC acts, ws isK acts, ws isOne acts, ws isBad acts⟩

/-- The numeric invariant. -/
structure OK (v : View) : Prop where
  none : v.c = .none → v.HE + v.E = 0 ∧ v.HS + v.S = 0 ∧ v.n = 0
  norm : v.c ≠ .none → v.nR = 0 → v.nX = 0 →
    v.HS + v.S = v.n ∧ (v.n = 0 → v.HE + v.E = 1) ∧ (0 < v.n → v.HE + v.E = 0)
  rr : 0 < v.nR → v.n = 0 ∧ v.HE + v.E = 0 ∧ v.HS + v.S = 0
  xx : 0 < v.nX → v.n = 1 ∧ v.HE + v.E = 0 ∧ v.HS + v.S = 0
  crit : v.C + v.nR + v.nX + v.nE + v.Pu = if v.mtx then 1 else 0
  cont : v.c = .contended → 0 < v.len + v.Pu + v.nE + v.nR + v.nX
  ncont : v.c ≠ .contended → v.len = 0 ∧ v.Pu + v.nE + v.nR + v.nX + v.K = 0
  front : v.c = .contended → (0 < v.n ∧ v.nX = 0 ∨ 0 < v.nR) → v.fr = 0 ∧ (v.len = 0 → v.PuS = 0)
  one : 0 < v.One → v.c = .contended ∧ v.n = 1
  bad : v.Bad = 0

theorem wl_acqs (w : Instr → Nat) (n : Nat) (js : List Id) (h : ∀ j, w (.acq (j, false)) = n) :
    wl w (js.map (fun j => .acq (j, false))) = js.length * n := by
  induction js with
  | nil => simp
  | cons j js ih => simp [ih, h]; rw [Nat.add_mul, Nat.one_mul, Nat.add_comm]

theorem frontR_le (l : List Req) : frontR l ≤ 1 ∧ frontR l ≤ l.length := by
  unfold frontR; split <;> simp

theorem puS_le (acts : List (List Instr)) : ws isPuS acts ≤ ws isPu acts := by
  have h1 : ∀ x : Instr, isPuS x ≤ isPu x := by
    intro x; cases x <;> simp [isPuS, isPu]
    rename_i t; obtain ⟨i, e⟩ := t; cases e <;> simp
  have hl : ∀ l : List Instr, wl isPuS l ≤ wl isPu l := by
    intro l; induction l with
    | nil => simp
    | cons x l ih => simp only [wl_cons]; have := h1 x; omega
  induction acts with
  | nil => simp
  | cons a acts ih => simp only [ws_cons] at *; have := hl a; omega

theorem k_le (acts : List (List Instr)) :
    ws isK acts + ws isE acts ≤ ws wE acts + ws wS acts + ws isC acts := by
  have h1 : ∀ x : Instr, isK x + isE x ≤ wE x + wS x + isC x := by
    intro x; cases x <;> simp [isK, isE, wE, wS, isC]
    split <;> omega
  have hl : ∀ l : List Instr, wl isK l + wl isE l ≤ wl wE l + wl wS l + wl isC l := by
    intro l; induction l with
    | nil => simp
    | cons x l ih => simp only [wl_cons]; have := h1 x; omega
  induction acts with
  | nil => simp
  | cons a acts ih => simp only [ws_cons] at *; have := hl a; omega

theorem one_le (acts : List (List Instr)) : ws isOne acts ≤ ws wS acts := by
  have h1 : ∀ x : Instr, isOne x ≤ wS x := by
    intro x; cases x <;> simp [isOne, wS]
    split <;> omega
  have hl : ∀ l : List Instr, wl isOne l ≤ wl wS l := by
    intro l; induction l with
    | nil => simp
    | cons x l ih => simp only [wl_cons]; have := h1 x; omega
  induction acts with
  | nil => simp
  | cons a acts ih => simp only [ws_cons] at *; have := hl a; omega

theorem frontR_dropWhile (l : List Req) : frontR (l.dropWhile (fun t => !t.2)) = 0 := by
  induction l with
  | nil => rfl
  | cons x l ih =>
    obtain ⟨m, e⟩ := x
    cases e
    · rw [List.dropWhile_cons]; simpa using ih
    · rfl

set_option hygiene false in
macro "fin" he:ident h1:ident h2:ident h3:ident h4:ident h5:ident h6:ident h7:ident h8:ident h9:ident h10:ident : tactic =>
  `(tactic| (
    (simp only [Out.ok.injEq, reduceCtorEq] at $he:ident) <;> obtain ⟨rfl, rfl⟩ := $he:ident <;>
    simp only [Wd.mk.injEq] at * <;>
    cases c <;> cases mtx <;>
    simp only [view, wl_cons, wl_nil, wE, wS, isR, isX, isE, isPu, isPuS, isC, isK, isOne, isBad,
      holding_append, holding.step, List.countP_append, List.countP_cons, List.countP_nil, if_true, if_false, ne_eq, reduceCtorEq, not_false_eq_true,
      not_true_eq_false, forall_const, false_implies, imp_false, Nat.not_lt, Bool.false_eq_true, List.length_append,
      List.length_cons, List.length_nil, false_and, true_and, and_true, and_false, or_false, false_or, or_true, true_or, not_and, b2_true, b2_false, Bool.not_true, Bool.not_false] at * <;>
    (try omega) <;>
    (refine ⟨?_, ?_, ?_, ?_, ?_, ?_, ?_, ?_, ?_, ?_⟩ <;>
      simp only [if_true, if_false, ne_eq, reduceCtorEq, not_false_eq_true,
      not_true_eq_false, forall_const, false_implies, imp_false, Nat.not_lt, Bool.false_eq_true, true_and, false_and, and_true, and_false] <;> omega)))

set_option hygiene false in
macro "pre" : tactic => `(tactic| (
  have eE := ws_set wE p hk
  have eS := ws_set wS p hk
  have eR := ws_set isR p hk
  have eX := ws_set isX p hk
  have eEE := ws_set isE p hk
  have ePu := ws_set isPu p hk
  have ePuS := ws_set isPuS p hk
  have eC := ws_set isC p hk
  have eK := ws_set isK p hk
  have eO := ws_set isOne p hk
  have eB := ws_set isBad p hk
  have gE := ws_pos (w := wE) hk
  have gS := ws_pos (w := wS) hk
  have gR := ws_pos (w := isR) hk
  have gX := ws_pos (w := isX) hk
  have gEE := ws_pos (w := isE) hk
  have gPu := ws_pos (w := isPu) hk
  have gPuS := ws_pos (w := isPuS) hk
  have gC := ws_pos (w := isC) hk
  have gK := ws_pos (w := isK) hk
  have gO := ws_pos (w := isOne) hk
  have gB := ws_pos (w := isBad) hk
  obtain ⟨h1, h2, h3, h4, h5, h6, h7, h8, h9, h10⟩ := h
  have hfr := frontR_le s.waiters
  generalize acts.set k (p ++ r) = acts' at *
  have hpu := puS_le acts
  have hpu' := puS_le acts'
  have hkl := k_le acts
  have hol := one_le acts
  clear hk
  obtain ⟨⟨c, n⟩, mtx, w, used, log⟩ := s))

theorem z01 (m a : Nat) :
    (m = a ∧ (if m = a then 1 else 0) = 1) ∨ (m ≠ a ∧ (if m = a then 1 else 0) = 0) := by
  by_cases h : m = a <;> simp [h]

set_option maxHeartbeats 1000000 in
theorem OK.run_lock {s : St} {acts : List (List Instr)} (h : OK (view s acts)) {k : Nat} {i : Id}
    {r p : List Instr} (hk : acts[k]? = some (.lock i :: r)) {b : Bool} {s' : St}
    (he : exec s (.lock i) b = .ok s' p) : OK (view s' (acts.set k (p ++ r))) := by
  pre
  simp only [exec, St.admit] at he <;> (repeat' split at he) <;> fin he h1 h2 h3 h4 h5 h6 h7 h8 h9 h10

set_option maxHeartbeats 1000000 in
theorem OK.run_tryLock {s : St} {acts : List (List Instr)} (h : OK (view s acts)) {k : Nat} {i : Id}
    {r p : List Instr} (hk : acts[k]? = some (.tryLock i :: r)) {b : Bool} {s' : St}
    (he : exec s (.tryLock i) b = .ok s' p) : OK (view s' (acts.set k (p ++ r))) := by
  pre
  simp only [exec, St.admit] at he <;> (repeat' split at he) <;> fin he h1 h2 h3 h4 h5 h6 h7 h8 h9 h10

set_option maxHeartbeats 1000000 in
theorem OK.run_lockS {s : St} {acts : List (List Instr)} (h : OK (view s acts)) {k : Nat} {i : Id}
    {r p : List Instr} (hk : acts[k]? = some (.lockS i :: r)) {b : Bool} {s' : St}
    (he : exec s (.lockS i) b = .ok s' p) : OK (view s' (acts.set k (p ++ r))) := by
  pre
  simp only [exec] at he <;> (repeat' split at he) <;> fin he h1 h2 h3 h4 h5 h6 h7 h8 h9 h10

set_option maxHeartbeats 1000000 in
theorem OK.run_tryLockS {s : St} {acts : List (List Instr)} (h : OK (view s acts)) {k : Nat} {i : Id}
    {r p : List Instr} (hk : acts[k]? = some (.tryLockS i :: r)) {b : Bool} {s' : St}
    (he : exec s (.tryLockS i) b = .ok s' p) : OK (view s' (acts.set k (p ++ r))) := by
  pre
  simp only [exec] at he <;> (repeat' split at he) <;> fin he h1 h2 h3 h4 h5 h6 h7 h8 h9 h10

set_option maxHeartbeats 1000000 in
theorem OK.run_unlock {s : St} {acts : List (List Instr)} (h : OK (view s acts)) {k : Nat} {i : Id}
    {r p : List Instr} (hk : acts[k]? = some (.unlock i :: r)) {b : Bool} {s' : St}
    (he : exec s (.unlock i) b = .ok s' p) : OK (view s' (acts.set k (p ++ r))) := by
  pre
  simp only [exec] at he <;> (repeat' split at he) <;> fin he h1 h2 h3 h4 h5 h6 h7 h8 h9 h10

set_option maxHeartbeats 1000000 in
theorem OK.run_casU {s : St} {acts : List (List Instr)} (h : OK (view s acts)) {k : Nat} {i : Id}
    {r p : List Instr} (hk : acts[k]? = some (.casU i :: r)) {b : Bool} {s' : St}
    (he : exec s (.casU i) b = .ok s' p) : OK (view s' (acts.set k (p ++ r))) := by
  pre
  simp only [exec] at he <;> (repeat' split at he) <;> fin he h1 h2 h3 h4 h5 h6 h7 h8 h9 h10

set_option maxHeartbeats 1000000 in
theorem OK.run_acqU {s : St} {acts : List (List Instr)} (h : OK (view s acts)) {k : Nat} {i : Id}
    {r p : List Instr} (hk : acts[k]? = some (.acqU i :: r)) {b : Bool} {s' : St}
    (he : exec s (.acqU i) b = .ok s' p) : OK (view s' (acts.set k (p ++ r))) := by
  pre
  simp only [exec] at he <;> (repeat' split at he) <;> fin he h1 h2 h3 h4 h5 h6 h7 h8 h9 h10

set_option maxHeartbeats 1000000 in
theorem OK.run_acqS {s : St} {acts : List (List Instr)} (h : OK (view s acts)) {k : Nat} {i : Id}
    {r p : List Instr} (hk : acts[k]? = some (.acqS i :: r)) {b : Bool} {s' : St}
    (he : exec s (.acqS i) b = .ok s' p) : OK (view s' (acts.set k (p ++ r))) := by
  pre
  simp only [exec] at he <;> (repeat' split at he) <;> fin he h1 h2 h3 h4 h5 h6 h7 h8 h9 h10

set_option maxHeartbeats 1000000 in
theorem OK.run_relM {s : St} {acts : List (List Instr)} (h : OK (view s acts)) {k : Nat} 
    {r p : List Instr} (hk : acts[k]? = some (.relM :: r)) {b : Bool} {s' : St}
    (he : exec s (.relM) b = .ok s' p) : OK (view s' (acts.set k (p ++ r))) := by
  pre
  simp only [exec] at he <;> (repeat' split at he) <;> fin he h1 h2 h3 h4 h5 h6 h7 h8 h9 h10

set_option maxHeartbeats 1000000 in
theorem OK.run_acqM {s : St} {acts : List (List Instr)} (h : OK (view s acts)) {k : Nat} {t : Req}
    {r p : List Instr} (hk : acts[k]? = some (.acqM t :: r)) {b : Bool} {s' : St}
    (he : exec s (.acqM t) b = .ok s' p) : OK (view s' (acts.set k (p ++ r))) := by
  pre
  simp only [exec] at he <;> (repeat' split at he) <;> fin he h1 h2 h3 h4 h5 h6 h7 h8 h9 h10

set_option maxHeartbeats 1000000 in
theorem OK.run_ld {s : St} {acts : List (List Instr)} (h : OK (view s acts)) {k : Nat} {t : Req}
    {r p : List Instr} (hk : acts[k]? = some (.ld t :: r)) {b : Bool} {s' : St}
    (he : exec s (.ld t) b = .ok s' p) : OK (view s' (acts.set k (p ++ r))) := by
  pre
  simp only [exec] at he <;> (repeat' split at he) <;> fin he h1 h2 h3 h4 h5 h6 h7 h8 h9 h10

set_option maxHeartbeats 1000000 in
theorem OK.run_acq {s : St} {acts : List (List Instr)} (h : OK (view s acts)) {k : Nat} {t : Req}
    {r p : List Instr} (hk : acts[k]? = some (.acq t :: r)) {b : Bool} {s' : St}
    (he : exec s (.acq t) b = .ok s' p) : OK (view s' (acts.set k (p ++ r))) := by
  pre
  obtain ⟨i, e⟩ := t
  cases e <;> simp only [exec] at he <;> (repeat' split at he) <;> fin he h1 h2 h3 h4 h5 h6 h7 h8 h9 h10

set_option maxHeartbeats 1000000 in
theorem OK.run_lsT {s : St} {acts : List (List Instr)} (h : OK (view s acts)) {k : Nat} {i : Id} {f : Bool} {v : Wd}
    {r p : List Instr} (hk : acts[k]? = some (.lsT i f v :: r)) {b : Bool} {s' : St}
    (he : exec s (.lsT i f v) b = .ok s' p) : OK (view s' (acts.set k (p ++ r))) := by
  pre
  obtain ⟨c', n'⟩ := v
  cases c' <;> simp only [exec, St.admit] at he <;> (repeat' split at he) <;> fin he h1 h2 h3 h4 h5 h6 h7 h8 h9 h10

set_option maxHeartbeats 1000000 in
theorem OK.run_chk_true {s : St} {acts : List (List Instr)} (h : OK (view s acts)) {k : Nat} {i : Id} {v : Wd}
    {r p : List Instr} (hk : acts[k]? = some (.chk (i, true) v :: r)) {b : Bool} {s' : St}
    (he : exec s (.chk (i, true) v) b = .ok s' p) : OK (view s' (acts.set k (p ++ r))) := by
  pre
  obtain ⟨c', n'⟩ := v
  cases c' <;> simp only [exec, St.admit] at he <;> (repeat' split at he) <;> fin he h1 h2 h3 h4 h5 h6 h7 h8 h9 h10

set_option maxHeartbeats 1000000 in
theorem OK.run_chk_false {s : St} {acts : List (List Instr)} (h : OK (view s acts)) {k : Nat} {i : Id} {v : Wd}
    {r p : List Instr} (hk : acts[k]? = some (.chk (i, false) v :: r)) {b : Bool} {s' : St}
    (he : exec s (.chk (i, false) v) b = .ok s' p) : OK (view s' (acts.set k (p ++ r))) := by
  pre
  obtain ⟨c', n'⟩ := v
  cases c' <;> simp only [exec, St.admit] at he <;> (repeat' split at he) <;> fin he h1 h2 h3 h4 h5 h6 h7 h8 h9 h10

set_option maxHeartbeats 1000000 in
theorem OK.run_unlockS {s : St} {acts : List (List Instr)} (h : OK (view s acts)) {k : Nat} {i : Id}
    {r p : List Instr} (hk : acts[k]? = some (.unlockS i :: r)) {b : Bool} {s' : St}
    (he : exec s (.unlockS i) b = .ok s' p) : OK (view s' (acts.set k (p ++ r))) := by
  pre
  have z1 := z01 n 1; have z2 := z01 n 0
  simp only [exec] at he <;> (repeat' split at he) <;> fin he h1 h2 h3 h4 h5 h6 h7 h8 h9 h10

set_option maxHeartbeats 1000000 in
theorem OK.run_usL {s : St} {acts : List (List Instr)} (h : OK (view s acts)) {k : Nat} {i : Id} {n' : Nat}
    {r p : List Instr} (hk : acts[k]? = some (.usL i n' :: r)) {b : Bool} {s' : St}
    (he : exec s (.usL i n') b = .ok s' p) : OK (view s' (acts.set k (p ++ r))) := by
  pre
  have z1 := z01 n 1; have z2 := z01 n 0; have z3 := z01 n' 0
  simp only [exec] at he <;> (repeat' split at he) <;> fin he h1 h2 h3 h4 h5 h6 h7 h8 h9 h10

set_option maxHeartbeats 1000000 in
theorem OK.run_usC {s : St} {acts : List (List Instr)} (h : OK (view s acts)) {k : Nat} {i : Id} {v : Wd}
    {r p : List Instr} (hk : acts[k]? = some (.usC i v :: r)) {b : Bool} {s' : St}
    (he : exec s (.usC i v) b = .ok s' p) : OK (view s' (acts.set k (p ++ r))) := by
  pre
  obtain ⟨c', n'⟩ := v
  have z1 := z01 n 1; have z2 := z01 n 0; have z3 := z01 n' 1; have z4 := z01 n' 0
  cases c' <;> simp only [exec] at he <;> (repeat' split at he) <;> fin he h1 h2 h3 h4 h5 h6 h7 h8 h9 h10

set_option maxHeartbeats 1000000 in
theorem OK.run_push {s : St} {acts : List (List Instr)} (h : OK (view s acts)) {k : Nat} {t : Req}
    {r p : List Instr} (hk : acts[k]? = some (.push t :: r)) {b : Bool} {s' : St}
    (he : exec s (.push t) b = .ok s' p) : OK (view s' (acts.set k (p ++ r))) := by
  pre
  obtain ⟨i, e⟩ := t
  have hf : frontR (w ++ [(i, e)]) = if w.length = 0 then b2 (!e) else frontR w := by
    cases w with
    | nil => cases e <;> rfl
    | cons x w => obtain ⟨j, f⟩ := x; cases f <;> simp [frontR]
  simp only [exec] at he
  by_cases hl : w.length = 0
  · rw [if_pos hl] at hf; cases e <;> fin he h1 h2 h3 h4 h5 h6 h7 h8 h9 h10
  · rw [if_neg hl] at hf; cases e <;> fin he h1 h2 h3 h4 h5 h6 h7 h8 h9 h10

set_option maxHeartbeats 1000000 in
theorem OK.run_stE {s : St} {acts : List (List Instr)} (h : OK (view s acts)) {k : Nat} {i : Id}
    {r p : List Instr} (hk : acts[k]? = some (.stE i :: r)) {b : Bool} {s' : St}
    (he : exec s (.stE i) b = .ok s' p) : OK (view s' (acts.set k (p ++ r))) := by
  pre
  simp only [exec] at he
  by_cases hw : w = []
  · have hl : w.length = 0 := by rw [hw]; rfl
    simp only [if_pos hw] at he; clear hw; fin he h1 h2 h3 h4 h5 h6 h7 h8 h9 h10
  · have hl : 0 < w.length := List.length_pos_iff.2 hw
    simp only [if_neg hw] at he; clear hw; fin he h1 h2 h3 h4 h5 h6 h7 h8 h9 h10

set_option maxHeartbeats 1000000 in
theorem OK.run_stS {s : St} {acts : List (List Instr)} (h : OK (view s acts)) {k : Nat} {i : Id}
    {r p : List Instr} (hk : acts[k]? = some (.stS i :: r)) {b : Bool} {s' : St}
    (he : exec s (.stS i) b = .ok s' p) : OK (view s' (acts.set k (p ++ r))) := by
  pre
  simp only [exec] at he
  by_cases hw : w = []
  · have hl : w.length = 0 := by rw [hw]; rfl
    simp only [if_pos hw] at he; clear hw; fin he h1 h2 h3 h4 h5 h6 h7 h8 h9 h10
  · have hl : 0 < w.length := List.length_pos_iff.2 hw
    simp only [if_neg hw] at he; clear hw; fin he h1 h2 h3 h4 h5 h6 h7 h8 h9 h10

set_option maxHeartbeats 1000000 in
theorem OK.run_stR {s : St} {acts : List (List Instr)} (h : OK (view s acts)) {k : Nat} {js : List Id}
    {r p : List Instr} (hk : acts[k]? = some (.stR js :: r)) {b : Bool} {s' : St}
    (he : exec s (.stR js) b = .ok s' p) : OK (view s' (acts.set k (p ++ r))) := by
  pre
  simp only [exec] at he
  have hj : (js = [] ∧ js.length = 0 ∧ isBad (.stR js) = 1) ∨
      (js ≠ [] ∧ 0 < js.length ∧ isBad (.stR js) = 0) := by
    cases js <;> simp [isBad]
  have a1 := wl_acqs wE 0 js (fun _ => rfl)
  have a2 := wl_acqs wS 1 js (fun _ => rfl)
  have a3 := wl_acqs isR 0 js (fun _ => rfl)
  have a4 := wl_acqs isX 0 js (fun _ => rfl)
  have a5 := wl_acqs isE 0 js (fun _ => rfl)
  have a6 := wl_acqs isPu 0 js (fun _ => rfl)
  have a7 := wl_acqs isPuS 0 js (fun _ => rfl)
  have a8 := wl_acqs isC 0 js (fun _ => rfl)
  have a9 := wl_acqs isK 0 js (fun _ => rfl)
  have a10 := wl_acqs isOne 0 js (fun _ => rfl)
  have a11 := wl_acqs isBad 0 js (fun _ => rfl)
  generalize isBad (.stR js) = bd at *
  by_cases hw : w = []
  · have hl : w.length = 0 := by rw [hw]; rfl
    simp only [if_pos hw] at he; clear hw; fin he h1 h2 h3 h4 h5 h6 h7 h8 h9 h10
  · have hl : 0 < w.length := List.length_pos_iff.2 hw
    simp only [if_neg hw] at he; clear hw; fin he h1 h2 h3 h4 h5 h6 h7 h8 h9 h10

set_option maxHeartbeats 1000000 in
theorem OK.run_popS {s : St} {acts : List (List Instr)} (h : OK (view s acts)) {k : Nat} {i : Id}
    {r p : List Instr} (hk : acts[k]? = some (.popS i :: r)) {b : Bool} {s' : St}
    (he : exec s (.popS i) b = .ok s' p) : OK (view s' (acts.set k (p ++ r))) := by
  pre
  simp only [exec] at he
  split at he
  · fin he h1 h2 h3 h4 h5 h6 h7 h8 h9 h10
  · fin he h1 h2 h3 h4 h5 h6 h7 h8 h9 h10
  · rename_i j w'
    have hfr' := frontR_le w'
    have hz : frontR ((j, true) :: w') = 0 := rfl
    fin he h1 h2 h3 h4 h5 h6 h7 h8 h9 h10

set_option maxHeartbeats 1000000 in
theorem OK.run_popU {s : St} {acts : List (List Instr)} (h : OK (view s acts)) {k : Nat} {i : Id}
    {r p : List Instr} (hk : acts[k]? = some (.popU i :: r)) {b : Bool} {s' : St}
    (he : exec s (.popU i) b = .ok s' p) : OK (view s' (acts.set k (p ++ r))) := by
  pre
  simp only [exec] at he
  split at he
  · fin he h1 h2 h3 h4 h5 h6 h7 h8 h9 h10
  · rename_i j w'
    have hfr' := frontR_le w'
    have hz : frontR ((j, true) :: w') = 0 := rfl
    fin he h1 h2 h3 h4 h5 h6 h7 h8 h9 h10
  · rename_i j w'
    have hd := frontR_dropWhile ((j, false) :: w')
    have hb : (if (((j, false) :: w').takeWhile (fun t => !t.2)).map (·.1) = [] then 1 else 0) = 0 := by
      simp
    generalize ((j, false) :: w').dropWhile (fun t => !t.2) = w2 at *
    generalize ((j, false) :: w').takeWhile (fun t => !t.2) = ts at *
    generalize hjs : ts.map (·.1) = js at *
    fin he h1 h2 h3 h4 h5 h6 h7 h8 h9 h10


theorem OK.run {s : St} {acts : List (List Instr)} (h : OK (view s acts)) {k : Nat} {x : Instr}
    {r p : List Instr} (hk : acts[k]? = some (x :: r)) {b : Bool} {s' : St}
    (he : exec s x b = .ok s' p) : OK (view s' (acts.set k (p ++ r))) := by
  cases x with
  | lock => exact h.run_lock hk he
  | tryLock => exact h.run_tryLock hk he
  | lockS => exact h.run_lockS hk he
  | tryLockS => exact h.run_tryLockS hk he
  | lsT => exact h.run_lsT hk he
  | acqM => exact h.run_acqM hk he
  | ld => exact h.run_ld hk he
  | chk t v =>
    obtain ⟨i, e⟩ := t
    cases e
    · exact h.run_chk_false hk he
    · exact h.run_chk_true hk he
  | push => exact h.run_push hk he
  | relM => exact h.run_relM hk he
  | acq => exact h.run_acq hk he
  | unlock => exact h.run_unlock hk he
  | casU => exact h.run_casU hk he
  | acqU => exact h.run_acqU hk he
  | popU => exact h.run_popU hk he
  | stE => exact h.run_stE hk he
  | stR => exact h.run_stR hk he
  | unlockS => exact h.run_unlockS hk he
  | usL => exact h.run_usL hk he
  | usC => exact h.run_usC hk he
  | acqS => exact h.run_acqS hk he
  | popS => exact h.run_popS hk he
  | stS => exact h.run_stS hk he

end Verif.SharedMutex
