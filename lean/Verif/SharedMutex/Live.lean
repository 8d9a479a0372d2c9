import Verif.SharedMutex.Proof
import Verif.Termination

/-! # Absence of failures, progress and termination -/

namespace Verif.SharedMutex

theorem Inv.excl {s : St} {acts : List (List Instr)} (h : Inv s acts) {k : Nat} {x : Instr}
    {r : List Instr} (hk : acts[k]? = some (x :: r)) (hx : 0 < wE x) : s.st.c ≠ .none ∧ s.st.n = 0 := by
  have g := ws_pos (w := wE) hk
  obtain ⟨h1, h2, h3, h4, h5, h6, h7, h8, h9, h10⟩ := h.ok
  simp only [view] at h1 h2 h3 h4
  have hc : s.st.c ≠ .none := by
    intro hc; have := h1 hc; omega
  refine ⟨hc, ?_⟩
  have hr : ws isR acts = 0 := by
    by_cases hr : 0 < ws isR acts
    · have := h3 hr; omega
    · omega
  have hx : ws isX acts = 0 := by
    by_cases hr : 0 < ws isX acts
    · have := h4 hr; omega
    · omega
  have := h2 hc hr hx
  omega

theorem Inv.shrd {s : St} {acts : List (List Instr)} (h : Inv s acts) {k : Nat} {x : Instr}
    {r : List Instr} (hk : acts[k]? = some (x :: r)) (hx : 0 < wS x) : s.st.c ≠ .none ∧ s.st.n ≠ 0 := by
  have g := ws_pos (w := wS) hk
  obtain ⟨h1, h2, h3, h4, h5, h6, h7, h8, h9, h10⟩ := h.ok
  simp only [view] at h1 h2 h3 h4
  have hc : s.st.c ≠ .none := by
    intro hc; have := h1 hc; omega
  refine ⟨hc, ?_⟩
  have hr : ws isR acts = 0 := by
    by_cases hr : 0 < ws isR acts
    · have := h3 hr; omega
    · omega
  have hx : ws isX acts = 0 := by
    by_cases hr : 0 < ws isX acts
    · have := h4 hr; omega
    · omega
  have := h2 hc hr hx
  omega

theorem Inv.nonempty {s : St} {acts : List (List Instr)} (h : Inv s acts) {k : Nat} {x : Instr}
    {r : List Instr} (hk : acts[k]? = some (x :: r)) (hx : 0 < isC x) (hc : s.st.c = .contended) :
    s.waiters ≠ [] := by
  have g := ws_pos (w := isC) hk
  have h5 := h.ok.crit
  have h6 : (if (view s acts).mtx then 1 else 0) ≤ 1 := by split <;> omega
  have h7 := h.ok.cont hc
  simp only [view] at h5 h6 h7
  intro hw; rw [hw] at h7; simp only [List.length_nil] at h7; omega

theorem no_fault {s : St} {acts : List (List Instr)} (h : Inv s acts) {k : Nat} {x : Instr}
    {r : List Instr} (hk : acts[k]? = some (x :: r)) (b : Bool) : exec s x b ≠ .fault := by
  cases x with
  | unlock i =>
    obtain ⟨h1, h2⟩ := h.excl hk (by simp [wE])
    simp only [exec, if_neg h1, h2, ne_eq, not_true_eq_false, if_false]; split <;> simp
  | casU i =>
    obtain ⟨h1, h2⟩ := h.excl hk (by simp [wE])
    simp only [exec, h2, ne_eq, not_true_eq_false, if_false]
    split
    · simp
    · rename_i hs
      split
      · simp
      · rename_i hs'
        exfalso; apply hs
        cases hst : s.st with
        | mk c n => rw [hst] at h1 h2 hs'; cases c <;> simp_all
  | popU i =>
    have := h.nonempty hk (by simp [isC]) (h.cont hk (by simp only [isK]; omega))
    simp only [exec]; split <;> simp_all
  | unlockS i =>
    obtain ⟨h1, h2⟩ := h.shrd hk (by simp [wS])
    simp only [exec, if_neg h1, if_neg h2]; split <;> simp
  | usL i n =>
    obtain ⟨h1, h2⟩ := h.shrd hk (by simp [wS])
    have hn : ¬ n = 0 := by
      intro hn
      have g := ws_pos (w := isBad) hk
      have := h.ok.bad; simp only [view] at this
      simp [isBad, hn] at g; omega
    simp only [exec, if_neg h1, if_neg h2, if_neg hn]; repeat' split
    all_goals simp
  | usC i v =>
    have hn : ¬ v.n = 0 := by
      intro hn
      have g := ws_pos (w := isBad) hk
      have := h.ok.bad; simp only [view] at this
      simp [isBad, hn] at g; omega
    simp only [exec]; repeat' split
    all_goals simp
    omega
  | popS i =>
    have hc := h.cont hk (by simp only [isK]; omega)
    have := h.nonempty hk (by simp [isC]) hc
    obtain ⟨hr, hx⟩ := h.alone hk (by simp only [isC]; omega)
    obtain ⟨h1, h2⟩ := h.shrd hk (by simp [wS])
    have h8 := (h.ok.front hc (.inl ⟨Nat.pos_of_ne_zero h2, hx⟩)).1
    simp only [view] at h8
    simp only [exec]; split
    · simp_all
    · rename_i hw; rw [hw] at h8; simp [frontR] at h8
    · simp
  | chk t v =>
    obtain ⟨i, e⟩ := t
    cases e <;> simp only [exec] <;> (repeat' split) <;> simp
  | _ => simp only [exec] <;> (repeat' split) <;> simp

theorem progress {s : St} {acts : List (List Instr)} (h : Inv s acts)
    (hq : ¬ ∀ a ∈ acts, a = []) :
    ∃ (k : Nat) (x : Instr) (r : List Instr), acts[k]? = some (x :: r) ∧ ∀ b, ∃ s' p, exec s x b = .ok s' p := by
  have go : ∀ x : Instr, (s.mtx = true → (∀ i, x ≠ .acqM i) ∧ (∀ i, x ≠ .acqU i) ∧ ∀ i, x ≠ .acqS i) →
      (∀ b, exec s x b ≠ .fault) → ∀ b, ∃ s' p, exec s x b = .ok s' p := by
    intro x hx hf b
    have hf := hf b
    cases ho : exec s x b with
    | ok s' p => exact ⟨s', p, rfl⟩
    | fault => exact absurd ho hf
    | block =>
      exfalso
      cases x with
      | acqM i =>
        simp only [exec] at ho; split at ho
        · exact (hx (by assumption)).1 i rfl
        · simp at ho
      | acqU i =>
        simp only [exec] at ho; split at ho
        · exact (hx (by assumption)).2.1 i rfl
        · simp at ho
      | acqS i =>
        simp only [exec] at ho; split at ho
        · exact (hx (by assumption)).2.2 i rfl
        · simp at ho
      | chk t v =>
        obtain ⟨i, e⟩ := t
        cases e <;> simp only [exec] at ho <;> (repeat' split at ho) <;> simp at ho
      | _ => simp only [exec] at ho <;> (repeat' split at ho) <;> simp at ho
  have top : ∀ a ∈ acts, ∀ x ∈ a, (∀ j, x ≠ .acq j) → ∃ (k : Nat) (r : List Instr), acts[k]? = some (x :: r) := by
    intro a ha x hx hn
    cases a with
    | nil => simp at hx
    | cons y r =>
      rcases List.mem_cons.1 hx with hx | hx
      · subst hx
        obtain ⟨k, hk⟩ := List.getElem?_of_mem ha
        exact ⟨k, r, hk⟩
      · obtain ⟨j, hj⟩ := h.shape _ ha x hx
        exact absurd hj (hn j)
  cases hm : s.mtx with
  | true =>
    have h2 := h.ok.crit
    simp only [view, hm, if_true] at h2
    have : ∃ w : Instr → Nat, 0 < ws w acts ∧
        ∀ x, 0 < w x → (∀ i, x ≠ .acqM i) ∧ (∀ i, x ≠ .acqU i) ∧ (∀ i, x ≠ .acqS i) ∧ ∀ j, x ≠ .acq j := by
      by_cases a1 : 0 < ws isC acts
      · exact ⟨isC, a1, by intro x; cases x <;> simp [isC]⟩
      by_cases a2 : 0 < ws isR acts
      · exact ⟨isR, a2, by intro x; cases x <;> simp [isR]⟩
      by_cases a3 : 0 < ws isX acts
      · exact ⟨isX, a3, by intro x; cases x <;> simp [isX]⟩
      by_cases a4 : 0 < ws isE acts
      · exact ⟨isE, a4, by intro x; cases x <;> simp [isE]⟩
      · exact ⟨isPu, by omega, by intro x; cases x <;> simp [isPu]⟩
    obtain ⟨w, hw, hx⟩ := this
    obtain ⟨a, ha, x, hxa, hwx⟩ := exists_of_ws_pos hw
    obtain ⟨e1, e2, e3, e4⟩ := hx x hwx
    obtain ⟨k, r, hk⟩ := top a ha x hxa e4
    exact ⟨k, x, r, hk, go x (fun _ => ⟨e1, e2, e3⟩) (fun b => no_fault h hk b)⟩
  | false =>
    have : ∃ a ∈ acts, a ≠ [] := by
      apply Classical.byContradiction
      intro hn; apply hq
      intro a ha
      apply Classical.byContradiction
      intro hne; exact hn ⟨a, ha, hne⟩
    obtain ⟨a, ha, hne⟩ := this
    cases a with
    | nil => simp at hne
    | cons x r =>
      obtain ⟨k, hk⟩ := List.getElem?_of_mem ha
      exact ⟨k, x, r, hk, go x (by simp [hm]) (fun b => no_fault h hk b)⟩

/-! ## Termination -/

/-- Bound of the number of instructions that follow, apart from repetitions of loops. -/
def base : Instr → Nat
  | .relM => 1
  | .acq _ => 1
  | .push _ => 3
  | .chk _ _ => 4
  | .ld _ => 5
  | .acqM _ => 6
  | .lsT _ _ _ => 7
  | .lockS _ => 8
  | .tryLockS _ => 8
  | .lock _ => 7
  | .tryLock _ => 2
  | .stE _ => 3
  | .stS _ => 3
  | .stR js => 2 + js.length
  | .popU _ => 3
  | .acqU _ => 4
  | .casU _ => 5
  | .unlock _ => 6
  | .popS _ => 3
  | .acqS _ => 4
  | .usC _ _ => 5
  | .usL _ _ => 6
  | .unlockS _ => 7

/-- Is or becomes a loop. -/
def isL : Instr → Nat
  | .lock _ => 1 | .lockS _ => 1 | .tryLockS _ => 1 | .lsT _ _ _ => 1 | .acqM _ => 1 | .ld _ => 1
  | .chk _ _ => 1 | .unlockS _ => 1 | .usL _ _ => 1 | .usC _ _ => 1 | _ => 0

/-- A loop that has to be repeated as its value is out of date. -/
def mis (st : Wd) : Instr → Nat
  | .lsT _ _ v => if v = st then 0 else 1
  | .chk _ v => if v = st then 0 else 1
  | .usL _ n => if (⟨.locked, n⟩ : Wd) = st then 0 else 1
  | .usC _ v => if v = st then 0 else 1
  | _ => 0

theorem mis_le (st : Wd) (acts : List (List Instr)) : ws (mis st) acts ≤ ws isL acts := by
  apply ws_mono
  intro x
  cases x <;> simp only [mis, isL] <;> (try split) <;> omega

/-- Bound of the number of steps. -/
def pot (s : St) (acts : List (List Instr)) : Nat :=
  (ws base acts + s.waiters.length) * (1 + ws isL acts) + ws (mis s.st) acts

theorem wl_acqs_base (js : List Id) :
    wl base (js.map (fun j => .acq (j, false))) = js.length ∧
    wl isL (js.map (fun j => .acq (j, false))) = 0 := by
  have h1 := wl_acqs base 1 js (fun _ => rfl)
  have h2 := wl_acqs isL 0 js (fun _ => rfl)
  omega

/-- Either something gets done, or a loop is repeated. -/
theorem decreases_base {s : St} {x : Instr} {p : List Instr} {b : Bool} {s' : St}
    (he : exec s x b = .ok s' p) :
    wl isL p ≤ isL x ∧
    (wl base p + s'.waiters.length + 1 ≤ base x + s.waiters.length ∨
      (s' = s ∧ wl base p = base x ∧ wl (mis s.st) p + (if b then 1 else 0) ≤ mis s.st x)) := by
  cases x with
  | stR js =>
    simp only [exec, Out.ok.injEq] at he; obtain ⟨rfl, rfl⟩ := he
    have := wl_acqs_base js
    simp only [wl_cons, base, isL]; omega
  | popU i =>
    simp only [exec] at he
    split at he
    · simp at he
    · rename_i j w hw
      simp only [Out.ok.injEq] at he; obtain ⟨rfl, rfl⟩ := he
      simp [base, isL, hw]; omega
    · rename_i j w hw
      simp only [Out.ok.injEq] at he; obtain ⟨rfl, rfl⟩ := he
      have hl : ∀ l : List Req, (l.takeWhile (fun t => !t.2)).length +
          (l.dropWhile (fun t => !t.2)).length = l.length := by
        intro l; rw [← List.length_append, List.takeWhile_append_dropWhile]
      simp only [base, isL, hw, wl_cons, wl_nil, List.length_map]
      refine ⟨by omega, .inl ?_⟩
      generalize (j, false) :: w = l
      have := hl l
      refine Nat.le_trans (Nat.le_of_eq ?_) (Nat.le_of_eq (congrArg (3 + ·) this))
      generalize List.takeWhile _ l = a
      generalize List.dropWhile _ l = b
      omega
  | popS i =>
    simp only [exec] at he
    split at he
    · simp at he
    · simp at he
    · rename_i j w hw
      simp only [Out.ok.injEq] at he; obtain ⟨rfl, rfl⟩ := he
      simp [base, isL, hw]; omega
  | chk t v =>
    obtain ⟨i, e⟩ := t
    have hm : mis s.st (.chk (i, e) v) = if s.st = v then 0 else 1 := by
      simp only [mis, eq_comm]
    cases e <;> simp only [exec] at he <;> (repeat' split at he) <;>
      simp only [Out.ok.injEq] at he <;> obtain ⟨rfl, rfl⟩ := he <;>
      cases b <;> simp_all [base, isL, St.admit, mis] <;> (try split) <;> omega
  | lsT i f v =>
    have hm : mis s.st (.lsT i f v) = if s.st = v then 0 else 1 := by
      simp only [mis, eq_comm]
    simp only [exec] at he <;> (repeat' split at he) <;>
      simp only [Out.ok.injEq] at he <;> obtain ⟨rfl, rfl⟩ := he <;>
      cases b <;> simp_all [base, isL, St.admit, mis] <;> (try split) <;> (try simp) <;> omega
  | usC i v =>
    have hm : mis s.st (.usC i v) = if s.st = v then 0 else 1 := by
      simp only [mis, eq_comm]
    simp only [exec] at he <;> (repeat' split at he) <;>
      simp only [Out.ok.injEq, reduceCtorEq] at he <;> obtain ⟨rfl, rfl⟩ := he <;>
      cases b <;> simp_all [base, isL, mis] <;> (try split) <;> (try simp) <;> omega
  | usL i n =>
    have hm : mis s.st (.usL i n) = if s.st = ⟨.locked, n⟩ then 0 else 1 := by
      simp only [mis, eq_comm]
    have hs : s.st.c = .locked → (⟨.locked, s.st.n⟩ : Wd) = s.st := by
      intro h; rw [← h]
    simp only [exec] at he <;> (repeat' split at he) <;>
      simp only [Out.ok.injEq, reduceCtorEq] at he <;> obtain ⟨rfl, rfl⟩ := he <;>
      cases b <;> simp_all [base, isL, mis] <;> (try split) <;> (try simp) <;> omega
  | _ =>
    simp only [exec] at he <;> (repeat' split at he) <;>
      simp only [Out.ok.injEq, reduceCtorEq] at he <;> obtain ⟨rfl, rfl⟩ := he <;>
      simp only [base, isL, St.admit, wl_cons, wl_nil, List.length_append, List.length_cons, List.length_nil] <;> omega

theorem decreases {s : St} {acts : List (List Instr)} {k : Nat} {x : Instr}
    {r p : List Instr} (hk : acts[k]? = some (x :: r)) {b : Bool} {s' : St}
    (he : exec s x b = .ok s' p) :
    pot s' (acts.set k (p ++ r)) + (if b then 1 else 0) ≤ pot s acts := by
  obtain ⟨h1, h2⟩ := decreases_base he
  have e1 := ws_set base p hk
  have e2 := ws_set isL p hk
  have e3 := ws_set (mis s.st) p hk
  have e4 := mis_le s'.st (acts.set k (p ++ r))
  have hb : (if b then 1 else 0) ≤ 1 := by split <;> omega
  have g1 := ws_pos (w := base) hk
  unfold pot
  generalize acts.set k (p ++ r) = acts' at *
  have hL : ws isL acts' ≤ ws isL acts := by omega
  rcases h2 with h2 | ⟨rfl, h2, h3⟩
  · obtain ⟨n, hn⟩ : ∃ n, ws base acts + s.waiters.length = n + 1 :=
      ⟨ws base acts + s.waiters.length - 1, by omega⟩
    have hle : (ws base acts' + s'.waiters.length) * (1 + ws isL acts') ≤ n * (1 + ws isL acts) :=
      Nat.mul_le_mul (by omega) (by omega)
    rw [hn, Nat.add_mul n, Nat.one_mul]
    omega
  · have hB : ws base acts' + s'.waiters.length = ws base acts + s'.waiters.length := by omega
    have hle : (ws base acts' + s'.waiters.length) * (1 + ws isL acts') ≤
        (ws base acts + s'.waiters.length) * (1 + ws isL acts) :=
      Nat.mul_le_mul (by omega) (by omega)
    omega

end Verif.SharedMutex
