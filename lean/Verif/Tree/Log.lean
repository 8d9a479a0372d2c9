import Verif.Tree.Inv

/-! # Invariants that relate the state to the history -/

namespace Verif.Tree

def stw (p : Path) : Instr → Nat
  | .start q => if q = p then 1 else 0
  | _ => 0

def svw (p : Path) (v : Nat) : Instr → Nat
  | .setv q u => if q = p ∧ u = v then 1 else 0
  | _ => 0

def rvw (p : Path) (v : Nat) : Instr → Nat
  | .recv q u => if q = p ∧ u = v then 1 else 0
  | _ => 0

def low (p : Path) : Instr → Nat
  | .loop q _ => if q = p then 1 else 0
  | _ => 0

def trw (p : Path) : Instr → Nat
  | .trail q => if q = p then 1 else 0
  | _ => 0

def cnw (p : Path) (j : Nat) : Instr → Nat
  | .cancel q i => if q = p ∧ i = j then 1 else 0
  | _ => 0

structure Inv2 (s : St) (acts : List (List Instr)) : Prop where
  st : ∀ p, 0 < ws (stw p) acts → s.phase p = .conn
  sv : ∀ p v, 0 < ws (svw p v) acts → s.phase p = .started
  rv : ∀ p v, 0 < ws (rvw p v) acts → .done p v ∈ s.log
  rn : ∀ p, 0 < ws (rcw p) acts → s.phase p = .done
  lo : ∀ p, 0 < ws (low p) acts → ∃ c f, s.snd p = some (.rep c f)
  tr : ∀ p, 0 < ws (trw p) acts → ∃ n f, s.snd p = some (.all n f)
  cn : ∀ p j, 0 < ws (cnw p j) acts → ∃ n f, s.snd p = some (.race n f) ∧ j ≤ n
  s1 : ∀ p, .start p ∈ s.log ↔ s.phase p = .started ∨ s.phase p = .done
  s2 : ∀ p v, .done p v ∈ s.log → s.phase p = .done
  s3 : ∀ p, s.phase p = .done → ∃ v, .done p v ∈ s.log

@[simp] theorem svw_starts (i : Path) (v : Nat) (q : Path) (n : Nat) : wl (svw i v) (starts q n) = 0 :=
  wl_starts q n (fun _ => rfl)
@[simp] theorem rvw_starts (i : Path) (v : Nat) (q : Path) (n : Nat) : wl (rvw i v) (starts q n) = 0 :=
  wl_starts q n (fun _ => rfl)
@[simp] theorem low_starts (i q : Path) (n : Nat) : wl (low i) (starts q n) = 0 := wl_starts q n (fun _ => rfl)
@[simp] theorem trw_starts (i q : Path) (n : Nat) : wl (trw i) (starts q n) = 0 := wl_starts q n (fun _ => rfl)
@[simp] theorem cnw_starts (i : Path) (j : Nat) (q : Path) (n : Nat) : wl (cnw i j) (starts q n) = 0 :=
  wl_starts q n (fun _ => rfl)
@[simp] theorem stw_cancels (i q : Path) (n k : Nat) : wl (stw i) (cancels q n k) = 0 := wl_cancels q n k (fun _ => rfl)
@[simp] theorem svw_cancels (i : Path) (v : Nat) (q : Path) (n k : Nat) : wl (svw i v) (cancels q n k) = 0 :=
  wl_cancels q n k (fun _ => rfl)
@[simp] theorem rvw_cancels (i : Path) (v : Nat) (q : Path) (n k : Nat) : wl (rvw i v) (cancels q n k) = 0 :=
  wl_cancels q n k (fun _ => rfl)
@[simp] theorem low_cancels (i q : Path) (n k : Nat) : wl (low i) (cancels q n k) = 0 := wl_cancels q n k (fun _ => rfl)
@[simp] theorem trw_cancels (i q : Path) (n k : Nat) : wl (trw i) (cancels q n k) = 0 := wl_cancels q n k (fun _ => rfl)

theorem stw_own (i : Path) (l : List Instr) (h : ∀ x ∈ l, ∃ p, x = .start p) : wl (stw i) l = wl (own i) l := by
  induction l with
  | nil => rfl
  | cons x l ih =>
    obtain ⟨p, rfl⟩ := h x (by simp)
    simp [ih (fun y hy => h y (by simp [hy])), stw, own]

@[simp] theorem stw_starts (i q : Path) (n : Nat) : wl (stw i) (starts q n) = if isKid q n i then 1 else 0 := by
  rw [stw_own, own_starts]
  intro x hx
  simp [starts] at hx
  obtain ⟨k, _, rfl⟩ := hx
  exact ⟨_, rfl⟩

@[simp] theorem cnw_cancels (i : Path) (j : Nat) (q : Path) (n k : Nat) :
    wl (cnw i j) (cancels q n k) = if q = i ∧ j ≤ n ∧ j ≠ k then 1 else 0 := by
  have : ∀ m, wl (cnw i j) (((List.range m).filter (fun j => j ≠ k)).map (fun j => Instr.cancel q j)) =
      if q = i ∧ j < m ∧ j ≠ k then 1 else 0 := by
    intro m
    induction m with
    | zero => simp
    | succ m ih =>
      rw [List.range_succ, List.filter_append, List.map_append, wl_append, ih]
      by_cases hm : m = k
      · subst hm; simp; grind
      · simp [hm, cnw]; grind
  unfold cancels
  rw [this (n + 1)]
  simp only [Nat.lt_succ_iff]

theorem st_le (i : Path) (acts : List (List Instr)) (v : Nat) (k : Nat) :
    ws (stw i) acts + ws (bgw i) acts + ws (svw i v) acts + ws (lpw i k) acts ≤ ws (own i) acts := by
  rw [← ws_add (w := fun x => stw i x + bgw i x) (fun _ => rfl),
    ← ws_add (w := fun x => stw i x + bgw i x + svw i v x) (fun _ => rfl),
    ← ws_add (w := fun x => stw i x + bgw i x + svw i v x + lpw i k x) (fun _ => rfl)]
  apply ws_mono
  intro x
  cases x <;> simp [stw, bgw, svw, lpw, own] <;> split <;> simp_all

theorem own_le_one {s : St} {w : Wt} (h : InvW s w) (p : Path) : w.o p ≤ 1 := by
  by_cases hp : p = []
  · subst hp; rw [h.nil.1]; omega
  · have h1 := h.off p hp
    have h2 := h.con p hp
    have h3 := h.sta p hp
    have h4 := h.sn p
    cases hs : s.snd p with
    | none => simp_all
    | some S =>
      cases hph : s.phase p <;> simp_all
      cases S <;> simp [Load] at h3 <;> grind

set_option maxHeartbeats 2000000

/-- What is known about the instruction that is executed. -/
structure Pre (s : St) (acts : List (List Instr)) (x : Instr) : Prop where
  st : ∀ p, x = .start p → ws (stw p) acts = 1 ∧ ws (bgw p) acts = 0 ∧ (∀ v, ws (svw p v) acts = 0) ∧
    ∀ k, ws (lpw p k) acts = 0
  bg : ∀ p, x = .begin p → s.phase p = .started ∧ s.nx p = 0 ∧ (∀ j, s.phase (j :: p) = .none) ∧
    ws (stw p) acts = 0 ∧ (∀ v, ws (svw p v) acts = 0) ∧ ∀ k, ws (lpw p k) acts = 0
  lp : ∀ p k, x = .loop p k → s.phase p = .started ∧ s.nx p = k ∧ s.phase (k :: p) = .none ∧
    ws (bgw p) acts = 0 ∧ ws (stw p) acts = 0 ∧ ∀ v, ws (svw p v) acts = 0
  sv : ∀ p v, x = .setv p v → p ≠ [] ∧ ws (stw p) acts = 0 ∧ ws (bgw p) acts = 0 ∧ ∀ k, ws (lpw p k) acts = 0
  rc : ∀ k i q v, x = .recv (k :: i :: q) v → s.snd (i :: q) ≠ none → s.phase (i :: q) = .started
  rs : ∀ k i q v, x = .recv (k :: i :: q) v → ∀ S, s.snd (i :: q) = some S → S.single = true →
      s.phase (i :: q) = .started ∧ s.nx (i :: q) = k + 1 ∧ s.phase ((k + 1) :: i :: q) = .none ∧
      ws (stw (i :: q)) acts = 0 ∧ ws (bgw (i :: q)) acts = 0 ∧ (∀ v, ws (svw (i :: q) v) acts = 0) ∧
      ∀ k, ws (lpw (i :: q) k) acts = 0

theorem pre {s : St} {acts : List (List Instr)} (h : Inv s acts) {k : Nat} {x : Instr}
    {r : List Instr} (hk : acts[k]? = some (x :: r)) : Pre s acts x := by
  have Tx := fun i => ws_pos (w := stw i) hk
  have Bx := fun i => ws_pos (w := bgw i) hk
  have Vx := fun i v => ws_pos (w := svw i v) hk
  have Lx := fun i j => ws_pos (w := lpw i j) hk
  have Cx := fun i => ws_pos (w := rcw i) hk
  have le := fun i v k => st_le i acts v k
  have o1 : ∀ i, ws (own i) acts ≤ 1 := fun i => own_le_one h i
  have root := h.root
  have hne : ∀ p, s.phase p = .started → p ≠ [] := by
    intro p hp e; subst e; rw [root] at hp; cases hp
  have hrc : ∀ k i q v, x = .recv (k :: i :: q) v → s.snd (i :: q) ≠ none → s.phase (i :: q) = .started := by
    rintro k i q v rfl hs
    have hb : 0 < ws (rcw (k :: i :: q)) acts := by
      have := Cx (k :: i :: q); simp only [rcw, if_true] at this; exact this
    have h1 := h.off (i :: q) (by simp)
    have h2 := h.con (i :: q) (by simp)
    have h3 := (Wt.of_le acts).rc (i :: q) k
    simp only [Wt.of] at h1 h2 h3
    cases hp : s.phase (i :: q) <;> simp_all <;> omega
  constructor
  · rintro p rfl
    have hb : 0 < ws (stw p) acts := by have := Tx p; simp only [stw, if_true] at this; exact this
    exact ⟨by have := le p 0 0; have := o1 p; omega, by have := le p 0 0; have := o1 p; omega,
      fun v => by have := le p v 0; have := o1 p; omega, fun k => by have := le p 0 k; have := o1 p; omega⟩
  · rintro p rfl
    have hb : 0 < ws (bgw p) acts := by have := Bx p; simp only [bgw, if_true] at this; exact this
    have h1 := h.bg p hb
    exact ⟨h1.1, h1.2.1, fun j => h.new p j (hne p h1.1) (by omega), by have := le p 0 0; have := o1 p; omega,
      fun v => by have := le p v 0; have := o1 p; omega, fun k => by have := le p 0 k; have := o1 p; omega⟩
  · rintro p k rfl
    have hb : 0 < ws (lpw p k) acts := by have := Lx p k; simp only [lpw, and_self, if_true] at this; exact this
    have h1 := h.lp p k hb
    exact ⟨h1.1, h1.2, h.new p k (hne p h1.1) (by omega), by have := le p 0 k; have := o1 p; omega,
      by have := le p 0 k; have := o1 p; omega, fun v => by have := le p v k; have := o1 p; omega⟩
  · rintro p v rfl
    have hb : 0 < ws (svw p v) acts := by have := Vx p v; simp only [svw, and_self, if_true] at this; exact this
    refine ⟨?_, by have := le p v 0; have := o1 p; omega, by have := le p v 0; have := o1 p; omega,
      fun k => by have := le p v k; have := o1 p; omega⟩
    rintro rfl
    have := h.nil.1
    have := le [] v 0
    simp only [Wt.of] at *
    omega
  · exact hrc
  · rintro k i q v rfl S hS hs
    have hb : 0 < ws (rcw (k :: i :: q)) acts := by
      have := Cx (k :: i :: q); simp only [rcw, if_true] at this; exact this
    have hp := hrc k i q v rfl (by simp [hS])
    have h1 := h.rc (i :: q) k (by simp) hb S hS hs
    have h0 : ws (own (i :: q)) acts = 0 := by
      have h2 := h.sta (i :: q) (by simp) hp S hS
      have h3 := (Wt.of_le acts).rc (i :: q) k
      simp only [Wt.of] at h2 h3
      cases S <;> simp [Snd.single, Load] at * <;> omega
    exact ⟨hp, h1, h.new _ _ (by simp) (by omega), by have := le (i :: q) 0 0; omega,
      by have := le (i :: q) 0 0; omega, fun v => by have := le (i :: q) v 0; omega,
      fun k => by have := le (i :: q) 0 k; omega⟩

theorem run_inv2 {s s' : St} {acts : List (List Instr)} {k : Nat} {x : Instr} {r p : List Instr} {b : Bool}
    (h : Inv s acts) (h' : Inv s' (acts.set k (p ++ r))) (h2 : Inv2 s acts) (hk : acts[k]? = some (x :: r))
    (he : exec s x b = .ok s' p) : Inv2 s' (acts.set k (p ++ r)) := by
  have T := fun i => ws_set (stw i) p hk
  have V := fun i v => ws_set (svw i v) p hk
  have R := fun i v => ws_set (rvw i v) p hk
  have C := fun i => ws_set (rcw i) p hk
  have L := fun i => ws_set (low i) p hk
  have G := fun i => ws_set (trw i) p hk
  have N := fun i j => ws_set (cnw i j) p hk
  have of' : ∀ i v, i ≠ [] → s'.phase i = .done → ws (svw i v) (acts.set k (p ++ r)) = 0 := fun i v hi hp => by
    have h1 := (h'.off i hi (.inr hp)).1
    have h2 := st_le i (acts.set k (p ++ r)) v 0
    simp only [Wt.of] at h1
    omega
  have hkd := fun p n i => @isKid_ne p n i
  have sn := h.sn
  have root := h.root
  have pr := pre h hk
  clear h h' hk
  generalize acts.set k (p ++ r) = acts' at *
  obtain ⟨st, sv, rv, rn, lo, tr, cn, s1, s2, s3⟩ := h2
  constructor
  all_goals exec_cases he
  all_goals (try (replace pr := pr.bg _ rfl))
  all_goals (try (replace pr := pr.lp _ _ rfl))
  all_goals (try (replace pr := pr.sv _ _ rfl))
  all_goals (try (replace pr := pr.st _ rfl))
  all_goals (try (replace pr := pr.rs _ _ _ _ rfl _ (by assumption) rfl))
  all_goals (try (replace pr := pr.rc _ _ _ _ rfl (by simp [*])))
  all_goals simp only [stw, svw, rvw, rcw, low, trw, cnw, wl_cons, wl_nil, wl_append, stw_starts, svw_starts,
    rvw_starts, low_starts, trw_starts, cnw_starts, rcw_starts, stw_cancels, svw_cancels,
    rvw_cancels, low_cancels, trw_cancels, cnw_cancels, rcw_cancels,
    Nat.add_zero, Nat.zero_add] at T V R C L G N
  all_goals (try simp only [St.ev, St.box, St.kids, updP_apply, List.mem_append, List.mem_cons, List.not_mem_nil,
    or_false, reduceCtorEq, Ev.start.injEq, Ev.done.injEq])
  all_goals (try simp only [St.ev, St.box, St.kids, updP_apply] at of')
  all_goals grind

theorem env_inv2 {s s' : St} {acts : List (List Instr)} {a : Act} {p : List Instr} (h : Inv s acts)
    (h2 : Inv2 s acts) (he : env s acts a = some (s', p)) : Inv2 s' (acts ++ [p]) := by
  obtain ⟨st, sv, rv, rn, lo, tr, cn, s1, s2, s3⟩ := h2
  have hr : ∀ p, s.rdy p = true → s.phase p = .started := by
    intro p hp
    have h1 := h.off p
    have h2 := h.con p
    have h3 := h.nil
    cases hph : s.phase p <;> simp_all <;> (by_cases e : p = [] <;> simp_all)
  have sn := h.sn
  clear h
  constructor
  all_goals env_cases he
  all_goals simp only [ws_append, ws_cons, ws_nil, stw, svw, rvw, rcw, low, trw, cnw, wl_cons, wl_nil,
    Nat.add_zero, Nat.zero_add, updP_apply]
  all_goals grind

theorem init_inv2 : Inv2 init [] := by
  constructor <;> simp [init]

theorem reach_inv2 {c : Conf mach} (h : Reach mach init c) : Inv2 c.sh c.acts :=
  Reach.inv_with (M := mach) (P := Inv) (Q := Inv2) (fun _ hc => reach_inv hc) init_inv2
    (fun _ _ _ _ _ h _ h2 he => env_inv2 h h2 he)
    (fun _ _ _ _ _ _ _ _ h h' h2 hk he => run_inv2 h h' h2 hk he) h

end Verif.Tree
