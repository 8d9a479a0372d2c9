import Verif.Tree.Model
import Verif.Induct
import Verif.Termination

/-! # Invariants of the sender algorithms: one thread of control per operation -/

namespace Verif.Tree

/-- Case distinction on the outcome of an instruction. -/
macro "exec_cases" he:ident : tactic => `(tactic|
  (simp only [exec] at $he:ident
   (split at $he:ident <;> (repeat' split at $he:ident) <;>
    simp only [Out.ok.injEq, reduceCtorEq] at $he:ident) <;>
   (rcases $he:ident with ⟨he1, he2⟩; subst he1; subst he2)))

macro "env_cases" he:ident : tactic => `(tactic|
  (simp only [env] at $he:ident
   (split at $he:ident <;> (try split at $he:ident) <;>
    simp only [Option.some.injEq, Prod.mk.injEq, reduceCtorEq] at $he:ident) <;>
   (rcases $he:ident with ⟨he1, he2⟩; subst he1; subst he2)))

/-- An instruction that will lead to the completion of `p`. -/
def own (p : Path) : Instr → Nat
  | .start q | .begin q | .setv q _ | .loop q _ => if q = p then 1 else 0
  | _ => 0

/-- A completion of a child of `q` that `q` has to react to. -/
def recw (q : Path) : Instr → Nat
  | .recv p _ => if p.tail = q then 1 else 0
  | _ => 0

def bgw (p : Path) : Instr → Nat
  | .begin q => if q = p then 1 else 0
  | _ => 0

def lpw (p : Path) (k : Nat) : Instr → Nat
  | .loop q j => if q = p ∧ j = k then 1 else 0
  | _ => 0

def rcw (p : Path) : Instr → Nat
  | .recv q _ => if q = p then 1 else 0
  | _ => 0

/-- The operation exists and is not complete. -/
def Phase.act : Phase → Nat
  | .conn | .started => 1
  | _ => 0

@[simp] theorem act_none : Phase.act .none = 0 := rfl
@[simp] theorem act_conn : Phase.act .conn = 1 := rfl
@[simp] theorem act_started : Phase.act .started = 1 := rfl
@[simp] theorem act_done : Phase.act .done = 0 := rfl

theorem act_pos {p : Phase} : p.act = 1 ↔ p = .conn ∨ p = .started := by cases p <;> simp

/-- Number of children `0 … m - 1` that are not complete. -/
def kids (ph : Path → Phase) (q : Path) : Nat → Nat
  | 0 => 0
  | m + 1 => kids ph q m + (ph (m :: q)).act

theorem kids_upd (ph : Path → Phase) (p : Path) (x : Phase) (q : Path) (m : Nat) :
    kids (updP ph p x) q m + (if p.tail = q ∧ p ≠ [] ∧ p.headD 0 < m then (ph p).act else 0) =
      kids ph q m + (if p.tail = q ∧ p ≠ [] ∧ p.headD 0 < m then x.act else 0) := by
  induction m with
  | zero => simp [kids]
  | succ m ih =>
    simp only [kids, updP_apply]
    cases p with
    | nil => simp at *; exact ih
    | cons k p =>
      simp at *
      by_cases h1 : p = q
      · subst h1
        by_cases h2 : m = k
        · subst h2; simp at *; omega
        · by_cases h3 : k < m
          · have h4 : k < m + 1 := by omega
            simp [h2, h3, h4] at *; omega
          · have h4 : ¬ k < m + 1 := by omega
            simp [h2, h3, h4] at *; omega
      · have h2 : ¬ (m = k ∧ q = p) := by intro h; exact h1 h.2.symm
        simp [h1, h2] at *; exact ih

theorem kids_pos {ph : Path → Phase} {q : Path} {k m : Nat} (h : k < m) (ha : (ph (k :: q)).act = 1) :
    1 ≤ kids ph q m := by
  induction m with
  | zero => omega
  | succ m ih =>
    simp only [kids]
    by_cases hk : k = m
    · subst hk; omega
    · have := ih (by omega); omega

theorem exists_kid {ph : Path → Phase} {q : Path} {m : Nat} (h : 1 ≤ kids ph q m) :
    ∃ k, k < m ∧ (ph (k :: q)).act = 1 := by
  induction m with
  | zero => simp [kids] at h
  | succ m ih =>
    simp only [kids] at h
    by_cases hk : (ph (m :: q)).act = 1
    · exact ⟨m, by omega, hk⟩
    · have : (ph (m :: q)).act = 0 := by revert hk; cases ph (m :: q) <;> simp
      obtain ⟨k, h1, h2⟩ := ih (by omega)
      exact ⟨k, by omega, h2⟩

theorem kids_zero {ph : Path → Phase} {q : Path} {m : Nat} (h : ∀ k, ph (k :: q) = .none) : kids ph q m = 0 := by
  induction m with
  | zero => rfl
  | succ m ih => simp [kids, ih, h]

/-- Entering the children `0 … n` of `p`. -/
theorem kids_new (ph : Path → Phase) (p : Path) (n : Nat) (q : Path) (m : Nat) :
    kids (fun r => if isKid p n r then .conn else ph r) q m = if q = p then (if m ≤ n + 1 then m else
      n + 1 + (kids ph q m - kids ph q (n + 1))) else kids ph q m := by
  have mono : ∀ a b, a ≤ b → kids ph q a ≤ kids ph q b := by
    intro a b hab
    induction b with
    | zero => have : a = 0 := by omega
              subst this; exact Nat.le_refl _
    | succ b ih =>
      by_cases h : a = b + 1
      · subst h; exact Nat.le_refl _
      · have := ih (by omega); simp only [kids]; omega
  induction m with
  | zero => simp [kids]
  | succ m ih =>
    simp only [kids, ih]
    by_cases hq : q = p
    · subst hq
      by_cases h1 : m ≤ n
      · have h2 : isKid q n (m :: q) := ⟨rfl, by simp, by simpa using h1⟩
        have h3 : m ≤ n + 1 := by omega
        simp [h1, h2, h3]
      · have h2 : ¬ isKid q n (m :: q) := by intro h; exact h1 (by simpa using h.2.2)
        by_cases h3 : m = n + 1
        · subst h3
          have h4 : ¬ n + 1 + 1 ≤ n + 1 := by omega
          simp only [if_neg h2, if_neg h4, if_true, kids, Nat.le_refl]
          omega
        · have h4 : ¬ m ≤ n + 1 := by omega
          have h5 : ¬ m + 1 ≤ n + 1 := by omega
          have := mono (n + 1) m (by omega)
          simp only [if_neg h2, if_neg h4, if_neg h5, if_true, kids]
          simp only [kids] at this
          omega
    · have h2 : ¬ isKid p n (m :: q) := by intro h; exact hq h.1
      simp [hq, h2]

/-- How the thread of control of a started operation is represented. -/
def Load (own rec : Nat) (cur : Option Nat) (rdy : Bool) (ctr nx : Nat) (kid : Nat → Nat) : Snd → Prop
  | .leaf => own + (if rdy then 1 else 0) = 1 ∧ rec = 0 ∧ cur = none ∧ nx = 0
  | .inv _ => own = 1 ∧ rec = 0 ∧ cur = none ∧ nx = 0 ∧ rdy = false
  | .xform _ _ | .ite _ _ _ | .letS _ _ | .lam _ | .rep _ _ =>
    own + rec + (if cur = none then 0 else 1) = 1 ∧ rdy = false
  | .seq n _ => own + rec + (if cur = none then 0 else 1) = 1 ∧ rdy = false ∧ nx ≤ n + 1
  | .all n _ | .race n _ =>
    own = (if ctr = 0 then 1 else 0) ∧ ctr = kid (n + 1) + rec ∧ cur = none ∧ rdy = false

/-- Which children may exist. -/
def Fits (cur : Option Nat) (k : Nat) : Snd → Prop
  | .leaf | .inv _ => False
  | .all n _ | .race n _ => k ≤ n
  | _ => cur = some k

/-- The weights of the pending instructions. -/
structure Wt where
  o : Path → Nat
  r : Path → Nat
  bg : Path → Nat
  lp : Path → Nat → Nat
  rc : Path → Nat

def Wt.of (acts : List (List Instr)) : Wt :=
  ⟨fun p => ws (own p) acts, fun p => ws (recw p) acts, fun p => ws (bgw p) acts, fun p k => ws (lpw p k) acts,
    fun p => ws (rcw p) acts⟩

structure Wt.Le (w : Wt) : Prop where
  bg : ∀ p, w.bg p ≤ w.o p
  lp : ∀ p k, w.lp p k ≤ w.o p
  rc : ∀ q k, w.rc (k :: q) ≤ w.r q

/-- Only one child exists at a time. -/
def Snd.single : Snd → Bool
  | .leaf | .inv _ | .all _ _ | .race _ _ => false
  | _ => true

structure InvW (s : St) (w : Wt) : Prop where
  root : s.phase [] = .none
  sn : ∀ p, s.snd p = none ↔ s.phase p = .none
  off : ∀ p, p ≠ [] → s.phase p = .none ∨ s.phase p = .done →
    w.o p = 0 ∧ w.r p = 0 ∧ s.rdy p = false ∧ s.cur p = none
  con : ∀ p, p ≠ [] → s.phase p = .conn → w.o p = 1 ∧ w.r p = 0 ∧ s.rdy p = false ∧ s.cur p = none
  fre : ∀ p, p ≠ [] → s.phase p = .none ∨ s.phase p = .conn → s.nx p = 0 ∧ s.ctr p = 0
  sta : ∀ p, p ≠ [] → s.phase p = .started → ∀ S, s.snd p = some S →
    Load (w.o p) (w.r p) (s.cur p) (s.rdy p) (s.ctr p) (s.nx p) (kids s.phase p) S
  nil : w.o [] = 0 ∧ s.rdy [] = false
  new : ∀ q j, q ≠ [] → s.nx q ≤ j → s.phase (j :: q) = .none
  par : ∀ q k, q ≠ [] → s.phase (k :: q) = .conn ∨ s.phase (k :: q) = .started → s.phase q = .started
  fit : ∀ q k, q ≠ [] → s.phase (k :: q) = .conn ∨ s.phase (k :: q) = .started → ∀ S, s.snd q = some S →
    Fits (s.cur q) k S
  cur : ∀ q k, s.cur q = some k →
    q ≠ [] ∧ (s.phase (k :: q) = .conn ∨ s.phase (k :: q) = .started) ∧ s.nx q = k + 1
  bg : ∀ p, 0 < w.bg p → s.phase p = .started ∧ s.nx p = 0 ∧ s.cur p = none ∧ s.ctr p = 0
  lp : ∀ p k, 0 < w.lp p k → s.phase p = .started ∧ s.nx p = k
  rc : ∀ q k, q ≠ [] → 0 < w.rc (k :: q) → ∀ S, s.snd q = some S → S.single = true → s.nx q = k + 1

def Inv (s : St) (acts : List (List Instr)) : Prop := InvW s (.of acts)

theorem wl_starts {w : Instr → Nat} (q : Path) (n : Nat) (h : ∀ k, w (.start (k :: q)) = 0) :
    wl w (starts q n) = 0 := by
  apply wl_zero
  intro x hx
  simp [starts] at hx
  obtain ⟨k, _, rfl⟩ := hx
  exact h k

@[simp] theorem recw_starts (i q : Path) (n : Nat) : wl (recw i) (starts q n) = 0 := wl_starts q n (fun _ => rfl)
@[simp] theorem bgw_starts (i q : Path) (n : Nat) : wl (bgw i) (starts q n) = 0 := wl_starts q n (fun _ => rfl)
@[simp] theorem lpw_starts (i : Path) (j : Nat) (q : Path) (n : Nat) : wl (lpw i j) (starts q n) = 0 :=
  wl_starts q n (fun _ => rfl)
@[simp] theorem rcw_starts (i q : Path) (n : Nat) : wl (rcw i) (starts q n) = 0 := wl_starts q n (fun _ => rfl)

@[simp] theorem own_starts (i q : Path) (n : Nat) :
    wl (own i) (starts q n) = if isKid q n i then 1 else 0 := by
  have : ∀ m, wl (own i) ((List.range m).map (fun k => Instr.start (k :: q))) =
      if i.tail = q ∧ i ≠ [] ∧ i.headD 0 < m then 1 else 0 := by
    intro m
    induction m with
    | zero => simp
    | succ m ih =>
      rw [List.range_succ, List.map_append, wl_append, ih]
      cases i with
      | nil => simp [own]
      | cons a i =>
        simp [own]
        by_cases h1 : i = q
        · subst h1
          by_cases h2 : a = m
          · subst h2; simp
          · by_cases h3 : a < m
            · have : a < m + 1 := by omega
              simp [h3, this, Ne.symm h2]
            · have : ¬ a < m + 1 := by omega
              simp [h3, this, Ne.symm h2]
        · simp [h1, Ne.symm h1]
  have h := this (n + 1)
  unfold starts
  rw [h]
  simp only [isKid, Nat.lt_succ_iff]

theorem wl_cancels {w : Instr → Nat} (q : Path) (n k : Nat) (h : ∀ j, w (.cancel q j) = 0) :
    wl w (cancels q n k) = 0 := by
  apply wl_zero
  intro x hx
  simp only [cancels, List.mem_map] at hx
  obtain ⟨j, _, rfl⟩ := hx
  exact h j

@[simp] theorem own_cancels (i q : Path) (n k : Nat) : wl (own i) (cancels q n k) = 0 := wl_cancels q n k (fun _ => rfl)
@[simp] theorem recw_cancels (i q : Path) (n k : Nat) : wl (recw i) (cancels q n k) = 0 :=
  wl_cancels q n k (fun _ => rfl)
@[simp] theorem bgw_cancels (i q : Path) (n k : Nat) : wl (bgw i) (cancels q n k) = 0 := wl_cancels q n k (fun _ => rfl)
@[simp] theorem lpw_cancels (i : Path) (l : Nat) (q : Path) (n k : Nat) : wl (lpw i l) (cancels q n k) = 0 :=
  wl_cancels q n k (fun _ => rfl)
@[simp] theorem rcw_cancels (i q : Path) (n k : Nat) : wl (rcw i) (cancels q n k) = 0 :=
  wl_cancels q n k (fun _ => rfl)

theorem bgw_le (i : Path) (acts : List (List Instr)) : ws (bgw i) acts ≤ ws (own i) acts :=
  ws_mono (fun x => by cases x <;> simp [bgw, own]) acts

theorem lpw_le (i : Path) (j : Nat) (acts : List (List Instr)) : ws (lpw i j) acts ≤ ws (own i) acts :=
  ws_mono (fun x => by cases x <;> simp [lpw, own] <;> split <;> simp_all) acts

theorem rcw_le (k : Nat) (q : Path) (acts : List (List Instr)) : ws (rcw (k :: q)) acts ≤ ws (recw q) acts :=
  ws_mono (fun x => by cases x <;> simp [rcw, recw] <;> split <;> simp_all) acts

theorem Wt.of_le (acts : List (List Instr)) : (Wt.of acts).Le :=
  ⟨fun p => bgw_le p acts, fun p k => lpw_le p k acts, fun q k => rcw_le k q acts⟩

theorem alive_phase {s : St} {p : Path} (h : alive s p = true) (hp : p ≠ []) : s.phase p ≠ .done := by
  cases p with
  | nil => exact absurd rfl hp
  | cons k q => simp [alive] at h; exact h.1

end Verif.Tree
