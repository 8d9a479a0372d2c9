import Verif.Depth.Base
import Verif.Tree.Hist

/-! # Depth of the call stack in algorithm.hpp: lemmas -/

namespace Verif.Tree

/-- Calls of `start()`, `set_value()`, `loop_()` and `cancel()` are calls. The rest is executed in the frame of the function that
does it. -/
def frames : Instr → Nat
  | .start _ | .setv _ _ | .loop _ _ | .cancel _ _ => 1
  | .begin _ | .recv _ _ | .trail _ => 0

/-- Senders that do not complete inside of `start()`, provided that the leaves do not. -/
inductive Waits : Snd → Prop where
  | leaf : Waits .leaf
  | xform {S : Snd} {f : List Ev → Nat → Nat} : Waits S → Waits (.xform S f)
  | ite {c : List Ev → Bool} {S T : Snd} : Waits S → Waits T → Waits (.ite c S T)
  | letS {g : List Ev → Nat} {f : Nat → Snd} : (∀ v, Waits (f v)) → Waits (.letS g f)
  | lam {S : Snd} : Waits S → Waits (.lam S)
  | seq {n k : Nat} {f : Nat → Snd} : k ≤ n → Waits (f k) → Waits (.seq n f)
  | rep {c : List Ev → Bool} {f : List Ev → Snd} : (∀ h, c h = true) → (∀ h, Waits (f h)) → Waits (.rep c f)
  | all {n : Nat} {f : Nat → Snd} : (∀ k, k ≤ n → Waits (f k)) → Waits (.all n f)
  | race {n : Nat} {f : Nat → Snd} : (∀ k, k ≤ n → Waits (f k)) → Waits (.race n f)

/-- `Size S w`: every iteration of every `repeat_while` in `S` waits; and `w` is an upper bound of the size of `S`. -/
inductive Size : Snd → Nat → Prop where
  | leaf {w : Nat} : Size .leaf w
  | inv {f : List Ev → Nat} {w : Nat} : 1 ≤ w → Size (.inv f) w
  | xform {S : Snd} {f : List Ev → Nat → Nat} {a w : Nat} : Size S a → a + 2 ≤ w → Size (.xform S f) w
  | ite {c : List Ev → Bool} {S T : Snd} {a w : Nat} : Size S a → Size T a → a + 2 ≤ w → Size (.ite c S T) w
  | letS {g : List Ev → Nat} {f : Nat → Snd} {a w : Nat} : (∀ v, Size (f v) a) → a + 2 ≤ w → Size (.letS g f) w
  | lam {S : Snd} {a w : Nat} : Size S a → a + 2 ≤ w → Size (.lam S) w
  | seq {n : Nat} {f : Nat → Snd} {a w : Nat} : (∀ k, k ≤ n → Size (f k) a) → 1 + (n + 1) * (a + 1) ≤ w → Size (.seq n f) w
  | rep {c : List Ev → Bool} {f : List Ev → Snd} {a w : Nat} : (∀ h, Size (f h) a) → (∀ h, Waits (f h)) → 2 * a + 2 ≤ w →
      Size (.rep c f) w
  | all {n : Nat} {f : Nat → Snd} {a w : Nat} : (∀ k, k ≤ n → Size (f k) a) → a + 2 ≤ w → Size (.all n f) w
  | race {n : Nat} {f : Nat → Snd} {a w : Nat} : (∀ k, k ≤ n → Size (f k) a) → a + 2 ≤ w → Size (.race n f) w

theorem Size.mono {S : Snd} {a b : Nat} (h : Size S a) (hab : a ≤ b) : Size S b := by
  cases h with
  | leaf => exact .leaf
  | inv h => exact .inv (by omega)
  | xform h h2 => exact .xform h (by omega)
  | ite h h' h2 => exact .ite h h' (by omega)
  | letS h h2 => exact .letS h (by omega)
  | lam h h2 => exact .lam h (by omega)
  | seq h h2 => exact .seq h (by omega)
  | rep h h' h2 => exact .rep h h' (by omega)
  | all h h2 => exact .all h (by omega)
  | race h h2 => exact .race h (by omega)

/-- Senders that complete when (the last) one of their senders completes. -/
def Snd.passes : Snd → Prop
  | .xform _ _ | .ite _ _ _ | .letS _ _ | .lam _ | .all _ _ | .race _ _ => True
  | _ => False

/-- The sender of operation `p` has size `w`; a chain of calls that begins with the completion of `p` is at most `v` long. -/
inductive Cert (snd : Path → Option Snd) : Path → Nat → Nat → Prop where
  | root {t w : Nat} {S : Snd} : snd [t] = some S → Size S w → Cert snd [t] w 0
  | pass {q : Path} {w v k a : Nat} {P S : Snd} : Cert snd q w v → snd q = some P → P.passes → snd (k :: q) = some S → Size S a →
      a + 2 ≤ w → Cert snd (k :: q) a (v + 1)
  | seq {q : Path} {w v k a n u : Nat} {f : Nat → Snd} : Cert snd q w v → snd q = some (.seq n f) → k ≤ n →
      snd (k :: q) = some (f k) → (∀ j, j ≤ n → Size (f j) a) → 1 + (n + 1) * (a + 1) ≤ w →
      (u = v ∨ u = 0 ∧ ∃ j, k < j ∧ j ≤ n ∧ Waits (f j)) → Cert snd (k :: q) a (1 + (n - k) * (a + 1) + u)
  | rep {q : Path} {w v k a u : Nat} {c : List Ev → Bool} {f : List Ev → Snd} {S : Snd} : Cert snd q w v → snd q = some (.rep c f) →
      snd (k :: q) = some S → Size S a → (∀ h, Size (f h) a) → (∀ h, Waits (f h)) → 2 * a + 2 ≤ w →
      (u = v ∨ u = 0 ∧ Waits (.rep c f)) → Cert snd (k :: q) a (2 + a + u)

theorem Cert.mono {snd snd' : Path → Option Snd} (X : ∀ p S, snd p = some S → snd' p = some S) {p : Path} {w v : Nat}
    (h : Cert snd p w v) : Cert snd' p w v := by
  induction h with
  | root h1 h2 => exact .root (X _ _ h1) h2
  | pass _ h1 h2 h3 h4 h5 ih => exact .pass ih (X _ _ h1) h2 (X _ _ h3) h4 h5
  | seq _ h1 h2 h3 h4 h5 h6 ih => exact .seq ih (X _ _ h1) h2 (X _ _ h3) h4 h5 h6
  | rep _ h1 h2 h3 h4 h5 h6 h7 ih => exact .rep ih (X _ _ h1) (X _ _ h2) h3 h4 h5 h6 h7

theorem Cert.size {snd : Path → Option Snd} {p : Path} {w v : Nat} (h : Cert snd p w v) : ∃ S, snd p = some S ∧ Size S w := by
  cases h with
  | root h1 h2 => exact ⟨_, h1, h2⟩
  | pass _ _ _ h1 h2 _ => exact ⟨_, h1, h2⟩
  | seq _ _ hk h1 h2 _ _ => exact ⟨_, h1, h2 _ hk⟩
  | rep _ _ h1 h2 _ _ _ _ => exact ⟨_, h1, h2⟩

/-- What a pending instruction may still lead to. -/
def Fine (B : Nat) (snd : Path → Option Snd) (d : Nat) : Instr → Prop
  | .start p | .begin p => ∃ w v, Cert snd p w v ∧ d + w ≤ B ∧ ((∃ S, snd p = some S ∧ Waits S) ∨ d + w + v ≤ B)
  | .setv p _ | .recv p _ => ∃ w v, Cert snd p w v ∧ d + v ≤ B
  | .loop p _ => ∃ c f a w v, snd p = some (.rep c f) ∧ Cert snd p w v ∧ (∀ h, Size (f h) a) ∧ (∀ h, Waits (f h)) ∧
      2 * a + 2 ≤ w ∧ d + 1 + a ≤ B ∧ (Waits (.rep c f) ∨ d + 1 + v ≤ B)
  | .trail _ | .cancel _ _ => d ≤ B

theorem Fine.le {B d : Nat} {snd : Path → Option Snd} {x : Instr} (h : Fine B snd d x) : d ≤ B := by
  cases x with
  | start p | begin p => obtain ⟨_, _, _, h, _⟩ := h; omega
  | setv p v | recv p v => obtain ⟨_, _, _, h⟩ := h; omega
  | loop p k => obtain ⟨_, _, _, _, _, _, _, _, _, _, h, _⟩ := h; omega
  | trail p | cancel p j => exact h

theorem Fine.mono {snd snd' : Path → Option Snd} (X : ∀ p S, snd p = some S → snd' p = some S) {B d : Nat} {x : Instr}
    (h : Fine B snd d x) : Fine B snd' d x := by
  cases x with
  | start p | begin p =>
    obtain ⟨w, v, h1, h2, h3⟩ := h
    refine ⟨w, v, h1.mono X, h2, h3.imp ?_ id⟩
    rintro ⟨S, h4, h5⟩
    exact ⟨S, X _ _ h4, h5⟩
  | setv p v | recv p v =>
    obtain ⟨w, v, h1, h2⟩ := h
    exact ⟨w, v, h1.mono X, h2⟩
  | loop p k =>
    obtain ⟨c, f, a, w, v, h1, h2, h3⟩ := h
    exact ⟨c, f, a, w, v, X _ _ h1, h2.mono X, h3⟩
  | trail p | cancel p j => exact h

theorem passes_node {B : Nat} {snd : Path → Option Snd} {p : Path} {k : Nat} {P S : Snd} (hP : snd p = some P) (hp : P.passes)
    (hS : snd (k :: p) = some S) (hsz : ∀ w, Size P w → ∃ a, Size S a ∧ a + 2 ≤ w)
    (h : ∃ w v, Cert snd p w v ∧ w + v + 1 ≤ B) : ∃ w v, Cert snd (k :: p) w v ∧ w + v + 1 ≤ B := by
  obtain ⟨w, v, h1, h2⟩ := h
  obtain ⟨P', e, h3⟩ := h1.size
  rw [hP] at e; cases e
  obtain ⟨a, h4, h5⟩ := hsz w h3
  exact ⟨a, v + 1, .pass h1 hP hp hS h4 h5, by omega⟩

theorem passes_start {B d : Nat} {snd : Path → Option Snd} {p : Path} {k : Nat} {P S : Snd} (hP : snd p = some P) (hp : P.passes)
    (hS : snd (k :: p) = some S) (hsz : ∀ w, Size P w → ∃ a, Size S a ∧ a + 2 ≤ w) (hw : Waits P → Waits S)
    (h : Fine B snd d (.begin p)) : Fine B snd (d + 1) (.start (k :: p)) := by
  obtain ⟨w, v, h1, h2, h6⟩ := h
  obtain ⟨P', e, h3⟩ := h1.size
  rw [hP] at e; cases e
  obtain ⟨a, h4, h5⟩ := hsz w h3
  refine ⟨a, v + 1, .pass h1 hP hp hS h4 h5, by omega, ?_⟩
  rcases h6 with ⟨P', e, h6⟩ | h6
  · rw [hP] at e; cases e
    exact .inl ⟨S, hS, hw h6⟩
  · exact .inr (by omega)

theorem passes_setv {B d : Nat} {snd : Path → Option Snd} {q : Path} {k i v : Nat} {P : Snd} (hP : snd (i :: q) = some P) (hp : P.passes)
    (h : Fine B snd d (.recv (k :: i :: q) v)) (v' : Nat) : d + 1 ≤ B ∧ Fine B snd (d + 1) (.setv (i :: q) v') := by
  obtain ⟨w, u, h1, h2⟩ := h
  cases h1 with
  | pass h3 _ _ _ _ _ => exact ⟨by omega, _, _, h3, by omega⟩
  | seq _ h3 => rw [hP] at h3; cases h3; exact hp.elim
  | rep _ h3 => rw [hP] at h3; cases h3; exact hp.elim

/-- The senders of all operations. -/
def Nodes (B : Nat) (snd : Path → Option Snd) : Prop := ∀ p S, snd p = some S → ∃ w v, Cert snd p w v ∧ w + v + 1 ≤ B

theorem nodes_new {B : Nat} {snd snd' : Path → Option Snd} (X : ∀ p S, snd p = some S → snd' p = some S) (h : Nodes B snd)
    (hn : ∀ p S, snd' p = some S → snd p = some S ∨ ∃ w v, Cert snd' p w v ∧ w + v + 1 ≤ B) : Nodes B snd' := by
  intro p S hp
  rcases hn p S hp with h1 | h1
  · obtain ⟨w, v, h2, h3⟩ := h p S h1
    exact ⟨w, v, h2.mono X, h3⟩
  · exact h1

theorem node_up {B : Nat} {snd snd' : Path → Option Snd} (X : ∀ p S, snd p = some S → snd' p = some S) (h : Nodes B snd) {p : Path}
    {S : Snd} (hp : snd p = some S) : ∃ w v, Cert snd' p w v ∧ w + v + 1 ≤ B := by
  obtain ⟨w, v, h2, h3⟩ := h p S hp
  exact ⟨w, v, h2.mono X, h3⟩

/-- Children that report to their parent: one box. -/
theorem box_low {B d : Nat} {s s' : St} {p : Path} {k : Nat} {P S : Snd} (X : ∀ p S, s.snd p = some S → s'.snd p = some S)
    (h : Nodes B s.snd) (hx : Fine B s.snd d (.begin p)) (hP : s.snd p = some P) (hp : P.passes)
    (hs : s'.snd = updP s.snd (k :: p) (some S)) (hsz : ∀ w, Size P w → ∃ a, Size S a ∧ a + 2 ≤ w) (hw : Waits P → Waits S) :
    Nodes B s'.snd ∧ ∀ y ∈ [Instr.start (k :: p)], Fine B s'.snd (d + frames y) y := by
  have hS : s'.snd (k :: p) = some S := by rw [hs, updP_apply, if_pos rfl]
  refine ⟨nodes_new X h fun q T hq => ?_, ?_⟩
  · by_cases e : q = k :: p
    · subst e
      exact .inr (passes_node (X _ _ hP) hp hS hsz (node_up X h hP))
    · rw [hs, updP_apply, if_neg e] at hq
      exact .inl hq
  · intro y hy
    simp at hy; subst hy
    exact passes_start (X _ _ hP) hp hS hsz hw (hx.mono X)

/-- Children that report to their parent: several. -/
theorem kids_low {B d : Nat} {s : St} {p : Path} {n : Nat} {f : Nat → Snd} {P : Snd}
    (X : ∀ q S, s.snd q = some S → (s.kids p n f).snd q = some S)
    (h : Nodes B s.snd) (hx : Fine B s.snd d (.begin p)) (hP : s.snd p = some P) (hp : P.passes)
    (hsz : ∀ k, k ≤ n → ∀ w, Size P w → ∃ a, Size (f k) a ∧ a + 2 ≤ w) (hw : ∀ k, k ≤ n → Waits P → Waits (f k)) :
    Nodes B (s.kids p n f).snd ∧ ∀ y ∈ starts p n, Fine B (s.kids p n f).snd (d + frames y) y := by
  have hS : ∀ k, k ≤ n → (s.kids p n f).snd (k :: p) = some (f k) := by
    intro k hk
    simp [St.kids, isKid, hk]
  refine ⟨nodes_new X h fun q T hq => ?_, ?_⟩
  · by_cases e : isKid p n q
    · obtain ⟨h1, h2, h3⟩ := e
      cases q with
      | nil => exact absurd rfl h2
      | cons k q =>
        simp at h1 h3
        subst h1
        exact .inr (passes_node (X _ _ hP) hp (hS k h3) (hsz k h3) (node_up X h hP))
    · simp only [St.kids, if_neg e] at hq
      exact .inl hq
  · intro y hy
    simp only [starts, List.mem_map, List.mem_range] at hy
    obtain ⟨k, hk, rfl⟩ := hy
    have hk : k ≤ n := by omega
    exact passes_start (X _ _ hP) hp (hS k hk) (hsz k hk) (hw k hk) (hx.mono X)

theorem seq_node {B : Nat} {snd : Path → Option Snd} {p : Path} {n k : Nat} {f : Nat → Snd} (hP : snd p = some (.seq n f)) (hk : k ≤ n)
    (hS : snd (k :: p) = some (f k)) (h : ∃ w v, Cert snd p w v ∧ w + v + 1 ≤ B) :
    ∃ w v, Cert snd (k :: p) w v ∧ w + v + 1 ≤ B := by
  obtain ⟨w, v, h1, h2⟩ := h
  obtain ⟨P', e, h3⟩ := h1.size
  rw [hP] at e; cases e
  cases h3 with
  | @seq _ _ a _ h4 h5 =>
    refine ⟨a, _, .seq h1 hP hk hS h4 h5 (.inl rfl), ?_⟩
    have h6 : (n - k) * (a + 1) ≤ n * (a + 1) := Nat.mul_le_mul_right _ (Nat.sub_le ..)
    have h7 : (n + 1) * (a + 1) = n * (a + 1) + (a + 1) := by rw [Nat.add_mul, Nat.one_mul]
    omega

/-- `sequence` starts its sender number `k`, when a chain of `m` further calls is possible. -/
theorem seq_start {B d : Nat} {snd : Path → Option Snd} {p : Path} {n k a w v u : Nat} {f : Nat → Snd} (hC : Cert snd p w v)
    (hP : snd p = some (.seq n f)) (hk : k ≤ n) (hS : snd (k :: p) = some (f k)) (h4 : ∀ j, j ≤ n → Size (f j) a)
    (h5 : 1 + (n + 1) * (a + 1) ≤ w) (hu : u = v ∨ u = 0 ∧ ∃ j, k ≤ j ∧ j ≤ n ∧ Waits (f j))
    (hd : d + (1 + (n + 1 - k) * (a + 1) + u) ≤ B) : Fine B snd (d + 1) (.start (k :: p)) := by
  have h6 : (n + 1 - k) * (a + 1) = (n - k) * (a + 1) + (a + 1) := by
    rw [show n + 1 - k = n - k + 1 by omega, Nat.add_mul, Nat.one_mul]
  by_cases hw : Waits (f k)
  · refine ⟨a, _, .seq hC hP hk hS h4 h5 (.inl rfl), ?_, .inl ⟨_, hS, hw⟩⟩
    have : 0 ≤ (n - k) * (a + 1) := Nat.zero_le _
    omega
  · have hu' : u = v ∨ u = 0 ∧ ∃ j, k < j ∧ j ≤ n ∧ Waits (f j) := by
      refine hu.imp id ?_
      rintro ⟨h7, j, h8, h9, h10⟩
      refine ⟨h7, j, ?_, h9, h10⟩
      rcases Nat.lt_or_eq_of_le h8 with h | h
      · exact h
      · subst h; exact absurd h10 hw
    exact ⟨a, _, .seq hC hP hk hS h4 h5 hu', by omega, .inr (by omega)⟩

theorem seq_low {B : Nat} {s s' : St} {p : Path} {n k : Nat} {f : Nat → Snd} (X : ∀ p S, s.snd p = some S → s'.snd p = some S)
    (h : Nodes B s.snd) (hP : s.snd p = some (.seq n f)) (hk : k ≤ n) (hs : s'.snd = updP s.snd (k :: p) (some (f k))) :
    Nodes B s'.snd ∧ s'.snd (k :: p) = some (f k) := by
  have hS : s'.snd (k :: p) = some (f k) := by rw [hs, updP_apply, if_pos rfl]
  refine ⟨nodes_new X h fun q T hq => ?_, hS⟩
  by_cases e : q = k :: p
  · subst e
    exact .inr (seq_node (X _ _ hP) hk hS (node_up X h hP))
  · rw [hs, updP_apply, if_neg e] at hq
    exact .inl hq

theorem rep_low {B d : Nat} {s s' : St} {p : Path} {k : Nat} {c : List Ev → Bool} {f : List Ev → Snd} {l : List Ev}
    (X : ∀ p S, s.snd p = some S → s'.snd p = some S)
    (h : Nodes B s.snd) (hx : Fine B s.snd d (.loop p k)) (hP : s.snd p = some (.rep c f))
    (hs : s'.snd = updP s.snd (k :: p) (some (f l))) :
    Nodes B s'.snd ∧ Fine B s'.snd (d + 1) (.start (k :: p)) := by
  have hS : s'.snd (k :: p) = some (f l) := by rw [hs, updP_apply, if_pos rfl]
  refine ⟨nodes_new X h fun q T hq => ?_, ?_⟩
  · by_cases e : q = k :: p
    · subst e
      obtain ⟨w, v, h1, h2⟩ := node_up X h hP
      obtain ⟨P', e, h3⟩ := h1.size
      rw [X _ _ hP] at e; cases e
      cases h3 with
      | rep h4 h5 h6 => exact .inr ⟨_, _, .rep h1 (X _ _ hP) hS (h4 _) h4 h5 h6 (.inl rfl), by omega⟩
    · rw [hs, updP_apply, if_neg e] at hq
      exact .inl hq
  · obtain ⟨c', f', a, w, v, h1, h2, h3, h4, h5, h6, h7⟩ := hx.mono X
    rw [X _ _ hP] at h1; cases h1
    exact ⟨a, _, .rep h2 (X _ _ hP) hS (h3 _) h3 h4 h5 (.inl rfl), by omega, .inl ⟨_, hS, h4 _⟩⟩

theorem exec_low {B d : Nat} {s s' : St} {x : Instr} {b : Bool} {p : List Instr}
    (X : ∀ p S, s.snd p = some S → s'.snd p = some S) (h : Nodes B s.snd) (hx : Fine B s.snd d x) (he : exec s x b = .ok s' p) :
    Nodes B s'.snd ∧ ∀ y ∈ p, Fine B s'.snd (d + frames y) y := by
  cases x with
  | start q =>
    simp only [exec] at he
    split at he
    · cases he
    · cases he
      exact ⟨h, fun y hy => by simp at hy; subst hy; exact hx⟩
  | trail q =>
    simp only [exec] at he
    split at he
    · cases he
    · cases he; exact ⟨h, by simp⟩
  | cancel q j =>
    simp only [exec] at he
    split at he
    · cases he
    · cases he; exact ⟨h, by simp⟩
  | setv q v =>
    simp only [exec] at he
    split at he
    · cases he
    · cases he
      exact ⟨h, fun y hy => by simp at hy; subst hy; exact hx⟩
  | loop q k =>
    simp only [exec] at he
    split at he
    · rename_i c f hP
      split at he
      · cases he
      · split at he
        · cases he
          obtain ⟨h1, h2⟩ := rep_low X h hx hP rfl
          exact ⟨h1, fun y hy => by simp at hy; subst hy; exact h2⟩
        · rename_i hc
          cases he
          refine ⟨h, fun y hy => ?_⟩
          simp at hy; subst hy
          obtain ⟨c', f', a, w, v, h1, h2, h3, h4, h5, h6, h7⟩ := hx
          rw [hP] at h1; cases h1
          rcases h7 with h7 | h7
          · cases h7 with
            | rep h8 _ => exact absurd (h8 _) hc
          · exact ⟨w, v, h2, h7⟩
    · cases he
  | begin q =>
    simp only [exec] at he
    split at he
    · cases he
    · split at he
      · cases he
      · cases he; exact ⟨h, by simp⟩
      · rename_i f hP
        cases he
        refine ⟨h, fun y hy => ?_⟩
        simp at hy; subst hy
        obtain ⟨w, v, h1, h2, h3⟩ := hx
        obtain ⟨P', e, h4⟩ := h1.size
        rw [hP] at e; cases e
        rcases h3 with ⟨P', e, h3⟩ | h3
        · rw [hP] at e; cases e; cases h3
        · cases h4 with
          | inv h5 => exact ⟨w, v, h1, by simp only [frames]; omega⟩
      · rename_i S f hP
        cases he
        exact box_low X h hx hP trivial rfl (fun w hw => by cases hw with | xform h1 h2 => exact ⟨_, h1, h2⟩)
          (fun hw => by cases hw with | xform h1 => exact h1)
      · rename_i c S T hP
        split at he
        · cases he
          exact box_low X h hx hP trivial rfl (fun w hw => by cases hw with | ite h1 h2 h3 => exact ⟨_, h1, h3⟩)
            (fun hw => by cases hw with | ite h1 h2 => exact h1)
        · cases he
          exact box_low X h hx hP trivial rfl (fun w hw => by cases hw with | ite h1 h2 h3 => exact ⟨_, h2, h3⟩)
            (fun hw => by cases hw with | ite h1 h2 => exact h2)
      · rename_i g f hP
        cases he
        exact box_low X h hx hP trivial rfl (fun w hw => by cases hw with | letS h1 h2 => exact ⟨_, h1 _, h2⟩)
          (fun hw => by cases hw with | letS h1 => exact h1 _)
      · rename_i S hP
        cases he
        exact box_low X h hx hP trivial rfl (fun w hw => by cases hw with | lam h1 h2 => exact ⟨_, h1, h2⟩)
          (fun hw => by cases hw with | lam h1 => exact h1)
      · rename_i n f hP
        cases he
        obtain ⟨h1, h2⟩ := seq_low X h hP (Nat.zero_le _) rfl
        refine ⟨h1, fun y hy => ?_⟩
        simp at hy; subst hy
        obtain ⟨w, v, h3, h4, h5⟩ := hx.mono X
        obtain ⟨P', e, h6⟩ := h3.size
        rw [X _ _ hP] at e; cases e
        cases h6 with
        | @seq _ _ a _ h7 h8 =>
          rcases h5 with ⟨P', e, h5⟩ | h5
          · rw [X _ _ hP] at e; cases e
            cases h5 with
            | @seq _ k _ h9 h10 =>
              exact seq_start (u := 0) h3 (X _ _ hP) (Nat.zero_le _) h2 h7 h8 (.inr ⟨rfl, k, Nat.zero_le _, h9, h10⟩)
                (by simp only [Nat.sub_zero]; omega)
          · exact seq_start (u := v) h3 (X _ _ hP) (Nat.zero_le _) h2 h7 h8 (.inl rfl) (by simp only [Nat.sub_zero]; omega)
      · rename_i c f hP
        cases he
        refine ⟨h, fun y hy => ?_⟩
        simp at hy; subst hy
        obtain ⟨w, v, h3, h4, h5⟩ := hx
        obtain ⟨P', e, h6⟩ := h3.size
        rw [hP] at e; cases e
        cases h6 with
        | @rep _ _ a _ h7 h8 h9 =>
          refine ⟨c, f, a, w, v, hP, h3, h7, h8, h9, by simp only [frames]; omega, ?_⟩
          rcases h5 with ⟨P', e, h5⟩ | h5
          · rw [hP] at e; cases e; exact .inl h5
          · exact .inr (by simp only [frames]; omega)
      · rename_i n f hP
        cases he
        obtain ⟨h1, h2⟩ := kids_low X h hx hP trivial (fun k hk w hw => by cases hw with | all h1 h2 => exact ⟨_, h1 k hk, h2⟩)
          (fun k hk hw => by cases hw with | all h1 => exact h1 k hk)
        refine ⟨h1, fun y hy => ?_⟩
        rcases List.mem_append.1 hy with hy | hy
        · exact h2 y hy
        · simp at hy; subst hy; exact hx.le
      · rename_i n f hP
        cases he
        exact kids_low X h hx hP trivial (fun k hk w hw => by cases hw with | race h1 h2 => exact ⟨_, h1 k hk, h2⟩)
          (fun k hk hw => by cases hw with | race h1 => exact h1 k hk)
  | recv q v =>
    match q with
    | [] => simp [exec] at he
    | [_] => simp only [exec] at he; cases he; exact ⟨h, by simp⟩
    | k :: i :: q =>
      simp only [exec] at he
      split at he
      · cases he
      · split at he
        · cases he
        · cases he
        · cases he
        · rename_i S f hP
          cases he
          refine ⟨h, fun y hy => ?_⟩
          simp at hy; subst hy
          exact (passes_setv hP trivial hx _).2
        · rename_i hP
          cases he
          refine ⟨h, fun y hy => ?_⟩
          simp at hy; subst hy
          exact (passes_setv hP trivial hx _).2
        · rename_i hP
          cases he
          refine ⟨h, fun y hy => ?_⟩
          simp at hy; subst hy
          exact (passes_setv hP trivial hx _).2
        · rename_i hP
          cases he
          refine ⟨h, fun y hy => ?_⟩
          simp at hy; subst hy
          exact (passes_setv hP trivial hx _).2
        · rename_i n f hP
          have hx' := hx.mono X
          obtain ⟨w, u, h1, h2⟩ := hx'
          split at he
          · rename_i hk
            cases he
            refine ⟨h, fun y hy => ?_⟩
            simp at hy; subst hy
            cases h1 with
            | pass _ h3 h4 => rw [hP] at h3; cases h3; exact h4.elim
            | seq h3 h4 h5 h6 h7 h8 h9 =>
              rw [hP] at h4; cases h4
              rcases h9 with h9 | ⟨_, j, h10, h11, _⟩
              · exact ⟨_, _, h3, by simp only [frames]; omega⟩
              · omega
            | rep _ h3 => rw [hP] at h3; cases h3
          · rename_i hk
            cases he
            cases h1 with
            | pass _ h3 h4 => rw [X _ _ hP] at h3; cases h3; exact h4.elim
            | @seq _ w v _ a _ u _ h3 h4 h5 h6 h7 h8 h9 =>
              rw [X _ _ hP] at h4; cases h4
              have hk' : k + 1 ≤ n := by omega
              obtain ⟨h10, h11⟩ := seq_low X h hP hk' rfl
              refine ⟨h10, fun y hy => ?_⟩
              simp at hy; subst hy
              refine seq_start (u := u) h3 (X _ _ hP) hk' h11 h7 h8 (h9.imp id ?_) ?_
              · rintro ⟨h12, j, h13, h14, h15⟩
                exact ⟨h12, j, h13, h14, h15⟩
              · rw [show n + 1 - (k + 1) = n - k by omega]; exact h2
            | rep _ h3 => rw [X _ _ hP] at h3; cases h3
        · rename_i c f hP
          cases he
          refine ⟨h, fun y hy => ?_⟩
          simp at hy; subst hy
          obtain ⟨w, u, h1, h2⟩ := hx
          cases h1 with
          | pass _ h3 h4 => rw [hP] at h3; cases h3; exact h4.elim
          | seq _ h3 => rw [hP] at h3; cases h3
          | rep h3 h4 h5 h6 h7 h8 h9 h10 =>
            rw [hP] at h4; cases h4
            refine ⟨c, f, _, _, _, hP, h3, h7, h8, h9, by simp only [frames]; omega, ?_⟩
            rcases h10 with h10 | ⟨_, h10⟩
            · exact .inr (by simp only [frames]; omega)
            · exact .inl h10
        · rename_i hP
          split at he
          · cases he
          · cases he
            refine ⟨h, fun y hy => ?_⟩
            split at hy
            · simp at hy; subst hy
              exact (passes_setv hP trivial hx _).2
            · simp at hy
        · rename_i hP
          split at he
          · cases he
          · cases he
            refine ⟨h, fun y hy => ?_⟩
            rcases List.mem_append.1 hy with hy | hy
            · split at hy
              · simp only [cancels, List.mem_map] at hy
                obtain ⟨j, _, rfl⟩ := hy
                exact (passes_setv hP trivial hx 0).1
              · simp at hy
            · split at hy
              · simp at hy; subst hy
                exact (passes_setv hP trivial hx _).2
              · simp at hy

/-- Executions in which the expressions that are started have size at most `w`. -/
inductive Sized (w : Nat) : Conf (mach.deep frames) → Prop where
  | init : Sized w ((mach.deep frames).init init)
  | step {c c' : Conf (mach.deep frames)} {l : Lbl (mach.deep frames)} : Sized w c → (mach.deep frames).step c l = some c' →
      (∀ t S, l = .env (.start t S) → Size S w) → Sized w c'

theorem Sized.reach {w : Nat} {c : Conf (mach.deep frames)} (h : Sized w c) : Reach (mach.deep frames) Tree.init c := by
  induction h with
  | init => exact .init
  | step _ hs _ ih => exact .step ih hs

theorem Sized.low {w : Nat} {c : Conf (mach.deep frames)} (h : Sized w c) : Nodes (w + 1) c.sh.snd ∧
    ∀ a ∈ c.acts, ∀ x ∈ a, Fine (w + 1) c.sh.snd x.2 x.1 := by
  induction h with
  | init => exact ⟨by intro p S h; simp [Mach.init, Tree.init] at h, by simp [Mach.init]⟩
  | @step c c' l hc hs hl ih =>
    have I := reach_inv hc.reach.shallow
    obtain ⟨s, acts, bad⟩ := c
    obtain ⟨ih1, ih2⟩ := ih
    cases bad with
    | true => cases l <;> simp [Mach.step] at hs
    | false =>
      simp only at ih1 ih2
      cases l with
      | env a =>
        simp only [Mach.step, Bool.false_eq_true, if_false] at hs
        cases he : env s (acts.map (·.map (·.1))) a with
        | none => simp [he] at hs
        | some r =>
          obtain ⟨s', p⟩ := r
          simp only [he, Option.some.injEq] at hs
          subst hs
          have X := (env_ext I he).1
          have hp : Nodes (w + 1) s'.snd ∧ ∀ x ∈ p.map (fun y => (y, frames y)), Fine (w + 1) s'.snd x.2 x.1 := by
            cases a with
            | start t S =>
              simp only [env] at he
              split at he
              · cases he
                have hS : updP s.snd [t] (some S) [t] = some S := by rw [updP_apply, if_pos rfl]
                have hC : Cert (updP s.snd [t] (some S)) [t] w 0 := .root hS (hl t S rfl)
                refine ⟨nodes_new X ih1 fun q T hq => ?_, ?_⟩
                · by_cases e : q = [t]
                  · subst e; exact .inr ⟨w, 0, hC, by omega⟩
                  · simp only [updP_apply, if_neg e] at hq; exact .inl hq
                · intro x hx
                  simp at hx; subst hx
                  exact ⟨w, 0, hC, by simp only [frames]; omega, .inr (by simp only [frames]; omega)⟩
              · cases he
            | finish q v =>
              simp only [env] at he
              split at he
              · rename_i hr
                cases he
                refine ⟨ih1, fun x hx => ?_⟩
                simp at hx; subst hx
                have hsn : s.snd q ≠ none := by
                  intro e
                  have h1 := (I.sn q).1 e
                  by_cases hq : q = []
                  · subst hq
                    have := I.nil.2
                    simp only [Conf.flat] at this
                    rw [this] at hr; cases hr
                  · have := (I.off q hq (.inl h1)).2.2.1
                    simp only [Conf.flat] at this
                    rw [this] at hr; cases hr
                cases hS : s.snd q with
                | none => exact absurd hS hsn
                | some S =>
                  obtain ⟨a, u, h1, h2⟩ := ih1 q S hS
                  exact ⟨a, u, h1, by simp only [frames]; omega⟩
              · cases he
          refine ⟨hp.1, fun a' ha x hx => ?_⟩
          simp only [List.mem_append, List.mem_singleton] at ha
          rcases ha with ha | rfl
          · exact (ih2 a' ha x hx).mono X
          · exact hp.2 x hx
      | run k b =>
        simp only [Mach.step, Bool.false_eq_true, if_false] at hs
        split at hs
        · rename_i x r hk
          obtain ⟨x, d⟩ := x
          cases he : exec s x b with
          | ok s' p =>
            simp only [he, Option.some.injEq] at hs
            subst hs
            have hk' : (acts.map (·.map (·.1)))[k]? = some (x :: r.map (·.1)) := by
              rw [List.getElem?_map, hk]; rfl
            have X := (exec_ext I hk' he).1
            have hm := List.mem_of_getElem? hk
            obtain ⟨h1, h2⟩ := exec_low X ih1 (ih2 _ hm _ (List.mem_cons_self ..)) he
            refine ⟨h1, fun a' ha y hy => ?_⟩
            rcases List.mem_or_eq_of_mem_set ha with ha | rfl
            · exact (ih2 a' ha y hy).mono X
            · rcases List.mem_append.1 hy with hy | hy
              · obtain ⟨z, hz, rfl⟩ := List.mem_map.1 hy
                exact h2 z hz
              · exact (ih2 _ hm y (List.mem_cons_of_mem _ hy)).mono X
          | block => simp [he] at hs
          | fault =>
            simp only [he, Option.some.injEq] at hs
            subst hs
            exact ⟨ih1, ih2⟩
        · cases hs

end Verif.Tree
