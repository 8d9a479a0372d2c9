import Verif.Calls.Spec
import Verif.Finish

/-! # Compositions whose calls come to an end: lemmas -/

namespace Verif.Tree.Calls

/-- Starting sender number `n - m` of `n` in a sequence, when starting costs `g` and completing the sequence costs `v`. -/
def chain (g : Nat → Nat) : Nat → Nat → Nat
  | 0, v => g (2 + v)
  | m + 1, v => g (2 + chain g m v)

/-- `loop_` with at most `m` further iterations. -/
def turns (g : Nat → Nat) : Nat → Nat → Nat
  | 0, v => 1 + v
  | m + 1, v => 1 + v + g (2 + turns g m v)

/-- Upper bound of the number of instructions of `start()`, when completing costs `v`. -/
def G (w : Nat) : Nat → Nat → Nat
  | 0, v => 2 + v
  | d + 1, v => 4 + v + (w + 1) * G w d (3 + w + v) + chain (G w d) w v + turns (G w d) w v

theorem chain_mono {g : Nat → Nat} (hg : ∀ a b, a ≤ b → g a ≤ g b) {m a b : Nat} (h : a ≤ b) : chain g m a ≤ chain g m b := by
  induction m with
  | zero => exact hg _ _ (by omega)
  | succ m ih => exact hg _ _ (by omega)

theorem chain_up {g : Nat → Nat} (hl : ∀ a, a ≤ g a) {m n v : Nat} (h : m ≤ n) : chain g m v ≤ chain g n v := by
  induction h with
  | refl => exact Nat.le_refl _
  | step _ ih =>
    refine Nat.le_trans ih ?_
    have := hl (2 + chain g ‹_› v)
    simp only [chain]; omega

theorem turns_mono {g : Nat → Nat} (hg : ∀ a b, a ≤ b → g a ≤ g b) {m a b : Nat} (h : a ≤ b) : turns g m a ≤ turns g m b := by
  induction m with
  | zero => simp only [turns]; omega
  | succ m ih =>
    have := hg (2 + turns g m a) (2 + turns g m b) (by omega)
    simp only [turns]; omega

theorem turns_up {g : Nat → Nat} (hl : ∀ a, a ≤ g a) {m n v : Nat} (h : m ≤ n) : turns g m v ≤ turns g n v := by
  induction h with
  | refl => exact Nat.le_refl _
  | step _ ih =>
    refine Nat.le_trans ih ?_
    have := hl (2 + turns g ‹_› v)
    simp only [turns]; omega

theorem G_mono {w d a b : Nat} (h : a ≤ b) : G w d a ≤ G w d b := by
  induction d generalizing a b with
  | zero => simp only [G]; omega
  | succ d ih =>
    have h1 := Nat.mul_le_mul_left (w + 1) (ih (a := 3 + w + a) (b := 3 + w + b) (by omega))
    have h2 := chain_mono (g := G w d) (fun _ _ h => ih h) (m := w) h
    have h3 := turns_mono (g := G w d) (fun _ _ h => ih h) (m := w) h
    simp only [G]; omega

theorem G_le {w d a : Nat} : 2 + a ≤ G w d a := by
  cases d <;> simp only [G] <;> omega

theorem G_self {w d : Nat} (a : Nat) : a ≤ G w d a := by
  have := G_le (w := w) (d := d) (a := a); omega

/-- What completing sender number `k` of `0 … n` costs. -/
def after (g : Nat → Nat) (n k u : Nat) : Nat := if k = n then 2 + u else 2 + chain g (n - (k + 1)) u

theorem chain_after {g : Nat → Nat} {n k u : Nat} (hk : k ≤ n) : chain g (n - k) u = g (after g n k u) := by
  unfold after
  split
  · subst ‹k = n›; rw [Nat.sub_self]; rfl
  · rw [show n - k = n - (k + 1) + 1 by omega]; rfl

/-- The sender of `p` is tame; completing `p` costs at most `v` instructions. -/
inductive Cert (w : Nat) (snd : Path → Option Snd) (log : List Ev) : Path → Nat → Nat → Prop where
  | root {t d : Nat} {S : Snd} : snd [t] = some S → Tame w d S → Cert w snd log [t] d 2
  | pass {q : Path} {d v k : Nat} {P S : Snd} : Cert w snd log q (d + 1) v → snd q = some P → P.passes →
      (∀ n f, P = .race n f → n ≤ w) → snd (k :: q) = some S → Tame w d S → Cert w snd log (k :: q) d (3 + w + v)
  | seq {q : Path} {d v k n u : Nat} {f : Nat → Snd} : Cert w snd log q (d + 1) v → snd q = some (.seq n f) → k ≤ n → n ≤ w →
      snd (k :: q) = some (f k) → (∀ j, j ≤ n → Tame w d (f j)) → (u = v ∨ u = 0 ∧ ∃ j, k < j ∧ j ≤ n ∧ Waits (f j)) →
      Cert w snd log (k :: q) d (after (G w d) n k u)
  | waits {q : Path} {d v k u : Nat} {c : List Ev → Bool} {f : List Ev → Snd} {S : Snd} : Cert w snd log q (d + 1) v →
      snd q = some (.rep c f) → snd (k :: q) = some S → Tame w d S → (∀ h, Tame w d (f h)) → (∀ h, Waits (f h)) →
      (u = v ∨ u = 0 ∧ Waits (.rep c f)) → Cert w snd log (k :: q) d (3 + u + G w d 0)
  | stops {q : Path} {d v k : Nat} {c : List Ev → Bool} {f : List Ev → Snd} {S : Snd} : Cert w snd log q (d + 1) v →
      snd q = some (.rep c f) → snd (k :: q) = some S → Tame w d S → (∀ h, Tame w d (f h)) →
      (∀ p h, (∀ j, j < w → .cond p j true ∈ h) → c h = false) → (∀ j, j ≤ k → .cond q j true ∈ log) →
      Cert w snd log (k :: q) d (2 + turns (G w d) (w - (k + 1)) v)

variable {w : Nat} {snd snd' : Path → Option Snd} {log log' : List Ev}

theorem Cert.mono (X : ∀ p S, snd p = some S → snd' p = some S) (L : ∀ e, e ∈ log → e ∈ log') {p : Path} {d v : Nat}
    (h : Cert w snd log p d v) : Cert w snd' log' p d v := by
  induction h with
  | root h1 h2 => exact .root (X _ _ h1) h2
  | pass _ h1 h2 h3 h4 h5 ih => exact .pass ih (X _ _ h1) h2 h3 (X _ _ h4) h5
  | seq _ h1 h2 h3 h4 h5 h6 ih => exact .seq ih (X _ _ h1) h2 h3 (X _ _ h4) h5 h6
  | waits _ h1 h2 h3 h4 h5 h6 ih => exact .waits ih (X _ _ h1) (X _ _ h2) h3 h4 h5 h6
  | stops _ h1 h2 h3 h4 h5 h6 ih => exact .stops ih (X _ _ h1) (X _ _ h2) h3 h4 h5 (fun j hj => L _ (h6 j hj))

theorem Cert.tame {p : Path} {d v : Nat} (h : Cert w snd log p d v) : ∃ S, snd p = some S ∧ Tame w d S := by
  cases h with
  | root h1 h2 => exact ⟨_, h1, h2⟩
  | pass _ _ _ _ h1 h2 => exact ⟨_, h1, h2⟩
  | seq _ _ hk _ h1 h2 _ => exact ⟨_, h1, h2 _ hk⟩
  | waits _ _ h1 h2 _ _ _ => exact ⟨_, h1, h2⟩
  | stops _ _ h1 h2 _ _ _ => exact ⟨_, h1, h2⟩

theorem Cert.of {p : Path} {d v : Nat} {P : Snd} (h : Cert w snd log p d v) (hP : snd p = some P) : Tame w d P := by
  obtain ⟨S, h1, h2⟩ := h.tame
  rw [hP] at h1; cases h1; exact h2

/-- At most `n` instructions remain from this one. -/
def Owes (w : Nat) (snd : Path → Option Snd) (log : List Ev) (n : Nat) : Instr → Prop
  | .start p => ∃ d v u, Cert w snd log p d v ∧ (u = v ∨ u = 0 ∧ ∃ S, snd p = some S ∧ Waits S) ∧ G w d u ≤ n
  | .begin p => ∃ d v u, Cert w snd log p d v ∧ (u = v ∨ u = 0 ∧ ∃ S, snd p = some S ∧ Waits S) ∧ G w d u ≤ n + 1
  | .setv p _ => ∃ d v, Cert w snd log p d v ∧ 2 ≤ v ∧ v ≤ n
  | .recv p _ => ∃ d v, Cert w snd log p d v ∧ 2 ≤ v ∧ v ≤ n + 1
  | .loop p k => ∃ c f d v, snd p = some (.rep c f) ∧ Cert w snd log p (d + 1) v ∧ (∀ h, Tame w d (f h)) ∧
      (((∀ h, Waits (f h)) ∧ ∃ u, (u = v ∨ u = 0 ∧ Waits (.rep c f)) ∧ 1 + u + G w d 0 ≤ n) ∨
        ((∀ p h, (∀ j, j < w → .cond p j true ∈ h) → c h = false) ∧ (∀ j, j < k → .cond p j true ∈ log) ∧
          turns (G w d) (w - k) v ≤ n))
  | .trail _ | .cancel _ _ => 1 ≤ n

theorem Owes.mono (X : ∀ p S, snd p = some S → snd' p = some S) (L : ∀ e, e ∈ log → e ∈ log') {n : Nat} {x : Instr}
    (h : Owes w snd log n x) : Owes w snd' log' n x := by
  cases x with
  | start p | begin p =>
    obtain ⟨d, v, u, h1, h2, h3⟩ := h
    refine ⟨d, v, u, h1.mono X L, h2.imp id ?_, h3⟩
    rintro ⟨h0, S, h4, h5⟩
    exact ⟨h0, S, X _ _ h4, h5⟩
  | setv p v | recv p v =>
    obtain ⟨d, v, h1, h2⟩ := h
    exact ⟨d, v, h1.mono X L, h2⟩
  | loop p k =>
    obtain ⟨c, f, d, v, h1, h2, h3, h4⟩ := h
    refine ⟨c, f, d, v, X _ _ h1, h2.mono X L, h3, h4.imp id ?_⟩
    rintro ⟨h5, h6, h7⟩
    exact ⟨h5, fun j hj => L _ (h6 j hj), h7⟩
  | trail p | cancel p j => exact h

theorem Cert.two {p : Path} {d v : Nat} (h : Cert w snd log p d v) : 2 ≤ v := by
  cases h with
  | root => exact Nat.le_refl _
  | seq => unfold after; split <;> omega
  | _ => omega

/-- The instructions of a list. -/
def OwesL (w : Nat) (snd : Path → Option Snd) (log : List Ev) : List Instr → Nat → Prop
  | [], _ => True
  | x :: r, n => ∃ a b, Owes w snd log a x ∧ OwesL w snd log r b ∧ a + b ≤ n

theorem OwesL.one {n : Nat} {x : Instr} (h : Owes w snd log n x) : OwesL w snd log [x] n := ⟨n, 0, h, trivial, by omega⟩

theorem OwesL.app {p r : List Instr} {a b : Nat} (h : OwesL w snd log p a) (h' : OwesL w snd log r b) :
    OwesL w snd log (p ++ r) (a + b) := by
  induction p generalizing a with
  | nil =>
    cases r with
    | nil => trivial
    | cons x r =>
      obtain ⟨i, j, h1, h2, h3⟩ := h'
      exact ⟨i, j, h1, h2, by omega⟩
  | cons x p ih =>
    obtain ⟨i, j, h1, h2, h3⟩ := h
    exact ⟨i, j + b, h1, ih h2, by omega⟩

theorem OwesL.le {p : List Instr} {a b : Nat} (h : OwesL w snd log p a) (hab : a ≤ b) : OwesL w snd log p b := by
  cases p with
  | nil => trivial
  | cons x p =>
    obtain ⟨i, j, h1, h2, h3⟩ := h
    exact ⟨i, j, h1, h2, by omega⟩

theorem OwesL.const {p : List Instr} {a : Nat} (h : ∀ x ∈ p, Owes w snd log a x) : OwesL w snd log p (p.length * a) := by
  induction p with
  | nil => trivial
  | cons x p ih =>
    refine ⟨a, p.length * a, h x (List.mem_cons_self ..), ih fun y hy => h y (List.mem_cons_of_mem _ hy), ?_⟩
    rw [List.length_cons, Nat.add_mul, Nat.one_mul]; omega

/-- All operations have a certificate. -/
def Nodes (snd : Path → Option Snd) (log : List Ev) : Prop := ∀ p S, snd p = some S → ∃ w d v, Cert w snd log p d v

/-- The result of a step. -/
def Res (w : Nat) (s : St) (p : List Instr) (n : Nat) : Prop :=
  Nodes s.snd s.log ∧ ∃ m, OwesL w s.snd s.log p m ∧ m + 1 ≤ n

theorem nodes_new (X : ∀ p S, snd p = some S → snd' p = some S) (L : ∀ e, e ∈ log → e ∈ log') (h : Nodes snd log)
    (hn : ∀ p S, snd' p = some S → snd p = some S ∨ ∃ w d v, Cert w snd' log' p d v) : Nodes snd' log' := by
  intro p S hp
  rcases hn p S hp with h1 | h1
  · obtain ⟨w, d, v, h2⟩ := h p S h1
    exact ⟨w, d, v, h2.mono X L⟩
  · exact h1

theorem nodes_box {s s' : St} {p : Path} {k : Nat} {S : Snd} (X : ∀ p S, s.snd p = some S → s'.snd p = some S)
    (L : ∀ e, e ∈ s.log → e ∈ s'.log) (h : Nodes s.snd s.log)
    (hs : s'.snd = updP s.snd (k :: p) (some S)) {d v : Nat}
    (hc : Cert w s'.snd s'.log (k :: p) d v) : Nodes s'.snd s'.log := by
  refine nodes_new X L h fun q T hq => ?_
  by_cases e : q = k :: p
  · subst e
    exact .inr ⟨w, d, v, hc⟩
  · rw [hs, updP_apply, if_neg e] at hq
    exact .inl hq

theorem nodes_kids {s : St} {p : Path} {n : Nat} {f : Nat → Snd} (X : ∀ q S, s.snd q = some S → (s.kids p n f).snd q = some S)
    (h : Nodes s.snd s.log) (hc : ∀ k, k ≤ n → ∃ d v, Cert w (s.kids p n f).snd s.log (k :: p) d v) :
    Nodes (s.kids p n f).snd s.log := by
  refine nodes_new X (fun _ h => h) h fun q T hq => ?_
  by_cases e : isKid p n q
  · obtain ⟨h1, h2, h3⟩ := e
    cases q with
    | nil => exact absurd rfl h2
    | cons k q =>
      simp at h1 h3
      subst h1
      obtain ⟨d, v, h5⟩ := hc k h3
      exact .inr ⟨w, d, v, h5⟩
  · simp only [St.kids, if_neg e] at hq
    exact .inl hq

theorem pass_start {p : Path} {k d v u : Nat} {P S : Snd} (hC : Cert w snd log p (d + 1) v) (hP : snd p = some P) (hp : P.passes)
    (hr : ∀ n f, P = .race n f → n ≤ w) (hS : snd (k :: p) = some S) (hT : Tame w d S) (hw : Waits P → Waits S)
    (hu : u = v ∨ u = 0 ∧ ∃ S, snd p = some S ∧ Waits S) : Owes w snd log (G w d (3 + w + u)) (.start (k :: p)) := by
  have h1 : Cert w snd log (k :: p) d (3 + w + v) := .pass hC hP hp hr hS hT
  rcases hu with rfl | ⟨rfl, P', e, h2⟩
  · exact ⟨d, _, _, h1, .inl rfl, Nat.le_refl _⟩
  · rw [hP] at e; cases e
    exact ⟨d, _, 0, h1, .inr ⟨rfl, S, hS, hw h2⟩, G_mono (by omega)⟩

theorem G_succ {w d v : Nat} : 4 + v + G w d (3 + w + v) ≤ G w (d + 1) v := by
  have : 1 * G w d (3 + w + v) ≤ (w + 1) * G w d (3 + w + v) := Nat.mul_le_mul_right _ (by omega)
  simp only [G]; omega

theorem box_res {s s' : St} {p : Path} {k n : Nat} {P S : Snd} (X : ∀ p S, s.snd p = some S → s'.snd p = some S)
    (L : ∀ e, e ∈ s.log → e ∈ s'.log)
    (h : Nodes s.snd s.log) (hx : Owes w s.snd s.log n (.begin p)) (hP : s.snd p = some P) (hp : P.passes)
    (hr : ∀ n f, P ≠ .race n f)
    (hs : s'.snd = updP s.snd (k :: p) (some S)) (hsz : ∀ w d, Tame w d P → ∃ d', d = d' + 1 ∧ Tame w d' S)
    (hw : Waits P → Waits S) : Res w s' [Instr.start (k :: p)] n := by
  have hS : s'.snd (k :: p) = some S := by rw [hs, updP_apply, if_pos rfl]
  have hr' : ∀ w n f, P = .race n f → n ≤ w := fun w n f e => absurd e (hr n f)
  obtain ⟨d, v, u, h1, h2, h3⟩ := hx.mono X L
  obtain ⟨d, rfl, h4⟩ := hsz w d (h1.of (X _ _ hP))
  refine ⟨nodes_box X L h hs (.pass h1 (X _ _ hP) hp (hr' w) hS h4), ?_⟩
  · refine ⟨_, .one (pass_start h1 (X _ _ hP) hp (hr' w) hS h4 hw h2), ?_⟩
    have := G_succ (w := w) (d := d) (v := u)
    omega

theorem kids_res {s : St} {p : Path} {n N : Nat} {f : Nat → Snd} {P : Snd}
    (X : ∀ q S, s.snd q = some S → (s.kids p n f).snd q = some S)
    (h : Nodes s.snd s.log) (hx : Owes w s.snd s.log N (.begin p)) (hP : s.snd p = some P) (hp : P.passes)
    (hsz : ∀ w d, Tame w d P → n ≤ w ∧ ∃ d', d = d' + 1 ∧ ∀ k, k ≤ n → Tame w d' (f k)) (hr : ∀ n' f', P = .race n' f' → n' = n)
    (hw : Waits P → ∀ k, k ≤ n → Waits (f k)) :
    Nodes (s.kids p n f).snd s.log ∧ ∃ m, OwesL w (s.kids p n f).snd s.log (starts p n) m ∧ m + 3 ≤ N := by
  have hS : ∀ k, k ≤ n → (s.kids p n f).snd (k :: p) = some (f k) := by
    intro k hk
    simp [St.kids, isKid, hk]
  obtain ⟨d, v, u, h1, h2, h3⟩ := hx.mono X (fun _ h => h)
  obtain ⟨h4, d, rfl, h5⟩ := hsz w d (h1.of (X _ _ hP))
  refine ⟨nodes_kids (w := w) X h fun k hk => ?_, ?_⟩
  · exact ⟨d, _, .pass h1 (X _ _ hP) hp (fun n' f' e => by rw [hr n' f' e]; exact h4) (hS k hk) (h5 k hk)⟩
  · refine ⟨(starts p n).length * G w d (3 + w + u), .const fun y hy => ?_, ?_⟩
    · simp only [starts, List.mem_map, List.mem_range] at hy
      obtain ⟨k, hk, rfl⟩ := hy
      have hk : k ≤ n := by omega
      exact pass_start h1 (X _ _ hP) hp (fun n' f' e => by rw [hr n' f' e]; exact h4) (hS k hk) (h5 k hk) (fun h => hw h k hk) h2
    · simp only [starts, List.length_map, List.length_range]
      have : (n + 1) * G w d (3 + w + u) ≤ (w + 1) * G w d (3 + w + u) := Nat.mul_le_mul_right _ (by omega)
      simp only [G] at h3
      omega

theorem seq_start {p : Path} {n k d v u : Nat} {f : Nat → Snd} (hC : Cert w snd log p (d + 1) v)
    (hP : snd p = some (.seq n f)) (hk : k ≤ n) (hn : n ≤ w) (hS : snd (k :: p) = some (f k)) (h4 : ∀ j, j ≤ n → Tame w d (f j))
    (hu : u = v ∨ u = 0 ∧ ∃ j, k ≤ j ∧ j ≤ n ∧ Waits (f j)) : Owes w snd log (chain (G w d) (n - k) u) (.start (k :: p)) := by
  by_cases hw : Waits (f k)
  · refine ⟨d, _, 0, .seq hC hP hk hn hS h4 (.inl rfl), .inr ⟨rfl, _, hS, hw⟩, ?_⟩
    rw [chain_after hk]
    exact G_mono (Nat.zero_le _)
  · have hu' : u = v ∨ u = 0 ∧ ∃ j, k < j ∧ j ≤ n ∧ Waits (f j) := by
      refine hu.imp id ?_
      rintro ⟨h7, j, h8, h9, h10⟩
      refine ⟨h7, j, ?_, h9, h10⟩
      rcases Nat.lt_or_eq_of_le h8 with h | h
      · exact h
      · subst h; exact absurd h10 hw
    refine ⟨d, _, _, .seq hC hP hk hn hS h4 hu', .inl rfl, ?_⟩
    rw [chain_after hk]
    exact Nat.le_refl _

theorem seq_res {s s' : St} {p : Path} {n k d v u N : Nat} {f : Nat → Snd} (X : ∀ p S, s.snd p = some S → s'.snd p = some S)
    (L : ∀ e, e ∈ s.log → e ∈ s'.log) (h : Nodes s.snd s.log) (hs : s'.snd = updP s.snd (k :: p) (some (f k)))
    (hC : Cert w s'.snd s'.log p (d + 1) v)
    (hP : s'.snd p = some (.seq n f)) (hk : k ≤ n) (hn : n ≤ w) (h4 : ∀ j, j ≤ n → Tame w d (f j))
    (hu : u = v ∨ u = 0 ∧ ∃ j, k ≤ j ∧ j ≤ n ∧ Waits (f j)) (hN : chain (G w d) (n - k) u + 1 ≤ N) :
    Res w s' [.start (k :: p)] N := by
  have hS : s'.snd (k :: p) = some (f k) := by rw [hs, updP_apply, if_pos rfl]
  exact ⟨nodes_box X L h hs (.seq hC hP hk hn hS h4 (.inl rfl)), _, .one (seq_start hC hP hk hn hS h4 hu), hN⟩

theorem passes_setv {q : Path} {k i v n : Nat} {P : Snd} (hP : snd (i :: q) = some P) (hp : P.passes)
    (h : Owes w snd log n (.recv (k :: i :: q) v)) (v' : Nat) :
    ∃ m, Owes w snd log m (.setv (i :: q) v') ∧ m + w + 2 ≤ n ∧ ∀ n f, P = .race n f → n ≤ w := by
  obtain ⟨d, u, h1, h0, h2⟩ := h
  cases h1 with
  | pass h3 h4 _ h5 _ _ =>
    rw [hP] at h4; cases h4
    exact ⟨_, ⟨_, _, h3, h3.two, Nat.le_refl _⟩, by omega, h5⟩
  | seq _ h3 => rw [hP] at h3; cases h3; exact hp.elim
  | waits _ h3 => rw [hP] at h3; cases h3; exact hp.elim
  | stops _ h3 => rw [hP] at h3; cases h3; exact hp.elim

/-- A condition that stops is not always true. -/
theorem not_both {c : List Ev → Bool} {f : List Ev → Snd}
    (h : ∀ p h, (∀ j, j < w → .cond p j true ∈ h) → c h = false) (hw : Waits (.rep c f)) : False := by
  cases hw with
  | rep h1 h2 =>
    have h3 := h [] ((List.range w).map fun j => .cond [] j true) (by intro j hj; simp; exact hj)
    rw [h1] at h3; cases h3

theorem exec_res {s s' : St} {x : Instr} {b : Bool} {p : List Instr} {n : Nat}
    (X : ∀ p S, s.snd p = some S → s'.snd p = some S) (L : ∀ e, e ∈ s.log → e ∈ s'.log) (h : Nodes s.snd s.log)
    (hx : Owes w s.snd s.log n x) (he : exec s x b = .ok s' p) : Res w s' p n := by
  have N0 : s'.snd = s.snd → Nodes s'.snd s'.log := fun e => nodes_new X L h fun p S hp => .inl (e ▸ hp)
  cases x with
  | start q =>
    simp only [exec] at he
    split at he
    · cases he
    · cases he
      obtain ⟨d, v, u, h1, h2, h3⟩ := hx.mono X L
      have := G_le (w := w) (d := d) (a := u)
      exact ⟨N0 rfl, n - 1, .one ⟨d, v, u, h1, h2, by omega⟩, by omega⟩
  | trail q =>
    simp only [exec] at he
    have hx : 1 ≤ n := hx
    split at he
    · cases he
    · cases he; exact ⟨h, 0, trivial, hx⟩
  | cancel q j =>
    simp only [exec] at he
    have hx : 1 ≤ n := hx
    split at he
    · cases he
    · cases he; exact ⟨N0 rfl, 0, trivial, hx⟩
  | setv q v =>
    simp only [exec] at he
    split at he
    · cases he
    · cases he
      obtain ⟨d, v, h1, h2, h3⟩ := hx.mono X L
      exact ⟨N0 rfl, n - 1, .one ⟨d, v, h1, h2, by omega⟩, by omega⟩
  | loop q k =>
    simp only [exec] at he
    split at he
    · rename_i c f hP
      split at he
      · cases he
      · split at he
        · rename_i hc
          cases he
          have hS : ∀ l, ((s.ev (.cond q k true)).box q k (f l)).snd (k :: q) = some (f l) := by
            intro l; simp [St.box, updP_apply]
          obtain ⟨c', f', d, v, h1, h2, h3, h4⟩ := hx
          rw [hP] at h1; cases h1
          replace h2 := h2.mono X L
          rcases h4 with ⟨h5, u, h6, h7⟩ | ⟨h5, h6, h7⟩
          · have hC := Cert.waits (k := k) h2 (X _ _ hP) (hS _) (h3 _) h3 h5 h6
            exact ⟨nodes_box X L h rfl hC, _, .one ⟨_, _, 0, hC, .inr ⟨rfl, _, hS _, h5 _⟩, Nat.le_refl _⟩, by omega⟩
          · have hkw : k < w := by
              refine Classical.byContradiction fun hn => ?_
              have := h5 q s.log (fun j hj => h6 j (by omega))
              rw [this] at hc; cases hc
            have hC := Cert.stops (k := k) h2 (X _ _ hP) (hS _) (h3 _) h3 h5
              (fun j hj => by
                rcases Nat.lt_or_eq_of_le hj with hj | hj
                · exact L _ (h6 j hj)
                · subst hj; simp [St.box, St.ev])
            refine ⟨nodes_box X L h rfl hC, _, .one ⟨_, _, _, hC, .inl rfl, Nat.le_refl _⟩, ?_⟩
            rw [show w - k = w - (k + 1) + 1 by omega] at h7
            simp only [turns] at h7
            omega
        · rename_i hc
          cases he
          obtain ⟨c', f', d, v, h1, h2, h3, h4⟩ := hx.mono X L
          rw [X _ _ hP] at h1; cases h1
          rcases h4 with ⟨_, u, h5 | ⟨_, h5⟩, h6⟩ | ⟨_, _, h6⟩
          · subst h5
            exact ⟨N0 rfl, _, .one ⟨_, _, h2, h2.two, Nat.le_refl _⟩, by omega⟩
          · cases h5 with
            | rep h8 _ => exact absurd (h8 _) hc
          · have := turns_up (g := G w d) G_self (v := v) (Nat.zero_le (w - k))
            simp only [turns] at this
            exact ⟨N0 rfl, _, .one ⟨_, _, h2, h2.two, Nat.le_refl _⟩, by omega⟩
    · cases he
  | begin q =>
    simp only [exec] at he
    split at he
    · cases he
    · split at he
      · cases he
      · cases he
        obtain ⟨d, v, u, h1, h2, h3⟩ := hx
        have := G_le (w := w) (d := d) (a := u)
        exact ⟨h, 0, trivial, by omega⟩
      · rename_i f hP
        cases he
        obtain ⟨d, v, u, h1, h2, h3⟩ := hx.mono X L
        have := G_le (w := w) (d := d) (a := u)
        rcases h2 with rfl | ⟨_, P', e, h2⟩
        · exact ⟨N0 rfl, _, .one ⟨_, _, h1, h1.two, Nat.le_refl _⟩, by omega⟩
        · rw [X _ _ hP] at e; cases e; cases h2
      · rename_i S f hP
        cases he
        exact box_res X L h hx hP trivial (by simp) rfl (fun w d hw => by cases hw with | xform h1 => exact ⟨_, rfl, h1⟩)
          (fun hw => by cases hw with | xform h1 => exact h1)
      · rename_i c S T hP
        split at he
        · cases he
          exact box_res X L h hx hP trivial (by simp) rfl (fun w d hw => by cases hw with | ite h1 h2 => exact ⟨_, rfl, h1⟩)
            (fun hw => by cases hw with | ite h1 h2 => exact h1)
        · cases he
          exact box_res X L h hx hP trivial (by simp) rfl (fun w d hw => by cases hw with | ite h1 h2 => exact ⟨_, rfl, h2⟩)
            (fun hw => by cases hw with | ite h1 h2 => exact h2)
      · rename_i g f hP
        cases he
        exact box_res X L h hx hP trivial (by simp) rfl (fun w d hw => by cases hw with | letS h1 => exact ⟨_, rfl, h1 _⟩)
          (fun hw => by cases hw with | letS h1 => exact h1 _)
      · rename_i S hP
        cases he
        exact box_res X L h hx hP trivial (by simp) rfl (fun w d hw => by cases hw with | lam h1 => exact ⟨_, rfl, h1⟩)
          (fun hw => by cases hw with | lam h1 => exact h1)
      · rename_i n f hP
        cases he
        obtain ⟨d, v, u, h1, h2, h3⟩ := hx.mono X L
        cases h1.of (X _ _ hP) with
        | @seq d _ _ h4 h5 =>
          refine seq_res (u := u) X L h rfl h1 (X _ _ hP) (Nat.zero_le _) h4 h5 (h2.imp id ?_) ?_
          · rintro ⟨h6, P', e, h7⟩
            rw [X _ _ hP] at e; cases e
            cases h7 with
            | seq h8 h9 => exact ⟨h6, _, Nat.zero_le _, h8, h9⟩
          · have := chain_up (g := G w d) G_self (v := u) (show n - 0 ≤ w by omega)
            simp only [G] at h3
            omega
      · rename_i c f hP
        cases he
        obtain ⟨d, v, u, h1, h2, h3⟩ := hx
        have h2' : u = v ∨ u = 0 ∧ Waits (.rep c f) := by
          refine h2.imp id ?_
          rintro ⟨h4, P', e, h5⟩
          rw [hP] at e; cases e; exact ⟨h4, h5⟩
        cases h1.of hP with
        | @waits d _ _ h4 h5 =>
          refine ⟨h, _, .one ⟨c, f, d, v, hP, h1, h4, .inl ⟨h5, u, h2', Nat.le_refl _⟩⟩, ?_⟩
          have h6 := G_succ (w := w) (d := d) (v := u)
          have h7 := G_mono (w := w) (d := d) (Nat.zero_le (3 + w + u))
          omega
        | @stops d _ _ h4 h5 =>
          rcases h2' with rfl | ⟨_, h2'⟩
          · refine ⟨h, _, .one ⟨c, f, d, u, hP, h1, h4, .inr ⟨h5, by intro j hj; omega, Nat.le_refl _⟩⟩, ?_⟩
            simp only [G] at h3
            simp only [Nat.sub_zero]
            omega
          · exact (not_both h5 h2').elim
      · rename_i n f hP
        cases he
        obtain ⟨h1, m, h2, h3⟩ := kids_res X h hx hP trivial
          (fun w d hw => by cases hw with | all h1 h2 => exact ⟨h1, _, rfl, h2⟩) (by simp)
          (fun hw => by cases hw with | all h1 => exact h1)
        exact ⟨h1, _, h2.app (.one (n := 1) (Nat.le_refl 1)), by omega⟩
      · rename_i n f hP
        cases he
        obtain ⟨h1, m, h2, h3⟩ := kids_res X h hx hP trivial
          (fun w d hw => by cases hw with | race h1 h2 => exact ⟨h1, _, rfl, h2⟩) (by simp)
          (fun hw => by cases hw with | race h1 => exact h1)
        exact ⟨h1, _, h2, by omega⟩
  | recv q v =>
    match q with
    | [] => simp [exec] at he
    | [_] =>
      simp only [exec] at he; cases he
      obtain ⟨d, v, h1, h2, h3⟩ := hx
      exact ⟨h, 0, trivial, by omega⟩
    | k :: i :: q =>
      simp only [exec] at he
      split at he
      · cases he
      · split at he
        · cases he
        · cases he
        · cases he
        · rename_i S f hP
          cases he
          obtain ⟨m, h1, h2, _⟩ := passes_setv (X _ _ hP) trivial (hx.mono X L) (f s.log v)
          exact ⟨N0 rfl, m, .one h1, by omega⟩
        · rename_i hP
          cases he
          obtain ⟨m, h1, h2, _⟩ := passes_setv (X _ _ hP) trivial (hx.mono X L) v
          exact ⟨N0 rfl, m, .one h1, by omega⟩
        · rename_i hP
          cases he
          obtain ⟨m, h1, h2, _⟩ := passes_setv (X _ _ hP) trivial (hx.mono X L) v
          exact ⟨N0 rfl, m, .one h1, by omega⟩
        · rename_i hP
          cases he
          obtain ⟨m, h1, h2, _⟩ := passes_setv (X _ _ hP) trivial (hx.mono X L) v
          exact ⟨N0 rfl, m, .one h1, by omega⟩
        · rename_i n f hP
          obtain ⟨d, u, h1, h0, h2⟩ := hx.mono X L
          split at he
          · rename_i hk
            cases he
            cases h1 with
            | pass _ h3 h4 => rw [hP] at h3; cases h3; exact h4.elim
            | seq h3 h4 h5 h6 h7 h8 h9 =>
              rw [hP] at h4; cases h4
              rcases h9 with h9 | ⟨_, j, h10, h11, _⟩
              · subst h9
                rw [after, if_pos hk] at h2
                exact ⟨h, _, .one ⟨_, _, h3, h3.two, Nat.le_refl _⟩, by omega⟩
              · omega
            | waits _ h3 => rw [hP] at h3; cases h3
            | stops _ h3 => rw [hP] at h3; cases h3
          · rename_i hk
            cases he
            cases h1 with
            | pass _ h3 h4 => rw [X _ _ hP] at h3; cases h3; exact h4.elim
            | seq h3 h4 h5 h6 h7 h8 h9 =>
              have h4' := h4
              rw [X _ _ hP] at h4; cases h4
              rw [after, if_neg hk] at h2
              exact seq_res X L h rfl h3 h4' (show k + 1 ≤ n by omega) h6 h8 (h9.imp id fun ⟨a, j, b, c, d⟩ => ⟨a, j, b, c, d⟩) (by omega)
            | waits _ h3 => rw [X _ _ hP] at h3; cases h3
            | stops _ h3 => rw [X _ _ hP] at h3; cases h3
        · rename_i c f hP
          cases he
          obtain ⟨d, u, h1, h0, h2⟩ := hx
          cases h1 with
          | pass _ h3 h4 => rw [hP] at h3; cases h3; exact h4.elim
          | seq _ h3 => rw [hP] at h3; cases h3
          | waits h3 h4 h5 h6 h7 h8 h9 =>
            rw [hP] at h4; cases h4
            exact ⟨h, _, .one ⟨c, f, _, _, hP, h3, h7, .inl ⟨h8, _, h9, Nat.le_refl _⟩⟩, by omega⟩
          | stops h3 h4 h5 h6 h7 h8 h9 =>
            rw [hP] at h4; cases h4
            exact ⟨h, _, .one ⟨c, f, _, _, hP, h3, h7, .inr ⟨h8, fun j hj => h9 j (by omega), Nat.le_refl _⟩⟩, by omega⟩
        · rename_i hP
          split at he
          · cases he
          · cases he
            obtain ⟨m, h1, h2, _⟩ := passes_setv (X _ _ hP) trivial (hx.mono X L) 0
            refine ⟨N0 rfl, m, ?_, by omega⟩
            split
            · exact .one h1
            · trivial
        · rename_i n f hP
          split at he
          · cases he
          · cases he
            obtain ⟨m, h1, h2, h3⟩ := passes_setv (X _ _ hP) trivial (hx.mono X L) 0
            have h4 := h3 _ _ rfl
            refine ⟨N0 rfl, (w + 1) + m, OwesL.app ?_ ?_, by omega⟩
            · split
              · have h5 : OwesL w s.snd s.log (cancels (i :: q) n k) ((cancels (i :: q) n k).length * 1) := by
                  refine .const fun y hy => ?_
                  simp only [cancels, List.mem_map] at hy
                  obtain ⟨j, _, rfl⟩ := hy
                  exact Nat.le_refl 1
                refine OwesL.le h5 ?_
                have : ((List.range (n + 1)).filter (fun j => j ≠ k)).length ≤ (List.range (n + 1)).length := List.length_filter_le ..
                simp only [List.length_range] at this
                simp only [cancels, List.length_map]
                omega
              · trivial
            · split
              · exact .one h1
              · trivial

/-- All pending instructions, every activity with its own bound. -/
def OwesA (snd : Path → Option Snd) (log : List Ev) : List Instr → Nat → Prop
  | [], _ => True
  | x :: r, n => ∃ w a b, Owes w snd log a x ∧ OwesA snd log r b ∧ a + b ≤ n

theorem OwesL.any {p : List Instr} {n : Nat} (h : OwesL w snd log p n) : OwesA snd log p n := by
  induction p generalizing n with
  | nil => trivial
  | cons x p ih =>
    obtain ⟨a, b, h1, h2, h3⟩ := h
    exact ⟨w, a, b, h1, ih h2, h3⟩

theorem OwesA.app {p r : List Instr} {a b : Nat} (h : OwesA snd log p a) (h' : OwesA snd log r b) :
    OwesA snd log (p ++ r) (a + b) := by
  induction p generalizing a with
  | nil =>
    cases r with
    | nil => trivial
    | cons x r =>
      obtain ⟨w, i, j, h1, h2, h3⟩ := h'
      exact ⟨w, i, j, h1, h2, by omega⟩
  | cons x p ih =>
    obtain ⟨w, i, j, h1, h2, h3⟩ := h
    exact ⟨w, i, j + b, h1, ih h2, by omega⟩

theorem OwesA.mono (X : ∀ p S, snd p = some S → snd' p = some S) (L : ∀ e, e ∈ log → e ∈ log') {p : List Instr} {n : Nat}
    (h : OwesA snd log p n) : OwesA snd' log' p n := by
  induction p generalizing n with
  | nil => trivial
  | cons x p ih =>
    obtain ⟨w, a, b, h1, h2, h3⟩ := h
    exact ⟨w, a, b, h1.mono X L, ih h2, h3⟩

def OwesLL (snd : Path → Option Snd) (log : List Ev) : List (List Instr) → Nat → Prop
  | [], _ => True
  | a :: r, n => ∃ i j, OwesA snd log a i ∧ OwesLL snd log r j ∧ i + j ≤ n

theorem OwesLL.mono (X : ∀ p S, snd p = some S → snd' p = some S) (L : ∀ e, e ∈ log → e ∈ log') {p : List (List Instr)} {n : Nat}
    (h : OwesLL snd log p n) : OwesLL snd' log' p n := by
  induction p generalizing n with
  | nil => trivial
  | cons x p ih =>
    obtain ⟨a, b, h1, h2, h3⟩ := h
    exact ⟨a, b, h1.mono X L, ih h2, h3⟩

theorem OwesLL.add {acts : List (List Instr)} {p : List Instr} {n m : Nat} (h : OwesLL snd log acts n) (hp : OwesA snd log p m) :
    OwesLL snd log (acts ++ [p]) (n + m) := by
  induction acts generalizing n with
  | nil => exact ⟨m, 0, hp, trivial, by omega⟩
  | cons a acts ih =>
    obtain ⟨i, j, h1, h2, h3⟩ := h
    exact ⟨i, j + m, h1, ih h2, by omega⟩

/-- The activity that takes a step. -/
theorem OwesLL.at {acts : List (List Instr)} {k n : Nat} {x : Instr} {r : List Instr} (hk : acts[k]? = some (x :: r))
    (h : OwesLL snd log acts n) : ∃ w a, Owes w snd log a x ∧
      ∀ (snd' : Path → Option Snd) (log' : List Ev) (p : List Instr) (m : Nat), (∀ p S, snd p = some S → snd' p = some S) →
        (∀ e, e ∈ log → e ∈ log') → OwesL w snd' log' p m → m + 1 ≤ a →
          ∃ n', n' + 1 ≤ n ∧ OwesLL snd' log' (acts.set k (p ++ r)) n' := by
  induction acts generalizing k n with
  | nil => simp at hk
  | cons y acts ih =>
    obtain ⟨i, j, h1, h2, h3⟩ := h
    cases k with
    | zero =>
      simp at hk; subst hk
      obtain ⟨w, a, b, h4, h5, h6⟩ := h1
      refine ⟨w, a, h4, fun snd' log' p m X L hp hm => ⟨m + b + j, by omega, ?_⟩⟩
      exact ⟨m + b, j, hp.any.app (h5.mono X L), h2.mono X L, by omega⟩
    | succ k =>
      simp at hk
      obtain ⟨w, a, h4, h5⟩ := ih hk h2
      refine ⟨w, a, h4, fun snd' log' p m X L hp hm => ?_⟩
      obtain ⟨n', h6, h7⟩ := h5 snd' log' p m X L hp hm
      exact ⟨i + n', by omega, i, n', h1.mono X L, h7, Nat.le_refl _⟩

theorem Owes.pos {n : Nat} {x : Instr} (h : Owes w snd log n x) : 1 ≤ n := by
  cases x with
  | start p | begin p =>
    obtain ⟨d, v, u, _, _, h⟩ := h
    have := G_le (w := w) (d := d) (a := u)
    omega
  | setv p v | recv p v => obtain ⟨d, v, _, h1, h2⟩ := h; omega
  | loop p k =>
    obtain ⟨c, f, d, v, _, _, _, h⟩ := h
    rcases h with ⟨_, u, _, h⟩ | ⟨_, _, h⟩
    · omega
    · have := turns_up (g := G w d) G_self (v := v) (Nat.zero_le (w - k))
      simp only [turns] at this
      omega
  | trail p | cancel p j => exact h

theorem roots_keep {c c' : Conf mach} {l : Lbl mach} (hr : Reach mach init c) (hs : mach.step c l = some c') :
    ∀ p S, c.sh.snd p = some S → c'.sh.snd p = some S := by
  have I := reach_inv hr
  obtain ⟨s, acts, bad⟩ := c
  cases bad with
  | true => cases l <;> simp [Mach.step] at hs
  | false =>
    cases l with
    | env a =>
      simp only [Mach.step, Bool.false_eq_true, if_false] at hs
      cases he : env s acts a with
      | none => simp [he] at hs
      | some r =>
        simp only [he, Option.some.injEq] at hs
        subst hs
        exact (env_ext I he).1
    | run k b =>
      simp only [Mach.step, Bool.false_eq_true, if_false] at hs
      split at hs
      · rename_i x r hk
        cases he : exec s x b with
        | ok s' p =>
          simp only [he, Option.some.injEq] at hs
          subst hs
          exact (exec_ext I hk he).1
        | block => simp [he] at hs
        | fault =>
          simp only [he, Option.some.injEq] at hs
          subst hs
          exact fun _ _ h => h
      · cases hs

/-- Running calls. -/
theorem run_left {c c' : Conf mach} {k : Nat} {b : Bool} {n : Nat} (hr : Reach mach init c) (h1 : Nodes c.sh.snd c.sh.log)
    (h2 : OwesLL c.sh.snd c.sh.log c.acts n) (hs : mach.step c (.run k b) = some c') :
    Nodes c'.sh.snd c'.sh.log ∧ (c'.bad = true ∧ 1 ≤ n ∨ ∃ m, m + 1 ≤ n ∧ OwesLL c'.sh.snd c'.sh.log c'.acts m) ∧
      ∃ m, OwesLL c'.sh.snd c'.sh.log c'.acts m := by
  have I := reach_inv hr
  obtain ⟨s, acts, bad⟩ := c
  cases bad with
  | true => simp [Mach.step] at hs
  | false =>
    simp only [Mach.step, Bool.false_eq_true, if_false] at hs
    split at hs
    · rename_i x r hk
      obtain ⟨w, a, h3, h4⟩ := OwesLL.at hk h2
      cases he : exec s x b with
      | ok s' p =>
        simp only [he, Option.some.injEq] at hs
        subst hs
        obtain ⟨X, l, L⟩ := exec_ext I hk he
        have L' : ∀ e, e ∈ s.log → e ∈ s'.log := fun e he => by rw [L]; exact List.mem_append_left _ he
        obtain ⟨h5, m, h6, h7⟩ := exec_res X L' h1 h3 he
        obtain ⟨n', h8, h9⟩ := h4 _ _ p m X L' h6 h7
        exact ⟨h5, .inr ⟨n', h8, h9⟩, n', h9⟩
      | block => simp [he] at hs
      | fault =>
        simp only [he, Option.some.injEq] at hs
        subst hs
        have h5 := h3.pos
        refine ⟨h1, .inl ⟨rfl, ?_⟩, n, h2⟩
        obtain ⟨n', h8, h9⟩ := h4 _ _ [] 0 (fun _ _ h => h) (fun _ h => h) trivial h5
        omega
    · cases hs

theorem reach_left {c : Conf mach} (hc : Reach mach init c) (hE : ∀ t S, c.sh.snd [t] = some S → Ends S) :
    Nodes c.sh.snd c.sh.log ∧ ∃ n, OwesLL c.sh.snd c.sh.log c.acts n := by
  induction hc with
  | init => exact ⟨by intro p S h; simp [Mach.init, Tree.init] at h, 0, trivial⟩
  | @step c c' l hr hs ih =>
    have X := roots_keep hr hs
    obtain ⟨h1, n, h2⟩ := ih fun t S h => hE t S (X _ _ h)
    cases l with
    | run k b => obtain ⟨h3, _, h4⟩ := run_left hr h1 h2 hs; exact ⟨h3, h4⟩
    | env a =>
      have I := reach_inv hr
      obtain ⟨s, acts, bad⟩ := c
      cases bad with
      | true => simp [Mach.step] at hs
      | false =>
        simp only [Mach.step, Bool.false_eq_true, if_false] at hs
        cases he : env s acts a with
        | none => simp [he] at hs
        | some r =>
          obtain ⟨s', p⟩ := r
          simp only [he, Option.some.injEq] at hs
          subst hs
          have L := (env_ext I he).2
          have L' : ∀ e, e ∈ s.log → e ∈ s'.log := fun e h => by rw [L]; exact h
          simp only at h1 h2 X hE
          have hp : Nodes s'.snd s'.log ∧ ∃ w m, OwesL w s'.snd s'.log p m := by
            cases a with
            | start t S =>
              simp only [env] at he
              split at he
              · cases he
                have hS : updP s.snd [t] (some S) [t] = some S := by rw [updP_apply, if_pos rfl]
                obtain ⟨w, d, hT⟩ := hE t S hS
                have hC : Cert w (updP s.snd [t] (some S)) s.log [t] d 2 := .root hS hT
                refine ⟨nodes_new X L' h1 fun q T hq => ?_, w, _, .one ⟨d, 2, 2, hC, .inl rfl, Nat.le_refl _⟩⟩
                by_cases e : q = [t]
                · subst e; exact .inr ⟨w, d, 2, hC⟩
                · simp only [updP_apply, if_neg e] at hq; exact .inl hq
              · cases he
            | finish q v =>
              simp only [env] at he
              split at he
              · rename_i hr
                cases he
                have hsn : s.snd q ≠ none := by
                  intro e
                  have h1 := (I.sn q).1 e
                  by_cases hq : q = []
                  · subst hq
                    have := I.nil.2
                    rw [this] at hr; cases hr
                  · have := (I.off q hq (.inl h1)).2.2.1
                    rw [this] at hr; cases hr
                cases hS : s.snd q with
                | none => exact absurd hS hsn
                | some S =>
                  obtain ⟨w, d, u, h3⟩ := h1 q S hS
                  exact ⟨h1, w, _, .one ⟨d, u, h3, h3.two, Nat.le_refl _⟩⟩
              · cases he
          obtain ⟨h3, w, m, h4⟩ := hp
          exact ⟨h3, _, (h2.mono X L').add h4.any⟩

theorem steps_left {c : Conf mach} (hc : Reach mach init c) {n : Nat} (h1 : Nodes c.sh.snd c.sh.log)
    (h2 : OwesLL c.sh.snd c.sh.log c.acts n) : Steps c n := by
  intro ls
  induction ls generalizing c n with
  | nil => intro c' _; simp
  | cons l ls ih =>
    intro c' h
    simp only [Mach.runActs, List.map_cons, Mach.runs] at h
    split at h
    · rename_i c1 hs
      obtain ⟨h3, h4, _⟩ := run_left hc h1 h2 hs
      rcases h4 with ⟨h5, h6⟩ | ⟨m, h5, h6⟩
      · cases ls with
        | nil => simpa using h6
        | cons l2 ls => simp [Mach.runs, Mach.step, h5] at h
      · have := ih (.step hc hs) h3 h6 c' h
        rw [List.length_cons]; omega
    · simp at h

theorem no_block (s : St) (x : Instr) (b : Bool) : exec s x b ≠ .block := by
  intro h
  cases x with
  | recv p v =>
    match p with
    | [] => simp [exec] at h
    | [_] => simp [exec] at h
    | k :: i :: q => simp only [exec] at h; repeat' (split at h) <;> try (cases h)
  | _ => simp only [exec] at h; repeat' (split at h) <;> try (cases h)

theorem can_step {c : Conf mach} (hb : c.bad = false) (hq : ¬ Quiescent c) : ∃ k c', mach.step c (.run k true) = some c' := by
  obtain ⟨k, x, r, hk⟩ := exists_top hq
  refine ⟨k, ?_⟩
  cases he : exec c.sh x true with
  | ok s' p => exact ⟨⟨s', c.acts.set k (p ++ r), false⟩, by simp [Mach.step, hb, hk, he]⟩
  | fault => exact ⟨⟨c.sh, c.acts, true⟩, by simp [Mach.step, hb, hk, he]⟩
  | block => exact absurd he (no_block _ _ _)

theorem runs_cons {c c1 : Conf mach} {k : Nat} {b : Bool} (h : mach.step c (.run k b) = some c1) (ls : List (Nat × Bool)) :
    mach.runActs c ((k, b) :: ls) = mach.runActs c1 ls := by
  simp only [Mach.runActs, List.map_cons, Mach.runs, h]

/-- Calls that are bounded and never wait can be run to the end, if they do not lead to undefined behaviour. -/
theorem finish_of {n : Nat} {c : Conf mach} (h : Steps c n) : ∃ ls c', mach.runActs c ls = some c' ∧ (c'.bad = true ∨ Quiescent c') := by
  induction n generalizing c with
  | zero =>
    cases hb : c.bad with
    | true => exact ⟨[], c, rfl, .inl hb⟩
    | false =>
      by_cases hq : Quiescent c
      · exact ⟨[], c, rfl, .inr hq⟩
      · obtain ⟨k, c1, hs⟩ := can_step hb hq
        have := h [(k, true)] c1 (by rw [runs_cons hs]; rfl)
        simp at this
  | succ n ih =>
    cases hb : c.bad with
    | true => exact ⟨[], c, rfl, .inl hb⟩
    | false =>
      by_cases hq : Quiescent c
      · exact ⟨[], c, rfl, .inr hq⟩
      · obtain ⟨k, c1, hs⟩ := can_step hb hq
        obtain ⟨ls, c', h1, h2⟩ := ih (c := c1) fun ls c' h' => by
          have := h ((k, true) :: ls) c' (by rw [runs_cons hs]; exact h')
          simp at this; exact this
        exact ⟨(k, true) :: ls, c', by rw [runs_cons hs]; exact h1, h2⟩

end Verif.Tree.Calls
