import Verif.Prog.Model
import Verif.Prog.CoFacts
import Verif.Prog.TreeFacts
import Verif.Compose.JointSim

/-! # What coroutines and expressions know about each other -/

namespace Verif.Prog

open Verif.Resolver (DS RSt OpId EvId Lawful)
open Verif.Tree (Path Snd)
open Verif.Result (Id Body awaited completed Sent)
open Verif.Joint (Glue JSt JInstr TC)

variable {S : DS} {B : Body}

/-! ## The expressions -/

/-- `t` is what `q` does with the algorithms. -/
structure View {G : Glue S} (q : Conf (Joint.mach G)) (t : TC) : Prop where
  reach : Tree.TReach t
  sh : t.sh = q.sh.1
  bad : t.bad = false
  pend : ∀ x, Pending q.acts (.inl x) ↔ Pending t.acts x
  top : ∀ (k : Nat) x l, q.acts[k]? = some (.inl x :: l) → ∃ (j : Nat) (l' : List Tree.Instr), t.acts[j]? = some (x :: l')

theorem view {G : Glue S} {d0 : S.D} (L : Lawful S d0) {q : Conf (Joint.mach G)} (h : Joint.JReach G d0 q) : ∃ t, View q t := by
  obtain ⟨⟨t, r, hP⟩, _⟩ := Joint.parts L h
  refine ⟨t, hP.treach, hP.tsh, hP.tbad, hP.pending_left, fun k x l hk => ?_⟩
  obtain ⟨T, R, hS, hT, _⟩ := hP.stacks
  obtain ⟨a, T0, hp, _⟩ := hS.top_left hk
  obtain ⟨j, hj, _⟩ := (hT.trans_perm hp).run []
  exact ⟨j, a, hj⟩

/-- Steps of expressions and library, as seen by the algorithms. -/
theorem joint_exec {G : Glue S} {s s' : JSt S} {x : JInstr S} {b : Bool} {qs : List (JInstr S)}
    (he : Joint.exec G s x b = .ok s' qs) :
    (∃ y ps, x = .inl y ∧ Tree.exec s.1 y b = .ok s'.1 ps ∧ ∀ z, .inl z ∈ qs ↔ z ∈ ps) ∨
    (∃ y, x = .inr y ∧ ((s'.1 = s.1 ∧ ∀ z, .inl z ∉ qs) ∨ ∃ p v i, G.leaf i = some p ∧
      Tree.env s.1 [] (.finish p v) = some (s'.1, [.setv p v]) ∧ ∀ z, .inl z ∈ qs ↔ z = .setv p v)) := by
  cases x with
  | inl y =>
    left
    simp only [Joint.exec] at he
    split at he
    · cases he
    · cases he
    rename_i t ps he1
    refine ⟨y, ps, rfl, ?_⟩
    split at he
    · cases he; exact ⟨he1, by simp⟩
    · cases he; exact ⟨he1, by simp⟩
    · split at he
      · cases he
      · split at he
        · cases he
        · cases he; exact ⟨he1, by simp⟩
  | inr y =>
    right
    refine ⟨y, rfl, ?_⟩
    simp only [Joint.exec] at he
    split at he
    · cases he
    · cases he
    split at he
    · cases he; exact .inl ⟨rfl, by simp⟩
    · rename_i i v _
      split at he
      · cases he; exact .inl ⟨rfl, by simp⟩
      · rename_i p hl
        split at he
        · cases he
        · rename_i t ps he2
          cases he
          obtain ⟨_, _, rfl⟩ := Joint.tree_finish he2
          exact .inr ⟨p, G.val v, i, hl, he2, by simp⟩

/-! ## The links -/

/-- Awaited expressions. -/
structure LinkA (W : Wire S B) (t : Result.St B) (u : Tree.St) : Prop where
  a1 : ∀ n i k a, W.site n = some (i, k, a) → ∀ E, u.snd [n] = some E ↔ Sent t i k a ∧ W.expr a = some E
  a2 : ∀ n i k a, W.site n = some (i, k, a) → ∀ v, .done [n] v ∈ u.log ↔ Sent t i k a ∧ (completed i t.log)[k]? = some v

/-- Leaves that are coroutines. `P`: the pending instructions of the algorithms. -/
structure LinkB (W : Wire S B) (t : Result.St B) (u : Tree.St) (P : Tree.Instr → Prop) : Prop where
  b1 : ∀ p j b, W.co p = some (j, b) → t.phase j ≠ .fresh →
    u.snd p = some .leaf ∧ .start p ∈ u.log ∧ ¬ P (.begin p) ∧ .start j b ∈ t.log
  b2 : ∀ p j b, W.co p = some (j, b) → (u.rdy p = true ↔ t.phase j = .started)
  b3 : ∀ p j b, W.co p = some (j, b) → u.snd p = some .leaf → ∀ v, P (.setv p v) ∨ .done p v ∈ u.log → .done j v ∈ t.log

/-- The coroutine that awaits the expression that coroutine `j` is a leaf of. -/
def parent (W : Wire S B) (j : Id) : Option (Id × Nat × Nat) := (W.leaf j).bind (fun p => p.getLast?.bind W.site)

/-- A coroutine is started after the coroutine that waits for it. -/
def LinkC (W : Wire S B) (log : List (Result.Ev B.S)) : Prop :=
  Hist (fun before e => ∀ j b, e = .start j b → ∀ i k a, parent W j = some (i, k, a) → ∃ s, .start i s ∈ before) log

theorem LinkC.add {W : Wire S B} {log l : List (Result.Ev B.S)} (h : LinkC W log) (hl : ∀ i b, .start i b ∉ l) :
    LinkC W (log ++ l) := by
  rintro l1 e l2 he j b rfl i k a hp
  rcases List.append_eq_append_iff.1 he with ⟨m, rfl, h2⟩ | ⟨m, rfl, h2⟩
  · exact absurd (by rw [h2]; simp) (hl j b)
  · cases m with
    | nil =>
      exact absurd (by rw [show l = _ from by simpa using h2.symm]; simp) (hl j b)
    | cons x m =>
      simp at h2
      obtain ⟨rfl, _⟩ := h2
      exact h l1 _ m rfl j b rfl i k a hp

variable {W : Wire S B}

theorem LinkA.keep {t t' : Result.St B} {u u' : Tree.St} (h : LinkA W t u)
    (hs : ∀ n i k a, W.site n = some (i, k, a) → (Sent t' i k a ↔ Sent t i k a))
    (hc : ∀ n i k a, W.site n = some (i, k, a) → Sent t i k a → (completed i t'.log)[k]? = (completed i t.log)[k]?)
    (hu : ∀ n i k a, W.site n = some (i, k, a) → u'.snd [n] = u.snd [n])
    (hd : ∀ n i k a, W.site n = some (i, k, a) → ∀ v, .done [n] v ∈ u'.log ↔ .done [n] v ∈ u.log) : LinkA W t' u' := by
  refine ⟨fun n i k a hn E => ?_, fun n i k a hn v => ?_⟩
  · rw [hu n i k a hn, hs n i k a hn]; exact h.a1 n i k a hn E
  · rw [hd n i k a hn, hs n i k a hn, h.a2 n i k a hn v]
    constructor
    · rintro ⟨h1, h2⟩; exact ⟨h1, by rw [hc n i k a hn h1]; exact h2⟩
    · rintro ⟨h1, h2⟩; exact ⟨h1, by rw [← hc n i k a hn h1]; exact h2⟩

/-- Coroutines do something that leaves do not see. -/
theorem LinkB.co {t t' : Result.St B} {u : Tree.St} {P P' : Tree.Instr → Prop} (h : LinkB W t u P)
    (hp : ∀ j p, W.leaf j = some p → t'.phase j = t.phase j) (hl : ∀ e ∈ t.log, e ∈ t'.log) (hP : ∀ z, P' z → P z) :
    LinkB W t' u P' := by
  refine ⟨fun p j b hc hj => ?_, fun p j b hc => ?_, fun p j b hc hs v hv => ?_⟩
  · rw [hp j p (W.co_leaf _ _ _ hc)] at hj
    obtain ⟨h1, h2, h3, h4⟩ := h.b1 p j b hc hj
    exact ⟨h1, h2, fun hb => h3 (hP _ hb), hl _ h4⟩
  · rw [hp j p (W.co_leaf _ _ _ hc)]; exact h.b2 p j b hc
  · exact hl _ (h.b3 p j b hc hs v (hv.imp (hP _) id))

/-- A step of the algorithms that is not the start of a coroutine. -/
theorem LinkB.exec {t : Result.St B} {c : TC} {P P' : Tree.Instr → Prop} (hB : LinkB W t c.sh P) (hP : ∀ z, P z ↔ Pending c.acts z)
    (hc : Tree.TReach c) {k : Nat} {y : Tree.Instr} {l ps : List Tree.Instr} (hk : c.acts[k]? = some (y :: l)) {b : Bool}
    {u' : Tree.St} (he : Tree.exec c.sh y b = .ok u' ps) (hnew : ∀ z, P' z → z ∈ ps ∨ P z)
    (hy : ∀ p, y = .begin p → c.sh.snd p = some .leaf → W.co p = none) : LinkB W t u' P' := by
  have hext := Tree.exec_ext (Tree.reach_inv hc) hk he
  have hlog := Tree.exec_log he
  refine ⟨fun p j b hcp hj => ?_, fun p j b hcp => ?_, fun p j b hcp hs v hv => ?_⟩
  · obtain ⟨h1, h2, h3, h4⟩ := hB.b1 p j b hcp hj
    refine ⟨hext.1 _ _ h1, ?_, ?_, h4⟩
    · obtain ⟨_, l', hl'⟩ := hext
      simp [hl', h2]
    · intro hp
      rcases hnew _ hp with h5 | h5
      · have h6 := Tree.exec_begin he h5
        subst h6
        have h7 := ws_pos (w := Tree.stw p) hk
        simp only [Tree.stw, if_true] at h7
        have h8 := (Tree.reach_inv2 hc).st p h7
        have h9 := ((Tree.reach_inv2 hc).s1 p).1 h2
        rw [h8] at h9
        simp at h9
      · exact h3 h5
  · rw [← hB.b2 p j b hcp]
    rcases Tree.exec_rdy he p with ⟨h1, h2, h3⟩ | ⟨_, h3⟩
    · exact absurd (hy p h1 h2) (by simp [hcp])
    · simp [h3]
  · have : P (.setv p v) ∨ .done p v ∈ c.sh.log := by
      rcases hv with hv | hv
      · rcases hnew _ hv with h1 | h1
        · exfalso
          obtain ⟨h2, h3⟩ := Tree.exec_setv he h1
          cases h4 : c.sh.snd p with
          | none => exact h3 h4
          | some E =>
            have h5 := hext.1 _ _ h4
            rw [hs] at h5; cases h5; exact h2 h4
        · exact .inl h1
      · rcases hlog.2.1 p v hv with h1 | h1
        · exact .inr h1
        · subst h1; exact .inl ((hP _).2 (pending_top hk))
    exact hB.b3 p j b hcp (Joint.snd_back hc (this.imp (hP _).1 id) hext.1 hs) v this

/-- A leaf is started, and with it a coroutine. -/
theorem LinkB.start {t t' : Result.St B} {c c' : TC} {P P' : Tree.Instr → Prop} (hB : LinkB W t c.sh P)
    (hP : ∀ z, P z ↔ Pending c.acts z) (hP' : ∀ z, P' z ↔ Pending c'.acts z) (hc : Tree.TReach c) (hc' : Tree.TReach c')
    {k : Nat} {p : Path} {l ps : List Tree.Instr} (hk : c.acts[k]? = some (.begin p :: l)) {b : Bool}
    (he : Tree.exec c.sh (.begin p) b = .ok c'.sh ps) (hnew : ∀ z, P' z → z ∈ ps ∨ P z) (hs : c.sh.snd p = some .leaf)
    {j : Id} {b0 : B.S} (hcp : W.co p = some (j, b0)) (hph' : t'.phase = upd t.phase j .started)
    (hl : t'.log = t.log ++ [.start j b0]) : LinkB W t' c'.sh P' := by
  have hext := Tree.exec_ext (Tree.reach_inv hc) hk he
  have hlog := Tree.exec_log he
  have hph : c.sh.phase p = .started := (Tree.pre (Tree.reach_inv hc) hk).bg p rfl |>.1
  have hstp : .start p ∈ c.sh.log := ((Tree.reach_inv2 hc).s1 p).2 (.inl hph)
  have hstp' : .start p ∈ c'.sh.log := by obtain ⟨_, l', hl'⟩ := hext; simp [hl', hstp]
  have hrd : c'.sh.rdy p = true := by
    rcases Tree.exec_rdy he p with ⟨_, _, h3⟩ | ⟨h3, _⟩
    · exact h3
    · exact absurd ⟨rfl, hs⟩ h3
  have hph1 : c'.sh.phase p = .started := by
    rcases ((Tree.reach_inv2 hc').s1 p).1 hstp' with h | h
    · exact h
    · have hne : p ≠ [] := Tree.ne_nil hc hs
      have := ((Tree.reach_inv hc').off p hne (.inr h)).2.2.1
      rw [hrd] at this; cases this
  have hload := Joint.leaf_load hc' (hext.1 _ _ hs) hph1
  simp only [hrd, if_true] at hload
  have hnb : ¬ P' (.begin p) := fun h => by
    have := Joint.pending_own (p := p) ((hP' _).1 h) (by simp [Tree.own])
    omega
  have hns : ∀ v, ¬ P' (.setv p v) := fun v h => by
    have := Joint.pending_own (p := p) ((hP' _).1 h) (by simp [Tree.own])
    omega
  have hnd : ∀ v, .done p v ∉ c'.sh.log := fun v h => by
    have := (Tree.reach_inv2 hc').s2 p v h
    rw [hph1] at this; cases this
  have uniq : ∀ q i b, W.co q = some (i, b) → i = j → q = p ∧ b = b0 := by
    rintro q i b hq rfl
    have h1 := W.co_leaf _ _ _ hq
    rw [W.co_leaf _ _ _ hcp] at h1
    cases Option.some.inj h1
    rw [hcp] at hq; cases hq
    exact ⟨rfl, rfl⟩
  refine ⟨fun q i b hq hi => ?_, fun q i b hq => ?_, fun q i b hq hsq v hv => ?_⟩
  · by_cases e : i = j
    · obtain ⟨rfl, rfl⟩ := uniq q i b hq e
      subst e
      exact ⟨hext.1 _ _ hs, hstp', hnb, by simp [hl]⟩
    · rw [hph', upd_ne _ _ e] at hi
      obtain ⟨h1, h2, h3, h4⟩ := hB.b1 q i b hq hi
      refine ⟨hext.1 _ _ h1, by obtain ⟨_, l', hl'⟩ := hext; simp [hl', h2], ?_, by simp [hl, h4]⟩
      intro hp
      rcases hnew _ hp with h5 | h5
      · have := Tree.exec_begin he h5; cases this
      · exact h3 h5
  · by_cases e : i = j
    · obtain ⟨rfl, rfl⟩ := uniq q i b hq e
      subst e
      simp [hrd, hph']
    · rw [hph', upd_ne _ _ e, ← hB.b2 q i b hq]
      rcases Tree.exec_rdy he q with ⟨h1, _, _⟩ | ⟨_, h3⟩
      · cases h1
        rw [hcp] at hq; cases hq; exact absurd rfl e
      · rw [h3]
  · by_cases e : i = j
    · obtain ⟨rfl, rfl⟩ := uniq q i b hq e
      rcases hv with hv | hv
      · exact absurd hv (hns v)
      · exact absurd hv (hnd v)
    · have : P (.setv q v) ∨ .done q v ∈ c.sh.log := by
        rcases hv with hv | hv
        · rcases hnew _ hv with h1 | h1
          · exfalso
            obtain ⟨h2, h3⟩ := Tree.exec_setv he h1
            cases h4 : c.sh.snd q with
            | none => exact h3 h4
            | some E =>
              have h5 := hext.1 _ _ h4
              rw [hsq] at h5; cases h5; exact h2 h4
          · exact .inl h1
        · rcases hlog.2.1 q v hv with h1 | h1
          · exact .inr h1
          · cases h1
      have h2 := hB.b3 q i b hq (Joint.snd_back hc (this.imp (hP _).1 id) hext.1 hsq) v this
      simp [hl, h2]

/-- A leaf that is not a coroutine completes. -/
theorem LinkB.other {t : Result.St B} {u u' : Tree.St} {P P' : Tree.Instr → Prop} (hB : LinkB W t u P) {p : Path} {v : Nat}
    {ps : List Tree.Instr} (he : Tree.env u [] (.finish p v) = some (u', ps)) (hp : W.co p = none)
    (hnew : ∀ z, P' z → z ∈ ps ∨ P z) : LinkB W t u' P' := by
  obtain ⟨_, rfl, rfl⟩ := Joint.tree_finish he
  refine ⟨fun q j b hq hj => ?_, fun q j b hq => ?_, fun q j b hq hs w hw => ?_⟩
  · obtain ⟨h1, h2, h3, h4⟩ := hB.b1 q j b hq hj
    refine ⟨h1, h2, fun hp => ?_, h4⟩
    rcases hnew _ hp with h5 | h5
    · simp at h5
    · exact h3 h5
  · have e : q ≠ p := by rintro rfl; rw [hp] at hq; cases hq
    simp only [Tree.updP_apply, e, if_false]
    exact hB.b2 q j b hq
  · have e : q ≠ p := by rintro rfl; rw [hp] at hq; cases hq
    refine hB.b3 q j b hq hs w (hw.imp (fun h => ?_) id)
    rcases hnew _ h with h5 | h5
    · simp [e] at h5
    · exact h5

/-- A coroutine returns, and the leaf that it is completes. -/
theorem LinkB.done {t t' : Result.St B} {u u' : Tree.St} {P P' : Tree.Instr → Prop} (hB : LinkB W t u P) {p : Path} {v : Nat}
    {ps : List Tree.Instr} (he : Tree.env u [] (.finish p v) = some (u', ps)) {j : Id} {b : B.S} (hcp : W.co p = some (j, b))
    (hnew : ∀ z, P' z → z ∈ ps ∨ P z) (hph : ∀ i, t'.phase i = if i = j then .done else t.phase i)
    (hl : ∀ e ∈ t.log, e ∈ t'.log) (hd : .done j v ∈ t'.log) (hst : .start j b ∈ t.log) (hsn : u.snd p = some .leaf ∧ .start p ∈ u.log ∧
      ¬ P (.begin p)) : LinkB W t' u' P' := by
  obtain ⟨_, rfl, rfl⟩ := Joint.tree_finish he
  have uniq : ∀ q i b', W.co q = some (i, b') → i = j → q = p ∧ b' = b := by
    rintro q i b' hq rfl
    have h1 := W.co_leaf _ _ _ hq
    rw [W.co_leaf _ _ _ hcp] at h1
    cases Option.some.inj h1
    rw [hcp] at hq; cases hq
    exact ⟨rfl, rfl⟩
  refine ⟨fun q i b' hq hi => ?_, fun q i b' hq => ?_, fun q i b' hq hs w hw => ?_⟩
  · have hnb : ∀ q, P' (.begin q) → P (.begin q) := fun q h => by
      rcases hnew _ h with h5 | h5
      · simp at h5
      · exact h5
    by_cases e : i = j
    · obtain ⟨rfl, rfl⟩ := uniq q i b' hq e
      subst e
      exact ⟨hsn.1, hsn.2.1, fun h => hsn.2.2 (hnb _ h), hl _ hst⟩
    · rw [hph, if_neg e] at hi
      obtain ⟨h1, h2, h3, h4⟩ := hB.b1 q i b' hq hi
      exact ⟨h1, h2, fun h => h3 (hnb _ h), hl _ h4⟩
  · by_cases e : i = j
    · obtain ⟨rfl, rfl⟩ := uniq q i b' hq e
      simp [hph, e, Tree.updP_apply]
    · have e' : q ≠ p := by rintro rfl; rw [hcp] at hq; cases hq; exact e rfl
      simp only [Tree.updP_apply, e', if_false, hph, e]
      exact hB.b2 q i b' hq
  · by_cases e : i = j
    · obtain ⟨rfl, rfl⟩ := uniq q i b' hq e
      subst e
      rcases hw with h | h
      · rcases hnew _ h with h5 | h5
        · simp at h5; subst h5; exact hd
        · exact hl _ (hB.b3 q i b' hq hs w (.inl h5))
      · exact hl _ (hB.b3 q i b' hq hs w (.inr h))
    · have e' : q ≠ p := by rintro rfl; rw [hcp] at hq; cases hq; exact e rfl
      refine hl _ (hB.b3 q i b' hq hs w (hw.imp (fun h => ?_) id))
      rcases hnew _ h with h5 | h5
      · simp [e'] at h5
      · exact h5

/-- An expression is started. -/
theorem LinkB.enter {t : Result.St B} {c : TC} {P P' : Tree.Instr → Prop} (hB : LinkB W t c.sh P) (hP : ∀ z, P z ↔ Pending c.acts z)
    (hc : Tree.TReach c) {n : Nat} {E : Snd} {u' : Tree.St} {ps : List Tree.Instr}
    (he : Tree.env c.sh [] (.start n E) = some (u', ps)) (hnew : ∀ z, P' z → z ∈ ps ∨ P z) : LinkB W t u' P' := by
  have he' : Tree.env c.sh c.acts (.start n E) = some (u', ps) := he
  have hext := Tree.env_ext (Tree.reach_inv hc) he'
  have hps : ps = [.start [n]] ∧ u'.rdy = c.sh.rdy := by
    simp only [Tree.env] at he
    split at he
    · simp at he; obtain ⟨rfl, rfl⟩ := he; exact ⟨rfl, rfl⟩
    · cases he
  have hnew' : ∀ z, P' z → z ≠ .start [n] → P z := fun z hz hne => by
    rcases hnew z hz with h | h
    · rw [hps.1] at h; simp at h; exact absurd h hne
    · exact h
  refine ⟨fun q j b hq hj => ?_, fun q j b hq => ?_, fun q j b hq hs w hw => ?_⟩
  · obtain ⟨h1, h2, h3, h4⟩ := hB.b1 q j b hq hj
    exact ⟨hext.1 _ _ h1, by rw [hext.2]; exact h2, fun h => h3 (hnew' _ h (by simp)), h4⟩
  · rw [hps.2]; exact hB.b2 q j b hq
  · rw [hext.2] at hw
    have : P (.setv q w) ∨ .done q w ∈ c.sh.log := hw.imp (fun h => hnew' _ h (by simp)) id
    exact hB.b3 q j b hq (Joint.snd_back hc (this.imp (hP _).1 id) hext.1 hs) w this

end Verif.Prog
