import Verif.Compose.JointRes
import Verif.Compose.JointTree
import Verif.Compose.Split

/-! # Expressions and library: both parts behave as described by their own machines -/

namespace Verif.Joint

open Verif.Resolver (DS RSt OpId EvId completions cancelled Lawful)
open Verif.Tree (Path Snd)

variable {S : DS}

abbrev TC := Conf Tree.mach
abbrev RC (S : DS) := Conf (Resolver.mach S)

/-- What leaves and their operations know about each other. -/
structure Link0 (G : Glue S) (t : TC) (r : RC S) : Prop where
  beg : ∀ p i ct a, G.op p = some (i, ct, a) → r.sh.started i = true →
    t.sh.snd p = some .leaf ∧ .start p ∈ t.sh.log ∧ ¬ Pending t.acts (.begin p) ∧ .begin i ct a ∈ r.sh.log
  rdy : ∀ p i ct a, G.op p = some (i, ct, a) →
    (t.sh.rdy p = true ↔ r.sh.started i = true ∧ completions i r.sh.log = 0)
  val : ∀ p i ct a, G.op p = some (i, ct, a) → t.sh.snd p = some .leaf → ∀ v,
    Pending t.acts (.setv p v) ∨ .done p v ∈ t.sh.log → ∃ w, v = G.val w ∧ .done i w ∈ r.sh.log

/-- Cancellations arrive. -/
def Link1 (G : Glue S) (t : TC) (r : RC S) : Prop :=
  ∀ q, .cancel q ∈ t.sh.log → Pending r.acts (.cancel (G.ev q)) ∨ r.sh.req (G.ev q) = true

theorem pending_own {acts : List (List Tree.Instr)} {x : Tree.Instr} {p : Path} (h : Pending acts x)
    (hx : Tree.own p x = 1) : 0 < (Tree.Wt.of acts).o p := by
  obtain ⟨a, ha, hm⟩ := h
  have := ws_pos_of_mem (w := Tree.own p) ha hm
  have e : (Tree.Wt.of acts).o p = ws (Tree.own p) acts := rfl
  omega

theorem leaf_load {t : TC} (ht : Tree.TReach t) {p : Path} (hs : t.sh.snd p = some .leaf) (hp : t.sh.phase p = .started) :
    (Tree.Wt.of t.acts).o p + (if t.sh.rdy p then 1 else 0) = 1 := by
  have h := Tree.reach_inv ht
  have hne : p ≠ [] := Tree.ne_nil ht hs
  exact (h.sta p hne hp _ hs).1

/-- An operation that completes is an operation that exists. -/
theorem snd_back {t : TC} (ht : Tree.TReach t) {p : Path} {v : Nat}
    (h : Pending t.acts (.setv p v) ∨ .done p v ∈ t.sh.log) {s' : Tree.St}
    (hx : ∀ p E, t.sh.snd p = some E → s'.snd p = some E) {E : Snd} (hs : s'.snd p = some E) : t.sh.snd p = some E := by
  cases hp : t.sh.snd p with
  | some E' => rw [hx _ _ hp] at hs; exact hs
  | none =>
    exfalso
    have h0 := ((Tree.reach_inv ht).sn p).1 hp
    rcases h with ⟨a, ha, hm⟩ | h
    · have := (Tree.reach_inv2 ht).sv p v (by
        have := ws_pos_of_mem (w := Tree.svw p v) ha hm
        simp [Tree.svw] at this; omega)
      rw [h0] at this; cases this
    · have := (Tree.reach_inv2 ht).s2 p v h
      rw [h0] at this; cases this

/-- A step of the algorithms that is not the start of an operation of the library. -/
theorem link0_tree {G : Glue S} {t : TC} {r : RC S} (ht : Tree.TReach t) (hl : Link0 G t r) {k : Nat} {x : Tree.Instr}
    {l ps : List Tree.Instr} (hk : t.acts[k]? = some (x :: l)) {b : Bool} {s' : Tree.St}
    (he : Tree.exec t.sh x b = .ok s' ps)
    (hx : ∀ p, x = .begin p → t.sh.snd p = some .leaf → G.op p = none) : Link0 G ⟨s', t.acts.set k (ps ++ l), false⟩ r := by
  have hext := Tree.exec_ext (Tree.reach_inv ht) hk he
  have hlog := Tree.exec_log he
  refine ⟨fun p i ct a ho hs => ?_, fun p i ct a ho => ?_, fun p i ct a ho hs v hv => ?_⟩
  · obtain ⟨h1, h2, h3, h4⟩ := hl.beg p i ct a ho hs
    refine ⟨hext.1 _ _ h1, ?_, ?_, h4⟩
    · obtain ⟨_, l', hl'⟩ := hext
      simp [hl', h2]
    · intro hp
      rcases pending_set hk hp with h5 | h5
      · have h6 := Tree.exec_begin he h5
        subst h6
        have h7 := ws_pos (w := Tree.stw p) hk
        simp only [Tree.stw, if_true] at h7
        have h8 := (Tree.reach_inv2 ht).st p h7
        have h9 := ((Tree.reach_inv2 ht).s1 p).1 h2
        rw [h8] at h9
        simp at h9
      · exact h3 h5
  · rw [← hl.rdy p i ct a ho]
    rcases Tree.exec_rdy he p with ⟨h1, h2, h3⟩ | ⟨_, h3⟩
    · exact absurd (hx p h1 h2) (by simp [ho])
    · simp [h3]
  · have : Pending t.acts (.setv p v) ∨ .done p v ∈ t.sh.log := by
      rcases hv with hv | hv
      · rcases pending_set hk hv with h1 | h1
        · exfalso
          obtain ⟨h2, h3⟩ := Tree.exec_setv he h1
          cases h4 : t.sh.snd p with
          | none => exact h3 h4
          | some E =>
            have h5 := hext.1 _ _ h4
            simp only at hs
            rw [hs] at h5; cases h5; exact h2 h4
        · exact .inl h1
      · rcases hlog.2.1 p v hv with h1 | h1
        · exact .inr h1
        · subst h1; exact .inl (pending_top hk)
    exact hl.val p i ct a ho (snd_back ht this hext.1 hs) v this

/-- A step of the library that completes no leaf. -/
theorem link0_res {G : Glue S} {t : TC} {r : RC S} (hl : Link0 G t r) {s' : RSt S} {acts' : List (List (Resolver.Instr S))}
    {bb : Bool} (hst : ∀ i p, G.leaf i = some p → s'.started i = r.sh.started i) (hlog : ∀ v, v ∈ r.sh.log → v ∈ s'.log)
    (hc : ∀ i p, G.leaf i = some p → completions i s'.log = completions i r.sh.log) :
    Link0 G t ⟨s', acts', bb⟩ := by
  refine ⟨fun p i ct a ho hs => ?_, fun p i ct a ho => ?_, fun p i ct a ho hs v hv => ?_⟩
  · have hlf := G.op_leaf _ _ _ _ ho
    simp only [hst i p hlf] at hs
    obtain ⟨h1, h2, h3, h4⟩ := hl.beg p i ct a ho hs
    exact ⟨h1, h2, h3, hlog _ h4⟩
  · have hlf := G.op_leaf _ _ _ _ ho
    simp only [hst i p hlf, hc i p hlf]
    exact hl.rdy p i ct a ho
  · obtain ⟨w, h1, h2⟩ := hl.val p i ct a ho hs v hv
    exact ⟨w, h1, hlog _ h2⟩

/-- A leaf is started, and with it an operation of the library. -/
theorem link0_start {G : Glue S} {t : TC} {r : RC S} (ht : Tree.TReach t) (hl : Link0 G t r) {k : Nat} {p : Path}
    {l ps : List Tree.Instr} (hk : t.acts[k]? = some (.begin p :: l)) {b : Bool} {s' : Tree.St}
    (he : Tree.exec t.sh (.begin p) b = .ok s' ps) (hb : t.bad = false) (hs : t.sh.snd p = some .leaf)
    {i : OpId} {ct : Option EvId} {a : S.P} (ho : G.op p = some (i, ct, a))
    (hz : completions i r.sh.log = 0) {r' : RSt S} {qs : List (Resolver.Instr S)}
    (hr : Resolver.env r.sh [] (.newOp i ct a) = some (r', qs)) {acts' : List (List (Resolver.Instr S))} {bb : Bool} :
    Link0 G ⟨s', t.acts.set k (ps ++ l), false⟩ ⟨r', acts', bb⟩ := by
  have t' : Tree.TReach ⟨s', t.acts.set k (ps ++ l), false⟩ :=
    .step (l := .run k b) ht (by simp only [Mach.step, hb, hk, he]; rfl)
  have hext := Tree.exec_ext (Tree.reach_inv ht) hk he
  have hlog := Tree.exec_log he
  have hr' : r'.started = upd r.sh.started i true ∧ r'.log = r.sh.log ++ [.begin i ct a] := by
    simp only [Resolver.env] at hr
    split at hr
    · cases hr
    · split at hr
      · simp at hr; obtain ⟨rfl, _⟩ := hr; exact ⟨rfl, rfl⟩
      · cases hr
  have hcomp : ∀ j, completions j r'.log = completions j r.sh.log := by
    intro j; rw [hr'.2]; simp [completions, Resolver.doneCnt, List.countP_append, Resolver.isDone]
  have hph : t.sh.phase p = .started := (Tree.pre (Tree.reach_inv ht) hk).bg p rfl |>.1
  have hstp : .start p ∈ t.sh.log := ((Tree.reach_inv2 ht).s1 p).2 (.inl hph)
  have hrd : s'.rdy p = true := by
    rcases Tree.exec_rdy he p with ⟨_, _, h3⟩ | ⟨h3, _⟩
    · exact h3
    · exact absurd ⟨rfl, hs⟩ h3
  have hph' : s'.phase p = .started := by
    rcases ((Tree.reach_inv2 t').s1 p).1 (by obtain ⟨_, l', hl'⟩ := hext; simp [hl', hstp]) with h | h
    · exact h
    · have hne : p ≠ [] := Tree.ne_nil ht hs
      have := ((Tree.reach_inv t').off p hne (.inr h)).2.2.1
      simp only at this
      rw [hrd] at this; cases this
  have hload := leaf_load t' (hext.1 _ _ hs) hph'
  simp only [hrd, if_true] at hload
  have hnb : ¬ Pending (t.acts.set k (ps ++ l)) (.begin p) := fun h => by
    have := pending_own (p := p) h (by simp [Tree.own])
    omega
  have hns : ∀ v, ¬ Pending (t.acts.set k (ps ++ l)) (.setv p v) := fun v h => by
    have := pending_own (p := p) h (by simp [Tree.own])
    omega
  have hnd : ∀ v, .done p v ∉ s'.log := fun v h => by
    have := (Tree.reach_inv2 t').s2 p v h
    simp only at this
    rw [hph'] at this; cases this
  have uniq : ∀ q j ct' a', G.op q = some (j, ct', a') → j = i → q = p := by
    rintro q j ct' a' hq rfl
    have h1 := G.op_leaf _ _ _ _ hq
    rw [G.op_leaf _ _ _ _ ho] at h1
    exact (Option.some.inj h1).symm
  refine ⟨fun q j ct' a' hq hj => ?_, fun q j ct' a' hq => ?_, fun q j ct' a' hq hj v hv => ?_⟩
  · by_cases e : j = i
    · have := uniq q j ct' a' hq e
      subst this
      rw [ho] at hq
      cases hq
      exact ⟨hext.1 _ _ hs, by obtain ⟨_, l', hl'⟩ := hext; simp [hl', hstp], hnb, by simp [hr'.2]⟩
    · simp only [hr'.1, upd_ne _ _ e] at hj
      obtain ⟨h1, h2, h3, h4⟩ := hl.beg q j ct' a' hq hj
      refine ⟨hext.1 _ _ h1, by obtain ⟨_, l', hl'⟩ := hext; simp [hl', h2], ?_, by simp [hr'.2, h4]⟩
      intro hp
      rcases pending_set hk hp with h5 | h5
      · have := Tree.exec_begin he h5; cases this
      · exact h3 h5
  · by_cases e : j = i
    · have := uniq q j ct' a' hq e
      subst this
      subst e
      simp [hrd, hr'.1, hcomp, hz]
    · simp only [hr'.1, upd_ne _ _ e, hcomp]
      rw [← hl.rdy q j ct' a' hq]
      rcases Tree.exec_rdy he q with ⟨h1, _, _⟩ | ⟨_, h3⟩
      · cases h1
        rw [ho] at hq; cases hq; exact absurd rfl e
      · rw [h3]
  · by_cases e : j = i
    · have := uniq q j ct' a' hq e
      subst this
      rcases hv with hv | hv
      · exact absurd hv (hns v)
      · exact absurd hv (hnd v)
    · have : Pending t.acts (.setv q v) ∨ .done q v ∈ t.sh.log := by
        rcases hv with hv | hv
        · rcases pending_set hk hv with h1 | h1
          · exfalso
            obtain ⟨h2, h3⟩ := Tree.exec_setv he h1
            cases h4 : t.sh.snd q with
            | none => exact h3 h4
            | some E =>
              have h5 := hext.1 _ _ h4
              simp only at hj
              rw [hj] at h5; cases h5; exact h2 h4
          · exact .inl h1
        · rcases hlog.2.1 q v hv with h1 | h1
          · exact .inr h1
          · cases h1
      obtain ⟨w, h1, h2⟩ := hl.val q j ct' a' hq (snd_back ht this hext.1 hj) v this
      exact ⟨w, h1, by simp [hr'.2, h2]⟩

theorem tree_finish {s s' : Tree.St} {p : Path} {v : Nat} {ps : List Tree.Instr}
    (he : Tree.env s [] (.finish p v) = some (s', ps)) :
    s.rdy p = true ∧ s' = { s with rdy := Tree.updP s.rdy p false } ∧ ps = [.setv p v] := by
  simp only [Tree.env] at he
  split at he
  · simp at he; exact ⟨by assumption, he.1.symm, he.2.symm⟩
  · cases he

/-- An operation of the library completes, and with it the leaf that it is. -/
theorem link0_done {G : Glue S} {t : TC} {r : RC S} (hl : Link0 G t r)
    {p : Path} {i : OpId} {ct : Option EvId} {a : S.P} (ho : G.op p = some (i, ct, a)) {v : S.V}
    {s' : Tree.St} {ps : List Tree.Instr} (he : Tree.env t.sh [] (.finish p (G.val v)) = some (s', ps))
    {r' : RSt S} (hst : r'.started = r.sh.started) (hlog : r'.log = r.sh.log ++ [.done i v])
    {acts' : List (List (Resolver.Instr S))} {bb bb' : Bool} :
    Link0 G ⟨s', t.acts ++ [ps], bb'⟩ ⟨r', acts', bb⟩ := by
  obtain ⟨_, rfl, rfl⟩ := tree_finish he
  have uniq : ∀ q j ct' a', G.op q = some (j, ct', a') → j = i → q = p := by
    rintro q j ct' a' hq rfl
    have h1 := G.op_leaf _ _ _ _ hq
    rw [G.op_leaf _ _ _ _ ho] at h1
    exact (Option.some.inj h1).symm
  refine ⟨fun q j ct' a' hq hj => ?_, fun q j ct' a' hq => ?_, fun q j ct' a' hq hj w hw => ?_⟩
  · simp only [hst] at hj
    obtain ⟨h1, h2, h3, h4⟩ := hl.beg q j ct' a' hq hj
    refine ⟨h1, h2, fun hp => ?_, by simp [hlog, h4]⟩
    rcases pending_append hp with h5 | h5
    · simp at h5
    · exact h3 h5
  · simp only [hst, hlog, completions_append_done, Tree.updP_apply]
    by_cases e : q = p
    · subst e
      rw [ho] at hq
      cases hq
      simp
    · have : ¬ i = j := fun h => e (uniq q j ct' a' hq h.symm)
      simp only [e, this, if_false, Nat.add_zero]
      exact hl.rdy q j ct' a' hq
  · rcases hw with hw | hw
    · rcases pending_append hw with h5 | h5
      · simp only [List.mem_singleton, Tree.Instr.setv.injEq] at h5
        obtain ⟨rfl, rfl⟩ := h5
        rw [ho] at hq
        cases hq
        exact ⟨v, rfl, by simp [hlog]⟩
      · obtain ⟨w', h1, h2⟩ := hl.val q j ct' a' hq hj w (.inl h5)
        exact ⟨w', h1, by simp [hlog, h2]⟩
    · obtain ⟨w', h1, h2⟩ := hl.val q j ct' a' hq hj w (.inr hw)
      exact ⟨w', h1, by simp [hlog, h2]⟩

/-- The user starts an expression, or one of the user's own senders completes. -/
theorem link0_env {G : Glue S} {t : TC} {r : RC S} (ht : Tree.TReach t) (hl : Link0 G t r) {a : Tree.Act}
    {s' : Tree.St} {ps : List Tree.Instr} (he : Tree.env t.sh t.acts a = some (s', ps))
    (ha : ∀ p v, a = .finish p v → G.op p = none) {bb : Bool} : Link0 G ⟨s', t.acts ++ [ps], bb⟩ r := by
  have hext := Tree.env_ext (Tree.reach_inv ht) he
  have hps : ∀ p, .begin p ∉ ps ∧ ∀ v, .setv p v ∈ ps → G.op p = none := by
    intro p
    cases a with
    | start n E => simp only [Tree.env] at he; split at he <;> simp at he; obtain ⟨_, rfl⟩ := he; simp
    | finish q w =>
      simp only [Tree.env] at he; split at he <;> simp at he; obtain ⟨_, rfl⟩ := he
      refine ⟨by simp, fun v hv => ?_⟩
      simp only [List.mem_singleton, Tree.Instr.setv.injEq] at hv
      obtain ⟨rfl, rfl⟩ := hv
      exact ha _ _ rfl
  have hrd : ∀ p, G.op p ≠ none → s'.rdy p = t.sh.rdy p := by
    intro p hp
    cases a with
    | start n E => simp only [Tree.env] at he; split at he <;> simp at he; obtain ⟨rfl, _⟩ := he; rfl
    | finish q w =>
      simp only [Tree.env] at he; split at he <;> simp at he; obtain ⟨rfl, _⟩ := he
      simp only [Tree.updP_apply]
      split
      · subst p; exact absurd (ha _ _ rfl) hp
      · rfl
  refine ⟨fun q j ct' a' hq hj => ?_, fun q j ct' a' hq => ?_, fun q j ct' a' hq hj w hw => ?_⟩
  · obtain ⟨h1, h2, h3, h4⟩ := hl.beg q j ct' a' hq hj
    refine ⟨hext.1 _ _ h1, by simp [hext.2, h2], fun hp => ?_, h4⟩
    rcases pending_append hp with h5 | h5
    · exact (hps q).1 h5
    · exact h3 h5
  · simp only [hrd q (by simp [hq])]
    exact hl.rdy q j ct' a' hq
  · have : Pending t.acts (.setv q w) ∨ .done q w ∈ t.sh.log := by
      rcases hw with hw | hw
      · rcases pending_append hw with h5 | h5
        · exact absurd ((hps q).2 _ h5) (by simp [hq])
        · exact .inl h5
      · simp only [hext.2] at hw
        exact .inr hw
    exact hl.val q j ct' a' hq (snd_back ht this hext.1 hj) w this

end Verif.Joint
