import Verif.Prog.Sim
import Verif.Prog.Spec
import Verif.Compose.JointProps

/-!
# Properties of programs of coroutines, expressions, and operations of the library (C94)

`S` is any object that keeps the contract of `cancellation_resolver`, or a collection of such objects (C80, C81). The bodies of the
coroutines are arbitrary. See `Verif/Prog/Spec.lean` for the histories and for `Under`.
-/

namespace Verif.Prog

open Verif.Resolver (DS RSt OpId EvId completions cancelled Lawful)
open Verif.Tree (Path Snd isDone)
open Verif.Result (Id Body awaited completed Sent dones)
open Verif.Joint (Glue JSt JInstr TC)

variable {S : DS} {B : Body} {W : Wire S B} {d0 : S.D}

/-! ## Auxiliary facts -/

theorem lt_of_some {l : List Nat} {k a : Nat} (h : l[k]? = some a) : k < l.length := by
  rcases Nat.lt_or_ge k l.length with h1 | h1
  · exact h1
  · rw [List.getElem?_eq_none h1] at h; cases h

/-- Once all calls have returned, awaited expressions have been started. -/
theorem sent_rest {t : CC B} (ht : Reach (Result.mach B) Result.init t) (hq : Quiescent t) {i : Id} {k a : Nat}
    (h : (awaited i t.sh.log)[k]? = some a) : Sent t.sh i k a := by
  refine ⟨h, fun h2 => ?_⟩
  have e3 := (Result.reach_inv1 ht).as i
  rw [ws_quiescent _ hq, h2.1] at e3
  simp at e3

theorem started_not_done {t : CC B} (ht : Reach (Result.mach B) Result.init t) {i : Id} (h : t.sh.phase i = .started) (v : Nat) :
    .done i v ∉ t.sh.log := fun hv => by
  have := (Result.reach_inv2 ht).ndone i v hv
  rw [h] at this; cases this

theorem tree_started {t : TC} (ht : Tree.TReach t) (hq : Quiescent t) {p : Path} {E : Snd} (hs : t.sh.snd p = some E) :
    .start p ∈ t.sh.log := by
  have hi := Tree.reach_inv ht
  have h2 := Tree.reach_inv2 ht
  have hne := Tree.ne_nil ht hs
  have hp : t.sh.phase p ≠ .none := fun h => by
    rw [← hi.sn] at h; rw [h] at hs; cases hs
  rw [h2.s1]
  cases h3 : t.sh.phase p with
  | none => exact absurd h3 hp
  | conn =>
    have := Tree.waits0 hi hq p hne (.inl h3)
    rw [h3] at this; cases this
  | started => exact .inl rfl
  | done => exact .inr rfl

/-- Once all calls have returned, a leaf that was started and has not completed is ready to complete. -/
theorem leaf_ready {t : TC} (ht : Tree.TReach t) (hq : Quiescent t) {p : Path} (hs : t.sh.snd p = some .leaf)
    (hst : .start p ∈ t.sh.log) (hd : ∀ v, .done p v ∉ t.sh.log) : t.sh.rdy p = true := by
  have hi := Tree.reach_inv ht
  have h2 := Tree.reach_inv2 ht
  have h3 := Tree.reach_inv3 ht
  rcases (h2.s1 p).1 hst with h4 | h4
  · rcases Tree.waits1 hi h3 hq p (Tree.ne_nil ht hs) h4 _ hs with ⟨_, h5⟩ | ⟨k, _, h5⟩
    · exact h5
    · exact absurd h5 (by intro h; exact h)
  · obtain ⟨v, hv⟩ := h2.s3 p h4
    exact absurd hv (hd v)

theorem start_later {t : CC B} (ht : Reach (Result.mach B) Result.init t) {l1 l2 m1 m2 : List (Result.Ev B.S)} {i j : Id}
    {s s' b : B.S} (h1 : t.sh.log = l1 ++ .start i s :: l2) (h2 : t.sh.log = m1 ++ .start j b :: m2) (h : .start i s' ∈ m1) :
    m2.length < l2.length := by
  have hok : ∀ e ∈ l1, e.op ≠ i := (Result.reach_inv2 ht).ok l1 _ l2 h1
  have e := h1.symm.trans h2
  have hlen := congrArg List.length e
  simp at hlen
  rcases Nat.lt_or_ge l1.length m1.length with h3 | h3
  · omega
  · exfalso
    have h4 : m1 <+: l1 := by
      refine List.prefix_of_prefix_length_le (l₃ := t.sh.log) ?_ ?_ h3
      · exact h2 ▸ List.prefix_append _ _
      · exact h1 ▸ List.prefix_append _ _
    exact hok _ (h4.subset h) rfl

/-! ## C94 -/

/-- C94. In a program, the coroutines behave as they do with other senders (C37, C49), and expressions and library behave as they do
in programs without coroutines (C81, and by that C04-C11, C41-C48, …). -/
theorem C94_as_if_alone (L : Lawful S d0) {c : Conf (mach W)} (hc : PReach W d0 c) :
    (∃ t, Reach (Result.mach B) Result.init t ∧ t.sh = c.sh.1 ∧ (Quiescent c → Quiescent t)) ∧
    (∃ q, Joint.JReach W.G d0 q ∧ q.sh = c.sh.2 ∧ (Quiescent c → Quiescent q)) := by
  obtain ⟨⟨t, q, h⟩, _⟩ := parts L hc
  exact ⟨⟨t, h.treach, h.tsh, fun hq => (h.rest hq).1⟩, ⟨q, h.qreach, h.qsh, fun hq => (h.rest hq).2⟩⟩

/-- C94. The only faults are those of `when_all` (C46) and `race_and_cancel` (C47): no coroutine is started twice or resumed when it
does not wait, nothing completes twice or before it was started, and no coroutine frame or operation is used after its end. -/
theorem C94_faults (L : Lawful S d0) {c : Conf (mach W)} (hc : PReach W d0 c) (hb : c.bad = true) :
    (∃ p n f, c.sh.2.1.snd p = some (.all n f) ∧ .start p ∈ c.sh.2.1.log ∧
      ∀ k, k ≤ n → ∃ v, .done (k :: p) v ∈ c.sh.2.1.log) ∨
    (∃ p n f v, c.sh.2.1.snd p = some (.race n f) ∧ 0 < n ∧ .done p v ∈ c.sh.2.1.log) := by
  obtain ⟨q, hq, e, hb⟩ := (parts L hc).2 hb
  rw [← e]
  exact Joint.C81_faults L hq hb

/-- C94. In particular there is no fault if `when_all` and `race_and_cancel` are not used. -/
theorem C94_no_fault (L : Lawful S d0) {c : Conf (mach W)} (hc : PReach W d0 c)
    (hp : ∀ n E, c.sh.2.1.snd [n] = some E → E.plain) : c.bad = false := by
  cases hb : c.bad with
  | false => rfl
  | true =>
    obtain ⟨q, hq, e, hb'⟩ := (parts L hc).2 hb
    rw [← e] at hp
    rw [Joint.C81_no_fault L hq hp] at hb'
    cases hb'

/-- C94. `co_await` of an expression: its value is the value with which the expression completes, and the expression is not started
before it is awaited. -/
theorem C94_await (L : Lawful S d0) {c : Conf (mach W)} (hc : PReach W d0 c) {i : Id} {k a : Nat} {E : Snd}
    (hE : W.expr a = some E) :
    (.start [W.root i k a] ∈ c.sh.2.1.log → (awaited i c.sh.1.log)[k]? = some a ∧ c.sh.2.1.snd [W.root i k a] = some E) ∧
    ((awaited i c.sh.1.log)[k]? = some a → ∀ v,
      .done [W.root i k a] v ∈ c.sh.2.1.log ↔ (completed i c.sh.1.log)[k]? = some v) := by
  obtain ⟨⟨t, q, h⟩, _⟩ := parts L hc
  obtain ⟨u, hv⟩ := view L h.qreach
  have hsite := W.root_site i k a (by rw [hE]; rfl)
  have hA := h.linkA
  rw [h.qsh] at hA
  have h2 := Result.reach_inv2 h.treach
  rw [← h.tsh]
  constructor
  · intro hs
    have hs' : .start [W.root i k a] ∈ u.sh.log := by rw [hv.sh, h.qsh]; exact hs
    cases hn : u.sh.snd [W.root i k a] with
    | none =>
      exfalso
      have h3 := ((Tree.reach_inv2 hv.reach).s1 _).1 hs'
      rw [(Tree.reach_inv hv.reach).sn] at hn
      rw [hn] at h3; simp at h3
    | some E' =>
      rw [hv.sh, h.qsh] at hn
      obtain ⟨h3, h4⟩ := (hA.a1 _ _ _ _ hsite E').1 hn
      rw [hE] at h4
      exact ⟨h3.1, by rw [hn, h4]⟩
  · intro haw v
    rw [hA.a2 _ _ _ _ hsite v]
    refine ⟨fun h => h.2, fun h3 => ⟨⟨haw, fun h4 => ?_⟩, h3⟩⟩
    have h5 := h2.aw i
    rw [h4.1] at h5
    simp at h5
    have := lt_of_some h3
    omega

/-- C94. Once all calls have returned, every awaited expression has been started. -/
theorem C94_await_at_rest (L : Lawful S d0) {c : Conf (mach W)} (hc : PReach W d0 c) (hq : Quiescent c) {i : Id} {k a : Nat}
    {E : Snd} (hE : W.expr a = some E) (ha : (awaited i c.sh.1.log)[k]? = some a) :
    .start [W.root i k a] ∈ c.sh.2.1.log ∧ c.sh.2.1.snd [W.root i k a] = some E := by
  obtain ⟨⟨t, q, h⟩, _⟩ := parts L hc
  obtain ⟨hq1, hq2⟩ := h.rest hq
  obtain ⟨⟨u, hu1, hu2, hu3⟩, _⟩ := Joint.C81_as_if_alone L h.qreach
  have hsite := W.root_site i k a (by rw [hE]; rfl)
  rw [← h.tsh] at ha
  have h1 := (h.linkA.a1 _ _ _ _ hsite E).2 ⟨sent_rest h.treach hq1 ha, hE⟩
  rw [← h.qsh, ← hu2]
  rw [← hu2] at h1
  exact ⟨tree_started hu1 (hu3 hq2) h1, h1⟩

/-- C94. A leaf that is a coroutine: the coroutine is started by the leaf, with its own body; if the leaf has completed, it has completed
with the value that the coroutine returned. -/
theorem C94_leaf (L : Lawful S d0) {c : Conf (mach W)} (hc : PReach W d0 c) {p : Path} {j : Id} {b : B.S}
    (ho : W.co p = some (j, b)) :
    (∀ b', .start j b' ∈ c.sh.1.log → b' = b ∧ c.sh.2.1.snd p = some .leaf ∧ .start p ∈ c.sh.2.1.log) ∧
    (c.sh.2.1.snd p = some .leaf → ∀ v, .done p v ∈ c.sh.2.1.log → .done j v ∈ c.sh.1.log) := by
  obtain ⟨⟨t, q, h⟩, _⟩ := parts L hc
  rw [← h.tsh, ← h.qsh]
  have h2 := Result.reach_inv2 h.treach
  constructor
  · intro b' hb
    obtain ⟨h3, h4, _, h5⟩ := h.linkB.b1 p j b ho (h2.evs _ hb)
    exact ⟨Result.Start.unique h2.ok hb h5, h3, h4⟩
  · intro hs v hv
    exact h.linkB.b3 p j b ho hs v (.inr hv)

/-- C94. Once all calls have returned, the coroutine has been started if the leaf has, and the leaf has completed if the coroutine has
returned. -/
theorem C94_leaf_at_rest (L : Lawful S d0) {c : Conf (mach W)} (hc : PReach W d0 c) (hq : Quiescent c) {p : Path} {j : Id}
    {b : B.S} (ho : W.co p = some (j, b)) (hs : c.sh.2.1.snd p = some .leaf) (hst : .start p ∈ c.sh.2.1.log) :
    .start j b ∈ c.sh.1.log ∧ ∀ v, .done j v ∈ c.sh.1.log ↔ .done p v ∈ c.sh.2.1.log := by
  obtain ⟨⟨t, q, h⟩, _⟩ := parts L hc
  obtain ⟨hq1, hq2⟩ := h.rest hq
  obtain ⟨⟨u, hu1, hu2, hu3⟩, _⟩ := Joint.C81_as_if_alone L h.qreach
  have h2 := Result.reach_inv2 h.treach
  have hl := (C94_leaf L hc ho).2 hs
  rw [← h.qsh] at hs hst ⊢
  rw [← h.tsh]
  by_cases hd : ∃ v, .done p v ∈ q.sh.1.log
  · obtain ⟨v, hv⟩ := hd
    have hj := h.linkB.b3 p j b ho hs v (.inr hv)
    refine ⟨(h.linkB.b1 p j b ho (h2.evs _ hj)).2.2.2, fun w => ⟨fun hw => ?_, fun hw => h.linkB.b3 p j b ho hs w (.inr hw)⟩⟩
    obtain ⟨l1, l2, e, hok⟩ := h2.ok.mem hw
    obtain ⟨m1, m2, e', hok'⟩ := h2.ok.mem hj
    have h3 : .ret j w ∈ t.sh.log := by rw [e]; simp [hok.1.1]
    have h4 : .ret j v ∈ t.sh.log := by rw [e']; simp [hok'.1.1]
    rw [Result.Ret.unique h2.ok h3 h4]; exact hv
  · have hnd : ∀ v, .done p v ∉ u.sh.log := fun v hv => hd ⟨v, hu2 ▸ hv⟩
    have hr := leaf_ready hu1 (hu3 hq2) (hu2 ▸ hs) (hu2 ▸ hst) hnd
    rw [hu2] at hr
    have hph := (h.linkB.b2 p j b ho).1 hr
    refine ⟨(h.linkB.b1 p j b ho (by rw [hph]; simp)).2.2.2, fun v => ⟨fun hv => ?_, fun hv => absurd ⟨v, hv⟩ hd⟩⟩
    exact absurd hv (started_not_done h.treach hph v)

/-- C94. A coroutine that is a leaf of an expression is started after the coroutine that awaits the expression. -/
theorem C94_outer_first (L : Lawful S d0) {c : Conf (mach W)} (hc : PReach W d0 c) {p : Path} {j : Id} {b : B.S}
    (ho : W.co p = some (j, b)) {n : Nat} (hn : p.getLast? = some n) {i : Id} {k a : Nat} (hw : W.site n = some (i, k, a)) :
    Hist (fun before e => e = .start j b → ∃ s, .start i s ∈ before) c.sh.1.log := by
  obtain ⟨⟨t, q, h⟩, _⟩ := parts L hc
  rw [← h.tsh]
  rintro l1 e l2 hl rfl
  exact h.linkC l1 _ l2 hl j b rfl i k a (by simp [parent, W.co_leaf _ _ _ ho, hn, hw])

/-- What an operation of a program may wait for, once all calls have returned: a sender of the user, or an operation of the library
that has been started, has not completed, and has not been cancelled. -/
def WaitsFor (W : Wire S B) (s : PSt S B) (x : Id ⊕ Path) : Prop :=
  (∃ i a, Under W s x (.inl i) ∧ Started s (.inl i) ∧ times s (.inl i) = 0 ∧
    (awaited i s.1.log)[(completed i s.1.log).length]? = some a ∧ W.expr a = none) ∨
  (∃ p, Under W s x (.inr p) ∧ s.2.1.snd p = some .leaf ∧ Started s (.inr p) ∧ times s (.inr p) = 0 ∧ W.co p = none ∧
    (W.G.op p = none ∨ ∃ o ct y, W.G.op p = some (o, ct, y) ∧ .begin o ct y ∈ s.2.2.log ∧ completions o s.2.2.log = 0 ∧
      ∀ e, ct = some e → cancelled e s.2.2.log = false))

theorem WaitsFor.under {s : PSt S B} {x y : Id ⊕ Path} (h : WaitsFor W s y) (hu : Under W s x y) : WaitsFor W s x := by
  rcases h with ⟨i, a, h1, h2⟩ | ⟨p, h1, h2⟩
  · exact .inl ⟨i, a, hu.trans h1, h2⟩
  · exact .inr ⟨p, hu.trans h1, h2⟩

theorem dones_zero {log : List (Result.Ev B.S)} {i : Id} (h : ∀ v, .done i v ∉ log) : dones i log = 0 := by
  simp only [dones, List.countP_eq_zero]
  intro e he
  cases e <;> simp
  rename_i j v
  rintro rfl
  exact h v he

theorem dones_pos {log : List (Result.Ev B.S)} {i : Id} {v : Nat} (h : .done i v ∈ log) : 0 < dones i log := by
  simp only [dones, List.countP_pos_iff]
  exact ⟨_, h, by simp⟩

theorem isDone_zero {log : List Tree.Ev} {p : Path} (h : ∀ v, .done p v ∉ log) : log.countP (isDone p) = 0 := by
  rcases Nat.eq_zero_or_pos (log.countP (isDone p)) with h1 | h1
  · exact h1
  · obtain ⟨v, hv⟩ := Tree.isDone_iff.1 (Nat.pos_iff_ne_zero.1 h1)
    exact absurd hv (h v)

/-- The step of the chain from a part of an expression to what it waits for. -/
theorem waits_path (L : Lawful S d0) {c : Conf (mach W)} (hc : PReach W d0 c) (hq : Quiescent c) {p : Path}
    (hs : Started c.sh (.inr p)) (hd : times c.sh (.inr p) = 0)
    (ih : ∀ j b q, p <:+ q → W.co q = some (j, b) → .start j b ∈ c.sh.1.log → dones j c.sh.1.log = 0 →
      WaitsFor W c.sh (.inl j)) : WaitsFor W c.sh (.inr p) := by
  obtain ⟨⟨t, q0, h⟩, _⟩ := parts L hc
  obtain ⟨hq1, hq2⟩ := h.rest hq
  have hd' : ∀ v, .done p v ∉ q0.sh.1.log := fun v hv => by
    rw [h.qsh] at hv
    have : c.sh.2.1.log.countP (isDone p) ≠ 0 := Tree.isDone_iff.2 ⟨v, hv⟩
    simp only [times] at hd
    omega
  have hs' : .start p ∈ q0.sh.1.log := by rw [h.qsh]; exact hs
  obtain ⟨q, h1, h2, h3, h4, h5⟩ := Joint.C81_waits_for L h.qreach hq2 hs' hd'
  rw [h.qsh] at h2 h3 h4 h5
  cases hco : W.co q with
  | none => exact .inr ⟨q, Under.refl.path h1, h2, h3, isDone_zero h4, hco, h5⟩
  | some x =>
    obtain ⟨j, b⟩ := x
    obtain ⟨h6, h7⟩ := C94_leaf_at_rest L hc hq hco h2 h3
    exact (ih j b q h1 hco h6 (dones_zero (fun v hv => h4 v ((h7 v).1 hv)))).under ((Under.refl.path h1).coro hco)

theorem waits_co (L : Lawful S d0) {c : Conf (mach W)} (hc : PReach W d0 c) (hq : Quiescent c) (n : Nat) :
    ∀ (i : Id) (b : B.S) (l1 l2 : List (Result.Ev B.S)), c.sh.1.log = l1 ++ .start i b :: l2 → l2.length ≤ n →
      dones i c.sh.1.log = 0 → WaitsFor W c.sh (.inl i) := by
  obtain ⟨⟨t, q0, h⟩, _⟩ := parts L hc
  obtain ⟨hq1, hq2⟩ := h.rest hq
  induction n with
  | zero =>
    intro i b l1 l2 hl hn hd
    obtain rfl : l2 = [] := List.eq_nil_of_length_eq_zero (by omega)
    exfalso
    rw [← h.tsh] at hl hd
    rcases Result.C37_waits h.treach hq1 (i := i) (s := b) (by rw [hl]; simp) with ⟨v, hv⟩ | ⟨_, h1⟩
    · have := dones_pos hv; omega
    · have hok : ∀ e ∈ l1, e.op ≠ i := (Result.reach_inv2 h.treach).ok l1 _ [] hl
      have : awaited i t.sh.log = [] := by
        rw [hl]
        simp only [awaited, List.filterMap_append, List.append_eq_nil_iff, List.filterMap_eq_nil_iff]
        refine ⟨fun e he => ?_, by simp⟩
        have := hok e he
        cases e <;> simp [Result.Ev.op] at this ⊢
        exact this
      rw [this] at h1
      simp at h1
  | succ n ih =>
    intro i b l1 l2 hl hn hd
    have hst : .start i b ∈ c.sh.1.log := by rw [hl]; simp
    have hw : (awaited i c.sh.1.log).length = (completed i c.sh.1.log).length + 1 := by
      rw [← h.tsh] at hst hd ⊢
      rcases Result.C37_waits h.treach hq1 hst with ⟨v, hv⟩ | ⟨_, h1⟩
      · have := dones_pos hv; omega
      · exact h1
    have ha : (awaited i c.sh.1.log)[(completed i c.sh.1.log).length]? =
        some (awaited i c.sh.1.log)[(completed i c.sh.1.log).length] := List.getElem?_eq_getElem (by omega)
    generalize (awaited i c.sh.1.log)[(completed i c.sh.1.log).length] = a at ha
    cases hE : W.expr a with
    | none => exact .inl ⟨i, a, .refl, ⟨b, hst⟩, hd, ha, hE⟩
    | some E =>
      have hu : Under W c.sh (.inl i) (.inr [W.root i (completed i c.sh.1.log).length a]) :=
        Under.refl.await ha (by rw [hE]; rfl)
      obtain ⟨h1, h2⟩ := C94_await_at_rest L hc hq hE ha
      have h3 := (C94_await L hc (i := i) (k := (completed i c.sh.1.log).length) hE).2 ha
      refine (waits_path L hc hq h1 (isDone_zero (fun v hv => ?_)) (fun j b' q hpq hco hj hdj => ?_)).under hu
      · have := lt_of_some ((h3 v).1 hv); omega
      · obtain ⟨m1, m2, hm⟩ := List.append_of_mem hj
        refine ih j b' m1 m2 hm ?_ hdj
        obtain ⟨pre, rfl⟩ := hpq
        have hlast : (pre ++ [W.root i (completed i c.sh.1.log).length a]).getLast? =
          some (W.root i (completed i c.sh.1.log).length a) := by simp
        obtain ⟨s', hs'⟩ := C94_outer_first L hc hco hlast (W.root_site _ _ _ (by rw [hE]; rfl)) m1 _ m2 hm rfl
        have := start_later h.treach (by rw [h.tsh]; exact hl) (by rw [h.tsh]; exact hm) hs'
        omega

/-- C94. Once all calls have returned, an operation that was started and has not completed (a coroutine, or a part of an
expression) waits, through any number of coroutines and algorithms, for a sender of the user, or for an operation of the
library that has been started, has not completed, and has not been cancelled. -/
theorem C94_waits_for (L : Lawful S d0) {c : Conf (mach W)} (hc : PReach W d0 c) (hq : Quiescent c) {x : Id ⊕ Path}
    (hs : Started c.sh x) (hd : times c.sh x = 0) : WaitsFor W c.sh x := by
  cases x with
  | inl i =>
    obtain ⟨b, hb⟩ := hs
    obtain ⟨l1, l2, hl⟩ := List.append_of_mem hb
    exact waits_co L hc hq _ i b l1 l2 hl (Nat.le_refl _) hd
  | inr p =>
    refine waits_path L hc hq hs hd (fun j b q _ _ hj hdj => ?_)
    obtain ⟨l1, l2, hl⟩ := List.append_of_mem hj
    exact waits_co L hc hq _ j b l1 l2 hl (Nat.le_refl _) hdj

/-- C94. No operation completes more than once. -/
theorem C94_at_most_once (L : Lawful S d0) {c : Conf (mach W)} (hc : PReach W d0 c) (x : Id ⊕ Path) : times c.sh x ≤ 1 := by
  obtain ⟨⟨t, ht, e, _⟩, q, hq, e', _⟩ := C94_as_if_alone L hc
  cases x with
  | inl i =>
    simp only [times, ← e]
    exact Result.C37_at_most_once ht i
  | inr p =>
    obtain ⟨⟨u, hu, e2, _⟩, _⟩ := Joint.C81_as_if_alone L hq
    simp only [times, ← e', ← e2]
    exact Tree.C48_at_most_once hu p

/-- C94. Cancellation reaches everything: once all calls have returned, an operation has completed, exactly once, if its coroutines
await expressions only, and its leaves are coroutines and operations with tokens of cancelled events. -/
theorem C94_cancelled_completes (L : Lawful S d0) {c : Conf (mach W)} (hc : PReach W d0 c) (hq : Quiescent c) {x : Id ⊕ Path}
    (hs : Started c.sh x)
    (h1 : ∀ i, Under W c.sh x (.inl i) → ∀ a ∈ awaited i c.sh.1.log, (W.expr a).isSome)
    (h2 : ∀ p, Under W c.sh x (.inr p) → c.sh.2.1.snd p = some .leaf → Started c.sh (.inr p) → W.co p = none →
      ∃ o e y, W.G.op p = some (o, some e, y) ∧ cancelled e c.sh.2.2.log = true) : times c.sh x = 1 := by
  have hle := C94_at_most_once L hc x
  rcases Nat.eq_zero_or_pos (times c.sh x) with h0 | h0
  · exfalso
    rcases C94_waits_for L hc hq hs h0 with ⟨i, a, h3, _, _, h4, h5⟩ | ⟨p, h3, h4, h5, _, h6, h7⟩
    · have := h1 i h3 a (List.mem_of_getElem? h4)
      rw [h5] at this; cases this
    · obtain ⟨o, e, y, h8, h9⟩ := h2 p h3 h4 h5 h6
      rcases h7 with h7 | ⟨o', ct, y', h10, _, _, h11⟩
      · rw [h8] at h7; cases h7
      · rw [h8] at h10; cases h10
        rw [h11 e rfl] at h9; cases h9
  · omega

/-- C94. `race_and_cancel` of coroutines ends: if one of its senders has completed, the coroutines below each sender await expressions
only, and the operations below each sender use the token that was given to that sender, then once all calls have returned
all its senders have completed, and it has completed exactly once. -/
theorem C94_race_ends (L : Lawful S d0) {c : Conf (mach W)} (hc : PReach W d0 c) (hq : Quiescent c) {p : Path} {n : Nat}
    {f : Nat → Snd} (hS : c.sh.2.1.snd p = some (.race n f)) {k v : Nat} (hd : .done (k :: p) v ∈ c.sh.2.1.log)
    (h1 : ∀ j, j ≤ n → ∀ i, Under W c.sh (.inr (j :: p)) (.inl i) → ∀ a ∈ awaited i c.sh.1.log, (W.expr a).isSome)
    (h2 : ∀ j, j ≤ n → ∀ q, Under W c.sh (.inr (j :: p)) (.inr q) → c.sh.2.1.snd q = some .leaf → Started c.sh (.inr q) →
      W.co q = none → ∃ o y, W.G.op q = some (o, some (W.G.ev (j :: p)), y)) :
    (∀ j, j ≤ n → times c.sh (.inr (j :: p)) = 1) ∧ times c.sh (.inr p) = 1 := by
  obtain ⟨_, q0, hq0, e1, hr⟩ := C94_as_if_alone L hc
  obtain ⟨⟨t, ht, e', hr'⟩, _⟩ := Joint.C81_as_if_alone L hq0
  have hq1 := hr hq
  have hq2 := hr' hq1
  have e2 : t.sh = c.sh.2.1 := by rw [e', e1]
  rw [← e2] at hS hd
  have hst := Tree.parent_started ht (Tree.ne_nil ht hS) (Tree.done_started ht hd)
  obtain ⟨k0, hk0, ⟨u, hu⟩, hcan⟩ := Tree.C47_cancels_others ht hq2 hS hd
  have all : ∀ j, j ≤ n → times c.sh (.inr (j :: p)) = 1 := by
    intro j hj
    by_cases e : j = k0
    · subst e
      simp only [times]
      rw [← e2]; exact Tree.done_one ht hu
    · have h3 := hcan j hj e
      have h4 : .cancel (j :: p) ∈ q0.sh.1.log := by
        rw [← e']; exact List.count_pos_iff.1 (by omega)
      have h5 := Joint.C81_cancel_arrives L hq0 hq1 h4
      have h6 := (Tree.C47_starts_all ht hq2 hS hst hj).1
      have h7 : Started c.sh (.inr (j :: p)) := by
        simp only [Started]
        rw [← e2]; exact List.count_pos_iff.1 (by omega)
      refine C94_cancelled_completes L hc hq h7 (h1 j hj) (fun q hq' h8 h9 h10 => ?_)
      obtain ⟨o, y, h11⟩ := h2 j hj q hq' h8 h9 h10
      refine ⟨o, _, y, h11, ?_⟩
      rw [← e1]; exact h5
  refine ⟨all, ?_⟩
  simp only [times]
  rw [← e2]
  refine Tree.C47_completes ht hq2 hS hst (fun j hj => ?_)
  have := all j hj
  simp only [times] at this
  rw [← e2] at this
  exact Tree.isDone_iff.1 (by omega)

/-- C94. A running call is never stuck, unless it is about to start an operation in violation of the contract of the object. -/
theorem C94_calls_make_progress (L : Lawful S d0) {c : Conf (mach W)} (hc : PReach W d0 c) (hb : c.bad = false) {k : Nat}
    {x : PInstr S} {l : List (PInstr S)} (hk : c.acts[k]? = some (x :: l)) (b : Bool) :
    (∃ c', (mach W).step c (.run k b) = some c') ∨
    ∃ p o ct y, x = .inr (.inl (.begin p)) ∧ W.G.op p = some (o, ct, y) ∧ S.admit c.sh.2.2.d o y = none := by
  obtain ⟨⟨t, q, h⟩, _⟩ := parts L hc
  have ok : ∀ o, exec W c.sh x b = o → o ≠ .block → ∃ c', (mach W).step c (.run k b) = some c' := by
    intro o ho hne
    simp only [Mach.step, hb, hk, ho]
    cases o with
    | block => exact absurd rfl hne
    | ok s' ps => exact ⟨_, rfl⟩
    | fault => exact ⟨_, rfl⟩
  cases x with
  | inl x =>
    obtain ⟨s', ps, he, _⟩ := parts_left L h hk b
    exact .inl (ok _ he (by simp))
  | inr x =>
    rcases parts_right L h hk b with ⟨s', ps, he, _⟩ | ⟨_, he⟩ | ⟨he, _⟩
    · exact .inl (ok _ he (by simp))
    · right
      obtain ⟨T, R, hS, hT, hR⟩ := h.stacks
      obtain ⟨a, R0, hp, _⟩ := hS.top_right hk
      obtain ⟨j, hj, _⟩ := (hR.trans_perm hp).run []
      rcases Joint.C81_calls_make_progress L h.qreach h.qbad hj b with ⟨c', hc'⟩ | ⟨p, o, ct, y, rfl, h1, h2⟩
      · exfalso
        rw [← h.qsh] at he
        simp only [Mach.step, h.qbad, hj, he] at hc'
        cases hc'
      · exact ⟨p, o, ct, y, rfl, h1, by rw [← h.qsh]; exact h2⟩
    · exact .inl (ok _ he (by simp))

end Verif.Prog
