import Verif.Hb.Baton
import Verif.Generator.Props

/-!
# Happens-before for `generator<T>`

Generators use no atomic variables and no locks (generator.hpp): the members of the promise are protected by the order in
which the generator is used.
-/

namespace Verif.Generator

variable {B : Body}

/-- `entry` is what the environment knows when it uses a generator or completes a sender. -/
abbrev ann (entry : St B → Act B → Nat → Bool) : Ann (mach B) where
  L := Empty
  dec := inferInstance
  len s := s.log.length
  entry := entry
  eff _ _ _ := []

/-- The creation of generator `g` or a result. -/
def Ev.gives (g : Id) : Ev S → Prop
  | .create j _ | .result j _ _ => j = g
  | _ => False

/-- Contract: whoever completes an awaited sender knows that it was started; whoever calls `next()` or destroys the
generator knows that it was created and knows the results that were delivered before. -/
structure Ordered (entry : St B → Act B → Nat → Bool) : Prop where
  complete : ∀ s g v (e : Nat) a, s.log[e]? = some (.await g a) → entry s (.complete g v) e = true
  next : ∀ s g n (e : Nat) u, s.log[e]? = some u → u.gives g →
    entry s (.next g n) e = true
  destroy : ∀ s g (e : Nat) u, s.log[e]? = some u → u.gives g →
    entry s (.destroy g) e = true

/-- Events of generator `g`. -/
def ofGen (g : Id) (v : Ev S) : Bool := v.gen == g

/-- A `co_await` of generator `g`. -/
def Ev.waits (g : Id) : Ev S → Prop
  | .await j _ => j = g
  | _ => False

/-- The event exists and satisfies `q`. -/
def Is (q : Ev S → Prop) : Option (Ev S) → Prop
  | some v => q v
  | none => False

/-- The last event of a generator that waits for a sender is this `co_await`; that of a generator that can be used is its
creation or a result. -/
structure Last (s : St B) : Prop where
  wait : ∀ g, tag (s.frame g) = 3 ∨ tag (s.frame g) = 4 → Is (Ev.waits g) (lastOf (ofGen g) s.log)
  idle : ∀ g, s.frame g ≠ none → s.outst g = none →
    Is (Ev.gives g) (lastOf (ofGen g) s.log)

theorem Is.get {q : Ev S → Prop} {o : Option (Ev S)} (h : Is q o) : ∃ v, o = some v ∧ q v := by
  cases o with
  | none => exact absurd h id
  | some v => exact ⟨v, rfl, h⟩

theorem reach_last {c : Conf (mach B)} (h : Reach (mach B) init c) : Last c.sh := by
  refine Reach.inv_with (M := mach B) (P := fun s acts => Inv1 s acts) (Q := fun s _ => Last s)
    (fun _ h => reach_inv1 h) ?_ ?_ ?_ h
  · exact ⟨by simp [init, tag], by simp [init]⟩
  · rintro s acts a s' p h1 - ⟨hwt, hi⟩ he
    have op := h1.op; have ot := h1.ot
    simp only at he
    constructor <;> intro g <;> specialize ot g <;> specialize hwt g <;> specialize hi g <;> have tz := tag_zero (f := s.frame g)
    · clear h1; env_cases he <;> simp [upd_apply, lastOf_snoc, ofGen, Ev.gen] at * <;> grind [tag, Leaf.num, Ev.gives, Ev.waits, Is]
    · clear h1; env_cases he <;> simp [upd_apply, lastOf_snoc, ofGen, Ev.gen] at * <;> grind [tag, Leaf.num, Ev.gives, Ev.waits, Is]
  · rintro s acts k x r b s' p h1 - ⟨hwt, hi⟩ hk he
    have S := fun i => ws_pos (w := sw i) hk
    have H := fun i => ws_pos (w := hw i) hk
    have sg := h1.sg; have eh := h1.eh; have ot := h1.ot; have as := h1.as
    have V := fun i => ws_pos (w := vw i) hk
    have su := h1.su
    simp only at he
    constructor <;> intro g <;> specialize hwt g <;> specialize hi g <;> specialize S g <;> specialize H g <;>
      specialize sg g <;> specialize eh g <;> specialize ot g <;> specialize V g <;> specialize su g <;> specialize as g
    · clear h1 hk
      exec_cases he <;> simp [upd_apply, lastOf_snoc, ofGen, Ev.gen, sw, hw, vw] at * <;> grind [tag, Leaf.num, Ev.gives, Ev.waits, Is]
    · clear h1 hk
      exec_cases he <;> simp [upd_apply, lastOf_snoc, ofGen, Ev.gen, sw, hw, vw] at * <;> grind [tag, Leaf.num, Ev.gives, Ev.waits, Is]

theorem touches_pos {g : Id} {x : Instr} : 0 < touches g x ↔ x.gen = g := by
  unfold touches; split <;> simp [*]

theorem baton {entry : St B → Act B → Nat → Bool} (hE : Ordered entry) :
    Baton (ann entry) init (fun s => s.log) (fun c => Reach (mach B) init c) touches (fun g v => v.gen = g) where
  inv c h := h
  len _ := rfl
  nil := rfl
  one c g h := C38_exclusive h g
  env := by
    intro c a s' p h he
    have h1 := reach_inv1 h
    have h2 := reach_inv2 h
    have hl := reach_last h
    have hz : ∀ g, (tag (c.sh.frame g) = 0 ∨ tag (c.sh.frame g) = 4 ∨
        (c.sh.frame g ≠ none ∧ c.sh.outst g = none)) → ws (touches g) c.acts = 0 := by
      intro g hg
      rw [ws_touches]
      have a1 := h1.sg g; have a2 := h1.as g; have a3 := h1.eh g; have a4 := h1.su g; have a5 := h1.ot g
      have a6 := tag_le (c.sh.frame g)
      grind
    have hx : ∀ g, c.sh.frame g ≠ none → c.sh.outst g = none → ∀ (e : Nat) u, c.sh.log[e]? = some u → u.gen = g →
        ∃ (n : Nat) (t : Ev B.S), c.sh.log[n]? = some t ∧ t.gen = g ∧ e ≤ n ∧
          t.gives g := by
      intro g h3 h4 e u heu hu
      obtain ⟨t, h5, h6⟩ := (hl.idle g h3 h4).get
      obtain ⟨n, h7, h8, h9⟩ := lastOf_index h5
      exact ⟨n, t, h7, by simpa [ofGen] using h8, h9 e u heu (by simpa [ofGen] using hu), h6⟩
    cases a with
    | create g b =>
      simp only [env] at he
      split at he
      · simp at he
      · rename_i hm
        simp at he; obtain ⟨rfl, rfl⟩ := he
        refine ⟨_, rfl, by simp, by simp, ?_⟩
        intro i v hv hi
        simp at hv; subst hv
        simp only [Ev.gen] at hi; subst hi
        refine ⟨hz _ (.inl (h1.ma _ (by simpa using hm)).1), fun e u heu hu => ?_⟩
        have := h2.evs u (List.mem_of_getElem? heu)
        rw [hu] at this; simp [this] at hm
    | next g n =>
      simp only [env] at he
      split at he
      · rename_i hm
        simp at he; obtain ⟨rfl, rfl⟩ := he
        refine ⟨_, rfl, by simp, ?_, ?_⟩
        · intro i y hy ht
          simp at hy; subst hy
          exact ⟨_, List.mem_singleton.2 rfl, touches_pos.1 ht⟩
        · intro i v hv hi
          simp at hv; subst hv
          simp only [Ev.gen] at hi; subst hi
          refine ⟨hz _ (.inr (.inr ⟨hm.1, hm.2.1⟩)), fun e u heu hu => ?_⟩
          obtain ⟨k, t, h3, h4, h5, h6⟩ := hx _ hm.1 hm.2.1 e u heu hu
          exact ⟨k, t, h3, h4, h5, hE.next _ _ _ _ _ h3 h6⟩
      · simp at he
    | complete g v =>
      simp only [env] at he
      split at he
      · rename_i k r hf
        simp at he; obtain ⟨rfl, rfl⟩ := he
        have h4 : tag (c.sh.frame g) = 4 := by rw [hf]; rfl
        refine ⟨_, rfl, by simp, ?_, ?_⟩
        · intro i y hy ht
          simp at hy; subst hy
          exact ⟨_, List.mem_singleton.2 rfl, touches_pos.1 ht⟩
        · intro i w hv hi
          simp at hv; subst hv
          simp only [Ev.gen] at hi; subst hi
          refine ⟨hz _ (.inr (.inl h4)), fun e u heu hu => ?_⟩
          obtain ⟨t, h5, h6⟩ := (hl.wait _ (.inr h4)).get
          obtain ⟨n, h7, h8, h9⟩ := lastOf_index h5
          cases t <;> simp only [Ev.waits] at h6
          subst h6
          exact ⟨n, _, h7, rfl, h9 e u heu (by simpa [ofGen] using hu), hE.complete _ _ _ _ _ h7⟩
      · simp at he
    | destroy g =>
      simp only [env] at he
      split at he
      · rename_i hm
        simp at he; obtain ⟨rfl, rfl⟩ := he
        refine ⟨_, rfl, by simp, by simp, ?_⟩
        intro i v hv hi
        simp at hv; subst hv
        simp only [Ev.gen] at hi; subst hi
        refine ⟨hz _ (.inr (.inr hm)), fun e u heu hu => ?_⟩
        obtain ⟨k, t, h3, h4, h5, h6⟩ := hx _ hm.1 hm.2 e u heu hu
        exact ⟨k, t, h3, h4, h5, hE.destroy _ _ _ _ h3 h6⟩
      · simp at he
  run := by
    intro c k x r b s' p h hk he
    simp only at he
    clear hk h
    exec_cases he
    all_goals first
      | refine ⟨_, rfl, by simp, ?_, ?_⟩
      | refine ⟨[], by simp, by simp, ?_, ?_⟩
    all_goals simp [touches, Ev.gen, Instr.gen]
    all_goals first | done | exact fun _ h => h

/-! ## Properties -/

/-- C96. Everything that happens with one generator is ordered by happens-before: its creation, the calls of `next()`, what
the body does on whatever threads, the completions of the senders that it awaits, the results, and its destruction.
Contract: `Ordered`. -/
theorem C96_generator_ordered {entry : St B → Act B → Nat → Bool} (hE : Ordered entry) {c : Conf (mach B)} {m : Mem Empty}
    (h : HReach (ann entry) init c m) {g : Id} {a b : Nat} {v w : Ev B.S} (ha : c.sh.log[a]? = some v)
    (hb : c.sh.log[b]? = some w) (hv : v.gen = g) (hw : w.gen = g) (hab : a < b) : m.hb a b :=
  (baton hE).ordered h ha hb hv hw hab

set_option maxRecDepth 20000

/-! ## Examples -/

/-- The environment knows what the contract demands, and nothing else. -/
def minimal : St demoBody → Act demoBody → Nat → Bool
  | s, .complete g _, e => match s.log[e]? with
    | some (.await j _) => j = g
    | _ => false
  | s, .next g _, e | s, .destroy g, e => match s.log[e]? with
    | some (.create j _) => j = g
    | some (.result j _ _) => j = g
    | _ => false
  | _, .create _ _, _ => false

theorem minimal_ordered : Ordered minimal := by
  constructor
  · intro s g v e a h; simp [minimal, h]
  · intro s g n e u h hu; cases u <;> simp [Ev.gives] at hu <;> simp [minimal, h, hu]
  · intro s g e u h hu; cases u <;> simp [Ev.gives] at hu <;> simp [minimal, h, hu]

/-- Two generators; the second one is destroyed, after it was resumed by the completion of a sender. -/
def hdemo : Conf M × Mem Empty := (ann minimal).go init (
  [.env (.create 0 0), .env (.create 1 0), .env (.next 0 0)] ++ List.replicate 8 (.run 2 true) ++
  [.env (.next 1 1)] ++ List.replicate 8 (.run 3 true) ++ [.env (.next 1 2)] ++ List.replicate 8 (.run 4 true) ++
  [.env (.complete 1 5)] ++ List.replicate 8 (.run 5 true) ++ [.env (.destroy 1)])

theorem hdemo_reach : HReach (ann minimal) init hdemo.1 hdemo.2 := HReach.go _ _ _

theorem hdemo_log : hdemo.1.sh.log =
    [.create 0 0, .create 1 0, .next 0 0, .yield 0 10, .result 0 0 (some 10), .next 1 1, .yield 1 10,
     .result 1 1 (some 10), .next 1 2, .await 1 7, .complete 1 5, .resume 1 5, .yield 1 6, .result 1 2 (some 6),
     .destroy 1] := by decide

example : hdemo.2.hb 1 14 := C96_generator_ordered minimal_ordered hdemo_reach (g := 1) (v := .create 1 0)
  (w := .destroy 1) (by rw [hdemo_log]; rfl) (by rw [hdemo_log]; rfl) rfl rfl (by omega)
example : hdemo.2.hb 9 10 ∧ hdemo.2.hb 6 13 ∧ ¬ hdemo.2.hb 4 14 ∧ ¬ hdemo.2.hb 0 1 := by decide

end Verif.Generator
