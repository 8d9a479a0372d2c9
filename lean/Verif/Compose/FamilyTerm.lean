import Verif.Compose.Family
import Verif.Resolver.Terminates

/-!
# Calls come to an end, with several objects that share cancellation events

A step of a running call is a step of at least one of the objects that have anything to do, and these are finitely many. Each of
them can make only so many steps.
-/

namespace Verif.Resolver

variable {own : OpId → Nat} {S : Nat → DS} {d0 : ∀ n, (S n).D}

theorem fam_op_started (L : ∀ n, Lawful (S n) (d0 n)) {c : Conf (mach (fam own S))}
    (h : Reach (mach (fam own S)) (RSt.init d0) c) {x : Instr (fam own S)} (hx : Pending c.acts x) {i : OpId}
    (ho : x.op = some i) : c.sh.started i = true ∧ instrPart (own i) x ≠ none := by
  have T := typed h
  obtain ⟨k, hk, R⟩ := (simulate L h).2 (own i)
  obtain ⟨y, hy, hyo⟩ : ∃ y, instrPart (own i) x = some y ∧ y.op = some i := by
    cases x <;> simp only [Instr.op] at ho <;> cases ho
    case setFast v =>
      obtain ⟨m, v⟩ := v
      have := T.fas _ _ hx
      simp only at this
      subst this
      exact ⟨.setFast i v, by simp [instrPart], rfl⟩
    all_goals exact ⟨_, by simp only [instrPart, if_true]; rfl, rfl⟩
  obtain ⟨a, ha, hxa⟩ := hx
  have h1 : y ∈ a.filterMap (instrPart (own i)) := List.mem_filterMap.2 ⟨x, hxa, hy⟩
  have h2 : a.filterMap (instrPart (own i)) ∈ running' (calls (own i) c.acts) := by
    simp only [running', List.mem_filter]
    refine ⟨List.mem_map.2 ⟨a, ha, rfl⟩, ?_⟩
    cases e : a.filterMap (instrPart (own i)) with
    | nil => rw [e] at h1; cases h1
    | cons => rfl
  rw [← R.acts] at h2
  obtain ⟨ph, _, hC⟩ := reach_inv (L _) hk
  have h3 := hC.op_started ⟨_, (List.mem_filter.1 h2).1, h1⟩ hyo
  rw [R.st.started i rfl] at h3
  exact ⟨h3, by rw [hy]; simp⟩

/-- The objects `A` are all that have anything to do. -/
structure Cover (A : List Nat) (c : Conf (mach (fam own S))) : Prop where
  ops : ∀ i, c.sh.started i = true → own i ∈ A
  ds : ∀ m z, Pending c.acts (.ds (tI m z)) → m ∈ A
  ne : A ≠ []

theorem exec_ds {s s' : RSt (fam own S)} {x : Instr (fam own S)} {b : Bool} {p : List (Instr (fam own S))}
    (he : exec s x b = .ok s' p) {m : Nat} {z : (S m).I} (hm : Instr.ds (tI m z) ∈ p) : ∃ z', x = .ds (tI m z') := by
  cases x with
  | ds y =>
    obtain ⟨n, y, rfl⟩ : ∃ n z, y = tI n z := ⟨y.1, y.2, rfl⟩
    simp only [exec] at he
    split at he
    · cases he
    · rename_i d' ps es hx
      cases he
      simp only [fam, tI] at hx
      split at hx
      · rename_i d2 ps2 es2 hx2
        cases hx
        obtain ⟨q, hq, hq2⟩ := List.mem_map.1 hm
        obtain ⟨q2, hq3, rfl⟩ := List.mem_map.1 hq
        cases q2 with
        | inl i => cases hq2
        | inr w =>
          have : (⟨n, w⟩ : Σ n, (S n).I) = ⟨m, z⟩ := by
            simp only [next, follow] at hq2
            exact Instr.ds.inj hq2
          cases this
          exact ⟨y, rfl⟩
      · cases hx
  | cancel e =>
    simp only [exec] at he
    cases he
    obtain ⟨q, hq, hq2⟩ := List.mem_map.1 hm
    cases hq2
  | _ =>
    exfalso
    simp only [exec] at he
    (repeat' (split at he)) <;> first | (cases he; done) | (cases he; simp at hm)

theorem Cover.step {A : List Nat} {c : Conf (mach (fam own S))} (V : Cover A c) {j : Nat} {x : Instr (fam own S)}
    {r p : List (Instr (fam own S))} {s' : RSt (fam own S)} {b : Bool} (hj : c.acts[j]? = some (x :: r))
    (he : exec c.sh x b = .ok s' p) : Cover A ⟨s', c.acts.set j (p ++ r), false⟩ where
  ops i hi := by
    rw [exec_started he] at hi
    exact V.ops i hi
  ds m z hp := by
    rcases pending_set hj hp with h | h
    · exact V.ds m z h
    · obtain ⟨z', rfl⟩ := exec_ds he h
      exact V.ds m z' (pending_top hj)
  ne := V.ne

theorem Cover.has (L : ∀ n, Lawful (S n) (d0 n)) {A : List Nat} {c : Conf (mach (fam own S))}
    (h : Reach (mach (fam own S)) (RSt.init d0) c) (V : Cover A c) {x : Instr (fam own S)} (hx : Pending c.acts x) :
    ∃ m ∈ A, instrPart m x ≠ none := by
  cases ho : x.op with
  | some i =>
    obtain ⟨h1, h2⟩ := fam_op_started L h hx ho
    exact ⟨_, V.ops i h1, h2⟩
  | none =>
    cases x with
    | cancel e =>
      cases A with
      | nil => exact absurd rfl V.ne
      | cons m A => exact ⟨m, by simp, by simp [instrPart]⟩
    | ds y =>
      obtain ⟨n, y, rfl⟩ : ∃ n z, y = tI n z := ⟨y.1, y.2, rfl⟩
      exact ⟨n, V.ds n y hx, by simp⟩
    | _ => simp [Instr.op] at ho

theorem sum_map_le {A : List Nat} {f g : Nat → Nat} (h : ∀ m ∈ A, f m ≤ g m) : (A.map f).sum ≤ (A.map g).sum := by
  induction A with
  | nil => simp
  | cons a A ih =>
    have h1 := h a (by simp)
    have h2 := ih (fun m hm => h m (by simp [hm]))
    simp only [List.map_cons, List.sum_cons]
    omega

theorem sum_map_lt {A : List Nat} {f g : Nat → Nat} (h : ∀ m ∈ A, f m ≤ g m) {m : Nat} (hm : m ∈ A) (hl : f m < g m) :
    (A.map f).sum + 1 ≤ (A.map g).sum := by
  induction A with
  | nil => cases hm
  | cons a A ih =>
    have h1 := h a (by simp)
    simp only [List.map_cons, List.sum_cons]
    rcases List.mem_cons.1 hm with rfl | hm
    · have := sum_map_le (A := A) (f := f) (g := g) (fun m hm => h m (by simp [hm]))
      omega
    · have := ih (fun m hm => h m (by simp [hm])) hm
      omega

theorem runs_append {M : Mach} {l1 l2 : List (Lbl M)} {c c1 c2 : Conf M} (h1 : M.runs c l1 = some c1)
    (h2 : M.runs c1 l2 = some c2) : M.runs c (l1 ++ l2) = some c2 := by
  induction l1 generalizing c with
  | nil => simp only [Mach.runs] at h1; cases h1; exact h2
  | cons l l1 ih =>
    simp only [Mach.runs, List.cons_append] at h1 ⊢
    split at h1
    · exact ih h1
    · cases h1

/-- The runs of the single objects that a run of all of them consists of. -/
theorem split_run (L : ∀ n, Lawful (S n) (d0 n)) {A : List Nat} (ls : List (Nat × Bool)) {c c' : Conf (mach (fam own S))}
    (h : Reach (mach (fam own S)) (RSt.init d0) c) (V : Cover A c) (hr : (mach (fam own S)).runActs c ls = some c')
    (ks : ∀ m, Conf (mach (S m))) (hks : ∀ m, Reach (mach (S m)) (RSt.init (d0 m)) (ks m) ∧ Rel m c (ks m)) :
    ∃ lss : Nat → List (Nat × Bool), (∀ m, ∃ k', (mach (S m)).runActs (ks m) (lss m) = some k') ∧
      ls.length ≤ (A.map (fun m => (lss m).length)).sum := by
  induction ls generalizing c ks with
  | nil => exact ⟨fun _ => [], fun m => ⟨ks m, rfl⟩, Nat.zero_le _⟩
  | cons l ls ih =>
    simp only [Mach.runActs, List.map_cons, Mach.runs] at hr
    split at hr
    · rename_i c1 hs
      obtain ⟨hb, hall⟩ := simulate L h
      obtain ⟨x, r, s', p, hj, he, rfl, hstep⟩ := sim_run L hb (typed h) hall hs
      have hx := pending_top hj
      have hone : ∀ m, ∃ o : List (Nat × Bool) × Conf (mach (S m)), (mach (S m)).runActs (ks m) o.1 = some o.2 ∧
          (Reach (mach (S m)) (RSt.init (d0 m)) o.2 ∧ Rel m ⟨s', c.acts.set l.1 (p ++ r), false⟩ o.2) ∧
          (instrPart m x ≠ none → 1 ≤ o.1.length) := by
        intro m
        rcases hstep m (ks m) (hks m).1 (hks m).2 with ⟨h1, h2⟩ | ⟨_, j', k', h1, h2⟩
        · exact ⟨([], ks m), rfl, ⟨(hks m).1, h2⟩, fun hn => absurd h1 hn⟩
        · refine ⟨([(j', l.2)], k'), ?_, ⟨.step (hks m).1 h1, h2⟩, fun _ => Nat.le_refl _⟩
          simp only [Mach.runActs, List.map_cons, List.map_nil, Mach.runs, h1]
      let o := fun m => Classical.choose (hone m)
      have ho := fun m => Classical.choose_spec (hone m)
      obtain ⟨lss, h1, h2⟩ := ih (.step h hs) (V.step hj he) hr (fun m => (o m).2) (fun m => (ho m).2.1)
      refine ⟨fun m => (o m).1 ++ lss m, fun m => ?_, ?_⟩
      · obtain ⟨k', hk'⟩ := h1 m
        refine ⟨k', ?_⟩
        have := (ho m).1
        simp only [Mach.runActs] at this hk' ⊢
        rw [List.map_append]
        exact runs_append this hk'
      · obtain ⟨m, hm, hmx⟩ := V.has L h hx
        have h3 := (ho m).2.2 hmx
        have := sum_map_lt (A := A) (f := fun m => (lss m).length) (g := fun m => ((o m).1 ++ lss m).length)
          (fun m _ => by simp) hm (by rw [List.length_append]; simp only [o]; omega)
        simp only [List.length_cons]
        omega
    · cases hr

theorem started_begin {T : DS} {t0 : T.D} {c : Conf (mach T)} (h : Reach (mach T) (RSt.init t0) c) :
    ∀ i, c.sh.started i = true → ∃ ct p, Ev.begin i ct p ∈ c.sh.log :=
  Reach.inv (M := mach T) (P := fun s _ => ∀ i, s.started i = true → ∃ ct p, Ev.begin i ct p ∈ s.log)
    (by intro i hi; cases hi)
    (by
      intro s acts a s' p ih he i hi
      cases a with
      | newOp j ct q =>
        simp only [env] at he
        split at he
        · cases he
        · split at he
          · cases he
            simp only [upd_apply] at hi
            split at hi
            · rename_i e; subst e; exact ⟨ct, q, by simp⟩
            · obtain ⟨ct', p', h1⟩ := ih i hi
              exact ⟨ct', p', List.mem_append_left _ h1⟩
          · cases he
      | cancel e => cases he; exact ih i hi
      | call x =>
        simp only [env] at he
        split at he
        · cases he; exact ih i hi
        · cases he
      | reset e =>
        simp only [env] at he
        split at he
        · cases he
          obtain ⟨ct', p', h1⟩ := ih i hi
          exact ⟨ct', p', List.mem_append_left _ h1⟩
        · cases he)
    (by
      intro s acts k x r b s' p ih hk he i hi
      rw [exec_started he] at hi
      obtain ⟨ct', p', h1⟩ := ih i hi
      exact ⟨ct', p', (exec_keeps he).1 _ h1⟩) h

/-- The objects with a member function running. -/
def inCalls (acts : List (List (Instr (fam own S)))) : List Nat :=
  acts.flatten.filterMap (fun x => match x with
    | .ds z => some z.1
    | _ => none)

theorem exists_cover {c : Conf (mach (fam own S))}
    (h : Reach (mach (fam own S)) (RSt.init d0) c) : ∃ A, Cover A c := by
  refine ⟨0 :: (begun c.sh.log).map own ++ inCalls c.acts, ?_, ?_, by simp⟩
  · intro i hi
    obtain ⟨ct, p, hb⟩ := started_begin h i hi
    simp only [List.mem_append, List.mem_cons, List.mem_map]
    exact .inl (.inr ⟨i, mem_begun hb, rfl⟩)
  · intro m z hp
    obtain ⟨a, ha, hz⟩ := hp
    simp only [List.mem_append]
    exact .inr (List.mem_filterMap.2 ⟨_, List.mem_flatten.2 ⟨a, ha, hz⟩, rfl⟩)

theorem fam_steps (L : ∀ n, Lawful (S n) (d0 n)) (C : ∀ n, Costs (L n)) {c : Conf (mach (fam own S))}
    (h : Reach (mach (fam own S)) (RSt.init d0) c) : ∃ n, Steps c n := by
  obtain ⟨A, V⟩ := exists_cover h
  have hk := (simulate L h).2
  let ks := fun m => Classical.choose (hk m)
  have hks := fun m => Classical.choose_spec (hk m)
  refine ⟨(A.map (fun m => (C m).total (ks m).sh (ks m).acts)).sum, fun ls c' hr => ?_⟩
  obtain ⟨lss, h1, h2⟩ := split_run L ls h V hr ks hks
  refine Nat.le_trans h2 (sum_map_le fun m _ => ?_)
  obtain ⟨k', hk'⟩ := h1 m
  exact (terminates (C m) (hks m).1).1 _ _ hk'

end Verif.Resolver
