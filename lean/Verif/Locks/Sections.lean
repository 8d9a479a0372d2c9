import Verif.Locks.Swap

/-! # Critical sections in an execution (lemmas for `Verif.Locks.SectionProps`) -/

namespace Verif.Locks

theorem inv_plain_step {s s' : St} {t : Thr} {c : Choice} (hi : Inv (fun L => L = []) True s)
    (ha : permits Plain s t c = true) (hs : step s t c = .ok s') : Inv (fun L => L = []) True s' := by
  refine inv_step hi (fun x r f h1 h2 => ⟨?_, fun _ q hq => ?_⟩) hs
  · rintro ⟨o, rfl⟩
    have := permits_call ha h1 h2
    simp [Plain, Quiet] at this
  · have := permits_call ha h1 h2
    subst hq; simp [Plain, NoEmpty] at this

/-- An execution with its states. `f i` is the event at position `i`. -/
structure Run (n : Nat) (f : Nat → Ev) (st : Nat → St) : Prop where
  zero : st 0 = .init
  top : ∀ i, i < n → ∃ r, (st i).stack (f i).thr = (f i).ins :: r
  perm : ∀ i, i < n → permits Plain (st i) (f i).thr (f i).ch = true
  step : ∀ i, i < n → step (st i) (f i).thr (f i).ch = .ok (st (i + 1))

/-- Something to return outside of the execution. -/
def Ev.dummy : Ev := ⟨0, .user, .ret⟩

theorem map_getD (es : List Ev) : (List.range es.length).map (fun i => es.getD i .dummy) = es := by
  apply List.ext_getElem
  · simp
  · intro i h1 h2; simp [List.getD, h2]

theorem Trace.states {A : Instr → Fn → Bool} {s s' : St} {es : List Ev} (h : Trace A s es s') :
    ∃ st : Nat → St, st 0 = s ∧ st es.length = s' ∧ ∀ i, i < es.length →
      (∃ r, (st i).stack (es.getD i .dummy).thr = (es.getD i .dummy).ins :: r) ∧
      permits A (st i) (es.getD i .dummy).thr (es.getD i .dummy).ch = true ∧
      Locks.step (st i) (es.getD i .dummy).thr (es.getD i .dummy).ch = .ok (st (i + 1)) := by
  induction h with
  | @nil s => exact ⟨fun _ => s, rfl, rfl, by simp⟩
  | @cons s s1 s' e es r h1 h2 h3 _ ih =>
    obtain ⟨st, a, b, c⟩ := ih
    refine ⟨fun i => match i with | 0 => s | i + 1 => st i, rfl, b, ?_⟩
    intro i hi
    cases i with
    | zero => exact ⟨⟨r, by simpa using h1⟩, by simpa using h2, by simpa [a] using h3⟩
    | succ i => simpa using c i (by simpa using hi)

theorem Trace.run {s' : St} {es : List Ev} (h : Trace Plain .init es s') :
    ∃ st, Run es.length (fun i => es.getD i .dummy) st := by
  obtain ⟨st, a, _, c⟩ := h.states
  exact ⟨st, a, fun i hi => (c i hi).1, fun i hi => (c i hi).2.1, fun i hi => (c i hi).2.2⟩

section

variable {n : Nat} {f : Nat → Ev} {st : Nat → St} (R : Run n f st)

include R

theorem Run.inv {i : Nat} (hi : i ≤ n) : Inv (fun L => L = []) True (st i) := by
  induction i with
  | zero => rw [R.zero]; exact inv_init.2 rfl
  | succ i ih => exact inv_plain_step (ih (by omega)) (R.perm i (by omega)) (R.step i (by omega))

/-- How an event changes the set of held mutexes. -/
theorem Run.next {i : Nat} (hi : i < n) :
    (∀ t, t ≠ (f i).thr → (st (i + 1)).held t = (st i).held t) ∧
    (match (f i).ins with
      | .lock o => (st i).held (f i).thr = [] ∧ (st i).holder o = none ∧ (st (i + 1)).held (f i).thr = [o]
      | .unlock o => o ∈ (st i).held (f i).thr ∧ (st (i + 1)).held (f i).thr = ((st i).held (f i).thr).erase o
      | _ => (st (i + 1)).held (f i).thr = (st i).held (f i).thr) ∧
    (∀ o t, (st i).setter o = some t → (st (i + 1)).setter o = some t) := by
  obtain ⟨r, hr⟩ := R.top i hi
  have hs := (R.inv (Nat.le_of_lt hi)).seg (f i).thr
  obtain ⟨ys, _, hf, e⟩ := (step_iff hr).1 (R.step i hi)
  rw [hr] at hs
  rw [e]
  generalize st i = s at *
  cases hx : (f i).ins with
  | lock o =>
    rw [hx] at hs hf
    generalize hH : s.held (f i).thr = H at hs
    cases hs with
    | lock hp _ =>
      subst hp
      refine ⟨fun t ht => by simp [eff, St.goto, upd_ne' ht], ⟨rfl, hf, by simp [eff, St.goto, hH]⟩, fun _ _ h => h⟩
  | unlock o =>
    rw [hx] at hs hf
    generalize hH : s.held (f i).thr = H at hs
    cases hs with
    | unlock _ =>
      refine ⟨fun t ht => by simp [eff, St.goto, upd_ne' ht], ⟨by simp, by simp [eff, St.goto, hH]⟩, fun _ _ h => h⟩
  | user =>
    rw [hx] at hf
    cases hc : (f i).ch with
    | call g =>
      rw [hc] at hf
      cases g with
      | setValue p =>
        refine ⟨fun _ _ => rfl, rfl, fun o t h => ?_⟩
        have hn : s.setter p = none := by simpa [free, St.admits] using hf
        have : o ≠ p := by rintro rfl; rw [hn] at h; simp at h
        simpa [eff, St.mark, St.goto, upd_ne' this] using h
      | _ => exact ⟨fun _ _ => rfl, rfl, fun _ _ h => h⟩
    | _ => exact ⟨fun _ _ => rfl, rfl, fun _ _ h => h⟩
  | under =>
    rw [hx] at hf
    cases hc : (f i).ch with
    | call g =>
      rw [hc] at hf
      cases g with
      | setValue p =>
        refine ⟨fun _ _ => rfl, rfl, fun o t h => ?_⟩
        have hn : s.setter p = none := by simpa [free, St.admits] using hf
        have : o ≠ p := by rintro rfl; rw [hn] at h; simp at h
        simpa [eff, St.mark, St.goto, upd_ne' this] using h
      | _ => exact ⟨fun _ _ => rfl, rfl, fun _ _ h => h⟩
    | _ => exact ⟨fun _ _ => rfl, rfl, fun _ _ h => h⟩
  | _ => exact ⟨fun _ _ => rfl, rfl, fun _ _ h => h⟩

/-- A thread holds at most one mutex. -/
theorem Run.one {i : Nat} (hi : i ≤ n) (t : Thr) : (st i).held t = [] ∨ ∃ o, (st i).held t = [o] := by
  induction i with
  | zero => left; rw [R.zero]; rfl
  | succ i ih =>
    have ih := ih (by omega)
    obtain ⟨h1, h2, _⟩ := R.next (show i < n by omega)
    by_cases ht : t = (f i).thr
    · subst ht
      revert h2
      cases (f i).ins with
      | lock o => rintro ⟨_, _, h⟩; exact .inr ⟨o, h⟩
      | unlock o =>
        rintro ⟨h3, h4⟩
        rcases ih with ih | ⟨p, ih⟩
        · rw [ih] at h3; simp at h3
        · rw [ih] at h3 h4
          simp at h3; subst h3
          left; rw [h4]; simp
      | _ => intro h; rw [h]; exact ih
    · rw [h1 t ht]; exact ih

theorem Run.setter {o t i j : Nat} (hj : j ≤ n) (hij : i ≤ j) (h : (st i).setter o = some t) : (st j).setter o = some t := by
  induction j with
  | zero => have : i = 0 := by omega
            subst this; exact h
  | succ j ih =>
    by_cases e : i = j + 1
    · subst e; exact h
    · exact (R.next (show j < n by omega)).2.2 o t (ih (by omega) (by omega))

/-- Nobody else holds the same mutex. -/
theorem Run.excl {i : Nat} (hi : i ≤ n) {t u : Thr} {o : Obj} (h1 : (st i).held t = [o]) (h2 : (st i).held u = [o]) : t = u := by
  have hv := R.inv hi
  have a := (hv.hold o t).2 (by simp [h1])
  have b := (hv.hold o u).2 (by simp [h2])
  rw [a] at b; simpa using b

theorem Run.lock {i : Nat} (hi : i < n) {o : Obj} (h : (f i).ins = .lock o) :
    (st i).held (f i).thr = [] ∧ (∀ t, (st i).held t ≠ [o]) ∧ (st (i + 1)).held (f i).thr = [o] := by
  have := (R.next hi).2.1
  rw [h] at this
  obtain ⟨a, b, c⟩ := this
  refine ⟨a, fun t ht => ?_, c⟩
  have := ((R.inv (Nat.le_of_lt hi)).hold o t).2 (by simp [ht])
  rw [b] at this; simp at this

theorem Run.unlock {i : Nat} (hi : i < n) {o : Obj} (h : (f i).ins = .unlock o) :
    (st i).held (f i).thr = [o] ∧ (st (i + 1)).held (f i).thr = [] := by
  have := (R.next hi).2.1
  rw [h] at this
  obtain ⟨a, b⟩ := this
  rcases R.one (Nat.le_of_lt hi) (f i).thr with e | ⟨p, e⟩
  · rw [e] at a; simp at a
  · rw [e] at a b; simp at a; subst a; exact ⟨e, by rw [b]; simp⟩

/-- A mutex stays locked until it is unlocked. -/
theorem Run.stays {p j : Nat} (hj : j ≤ n) (hp : p < j) {t : Thr} {o : Obj} (h0 : (st (p + 1)).held t = [o])
    (hn : ∀ i, p < i → i < j → (f i).thr = t → (f i).ins ≠ .unlock o) : (st j).held t = [o] := by
  induction j with
  | zero => omega
  | succ j ih =>
    by_cases e : p = j
    · subst e; exact h0
    · have ih := ih (by omega) (by omega) (fun i a b => hn i a (by omega))
      obtain ⟨h1, h2, _⟩ := R.next (show j < n by omega)
      by_cases ht : t = (f j).thr
      · subst ht
        have hn := hn j (by omega) (by omega) rfl
        revert h2 hn
        cases (f j).ins with
        | lock q => rintro ⟨h, _⟩; rw [ih] at h; simp at h
        | unlock q =>
          rintro ⟨h3, _⟩ hn
          rw [ih] at h3; simp at h3; subst h3; exact absurd rfl hn
        | _ => intro h _; rw [h]; exact ih
      · rw [h1 t ht]; exact ih

/-- A held mutex was locked. -/
theorem Run.since {j : Nat} (hj : j ≤ n) {t : Thr} {o : Obj} (h : (st j).held t = [o]) :
    ∃ p, p < j ∧ (f p).thr = t ∧ (f p).ins = .lock o ∧ ∀ i, p < i → i ≤ j → (st i).held t = [o] := by
  induction j with
  | zero => rw [R.zero] at h; simp [St.init] at h
  | succ j ih =>
    have key : (st j).held t = [o] → ∃ p, p < j + 1 ∧ (f p).thr = t ∧ (f p).ins = .lock o ∧
        ∀ i, p < i → i ≤ j + 1 → (st i).held t = [o] := by
      intro h'
      obtain ⟨p, a, b, c, d⟩ := ih (by omega) h'
      refine ⟨p, by omega, b, c, fun i h1 h2 => ?_⟩
      by_cases e : i = j + 1
      · subst e; exact h
      · exact d i h1 (by omega)
    obtain ⟨h1, h2, _⟩ := R.next (show j < n by omega)
    by_cases ht : t = (f j).thr
    · subst ht
      cases hx : (f j).ins with
      | lock q =>
        rw [hx] at h2
        have : q = o := by have := h2.2.2; rw [h] at this; simpa using this.symm
        subst this
        exact ⟨j, by omega, rfl, hx, fun i a b => by have : i = j + 1 := by omega
                                                     subst this; exact h⟩
      | unlock q => have := (R.unlock (by omega) hx).2; rw [h] at this; simp at this
      | _ => rw [hx] at h2; exact key (by rw [← h2]; exact h)
    · exact key (by rw [← h1 t ht]; exact h)

end

/-- Positions `p` and `q` are the ends of a section of thread `t` on mutex `o`. -/
structure Sec (n : Nat) (f : Nat → Ev) (st : Nat → St) (t : Thr) (o : Obj) (p q : Nat) : Prop where
  lt : p < q
  le : q < n
  thr1 : (f p).thr = t
  thr2 : (f q).thr = t
  lock : (f p).ins = .lock o
  unlock : (f q).ins = .unlock o
  held : ∀ i, p < i → i ≤ q → (st i).held t = [o]

/-- A section with at most one exposed access. -/
structure Good (n : Nat) (f : Nat → Ev) (st : Nat → St) (t : Thr) (o : Obj) (p q : Nat) : Prop extends Sec n f st t o p q where
  few : ∀ i j, p < i → i < q → p < j → j < q → (f i).thr = t → (f j).thr = t → exposed o (f i).ins = true →
    exposed o (f j).ins = true → i = j

open Classical in
/-- Where the section takes place: at its exposed access, or where it begins. -/
noncomputable def commit (f : Nat → Ev) (t : Thr) (o : Obj) (p q : Nat) : Nat :=
  if h : ∃ i, p < i ∧ i < q ∧ (f i).thr = t ∧ exposed o (f i).ins = true then h.choose else p

theorem Good.commit {n : Nat} {f : Nat → Ev} {st : Nat → St} {t : Thr} {o : Obj} {p q : Nat} (h : Good n f st t o p q) :
    p ≤ Locks.commit f t o p q ∧ Locks.commit f t o p q < q ∧ (f (Locks.commit f t o p q)).thr = t := by
  unfold Locks.commit
  split
  · rename_i he; obtain ⟨a, b, c, _⟩ := he.choose_spec; exact ⟨by omega, b, c⟩
  · exact ⟨Nat.le_refl _, h.lt, h.thr1⟩

theorem Good.commit_exposed {n : Nat} {f : Nat → Ev} {st : Nat → St} {t : Thr} {o : Obj} {p q i : Nat} (h : Good n f st t o p q)
    (h1 : p < i) (h2 : i < q) (h3 : (f i).thr = t) (h4 : exposed o (f i).ins = true) : Locks.commit f t o p q = i := by
  have he : ∃ i, p < i ∧ i < q ∧ (f i).thr = t ∧ exposed o (f i).ins = true := ⟨i, h1, h2, h3, h4⟩
  unfold Locks.commit
  rw [dif_pos he]
  obtain ⟨a, b, c, d⟩ := he.choose_spec
  exact h.few _ _ a b h1 h2 c h3 d h4

open Classical in
/-- The new position of an event. -/
noncomputable def key (n : Nat) (f : Nat → Ev) (st : Nat → St) (i : Nat) : Nat :=
  if h : ∃ x : Obj × Nat × Nat, Good n f st (f i).thr x.1 x.2.1 x.2.2 ∧ x.2.1 ≤ i ∧ i ≤ x.2.2 then
    commit f (f i).thr h.choose.1 h.choose.2.1 h.choose.2.2 else i

theorem key_cases (n : Nat) (f : Nat → Ev) (st : Nat → St) (i : Nat) :
    (key n f st i = i ∧ ∀ o p q, Good n f st (f i).thr o p q → p ≤ i → i ≤ q → False) ∨
    ∃ o p q, Good n f st (f i).thr o p q ∧ p ≤ i ∧ i ≤ q ∧ key n f st i = commit f (f i).thr o p q := by
  unfold key
  split
  · rename_i h
    obtain ⟨a, b, c⟩ := h.choose_spec
    exact .inr ⟨_, _, _, a, b, c, rfl⟩
  · rename_i h
    exact .inl ⟨rfl, fun o p q a b c => h ⟨⟨o, p, q⟩, a, b, c⟩⟩

section

variable {n : Nat} {f : Nat → Ev} {st : Nat → St} (R : Run n f st)

include R

theorem Sec.unique {t : Thr} {o o' : Obj} {p p' q q' i : Nat} (h : Sec n f st t o p q) (h' : Sec n f st t o' p' q')
    (h1 : p ≤ i) (h2 : i ≤ q) (h3 : p' ≤ i) (h4 : i ≤ q') : o = o' ∧ p = p' ∧ q = q' := by
  have l1 := h.le
  have l2 := h'.le
  have l3 := h.lt
  have l4 := h'.lt
  have e0 : ∀ {o p q o' p' q'}, Sec n f st t o p q → Sec n f st t o' p' q' → p < p' → p' ≤ q → False := by
    intro o p q o' p' q' h h' a b
    have := h.held p' a b
    have l := h'.le
    have l' := h'.lt
    have := (R.lock (show p' < n by omega) h'.lock).1
    rw [h'.thr1] at this
    simp_all
  have e1 : p = p' := by
    rcases Nat.lt_trichotomy p p' with e | e | e
    · exact (e0 h h' e (by omega)).elim
    · exact e
    · exact (e0 h' h e (by omega)).elim
  subst e1
  have e2 : o = o' := by have := h.lock; rw [h'.lock] at this; simpa using this.symm
  subst e2
  refine ⟨rfl, rfl, ?_⟩
  have e3 : ∀ {q q'}, Sec n f st t o p q → Sec n f st t o p q' → q < q' → False := by
    intro q q' h h' a
    have := h'.held (q + 1) (by have := h.lt; omega) (by omega)
    have h2 := (R.unlock h.le h.unlock).2
    rw [h.thr2, this] at h2
    simp at h2
  rcases Nat.lt_trichotomy q q' with e | e | e
  · exact (e3 h h' e).elim
  · exact e
  · exact (e3 h' h e).elim

theorem key_good {t : Thr} {o : Obj} {p q i : Nat} (h : Good n f st t o p q) (ht : (f i).thr = t) (h1 : p ≤ i) (h2 : i ≤ q) :
    key n f st i = commit f t o p q := by
  subst ht
  rcases key_cases n f st i with ⟨_, hk⟩ | ⟨o', p', q', a, b, c, d⟩
  · exact (hk o p q h h1 h2).elim
  · obtain ⟨rfl, rfl, rfl⟩ := Sec.unique R h.toSec a.toSec h1 h2 b c
    exact d

omit R in
/-- The event at the new position is by the same thread. -/
theorem key_thr (i : Nat) : (f (key n f st i)).thr = (f i).thr := by
  rcases key_cases n f st i with ⟨e, _⟩ | ⟨o, p, q, a, b, c, d⟩
  · rw [e]
  · rw [d]; exact a.commit.2.2

/-- Accesses that are exposed in any case stay where they are. -/
theorem key_exposed {i : Nat} (h : ∀ o p q, Good n f st (f i).thr o p q → p ≤ i → i ≤ q → exposed o (f i).ins = true) :
    key n f st i = i := by
  rcases key_cases n f st i with ⟨e, _⟩ | ⟨o, p, q, a, b, c, d⟩
  · exact e
  · have he := h o p q a b c
    have h1 : i ≠ p := by rintro rfl; rw [a.lock] at he; simp [exposed] at he
    have h2 : i ≠ q := by rintro rfl; rw [a.unlock] at he; simp [exposed] at he
    rw [d]
    exact a.commit_exposed (by omega) (by omega) rfl he

/-- Events of the same thread keep their order. -/
theorem key_same {i j : Nat} (hij : i < j) (ht : (f i).thr = (f j).thr) : key n f st i ≤ key n f st j := by
  rcases key_cases n f st j with ⟨e, hk⟩ | ⟨o', p', q', a', b', c', d'⟩
  · rcases key_cases n f st i with ⟨e', _⟩ | ⟨o, p, q, a, b, c, d⟩
    · omega
    · have := a.commit.2.1
      by_cases hq : j ≤ q
      · exact (hk o p q (ht ▸ a) (by omega) hq).elim
      · omega
  · by_cases hi : p' ≤ i
    · rw [key_good R (ht ▸ a') rfl hi (by omega), d', ht]
      exact Nat.le_refl _
    · have h1 := a'.commit.1
      rcases key_cases n f st i with ⟨e, _⟩ | ⟨o, p, q, a, b, c, d⟩
      · omega
      · have h2 := a.commit.2.1
        by_cases hq : p' ≤ q
        · obtain ⟨_, rfl, _⟩ := Sec.unique R (i := p') a.toSec (ht ▸ a'.toSec) (by omega) hq (Nat.le_refl _) (Nat.le_of_lt a'.lt)
          omega
        · omega

/-- The event is part of a section on mutex `o`. -/
def Within (f : Nat → Ev) (st : Nat → St) (o : Obj) (i : Nat) : Prop :=
  (f i).ins = .lock o ∨ (st i).held (f i).thr = [o]

/-- A section of the thread of an event within a section on `o` is on `o`. -/
theorem Within.obj {o o' : Obj} {i p q : Nat} (hn : i < n) (h : Within f st o i) (hs : Sec n f st (f i).thr o' p q) (h1 : p ≤ i)
    (h2 : i ≤ q) : o' = o := by
  by_cases e : p = i
  · subst e
    have hl := hs.lock
    rcases h with h | h
    · rw [hl] at h; simpa using h
    · rw [(R.lock hn hl).1] at h; simp at h
  · have := hs.held i (by omega) h2
    rcases h with h | h
    · rw [(R.lock hn h).1] at this; simp at this
    · rw [this] at h; simpa using h

/-- While a thread is within a section, nobody else holds the mutex. -/
theorem Within.excl {o : Obj} {i : Nat} (hn : i < n) (h : Within f st o i) {t : Thr} (ht : t ≠ (f i).thr) : (st i).held t ≠ [o] := by
  intro e
  rcases h with h | h
  · exact (R.lock hn h).2.1 t e
  · exact ht (R.excl (Nat.le_of_lt hn) e h)

/-- Events of different threads within sections on the same mutex keep their order. -/
theorem key_within {o : Obj} {i j : Nat} (hj : j < n) (hij : i < j) (ht : (f i).thr ≠ (f j).thr) (h1 : Within f st o i)
    (h2 : Within f st o j) : key n f st i ≤ key n f st j := by
  have key0 : i ≤ key n f st j ∧ ∀ q, q < j → (∀ k, i < k → k ≤ q → (st k).held (f i).thr = [o]) → q ≤ key n f st j := by
    rcases key_cases n f st j with ⟨e, hk⟩ | ⟨o', p', q', a', b', c', d'⟩
    · exact ⟨by omega, fun q hq _ => by omega⟩
    · have ho := Within.obj R hj h2 a'.toSec b' c'
      subst ho
      have hc := a'.commit.1
      have hip : i < p' := by
        refine Classical.byContradiction fun hle => ?_
        have hne : p' ≠ i := by rintro rfl; exact ht a'.thr1
        exact Within.excl R (by omega) h1 (Ne.symm ht) (a'.held i (by omega) (by omega))
      refine ⟨by omega, fun q hq hh => ?_⟩
      refine Classical.byContradiction fun hle => ?_
      have hq' : p' < q := by omega
      exact ht (R.excl (show q ≤ n by omega) (hh q (by omega) (Nat.le_refl _)) (a'.held q hq' (by omega)))
  rcases key_cases n f st i with ⟨e, _⟩ | ⟨o', p, q, a, b, c, d⟩
  · omega
  · have ho := Within.obj R (by omega) h1 a.toSec b c
    subst ho
    have hq : q < j := by
      refine Classical.byContradiction fun hle => ?_
      exact Within.excl R hj h2 ht (a.held j (by omega) (by omega))
    have := key0.2 q hq (fun k h3 h4 => a.held k (by omega) h4)
    have := a.commit.2.1
    omega

theorem Run.seg {i : Nat} (hi : i < n) : ∃ r, Seg (fun L => L = []) True (fun p => (st i).setter p = some (f i).thr)
    ((st i).held (f i).thr) ((f i).ins :: r) [] := by
  obtain ⟨r, hr⟩ := R.top i hi
  exact ⟨r, hr ▸ (R.inv (Nat.le_of_lt hi)).seg (f i).thr⟩

theorem Run.within_acc {i : Nat} (hi : i < n) {o : Obj} {g : Fld} {w : Bool} (h : (f i).ins = .acc o g w) :
    (Within f st o i ∧ (g = .hasValue → w = true → (st i).setter o = some (f i).thr)) ∨
    (g = .hasValue ∧ w = false ∧ (st i).setter o = some (f i).thr) := by
  obtain ⟨r, hs⟩ := R.seg hi
  rw [h] at hs
  rcases R.one (Nat.le_of_lt hi) (f i).thr with e | ⟨p, e⟩ <;> rw [e] at hs
  · cases hs with
    | acc h1 => simp at h1
    | peek h1 => exact .inr ⟨rfl, rfl, h1⟩
  · cases hs with
    | acc h1 h2 => simp at h1; subst h1; exact .inl ⟨.inr e, h2⟩
    | peek h1 => exact .inr ⟨rfl, rfl, h1⟩

theorem Run.within_phase {i : Nat} (hi : i < n) {b : Obj} (h : (f i).ins = .atom (.phase b) true) : Within f st b i := by
  obtain ⟨r, hs⟩ := R.seg hi
  rw [h] at hs
  rcases R.one (Nat.le_of_lt hi) (f i).thr with e | ⟨p, e⟩ <;> rw [e] at hs
  · cases hs with
    | atom h1 => simpa using h1 b rfl rfl
  · cases hs with
    | atom h1 => have := h1 b rfl rfl; simp at this; subst this; exact .inr e

/-- An atomic access stays where it is, unless it reads the number of a barrier whose mutex is held. -/
theorem key_atom {i : Nat} (hi : i < n) {a : Atm} {w : Bool} (h : (f i).ins = .atom a w) :
    key n f st i = i ∨ ∃ b, a = .phase b ∧ w = false ∧ Within f st b i := by
  refine Classical.byContradiction fun hn => ?_
  have hk : key n f st i ≠ i := fun e => hn (.inl e)
  refine hk (key_exposed R fun o p q hg h1 h2 => ?_)
  have hp : p ≠ i := by rintro rfl; have := hg.lock; rw [h] at this; simp at this
  have hh := hg.held i (by omega) h2
  rw [h]
  cases w with
  | true => cases a <;> rfl
  | false =>
    cases a with
    | phase b =>
      simp only [exposed, decide_eq_true_eq]
      rintro rfl
      exact hn (.inr ⟨b, rfl, rfl, .inr hh⟩)
    | _ => rfl

/-- Events that get into another order are independent. -/
theorem key_indep {i j : Nat} (hj : j < n) (hij : i < j) (hk : key n f st j < key n f st i) : Indep (f i) (f j) := by
  have hi : i < n := by omega
  have ht : (f i).thr ≠ (f j).thr := fun e => by have := key_same R hij e; omega
  refine ⟨ht, fun v w w' h1 h2 => ?_⟩
  have hw : ∀ o, Within f st o i → Within f st o j → False := fun o a b => by
    have := key_within R hj hij ht a b; omega
  have lk : ∀ {i}, i < n → ∀ {o}, ((f i).ins = .lock o ∨ (f i).ins = .unlock o) → Within f st o i := by
    intro i hi o h
    rcases h with h | h
    · exact .inl h
    · exact .inr (R.unlock hi h).1
  have us : ∀ {i}, i < n → (f i).ins.touches = some (.user, w) ∨ (f i).ins.touches = some (.user, w') → key n f st i = i := by
    intro i _ h
    refine key_exposed R fun o p q _ _ _ => ?_
    cases hx : (f i).ins <;> rw [hx] at h <;> simp [Instr.touches] at h <;> rfl
  cases v with
  | mutex o =>
    have a : (f i).ins = .lock o ∨ (f i).ins = .unlock o := by
      cases hx : (f i).ins <;> rw [hx] at h1 <;> simp [Instr.touches] at h1 <;> simp [h1]
    have b : (f j).ins = .lock o ∨ (f j).ins = .unlock o := by
      cases hx : (f j).ins <;> rw [hx] at h2 <;> simp [Instr.touches] at h2 <;> simp [h2]
    exact (hw o (lk hi a) (lk hj b)).elim
  | field o g =>
    have a : (f i).ins = .acc o g w := by
      cases hx : (f i).ins <;> rw [hx] at h1 <;> simp [Instr.touches] at h1 <;> simp [h1]
    have b : (f j).ins = .acc o g w' := by
      cases hx : (f j).ins <;> rw [hx] at h2 <;> simp [Instr.touches] at h2 <;> simp [h2]
    have hset : ∀ {t u}, (st i).setter o = some t → (st j).setter o = some u → t = u := by
      intro t u x y
      rw [R.setter (Nat.le_of_lt hj) (Nat.le_of_lt hij) x] at y
      simpa using y
    rcases R.within_acc hi a with ⟨a1, a2⟩ | ⟨rfl, rfl, a2⟩
    · rcases R.within_acc hj b with ⟨b1, b2⟩ | ⟨rfl, rfl, b2⟩
      · exact (hw o a1 b1).elim
      · cases w with
        | false => exact ⟨rfl, rfl⟩
        | true => exact (ht (hset (a2 rfl rfl) b2)).elim
    · rcases R.within_acc hj b with ⟨b1, b2⟩ | ⟨_, rfl, b2⟩
      · cases w' with
        | false => exact ⟨rfl, rfl⟩
        | true => exact (ht (hset a2 (b2 rfl rfl))).elim
      · exact ⟨rfl, rfl⟩
  | atomic c =>
    have a : (f i).ins = .atom c w := by
      cases hx : (f i).ins <;> rw [hx] at h1 <;> simp [Instr.touches] at h1 <;> simp [h1]
    have b : (f j).ins = .atom c w' := by
      cases hx : (f j).ins <;> rw [hx] at h2 <;> simp [Instr.touches] at h2 <;> simp [h2]
    rcases key_atom R hi a with e | ⟨x, rfl, rfl, hx⟩
    · rcases key_atom R hj b with e' | ⟨x, rfl, rfl, hx⟩
      · omega
      · cases w with
        | false => exact ⟨rfl, rfl⟩
        | true => exact (hw x (R.within_phase hi a) hx).elim
    · cases w' with
      | false => exact ⟨rfl, rfl⟩
      | true => exact (hw x hx (R.within_phase hj b)).elim
  | user =>
    have := us hi (.inl h1)
    have := us hj (.inr h2)
    omega

end

/-- The execution in the new order. -/
noncomputable def reordered (n : Nat) (f : Nat → Ev) (st : Nat → St) : List Ev := (sort (key n f st) (List.range n)).map f

section

variable {n : Nat} {f : Nat → Ev} {st : Nat → St} (R : Run n f st)

include R

theorem Run.swaps : Swaps ((List.range n).map f) (reordered n f st) := by
  refine sort_swaps _ ?_
  refine List.Pairwise.imp_of_mem ?_ (List.pairwise_lt_range (n := n))
  intro i j _ hj hij hb
  simp only [before] at hb
  exact key_indep R (by simpa using hj) hij (by omega)

theorem before_same {i j : Nat} (ht : (f i).thr = (f j).thr) (h : before (key n f st) i j) : i < j := by
  simp only [before] at h
  rcases Nat.lt_trichotomy i j with e | e | e
  · exact e
  · subst e; omega
  · have := key_same R e ht.symm; omega

theorem same_before {i j : Nat} (ht : (f i).thr = (f j).thr) (h : i < j) : before (key n f st) i j := by
  have := key_same R h ht
  simp only [before]; omega

/-- In the new order, sections with at most one exposed access are not interrupted. -/
theorem Run.together {t : Thr} {o : Obj} {m : List Ev} (hs : Section (reordered n f st) t o m) (hm : AtMostOne t o m) :
    ∀ e ∈ m, e.thr = t := by
  obtain ⟨a, b, c, d, he, hu⟩ := hs
  obtain ⟨A, X, e1, rfl, e2⟩ := List.map_eq_append_iff.1 he
  obtain ⟨p, Y, rfl, fp, e3⟩ := List.map_eq_cons_iff.1 e2
  obtain ⟨M, Z, rfl, rfl, e4⟩ := List.map_eq_append_iff.1 e3
  obtain ⟨q, B, rfl, fq, rfl⟩ := List.map_eq_cons_iff.1 e4
  have hsort := sort_sorted (key n f st) (List.nodup_range (n := n))
  have hmem : ∀ i, i < n ↔ i ∈ A ++ p :: (M ++ q :: B) := by
    intro i; rw [← e1, mem_sort]; simp
  rw [e1] at hsort
  rw [List.pairwise_append] at hsort
  obtain ⟨_, hs1, hA⟩ := hsort
  rw [List.pairwise_cons] at hs1
  obtain ⟨hp, hs1⟩ := hs1
  rw [List.pairwise_append] at hs1
  obtain ⟨_, hs2, hM⟩ := hs1
  rw [List.pairwise_cons] at hs2
  obtain ⟨hq, _⟩ := hs2
  have hpt : (f p).thr = t := by rw [fp]
  have hqt : (f q).thr = t := by rw [fq]
  have irr : ∀ i j, before (key n f st) i j → before (key n f st) j i → False := by
    intro i j; simp only [before]; omega
  have hpq : p < q := before_same R (by rw [hpt, hqt]) (hp q (by simp))
  have hqn : q < n := (hmem q).2 (by simp)
  have inM : ∀ i, p < i → i < q → (f i).thr = t → i ∈ M := by
    intro i h1 h2 h3
    have b1 := same_before R (by rw [hpt, h3]) h1
    have b2 := same_before R (by rw [hqt, h3]) h2
    have := (hmem i).1 (by omega)
    simp only [List.mem_append, List.mem_cons] at this
    rcases this with h | h | h | h | h
    · exact (irr _ _ b1 (hA i h p (by simp))).elim
    · omega
    · exact h
    · omega
    · exact (irr _ _ b2 (hq i h)).elim
  have hg : Good n f st t o p q := by
    refine ⟨⟨hpq, hqn, hpt, hqt, by rw [fp], by rw [fq], fun i h1 h2 => ?_⟩, ?_⟩
    · refine R.stays (p := p) (by omega) h1 ?_ ?_
      · have := (R.lock (show p < n by omega) (o := o) (by rw [fp])).2.2
        rwa [hpt] at this
      · intro j h3 h4 h5
        exact hu (f j) (List.mem_map_of_mem (inM j h3 (by omega) h5)) h5
    · intro i j h1 h2 h3 h4 h5 h6 h7 h8
      have hi := inM i h1 h2 h5
      have hj := inM j h3 h4 h6
      simp only [AtMostOne, List.filter_map, List.length_map] at hm
      have mi : i ∈ M.filter ((fun e => e.thr = t && exposed o e.ins) ∘ f) := by simp [hi, h5, h7]
      have mj : j ∈ M.filter ((fun e => e.thr = t && exposed o e.ins) ∘ f) := by simp [hj, h6, h8]
      generalize M.filter _ = l at hm mi mj
      match l, hm, mi, mj with
      | [x], _, mi, mj => simp at mi mj; omega
  intro e hme
  obtain ⟨x, hx, rfl⟩ := List.mem_map.1 hme
  have k1 := key_good R hg hpt (Nat.le_refl _) (Nat.le_of_lt hpq)
  have k2 := key_good R hg hqt (Nat.le_of_lt hpq) (Nat.le_refl _)
  have b1 := hp x (by simp [hx])
  have b2 := hM x hx q (by simp)
  simp only [before] at b1 b2
  have kx : key n f st x = commit f t o p q := by omega
  rw [← key_thr (n := n) (st := st) x, kx]
  exact hg.commit.2.2

end

theorem Trace.mono {A B : Instr → Fn → Bool} {s s' : St} {es : List Ev} (h : Trace A s es s')
    (hab : ∀ x f, A x f = true → B x f = true) : Trace B s es s' := by
  induction h with
  | nil => exact .nil
  | @cons s _ _ e _ _ h1 h2 h3 _ ih =>
    refine .cons h1 ?_ h3 ih
    revert h2
    simp only [permits, h1]
    cases e.ch <;> simp
    exact hab _ _

theorem Trace.det {A B : Instr → Fn → Bool} {s s1 s2 : St} {es : List Ev} (h : Trace A s es s1) (h' : Trace B s es s2) : s1 = s2 := by
  induction h with
  | nil => cases h'; rfl
  | cons _ _ h3 _ ih =>
    cases h' with
    | cons _ _ h3' ht =>
      rw [h3] at h3'
      simp at h3'; subst h3'
      exact ih ht

theorem sorted_ext {l m : List Nat} (hl : l.Pairwise (· < ·)) (hm : m.Pairwise (· < ·)) (h : ∀ i, i ∈ l ↔ i ∈ m) : l = m := by
  induction l generalizing m with
  | nil =>
    cases m with
    | nil => rfl
    | cons y m => have := (h y).2 (by simp); simp at this
  | cons x l ih =>
    cases m with
    | nil => have := (h x).1 (by simp); simp at this
    | cons y m =>
      rw [List.pairwise_cons] at hl hm
      have e : x = y := by
        have h1 := (h x).1 (by simp)
        have h2 := (h y).2 (by simp)
        simp only [List.mem_cons] at h1 h2
        rcases h1 with h1 | h1
        · exact h1
        · rcases h2 with h2 | h2
          · exact h2.symm
          · have := hl.1 _ h2; have := hm.1 _ h1; omega
      subst e
      rw [ih hl.2 hm.2]
      intro i
      have := h i
      simp only [List.mem_cons] at this
      constructor
      · intro hi
        rcases this.1 (.inr hi) with e | e
        · have := hl.1 i hi; omega
        · exact e
      · intro hi
        rcases this.2 (.inr hi) with e | e
        · have := hm.1 i hi; omega
        · exact e

theorem split_key {g : Nat → Nat} {k : Nat} {l : List Nat} (h : l.Pairwise (before g)) :
    l = l.filter (fun i => g i < k) ++ l.filter (fun i => ¬ g i < k) := by
  induction l with
  | nil => rfl
  | cons x l ih =>
    rw [List.pairwise_cons] at h
    by_cases hx : g x < k
    · simp only [List.filter_cons, hx, decide_true, if_true, not_true, decide_false, List.cons_append]
      simp only [Bool.false_eq_true, if_false]
      rw [← ih h.2]
    · have : l.filter (fun i => g i < k) = [] := by
        rw [List.filter_eq_nil_iff]
        intro y hy
        have := h.1 y hy
        simp only [before] at this
        simp; omega
      have ih := ih h.2
      rw [this] at ih
      simp only [List.filter_cons, hx, this, decide_false, not_false_eq_true, decide_true, if_true]
      simp only [Bool.false_eq_true, if_false, List.nil_append]
      simp only [List.nil_append] at ih
      rw [← ih]

section

variable {n : Nat} {f : Nat → Ev} {st : Nat → St} (R : Run n f st)

include R

theorem Run.trace {k : Nat} (hk : k ≤ n) : Trace Plain .init ((List.range k).map f) (st k) := by
  induction k with
  | zero => rw [R.zero]; exact .nil
  | succ k ih =>
    rw [List.range_succ, List.map_append]
    obtain ⟨r, hr⟩ := R.top k (by omega)
    exact (ih (by omega)).append (.cons hr (R.perm k (by omega)) (R.step k (by omega)) .nil)

/-- Events do not move across moments at which their thread is in no section. -/
theorem key_moment {k i : Nat} (hk : k ≤ n) (h : (st k).held (f i).thr = []) : key n f st i < k ↔ i < k := by
  rcases key_cases n f st i with ⟨e, _⟩ | ⟨o, p, q, a, b, c, d⟩
  · rw [e]
  · rw [d]
    have h1 := a.commit.1
    have h2 := a.commit.2.1
    have hn : ¬ (p < k ∧ k ≤ q) := by
      rintro ⟨x, y⟩
      have := a.held k x y
      rw [h] at this; simp at this
    omega

theorem Run.sameTime : SameTime ((List.range n).map f) (reordered n f st) := by
  intro es1 es2 s1 he ht
  have hlen : es1.length ≤ n := by
    have := congrArg List.length he
    simp at this; omega
  generalize hk : es1.length = k at hlen
  have e1 : es1 = (List.range k).map f := by
    have := congrArg (List.take k) he
    rw [← hk, List.take_left] at this
    rw [← this, hk, ← List.map_take, List.take_range, Nat.min_eq_left hlen]
  subst e1
  have hs : s1 = st k := ht.det (R.trace hlen)
  subst hs
  have hsort := sort_sorted (key n f st) (List.nodup_range (n := n))
  refine ⟨_, _, by rw [← List.map_append, ← split_key (k := k) hsort, reordered], fun t hh => ?_⟩
  have hheld : (st k).held t = [] := by
    rcases R.one hlen t with h | ⟨o, h⟩
    · exact h
    · exact absurd (((R.inv hlen).hold o t).2 (by simp [h])) (hh o)
  rw [List.filter_map, List.filter_map]
  congr 1
  rw [List.filter_filter]
  refine sorted_ext ?_ ((List.pairwise_lt_range (n := k)).filter _) (fun i => ?_)
  · refine List.Pairwise.imp_of_mem ?_ (hsort.filter _)
    intro i j hi hj hb
    simp only [List.mem_filter, Bool.and_eq_true, Function.comp, decide_eq_true_eq] at hi hj
    exact before_same R (by rw [hi.2.1, hj.2.1]) hb
  · simp only [List.mem_filter, Bool.and_eq_true, Function.comp, decide_eq_true_eq, mem_sort, List.mem_range]
    constructor
    · rintro ⟨_, h2, h3⟩
      exact ⟨(key_moment R hlen (by rw [h2]; exact hheld)).1 h3, h2⟩
    · rintro ⟨h1, h2⟩
      exact ⟨by omega, h2, (key_moment R hlen (by rw [h2]; exact hheld)).2 h1⟩

end

end Verif.Locks
