import Verif.Promise.Model

namespace Verif.Promise

open Resolver

variable {T : Type}

/-- What an event says given the events before it. -/
def hist (before : List (Event T)) : Event T → Prop
  | .ds (.set _) => ∀ w, (.ds (.set w) : Event T) ∉ before
  | .ds (.enq _) => ∀ w, (.ds (.set w) : Event T) ∉ before
  | .ds (.unq _) => ∀ w, (.ds (.set w) : Event T) ∉ before
  | .ds (.skip _) => ∃ w, (.ds (.set w) : Event T) ∈ before
  | .done _ (some v) => (.ds (.set v) : Event T) ∈ before
  | .done i none => (.ds (.unq i) : Event T) ∈ before ∧
      ∃ e p, Ev.begin i (some e) p ∈ before ∧ Ev.cancel e ∈ before
  | _ => True

/-- Invariant. -/
structure Inv (d : D T) (ph : OpId → Phase (Option T)) (log : List (Event T))
    (pi : List (I T)) : Prop where
  nodup : d.queue.Nodup
  mem : ∀ i, ph i = .waiting ↔ (d.value = none ∧ i ∈ d.queue)
  cancN : ∀ i, (ph i = .new ∨ ph i = .waiting ∨ ph i = .taken) → d.canc i = false
  cancG : ∀ i, ph i = .gone → d.canc i = true ∧ (.ds (.unq i) : Event T) ∈ log ∧
      ∃ e p, Ev.begin i (some e) p ∈ log ∧ Ev.cancel e ∈ log
  fast : ∀ i v, ph i = .fast v → v = d.value ∧ d.value ≠ none
  taken : ∀ i, ph i = .taken → d.value ≠ none
  val : ∀ v, d.value = some v ↔ (.ds (.set v) : Event T) ∈ log
  pend : (pi = [] ∧ (d.value = none ∨ d.queue = [])) ∨
    (∃ v, pi = [.set v] ∧ d.value = none ∧ d.called = true) ∨
    (∃ l, pi = [.wake l] ∧ d.value ≠ none ∧ d.queue = l ∧ d.called = true)
  called : d.value ≠ none → d.called = true
  hist : Hist hist log
  wait : d.value = none → ∀ i, i ∈ d.queue ↔ ((.ds (.enq i) : Event T) ∈ log ∧ (.ds (.unq i) : Event T) ∉ log)
  old : ∀ i, ((.ds (.enq i) : Event T) ∈ log ∨ (.ds (.unq i) : Event T) ∈ log) → ph i ≠ .new

theorem Inv.noset {d : D T} {ph : OpId → Phase (Option T)} {log : List (Event T)}
    {pi : List (I T)} (h : Inv d ph log pi) (hv : d.value = none) :
    ∀ w, (.ds (.set w) : Event T) ∉ log := by
  intro w hw; have := (h.val w).2 hw; simp [hv] at this

theorem Inv.ext_ {d : D T} {ph : OpId → Phase (Option T)} {log : List (Event T)}
    {pi : List (I T)} (h : Inv d ph log pi) (v : Event T)
    (hv : (∃ i ct p, v = .begin i ct p) ∨ (∃ e, v = .cancel e) ∨ (∃ e, v = .reset e)) :
    Inv d ph (log ++ [v]) pi := by
  obtain ⟨h1, h2, h3, h4, h5, h6, h7, h8, h9, h10, h11, h12⟩ := h
  refine ⟨h1, h2, h3, ?_, h5, h6, ?_, h8, h9, ?_, ?_, ?_⟩
  · grind
  · grind
  · rw [Hist.snoc]; refine ⟨h10, ?_⟩
    rcases hv with ⟨i, ct, p, rfl⟩ | ⟨e, rfl⟩ | ⟨e, rfl⟩ <;> trivial
  · grind
  · grind

def lawful (T : Type) : Lawful (ds T) init where
  Inv := Inv
  init := by constructor <;> simp [init, Hist.nil]
  perm := by
    intro d ph log pi pi' h hp
    obtain ⟨h1, h2, h3, h4, h5, h6, h7, h8, h9, h10, h11, h12⟩ := h
    refine ⟨h1, h2, h3, h4, h5, h6, h7, ?_, h9, h10, h11, h12⟩
    rcases h8 with ⟨rfl, h⟩ | ⟨v, rfl, h⟩ | ⟨l, rfl, h⟩
    · exact .inl ⟨by simpa using hp.symm, h⟩
    · exact .inr (.inl ⟨v, by simpa using hp.symm, h⟩)
    · exact .inr (.inr ⟨l, by simpa using hp.symm, h⟩)
  begin := by
    intro d ph log pi i ct p d' h hph hb ha
    simp at ha; subst ha
    exact h.ext_ _ (.inl ⟨_, _, _, rfl⟩)
  cancel := by intro d ph log pi e h; exact h.ext_ _ (.inr (.inl ⟨_, rfl⟩))
  reset := by intro d ph log pi e h; exact h.ext_ _ (.inr (.inr ⟨_, rfl⟩))
  call := by
    intro d ph log pi x d' h hc
    obtain ⟨h1, h2, h3, h4, h5, h6, h7, h8, h9, h10, h11, h12⟩ := h
    cases x with
    | set v =>
      simp only [call] at hc
      split at hc
      · simp at hc
      · rename_i hcl
        simp at hc; subst hc
        refine ⟨h1, h2, h3, h4, h5, h6, h7, ?_, ?_, h10, h11, h12⟩
        · grind
        · simp
    | wake l => simp [call] at hc
  start := by
    intro d ph log pi i ct p b h hph hb
    have hns := h.noset
    obtain ⟨h1, h2, h3, h4, h5, h6, h7, h8, h9, h10, h11, h12⟩ := h
    cases hv : d.value with
    | none =>
      refine ⟨_, _, _, by simp only [start, hv]; rfl, ?_⟩
      simp only [List.map_cons, List.map_nil]
      have hni : i ∉ d.queue := by intro hm; have := (h2 i).2 ⟨hv, hm⟩; simp [hph] at this
      refine ⟨?_, ?_, ?_, ?_, ?_, ?_, ?_, ?_, ?_, ?_, ?_, ?_⟩
      · rw [List.nodup_append]; grind
      · grind
      · grind
      · grind
      · grind
      · grind
      · grind
      · grind
      · grind
      · rw [Hist.snoc]; exact ⟨h10, hns hv⟩
      · grind
      · grind
    | some v =>
      refine ⟨_, _, _, by simp only [start, hv]; rfl, ?_⟩
      simp only [List.map_cons, List.map_nil]
      refine ⟨h1, ?_, ?_, ?_, ?_, ?_, ?_, ?_, ?_, ?_, ?_, ?_⟩
      · grind
      · grind
      · grind
      · grind
      · grind
      · grind
      · grind
      · grind
      · rw [Hist.snoc]; exact ⟨h10, v, (h7 v).1 hv⟩
      · grind
      · grind
  fast := by
    intro d ph log pi i v h hph
    obtain ⟨h1, h2, h3, h4, h5, h6, h7, h8, h9, h10, h11, h12⟩ := h
    obtain ⟨rfl, hne⟩ := h5 i v hph
    refine ⟨h1, ?_, ?_, ?_, ?_, ?_, ?_, ?_, ?_, ?_, ?_, ?_⟩
    · grind
    · grind
    · grind
    · grind
    · grind
    · grind
    · grind
    · grind
    · rw [Hist.snoc]; refine ⟨h10, ?_⟩
      cases hv : d.value with
      | none => exact absurd hv hne
      | some x => exact (h7 x).1 hv
    · grind
    · grind
  tryWaiting := by
    intro d ph log pi i e p h hph hb hc
    have hns := h.noset
    obtain ⟨h1, h2, h3, h4, h5, h6, h7, h8, h9, h10, h11, h12⟩ := h
    obtain ⟨hv, hm⟩ := (h2 i).1 hph
    refine ⟨_, _, by simp only [tryCancel, hv, hm, if_true]; rfl, ?_⟩
    simp only [List.map_cons, List.map_nil]
    refine ⟨?_, ?_, ?_, ?_, ?_, ?_, ?_, ?_, ?_, ?_, ?_, ?_⟩
    · grind
    · grind
    · grind
    · intro j hj
      by_cases hij : j = i
      · subst hij; exact ⟨by simp, by simp, e, p, by simp [hb], by simp [hc]⟩
      · simp only [upd, hij, if_false] at hj ⊢
        obtain ⟨a, b, e', p', c, d⟩ := h4 j hj
        exact ⟨a, by simp [b], e', p', by simp [c], by simp [d]⟩
    · grind
    · grind
    · grind
    · grind
    · grind
    · rw [Hist.snoc]; exact ⟨h10, hns hv⟩
    · grind
    · grind
  tryTaken := by
    intro d ph log pi i e p h hph hb hc
    have := h.taken i hph
    cases hv : d.value with
    | none => exact absurd hv this
    | some v =>
      refine ⟨_, _, by simp only [tryCancel, hv]; rfl, ?_⟩
      simpa using h
  resume := by
    intro d ph log pi i h hph
    obtain ⟨h1, h2, h3, h4, h5, h6, h7, h8, h9, h10, h11, h12⟩ := h
    refine ⟨h1, ?_, ?_, ?_, ?_, ?_, ?_, h8, h9, ?_, ?_, ?_⟩
    · grind
    · grind
    · grind
    · grind
    · grind
    · grind
    · rw [Hist.snoc]
      refine ⟨h10, ?_⟩
      rcases hph with hph | hph
      · have a := h3 i (.inr (.inr hph))
        simp only [a, Bool.false_eq_true, if_false]
        have := h6 i hph
        cases hv : d.value with
        | none => exact absurd hv this
        | some x => exact (h7 x).1 hv
      · obtain ⟨a, b, c⟩ := h4 i hph
        simp only [a, if_true]
        exact ⟨b, c⟩
    · grind
    · grind
  exec := by
    intro d ph log pi x b h
    have hns := h.noset
    obtain ⟨h1, h2, h3, h4, h5, h6, h7, h8, h9, h10, h11, h12⟩ := h
    have hops : ∀ l : List OpId, ops (I := I T) (l.map .inl) = l := by
      intro l; induction l with
      | nil => rfl
      | cons a l ih => simp [ops, ih]
    have hins : ∀ l : List OpId, insts (I := I T) (l.map .inl) = [] := by
      intro l; induction l with
      | nil => rfl
      | cons a l ih => simp [insts, ih]
    cases x with
    | set v =>
      have hp : pi = [] ∧ d.value = none ∧ d.called = true := by
        rcases h8 with h | ⟨w, h, h'⟩ | ⟨l, h, h'⟩
        · simp at h
        · simp at h; exact ⟨h.2, h'⟩
        · simp at h
      obtain ⟨rfl, hv, hcl⟩ := hp
      refine ⟨_, _, _, by simp only [exec, hv]; rfl, ?_, ?_, ?_⟩
      · simpa [ops, hops] using h1
      · simp only [ops, hops]; intro i hi; exact (h2 i).2 ⟨hv, hi⟩
      simp only [ops, hops, insts, hins, List.map_cons, List.map_nil, List.append_nil]
      refine ⟨h1, ?_, ?_, ?_, ?_, ?_, ?_, ?_, ?_, ?_, ?_, ?_⟩
      · grind
      · grind
      · grind
      · grind
      · grind
      · grind
      · right; right; exact ⟨_, rfl, by simp, rfl, hcl⟩
      · intro _; exact hcl
      · rw [Hist.snoc]; exact ⟨h10, hns hv⟩
      · grind
      · grind
    | wake l =>
      have hp : pi = [] ∧ d.value ≠ none ∧ d.queue = l ∧ d.called = true := by
        rcases h8 with h | ⟨w, h, h'⟩ | ⟨l', h, h'⟩
        · simp at h
        · simp at h
        · simp at h; obtain ⟨rfl, rfl⟩ := h; exact ⟨rfl, h'⟩
      obtain ⟨rfl, hv, hq, hcl⟩ := hp
      refine ⟨_, _, _, by simp only [exec, Option.isNone_iff_eq_none, hv, hq, if_true, if_false]; rfl, ?_, ?_, ?_⟩
      · simp [ops]
      · simp [ops]
      simp only [ops, insts, List.map_cons, List.map_nil, List.append_nil]
      refine ⟨by simp, ?_, ?_, ?_, ?_, ?_, ?_, ?_, ?_, ?_, ?_, ?_⟩
      · grind
      · grind
      · grind
      · grind
      · grind
      · grind
      · left; simp
      · grind
      · rw [Hist.snoc]; exact ⟨h10, trivial⟩
      · grind
      · grind

end Verif.Promise
