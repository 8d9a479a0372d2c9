import Verif.Queue.Model

namespace Verif.Queue

open Resolver

variable {T : Type}

@[simp] theorem waiters_nil : waiters ([] : List (Event T)) = [] := rfl
@[simp] theorem waiters_append (l : List (Event T)) (v : Event T) :
    waiters (l ++ [v]) = waitStep (waiters l) v := by
  simp [waiters]

/-- Invariant. -/
structure Inv (d : Q T) (ph : OpId → Phase (Option T)) (log : List (Event T)) : Prop where
  excl : d.sinks = [] ∨ d.buffer = []
  nodup : d.sinks.Nodup
  mem : ∀ i, i ∈ d.sinks ↔ ph i = .waiting
  valW : ∀ i, (ph i = .new ∨ ph i = .waiting ∨ ph i = .gone) → d.value i = none
  valT : ∀ i, ph i = .taken → ∃ x, d.value i = some x ∧ claimsOf i log = [x]
  fast : ∀ i v, ph i = .fast v → ∃ x, v = some x ∧ claimsOf i log = [x]
  none : ∀ i, (ph i = .new ∨ ph i = .waiting ∨ ph i = .gone) → claimsOf i log = []
  enq : ∀ i, ph i = .new → (.ds (.enq i) : Event T) ∉ log
  items : puts log = claims log ++ d.buffer
  wait : waiters log = d.sinks
  hist : Hist served log
  gone : ∀ i, ph i = .gone → (.ds (.unq i) : Event T) ∈ log ∧
    ∃ e p, Ev.begin i (some e) p ∈ log ∧ Ev.cancel e ∈ log
  done : ∀ i v, Ev.done i v ∈ log → (ph i = .finFast ∨ ph i = .fin) ∧ claimsOf i log = v.toList ∧
    (v = .none → (.ds (.unq i) : Event T) ∈ log ∧ ∃ e p, Ev.begin i (some e) p ∈ log ∧ Ev.cancel e ∈ log)

theorem Inv.ext_ {d : Q T} {ph : OpId → Phase (Option T)} {log : List (Event T)}
    (h : Inv d ph log) (v : Event T) (hv : ∀ x, v ≠ .ds x) (hd : ∀ i w, v ≠ .done i w) :
    Inv d ph (log ++ [v]) := by
  obtain ⟨h1, h2, h3, h4, h5, h6, h7, h8, h9, h10, h11, h12, h13⟩ := h
  have c1 : ∀ i, claimsOf i (log ++ [v]) = claimsOf i log := by
    intro i; cases v <;> simp_all [claimsOf]
  have c2 : puts (log ++ [v]) = puts log := by cases v <;> simp_all [puts]
  have c3 : claims (log ++ [v]) = claims log := by cases v <;> simp_all [claims]
  have c4 : waiters (log ++ [v]) = waiters log := by cases v <;> simp_all [waitStep]
  refine ⟨h1, h2, h3, h4, ?_, ?_, ?_, ?_, ?_, ?_, ?_, ?_, ?_⟩
  · intro i hi; rw [c1]; exact h5 i hi
  · intro i w hi; rw [c1]; exact h6 i w hi
  · intro i hi; rw [c1]; exact h7 i hi
  · intro i hi hm
    rcases List.mem_append.1 hm with h | h
    · exact h8 i hi h
    · simp at h; exact hv _ h.symm
  · rw [c2, c3]; exact h9
  · rw [c4]; exact h10
  · simp only [Hist.snoc]; refine ⟨h11, ?_⟩
    cases v <;> simp_all [served]
  · intro i hi; obtain ⟨hu, e, p, h⟩ := h12 i hi; exact ⟨by simp [hu], e, p, by simp [h]⟩
  · intro i w hm
    rcases List.mem_append.1 hm with h | h
    · obtain ⟨a, b, c⟩ := h13 i w h
      refine ⟨a, by rw [c1]; exact b, ?_⟩
      intro hw; obtain ⟨hu, e, p, h⟩ := c hw; exact ⟨by simp [hu], e, p, by simp [h]⟩
    · simp at h; exact absurd h.symm (hd i w)

set_option maxHeartbeats 1000000 in
def lawful (T : Type) : Lawful (ds T) init where
  Inv d ph log _ := Inv d ph log
  init := by
    constructor <;> simp [init, claimsOf, puts, claims, Hist.nil]
  perm := by intro d ph log pi pi' h _; exact h
  begin := by
    intro d ph log pi i ct p d' h hph hb ha
    simp at ha; subst ha
    exact h.ext_ _ (by simp) (by simp)
  cancel := by intro d ph log pi e h; exact h.ext_ _ (by simp) (by simp)
  reset := by intro d ph log pi e h; exact h.ext_ _ (by simp) (by simp)
  call := by intro d ph log pi x d' h hc; simp at hc; subst hc; exact h
  start := by
    intro d ph log pi i ct p b h hph hb
    obtain ⟨h1, h2, h3, h4, h5, h6, h7, h8, h9, h10, h11, h12, h13⟩ := h
    cases hbuf : d.buffer with
    | cons x rest =>
      have hs : d.sinks = [] := by rcases h1 with h | h; exact h; simp [hbuf] at h
      refine ⟨_, _, _, by simp [start, hbuf, hs]; exact ⟨rfl, rfl, rfl⟩, ?_⟩
      have c1 : ∀ j, claimsOf j (log ++ [.ds (.claim (some i) x)]) =
          claimsOf j log ++ if i = j then [x] else [] := by
        intro j; by_cases hij : i = j <;> simp [claimsOf, hij]
      have hni : claimsOf i log = [] := h7 i (.inl hph)
      simp only [List.map_cons, List.map_nil]
      refine ⟨.inl (by first | exact hs | rfl), (by grind), ?_, ?_, ?_, ?_, ?_, ?_, ?_, ?_, ?_, ?_, ?_⟩
      · grind
      · grind
      · grind
      · grind
      · grind
      · grind
      · simp [puts, claims, hbuf] at h9 ⊢; exact h9
      · simp [waitStep]; grind
      · simp only [Hist.snoc]; refine ⟨h11, ?_⟩; simp [served]; grind
      · grind
      · grind
    | nil =>
      refine ⟨_, _, _, by simp [start, hbuf]; exact ⟨rfl, rfl, rfl⟩, ?_⟩
      have c1 : ∀ j, claimsOf j (log ++ [.ds (.enq i)]) = claimsOf j log := by
        intro j; simp [claimsOf]
      simp only [List.map_cons, List.map_nil]
      have hni : i ∉ d.sinks := by rw [h3]; simp [hph]
      refine ⟨.inr rfl, ?_, ?_, ?_, ?_, ?_, ?_, ?_, ?_, ?_, ?_, ?_, ?_⟩
      · rw [List.nodup_append]; grind
      · grind
      · grind
      · grind
      · grind
      · grind
      · grind
      · simp [puts, claims, hbuf] at h9 ⊢; exact h9
      · simp [waitStep]; grind
      · simp only [Hist.snoc]; exact ⟨h11, trivial⟩
      · grind
      · grind
  fast := by
    intro d ph log pi i v h hph
    obtain ⟨h1, h2, h3, h4, h5, h6, h7, h8, h9, h10, h11, h12, h13⟩ := h
    have c1 : ∀ j, claimsOf j (log ++ [.done i v]) = claimsOf j log := by
      intro j; simp [claimsOf]
    refine ⟨h1, h2, ?_, ?_, ?_, ?_, ?_, ?_, ?_, ?_, ?_, ?_, ?_⟩
    · grind
    · grind
    · grind
    · grind
    · grind
    · grind
    · simpa [puts, claims] using h9
    · simp [waitStep, *]
    · simp only [Hist.snoc]; exact ⟨h11, trivial⟩
    · grind
    · grind
  tryWaiting := by
    intro d ph log pi i e p h hph hb hc
    obtain ⟨h1, h2, h3, h4, h5, h6, h7, h8, h9, h10, h11, h12, h13⟩ := h
    have hv := h4 i (.inr (.inl hph))
    have hm := (h3 i).2 hph
    refine ⟨_, _, by simp [tryCancel, hv, hm]; exact ⟨rfl, rfl⟩, ?_⟩
    have c1 : ∀ j, claimsOf j (log ++ [.ds (.unq i)]) = claimsOf j log := by
      intro j; simp [claimsOf]
    simp only [List.map_cons, List.map_nil]
    refine ⟨?_, ?_, ?_, ?_, ?_, ?_, ?_, ?_, ?_, ?_, ?_, ?_, ?_⟩
    · grind
    · grind
    · grind
    · grind
    · grind
    · grind
    · grind
    · grind
    · simpa [puts, claims] using h9
    · simp [waitStep]; grind
    · simp only [Hist.snoc]; exact ⟨h11, trivial⟩
    · intro j hj
      by_cases hij : j = i
      · subst hij; exact ⟨by simp, e, p, by simp [hb], by simp [hc]⟩
      · simp only [upd, hij, if_false] at hj
        obtain ⟨hu, e', p', h'⟩ := h12 j hj
        exact ⟨by simp [hu], e', p', by simp [h'], by simp [h']⟩
    · grind
  tryTaken := by
    intro d ph log pi i e p h hph hb hc
    obtain ⟨x, hx, _⟩ := h.valT i hph
    refine ⟨_, _, by simp [tryCancel, hx]; exact ⟨rfl, rfl⟩, ?_⟩
    simpa using h
  resume := by
    intro d ph log pi i h hph
    obtain ⟨h1, h2, h3, h4, h5, h6, h7, h8, h9, h10, h11, h12, h13⟩ := h
    have c1 : ∀ j, claimsOf j (log ++ [.done i (d.value i)]) = claimsOf j log := by
      intro j; simp [claimsOf]
    refine ⟨h1, h2, ?_, ?_, ?_, ?_, ?_, ?_, ?_, ?_, ?_, ?_, ?_⟩
    · grind
    · grind
    · grind
    · grind
    · grind
    · grind
    · simpa [puts, claims] using h9
    · simp [waitStep, *]
    · simp only [Hist.snoc]; exact ⟨h11, trivial⟩
    · grind
    · grind
  exec := by
    intro d ph log pi x b h
    obtain ⟨h1, h2, h3, h4, h5, h6, h7, h8, h9, h10, h11, h12, h13⟩ := h
    cases x with
    | put x =>
      cases hs : d.sinks with
      | nil =>
        refine ⟨_, _, _, by simp [exec, hs]; exact ⟨rfl, rfl, rfl⟩, by simp [ops], by simp [ops], ?_⟩
        have c1 : ∀ j, claimsOf j (log ++ [.ds (.put x)]) = claimsOf j log := by
          intro j; simp [claimsOf]
        simp only [List.map_cons, List.map_nil, ops, List.not_mem_nil, if_false]
        refine ⟨.inl (by first | exact hs | rfl), (by grind), (by grind), h4, ?_, ?_, ?_, ?_, ?_, ?_, ?_, ?_, ?_⟩
        · grind
        · grind
        · grind
        · grind
        · simp [puts, claims] at h9 ⊢; simp [h9]
        · simp [waitStep, *]
        · simp only [Hist.snoc]; exact ⟨h11, trivial⟩
        · grind
        · grind
      | cons i rest =>
        have hb : d.buffer = [] := by rcases h1 with h | h; simp [hs] at h; exact h
        have hi : ph i = .waiting := (h3 i).1 (by simp [hs])
        refine ⟨_, _, _, by simp [exec, hs, hb]; exact ⟨rfl, rfl, rfl⟩, by simp [ops], by simp [ops, hi], ?_⟩
        have c1 : ∀ j, claimsOf j (log ++ [.ds (.put x), .ds (.claim (some i) x)]) =
            claimsOf j log ++ if i = j then [x] else [] := by
          intro j; by_cases hij : i = j <;> simp [claimsOf, hij]
        simp only [List.map_cons, List.map_nil, ops, List.mem_singleton]
        rw [hs] at h2 h3 h10
        have c2 : waiters (log ++ [.ds (.put x)]) = i :: rest := by simp [h10, waitStep]
        have hni : i ∉ rest := (List.nodup_cons.1 h2).1
        refine ⟨.inr rfl, (List.nodup_cons.1 h2).2, ?_, ?_, ?_, ?_, ?_, ?_, ?_, ?_, ?_, ?_, ?_⟩
        · grind
        · grind
        · grind
        · grind
        · grind
        · grind
        · simp [puts, claims, hb] at h9 ⊢; simp [h9]
        · have : log ++ [Ev.ds (S := ds T) (.put x), .ds (.claim (some i) x)] =
              (log ++ [.ds (.put x)]) ++ [.ds (.claim (some i) x)] := by simp
          rw [this, waiters_append, c2]; simp [waitStep]
        · rw [Hist.snoc2]; refine ⟨h11, trivial, ?_⟩
          simp only [served, c2]; simp
        · grind
        · grind
    | maybeGet =>
      cases hb : d.buffer with
      | nil =>
        refine ⟨_, _, _, by simp [exec, hb]; exact ⟨rfl, rfl, rfl⟩, by simp [ops], by simp [ops], ?_⟩
        simpa [ops] using ⟨h1, h2, h3, h4, h5, h6, h7, h8, h9, h10, h11, h12, h13⟩
      | cons x rest =>
        have hs : d.sinks = [] := by rcases h1 with h | h; exact h; simp [hb] at h
        refine ⟨_, _, _, by simp [exec, hb]; exact ⟨rfl, rfl, rfl⟩, by simp [ops], by simp [ops], ?_⟩
        have c1 : ∀ j, claimsOf j (log ++ [.ds (.claim none x)]) = claimsOf j log := by
          intro j; simp [claimsOf]
        simp only [List.map_cons, List.map_nil, ops, List.not_mem_nil, if_false]
        refine ⟨.inl (by first | exact hs | rfl), (by grind), (by grind), h4, ?_, ?_, ?_, ?_, ?_, ?_, ?_, ?_, ?_⟩
        · grind
        · grind
        · grind
        · grind
        · simp [puts, claims, hb] at h9 ⊢; simp [h9]
        · simp [waitStep, *]
        · simp only [Hist.snoc]; exact ⟨h11, by simp [served, h10, hs]⟩
        · grind
        · grind

end Verif.Queue
