import Verif.Hb.Order

/-!
# Program order

An activity that has to do something because of an event knows this event.
-/

namespace Verif

/-- `Ins x q`: instruction `x` is there because of an event with property `Src · q` that its activity knows. Such
instructions lead to events with property `Tgt · q`. -/
structure Carry {M : Mach} (A : Ann M) {E κ : Type} (log : M.σ → List E) (Src : E → κ → Prop) (Ins : M.ι → κ → Prop)
    (Tgt : E → κ → Prop) : Prop where
  len : ∀ s, A.len s = (log s).length
  env : ∀ {s acts a s' p}, M.env s acts a = some (s', p) → ∃ evs, log s' = log s ++ evs ∧
    (∀ y ∈ p, ∀ q, Ins y q → ∃ v ∈ evs, Src v q) ∧ ∀ w ∈ evs, ∀ q, ¬ Tgt w q
  run : ∀ {s x b s' p}, M.exec s x b = .ok s' p → ∃ evs, log s' = log s ++ evs ∧
    (∀ y ∈ p, ∀ q, Ins y q → Ins x q ∨ ∃ v ∈ evs, Src v q) ∧ ∀ w ∈ evs, ∀ q, Tgt w q → Ins x q

/-- An event with property `Src · q` is in the view. -/
def Knows {E κ : Type} (Src : E → κ → Prop) (log : List E) (q : κ) (v : Nat → Bool) : Prop :=
  ∃ (e : Nat) (w : E), log[e]? = some w ∧ Src w q ∧ v e = true

theorem Knows.mono {E κ : Type} {Src : E → κ → Prop} {log evs log' : List E} {q : κ} {v v' : Nat → Bool}
    (h : Knows Src log q v) (hl : log' = log ++ evs) (hv : ∀ e, e < log.length → v e = true → v' e = true) :
    Knows Src log' q v' := by
  obtain ⟨e, w, h1, h2, h3⟩ := h
  have hlt := (List.getElem?_eq_some_iff.1 h1).1
  exact ⟨e, w, by rw [hl, List.getElem?_append_left hlt]; exact h1, h2, hv e hlt h3⟩

theorem Knows.new {E κ : Type} {Src : E → κ → Prop} {log evs log' : List E} {q : κ} {v : Nat → Bool} {w : E}
    (hw : w ∈ evs) (hs : Src w q) (hl : log' = log ++ evs)
    (hv : ∀ e, log.length ≤ e → e < log'.length → v e = true) : Knows Src log' q v := by
  obtain ⟨i, hi⟩ := List.getElem?_of_mem hw
  have hlt := (List.getElem?_eq_some_iff.1 hi).1
  refine ⟨log.length + i, w, ?_, hs, hv _ (by omega) (by rw [hl]; simp; omega)⟩
  rw [hl, List.getElem?_append_right (by omega)]; simpa using hi

theorem Carry.knows {M : Mach} {A : Ann M} {E κ : Type} {log : M.σ → List E} {Src : E → κ → Prop} {Ins : M.ι → κ → Prop}
    {Tgt : E → κ → Prop} (C : Carry A log Src Ins Tgt) {s0 : M.σ} (h0 : log s0 = []) {c : Conf M} {m : Mem A.L}
    (h : HReach A s0 c m) {n : Nat} {w : E} {q : κ} (hn : (log c.sh)[n]? = some w) (hw : Tgt w q) :
    ∃ e v, (log c.sh)[e]? = some v ∧ Src v q ∧ m.hb e n := by
  have key : (∀ (k : Nat) a, c.acts[k]? = some a → ∀ x ∈ a, ∀ q, Ins x q → Knows Src (log c.sh) q (m.view k)) ∧
      ∀ (n : Nat) w q, (log c.sh)[n]? = some w → Tgt w q → Knows Src (log c.sh) q (m.past n) := by
    refine HReach.inv (P := fun _ => True) (Q := fun s acts m =>
      (∀ (k : Nat) a, acts[k]? = some a → ∀ x ∈ a, ∀ q, Ins x q → Knows Src (log s) q (m.view k)) ∧
      ∀ (n : Nat) w q, (log s)[n]? = some w → Tgt w q → Knows Src (log s) q (m.past n)) (fun _ _ => trivial) ?_ ?_ ?_ h
    · exact ⟨by simp, by simp [h0]⟩
    · intro c m a s' p _ _ hQ he
      letI := A.dec
      obtain ⟨evs, hl, h1, h2⟩ := C.env he
      simp only [C.len]
      refine ⟨?_, ?_⟩
      · intro j b hj x hx q hi
        by_cases hjl : j < c.acts.length
        · rw [List.getElem?_append_left hjl] at hj
          exact (hQ.1 j b hj x hx q hi).mono hl fun e _ hv => by rw [Mem.act_view_ne (by omega)]; exact hv
        · have : j = c.acts.length := by have := (List.getElem?_eq_some_iff.1 hj).1; simp at this; omega
          subst this
          simp at hj; subst hj
          obtain ⟨v, hv, hs⟩ := h1 x hx q hi
          exact Knows.new hv hs hl fun e g1 g2 => Mem.act_view_self (.inr ⟨g1, g2⟩)
      · intro n w q hn hw
        by_cases hlt : n < (log c.sh).length
        · rw [hl, List.getElem?_append_left hlt] at hn
          exact (hQ.2 n w q hn hw).mono hl fun e _ hv => by rw [Mem.act_past_old _ _ _ _ _ _ hlt]; exact hv
        · rw [hl, List.getElem?_append_right (by omega)] at hn
          exact absurd hw (h2 w (List.mem_of_getElem? hn) q)
    · intro c m k x r b s' p _ _ hQ hk he
      letI := A.dec
      obtain ⟨evs, hl, h1, h2⟩ := C.run he
      simp only [C.len]
      have hx : ∀ q, Ins x q → Knows Src (log c.sh) q (m.view k) := fun q hq => hQ.1 k _ hk x (by simp) q hq
      refine ⟨?_, ?_⟩
      · intro j b hj y hy q hi
        rw [List.getElem?_set] at hj
        split at hj
        · rename_i e; subst e
          split at hj
          · simp at hj; subst hj
            rcases List.mem_append.1 hy with hy | hy
            · rcases h1 y hy q hi with h3 | ⟨v, hv, hs⟩
              · exact (hx q h3).mono hl fun e _ hv => Mem.act_view_self (.inl (m.acquire_mono _ hv))
              · exact Knows.new hv hs hl fun e g1 g2 => Mem.act_view_self (.inr ⟨g1, g2⟩)
            · exact (hQ.1 k _ hk y (by simp [hy]) q hi).mono hl fun e _ hv =>
                Mem.act_view_self (.inl (m.acquire_mono _ hv))
          · simp at hj
        · exact (hQ.1 j b hj y hy q hi).mono hl fun e _ hv => Mem.act_view_mono hv
      · intro n w q hn hw
        by_cases hlt : n < (log c.sh).length
        · rw [hl, List.getElem?_append_left hlt] at hn
          exact (hQ.2 n w q hn hw).mono hl fun e _ hv => by rw [Mem.act_past_old _ _ _ _ _ _ hlt]; exact hv
        · have hlt' := (List.getElem?_eq_some_iff.1 hn).1
          rw [hl, List.getElem?_append_right (by omega)] at hn
          refine (hx q (h2 w (List.mem_of_getElem? hn) q hw)).mono hl fun e _ hv => ?_
          rw [Mem.act_past_new _ _ _ _ _ _ (by omega) hlt', m.acquire_mono _ hv]; rfl
  obtain ⟨e, v, h1, h2, h3⟩ := key.2 n w q hn hw
  exact ⟨e, v, h1, h2, h3⟩

end Verif
