import Verif.Hb.Resolver

/-!
# Happens-before when one activity at a time has the floor

Coroutines hand themselves over from thread to thread: at most one activity at a time runs a coroutine, and whoever continues
it was told to do so by the one that ran it before. This file does not model code of `/repo`.
-/

namespace Verif

variable {M : Mach} {E : Type}

/-- The last event that satisfies `q`. -/
def lastOf (q : E → Bool) (log : List E) : Option E := (log.filter q).getLast?

theorem lastOf_snoc (q : E → Bool) (log : List E) (v : E) :
    lastOf q (log ++ [v]) = if q v then some v else lastOf q log := by
  unfold lastOf
  by_cases h : q v <;> simp [List.filter_append, h]

/-- Where the last event is. -/
theorem lastOf_index {q : E → Bool} {log : List E} {t : E} (h : lastOf q log = some t) :
    ∃ n : Nat, log[n]? = some t ∧ q t = true ∧ ∀ (e : Nat) u, log[e]? = some u → q u = true → e ≤ n := by
  unfold lastOf at h
  obtain ⟨l1, l2, rfl, hl, hr⟩ : ∃ l1 l2, log = l1 ++ t :: l2 ∧ q t = true ∧ ∀ u ∈ l2, q u = false := by
    rw [List.getLast?_eq_head?_reverse, ← List.filter_reverse] at h
    obtain ⟨h1, as, bs, h2, h3⟩ := List.find?_eq_some_iff_append.1 (by rw [← List.head?_filter]; exact h)
    refine ⟨bs.reverse, as.reverse, ?_, h1, fun u hu => by simpa using h3 u (by simpa using hu)⟩
    have := congrArg List.reverse h2
    simpa using this
  refine ⟨l1.length, by simp, hl, fun e u he hu => ?_⟩
  apply Classical.byContradiction
  intro hn
  rw [List.getElem?_append_right (by omega), List.getElem?_cons] at he
  rw [if_neg (by omega)] at he
  have := hr u (List.mem_of_getElem? he)
  simp [this] at hu

/-- `co i v`: event `v` belongs to coroutine `i`. `w i x` is positive if instruction `x` runs coroutine `i`. -/
structure Baton (A : Ann M) (s0 : M.σ) (log : M.σ → List E) (P : Conf M → Prop) (w : Nat → M.ι → Nat)
    (co : Nat → E → Prop) : Prop where
  inv : ∀ c, Reach M s0 c → P c
  len : ∀ s, A.len s = (log s).length
  nil : log s0 = []
  one : ∀ c i, P c → ws (w i) c.acts ≤ 1
  /-- Calls give the floor to somebody only if nobody has it and the caller knows of what happened before. -/
  env : ∀ c a s' p, P c → M.env c.sh c.acts a = some (s', p) → ∃ evs, log s' = log c.sh ++ evs ∧ evs.length ≤ 1 ∧
    (∀ i, ∀ y ∈ p, 0 < w i y → ∃ v ∈ evs, co i v) ∧
    ∀ i, ∀ v ∈ evs, co i v → ws (w i) c.acts = 0 ∧
      ∀ (e : Nat) u, (log c.sh)[e]? = some u → co i u →
        ∃ (n : Nat) (t : E), (log c.sh)[n]? = some t ∧ co i t ∧ e ≤ n ∧ A.entry c.sh a n = true
  /-- Events of the coroutine come from the one who has the floor. -/
  run : ∀ c (k : Nat) x r b s' p, P c → c.acts[k]? = some (x :: r) → M.exec c.sh x b = .ok s' p →
    ∃ evs, log s' = log c.sh ++ evs ∧ evs.length ≤ 1 ∧ (∀ v ∈ evs, ∀ i, co i v → 0 < w i x) ∧
      ∀ y ∈ p, ∀ i, 0 < w i y → 0 < w i x

variable {A : Ann M} {s0 : M.σ} {log : M.σ → List E} {P : Conf M → Prop} {w : Nat → M.ι → Nat} {co : Nat → E → Prop}

theorem floor_pos {acts : List (List M.ι)} {k : Nat} {a : List M.ι} (hk : acts[k]? = some a) {u : M.ι → Nat} {x : M.ι}
    (hx : x ∈ a) (ht : 0 < u x) : 0 < ws u acts := by
  have := ws_pos_of_mem (w := u) (List.mem_of_getElem? hk) hx
  omega

/-- Two activities that have the floor have weight two. -/
theorem floor_two {acts : List (List M.ι)} {k j : Nat} {x y : M.ι} {r c : List M.ι} (hk : acts[k]? = some (x :: r))
    (hj : acts[j]? = some c) (hjk : j ≠ k) (hy : y ∈ c) {u : M.ι → Nat} (hx : 0 < u x) (hy' : 0 < u y) : 2 ≤ ws u acts := by
  have h1 := ws_set u (p := []) hk
  have h2 : (acts.set k ([] ++ r))[j]? = some c := by rw [List.getElem?_set_ne (Ne.symm hjk)]; exact hj
  have h3 := floor_pos h2 hy hy'
  simp at h1 h3
  omega

/-- Everything that one coroutine does is ordered. -/
theorem Baton.ordered (B : Baton A s0 log P w co) {c : Conf M} {m : Mem A.L} (h : HReach A s0 c m) {i : Nat} {e f : Nat}
    {v u : E} (he : (log c.sh)[e]? = some v) (hf : (log c.sh)[f]? = some u) (hv : co i v) (hu : co i u) (hef : e < f) :
    m.hb e f := by
  let _ := A.dec
  have key : ∀ (e : Nat) v i, (log c.sh)[e]? = some v → co i v →
      AllKnow (fun x => 0 < w i x) c.acts m e ∧ Done (co i) (log c.sh) m e := by
    refine HReach.inv (A := A) (s0 := s0) (P := P) (Q := fun s acts m => ∀ (e : Nat) v i, (log s)[e]? = some v → co i v →
      AllKnow (fun x => 0 < w i x) acts m e ∧ Done (co i) (log s) m e) B.inv ?_ ?_ ?_ h
    · simp [B.nil]
    · intro c m a s' p h1 _ hQ he
      obtain ⟨evs, hl, f0, f1, f2⟩ := B.env c a s' p h1 he
      have hlen : (log s').length ≤ (log c.sh).length + 1 := by rw [hl]; simp; exact f0
      rw [B.len, B.len]
      have hknow : ∀ i, (∃ v ∈ evs, co i v) → ∀ (e : Nat) u, (log c.sh)[e]? = some u → co i u →
          m.known (log c.sh).length (A.entry c.sh a) e = true := by
        rintro i ⟨v, hv, hvi⟩ e u heu hui
        obtain ⟨n, t, h3, h4, h5, h6⟩ := (f2 i v hv hvi).2 e u heu hui
        refine Mem.known_of (List.getElem?_eq_some_iff.1 h3).1 h6 ?_
        by_cases hn : n = e
        · exact .inl hn
        · exact .inr ((hQ e u i heu hui).2 n t h3 h4 (by omega))
      intro e v i hev hv
      by_cases hel : e < (log c.sh).length
      · rw [hl, List.getElem?_append_left hel] at hev
        have hK := hQ e v i hev hv
        refine ⟨hK.1.env ?_, hK.2.step hl ?_⟩
        · rintro ⟨y, hy, ht⟩
          exact .inl (hknow i (f1 i y hy ht) e v hev hv)
        · exact fun hw => hknow i hw e v hev hv
      · have hlt := (List.getElem?_eq_some_iff.1 hev).1
        have hve : v ∈ evs := by
          rw [hl, List.getElem?_append_right (by omega)] at hev
          exact List.mem_of_getElem? hev
        refine ⟨?_, ?_⟩
        · intro j b hj y hy hty
          by_cases hjl : j < c.acts.length
          · rw [List.getElem?_append_left hjl] at hj
            have := floor_pos hj hy hty
            have := (f2 i v hve hv).1
            omega
          · have : j = c.acts.length := by have := (List.getElem?_eq_some_iff.1 hj).1; simp at this; omega
            subst this
            exact Mem.act_view_self (.inr ⟨by omega, hlt⟩)
        · intro n u hn _ hlt
          have := (List.getElem?_eq_some_iff.1 hn).1
          omega
    · intro c m k x r b s' p h1 _ hQ hk he
      obtain ⟨evs, hl, f0, f1, f2⟩ := B.run c k x r b s' p h1 hk he
      have hlen : (log s').length ≤ (log c.sh).length + 1 := by rw [hl]; simp; exact f0
      rw [B.len, B.len]
      have hx : ∀ (e : Nat) v i, (log c.sh)[e]? = some v → co i v → 0 < w i x → m.view k e = true :=
        fun e v i hev hv ht => (hQ e v i hev hv).1 k _ hk x (by simp) ht
      intro e v i hev hv
      by_cases hel : e < (log c.sh).length
      · rw [hl, List.getElem?_append_left hel] at hev
        have hK := hQ e v i hev hv
        refine ⟨hK.1.run hk ?_, hK.2.step hl ?_⟩
        · rintro ⟨y, hy, ht⟩
          exact m.acquire_mono _ (hx e v i hev hv (f2 y hy i ht))
        · rintro ⟨u, hu, ht⟩
          exact m.acquire_mono _ (hx e v i hev hv (f1 u hu i ht))
      · have hlt := (List.getElem?_eq_some_iff.1 hev).1
        have hve : v ∈ evs := by
          rw [hl, List.getElem?_append_right (by omega)] at hev
          exact List.mem_of_getElem? hev
        have ht := f1 v hve i hv
        refine ⟨?_, ?_⟩
        · intro j d hj y hy hty
          rw [List.getElem?_set] at hj
          split at hj
          · rename_i hjk; subst hjk
            exact Mem.act_view_self (.inr ⟨by omega, hlt⟩)
          · rename_i hjk
            have := floor_two (u := w i) hk hj (Ne.symm hjk) hy ht hty
            have := B.one c i h1
            omega
        · intro n u hn _ hlt
          have := (List.getElem?_eq_some_iff.1 hn).1
          omega
  exact (key e v i he hv).2 f u hf hu hef

end Verif
