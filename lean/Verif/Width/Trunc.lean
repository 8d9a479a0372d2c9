import Verif.WaitGroup.Props
import Verif.Sequenced.Props
import Verif.Barrier.Props

/-!
# The counters of `wait_group`, `sequenced_event` and `barrier` with arithmetic modulo `M`

The models of these classes use natural numbers for `ctr_` (wait-group.hpp line 176, `std::atomic<size_t>`) and for `seq_`
(sequenced-event.hpp line 33, `std::atomic_uint64_t`; barrier.hpp line 61, `std::atomic<uint64_t>`). Here every instruction leaves the
counter modulo `M`. This is what the code does: the only instructions that increase a counter are the `fetch_add` in `add`
(wait-group.hpp line 90), the `fetch_add` in `raise` (sequenced-event.hpp line 13) and the `store` of `s + 1` (barrier.hpp line 46), and
they do so modulo `2 ^ 64`. `expected_` and `counter_` of a `barrier` are signed (`ptrdiff_t`), they stay integers.
-/

namespace Verif.Width

open Resolver

/-- A counter with `M` values after `n` was stored in it. -/
def wrap (M n : Nat) : Nat := n % M

theorem wrap_of_lt {M n : Nat} (h : n < M) : wrap M n = n := Nat.mod_eq_of_lt h

/-- The machine `N`, with `f` applied to the state after every instruction. -/
abbrev trunc (N : Mach) (f : N.σ → N.σ) : Mach where
  σ := N.σ
  ι := N.ι
  α := N.α
  exec s x b := match N.exec s x b with
    | .ok s' p => .ok (f s') p
    | .block => .block
    | .fault => .fault
  env := N.env

/-- As long as `f` makes no difference, every configuration is one of `N`. -/
theorem trunc_reach {N : Mach} {f : N.σ → N.σ} {s0 : N.σ} {G : N.σ → Prop} (h1 : ∀ s, G (f s) → G s)
    (h2 : ∀ s x b s' p, N.exec s x b = .ok s' p → G s' → G s)
    (h3 : ∀ s acts a s' p, N.env s acts a = some (s', p) → G s' → G s)
    (h4 : ∀ d : Conf N, Reach N s0 d → G d.sh → f d.sh = d.sh)
    {c : Conf (trunc N f)} (h : Reach (trunc N f) s0 c) (hG : G c.sh) : Reach N s0 ⟨c.sh, c.acts, c.bad⟩ := by
  induction h with
  | init => exact .init
  | @step c c' l _ hs ih =>
    obtain ⟨s, acts, bad⟩ := c
    cases l with
    | env a =>
      simp only [Mach.step] at hs
      split at hs
      · simp at hs
      · rename_i hb
        have hb : bad = false := by simpa using hb
        subst hb
        split at hs
        · rename_i s' p he
          simp at hs; subst hs
          refine (ih (h3 _ _ _ _ _ he hG)).step (l := .env a) ?_
          simp [Mach.step, he]
        · simp at hs
    | run k b =>
      simp only [Mach.step] at hs
      split at hs
      · simp at hs
      · rename_i hb
        have hb : bad = false := by simpa using hb
        subst hb
        split at hs
        · rename_i x r hk
          cases he : N.exec s x b with
          | ok s' p =>
            simp only [he, Option.some.injEq] at hs
            subst hs
            have hG' := h1 _ hG
            have hr : Reach N s0 ⟨s', acts.set k (p ++ r), false⟩ := by
              refine (ih (h2 _ _ _ _ _ he hG')).step (l := .run k b) ?_
              simp [Mach.step, hk, he]
            have e := h4 _ hr hG'
            simp only at e
            simp only [e]
            exact hr
          | block => simp [he] at hs
          | fault =>
            simp only [he, Option.some.injEq] at hs
            subst hs
            refine (ih hG).step (l := .run k b) ?_
            simp [Mach.step, hk, he]
        · simp at hs

theorem exec_prefix {S : DS} {s : RSt S} {x : Instr S} {b : Bool} {s' : RSt S} {p : List (Instr S)}
    (h : exec s x b = .ok s' p) : s.log <+: s'.log := by
  cases x <;> simp only [exec] at h
  all_goals repeat' split at h
  all_goals first
    | (simp at h; done)
    | (simp only [Out.ok.injEq] at h; obtain ⟨rfl, -⟩ := h; first | exact List.prefix_append _ _ | exact List.prefix_refl _)

theorem env_prefix {S : DS} {s : RSt S} {acts : List (List (Instr S))} {a : Act S} {s' : RSt S} {p : List (Instr S)}
    (h : env s acts a = some (s', p)) : s.log <+: s'.log := by
  cases a <;> simp only [env] at h
  all_goals repeat' split at h
  all_goals first
    | (simp at h; done)
    | (simp only [Option.some.injEq, Prod.mk.injEq] at h; obtain ⟨rfl, -⟩ := h
       first | exact List.prefix_append _ _ | exact List.prefix_refl _)

/-- The same for a data structure of the resolver machine, with a condition on all prefixes of the history. -/
theorem ds_reach {S : DS} {f : S.D → S.D} {d0 : S.D} {P : List (Ev S) → Prop}
    (h4 : ∀ c : Conf (mach S), Reach (mach S) (RSt.init d0) c → P c.sh.log → f c.sh.d = c.sh.d)
    {c : Conf (trunc (mach S) (fun s => { s with d := f s.d }))}
    (h : Reach (trunc (mach S) (fun s => { s with d := f s.d })) (RSt.init d0) c) (hG : ∀ l, l <+: c.sh.log → P l) :
    Reach (mach S) (RSt.init d0) ⟨c.sh, c.acts, c.bad⟩ := by
  refine trunc_reach (N := mach S) (f := fun s => { s with d := f s.d }) (G := fun s => ∀ l, l <+: s.log → P l) (fun _ h => h) ?_ ?_ ?_ h hG
  · intro s x b s' p he hG l hl
    exact hG l (hl.trans (exec_prefix he))
  · intro s acts a s' p he hG l hl
    exact hG l (hl.trans (env_prefix he))
  · intro d hd hG
    show ({ d.sh with d := f d.sh.d } : RSt S) = d.sh
    rw [h4 d hd (hG _ (List.prefix_refl _))]

/-! ## The machines -/

/-- `wait_group` with `ctr_` modulo `M`. -/
abbrev wgMach (T : Type) (c : WaitGroup.Cfg) (M : Nat) : Mach :=
  trunc (mach (WaitGroup.ds T c)) (fun s => { s with d := { s.d with ctr := wrap M s.d.ctr } })

/-- `sequenced_event` with `seq_` modulo `M`. -/
abbrev seqMach (M : Nat) : Mach :=
  trunc (mach (Recurring.ds Sequenced.prog)) (fun s => { s with d := { s.d with u := wrap M s.d.u } })

/-- `barrier` with `seq_` modulo `M`. -/
abbrev barMach (M : Nat) : Mach :=
  trunc (mach (Recurring.ds Barrier.prog)) (fun s => { s with d := { s.d with u := { s.d.u with seq := wrap M s.d.u.seq } } })

theorem wg_reach {T : Type} {c : WaitGroup.Cfg} (h1 : c.safeAdd = true) (h2 : c.safeDone = true) {n M : Nat} {k : Conf (wgMach T c M)}
    (h : Reach (wgMach T c M) (RSt.init (WaitGroup.init n)) k) (hf : ∀ l, l <+: k.sh.log → WaitGroup.count n l < M) :
    WaitGroup.WReach n (⟨k.sh, k.acts, k.bad⟩ : Conf (mach (WaitGroup.ds T c))) := by
  refine ds_reach (S := WaitGroup.ds T c) (f := fun d => { d with ctr := wrap M d.ctr }) (P := fun l => WaitGroup.count n l < M) ?_ h hf
  intro k hk hl
  obtain ⟨ph, ⟨hA, _⟩, _⟩ := reach_inv (WaitGroup.lawful n h1 h2) hk
  have := hA.cnt
  rw [this] at hl
  show ({ k.sh.d with ctr := wrap M k.sh.d.ctr } : WaitGroup.D T) = k.sh.d
  rw [wrap_of_lt hl]

theorem seq_reach {M : Nat} {c : Conf (seqMach M)} (h : Reach (seqMach M) (RSt.init (Recurring.init (X := Sequenced.prog) (0 : Nat))) c)
    (hf : Sequenced.seqOf c.sh.log < M) : Sequenced.SReach ⟨c.sh, c.acts, c.bad⟩ := by
  refine ds_reach (S := Recurring.ds Sequenced.prog) (f := fun d => { d with u := wrap M d.u })
    (P := fun l => Sequenced.seqOf l < M) ?_ h ?_
  · intro c hc hl
    obtain ⟨ph, hI, _⟩ := reach_inv (Recurring.lawful Sequenced.progOk) hc
    have := hI.user
    rw [Sequenced.uOf_eq] at this
    rw [this] at hl
    show ({ c.sh.d with u := wrap M c.sh.d.u } : Recurring.D Sequenced.prog) = c.sh.d
    rw [wrap_of_lt hl]
  · rintro l ⟨t, ht⟩
    rw [← ht] at hf
    simp only [Sequenced.seqOf, List.countP_append] at hf ⊢
    omega

theorem phases_mono (l t : List (Recurring.Event Barrier.prog)) : Barrier.phases l ≤ Barrier.phases (l ++ t) := by
  have key : ∀ (t : List (Recurring.Event Barrier.prog)) k, k ≤ t.foldl Barrier.phaseStep k := by
    intro t
    induction t with
    | nil => intro k; exact Nat.le_refl k
    | cons v t ih =>
      intro k
      refine Nat.le_trans ?_ (ih _)
      unfold Barrier.phaseStep
      split <;> omega
  simp only [Barrier.phases, List.foldl_append]
  exact key _ _

theorem bar_reach {M e : Nat} {c : Conf (barMach M)}
    (h : Reach (barMach M) (RSt.init (Recurring.init (X := Barrier.prog) (Barrier.start e))) c)
    (hf : Barrier.phases c.sh.log < M) : Barrier.BReach e ⟨c.sh, c.acts, c.bad⟩ := by
  refine ds_reach (S := Recurring.ds Barrier.prog) (f := fun d => { d with u := { d.u with seq := wrap M d.u.seq } })
    (P := fun l => Barrier.phases l < M) ?_ h ?_
  · intro c hc hl
    obtain ⟨ph, hI, _⟩ := reach_inv (Recurring.lawful (Barrier.progOk e)) hc
    have h1 := (Barrier.state_eq e (Barrier.hist_prefix hc (l2 := []) (List.append_nil _).symm)).1
    have := hI.user
    rw [this] at h1
    rw [← h1] at hl
    show ({ c.sh.d with u := { c.sh.d.u with seq := wrap M c.sh.d.u.seq } } : Recurring.D Barrier.prog) = c.sh.d
    rw [wrap_of_lt hl]
  · rintro l ⟨t, ht⟩
    have := phases_mono l t
    rw [ht] at this
    omega

end Verif.Width
