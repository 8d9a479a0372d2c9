import Verif.Width.TruncFalse
import Verif.PostAck.Props

/-!
# The counters of `post_ack_mechanism` with arithmetic modulo `M`

`Verif/PostAck/Model.lean` uses natural numbers for `active_agents_` (post-ack.hpp line 154, `unsigned int`) and `acks_left` (line 36,
`std::atomic<unsigned int>`). Here every instruction leaves them modulo `M`. The only instruction that increases `active_agents_` is the one in
`attach`; `acks_left` is set to `active_agents_` by a post and decreased afterwards. The sequence numbers (64 bits) stay natural numbers here, see
`Verif/Width/PostSeq.lean`.
-/

namespace Verif.Width

open Resolver PostAck

/-- `post_ack_mechanism` with `active_agents_` and `acks_left` modulo `M`. -/
abbrev paMach (T : Type) (M : Nat) : Mach :=
  trunc (mach (PostAck.ds T)) (fun s => { s with d := { s.d with active := wrap M s.d.active, acks := fun n => wrap M (s.d.acks n) } })

variable {T : Type}

theorem owe_few {M : Nat} (hM : 0 < M) (log : List (PostAck.Event T)) (hf : ∀ l, l <+: log → (spec l).att.length < M) (n : Nat) :
    ((spec log).owe n).length < M := by
  induction log using List.reverseRecOn with
  | nil => simpa [spec] using hM
  | append_singleton l v ih =>
    have ih := ih (fun m hm => hf m (hm.trans (List.prefix_append _ _)))
    have ha := hf l (List.prefix_append _ _)
    have er : ∀ (a : Agent) (k : Nat), (upd (spec l).owe k (((spec l).owe k).erase a) n).length ≤ ((spec l).owe n).length := by
      intro a k
      simp only [upd_apply]
      split
      · subst_vars; exact List.length_erase_le
      · exact Nat.le_refl _
    rw [spec_append]
    cases v with
    | ds x =>
      cases x with
      | posted k y =>
        simp only [Spec.step, upd_apply]
        split
        · exact ha
        · exact ih
      | acked a k => exact Nat.lt_of_le_of_lt (er a k) ih
      | released a k => exact Nat.lt_of_le_of_lt (er a k) ih
      | _ => exact ih
    | done i w =>
      obtain ⟨a, o⟩ := w
      cases o <;> exact ih
    | _ => exact ih

theorem pa_reach {M : Nat} (hM : 0 < M) {k : Conf (paMach T M)} (h : Reach (paMach T M) (RSt.init PostAck.init) k)
    (hf : ∀ l, l <+: k.sh.log → (spec l).att.length < M) : KReach (⟨k.sh, k.acts, k.bad⟩ : Conf (mach (PostAck.ds T))) := by
  refine ds_reach (S := PostAck.ds T) (f := fun d => { d with active := wrap M d.active, acks := fun n => wrap M (d.acks n) })
    (P := fun l => ∀ m, m <+: l → (spec m).att.length < M) ?_ h (fun l hl m hm => hf m (hm.trans hl))
  intro k hk hl
  obtain ⟨ph, hI, _⟩ := reach_inv (PostAck.lawful T) hk
  have h1 : wrap M k.sh.d.active = k.sh.d.active := by
    apply wrap_of_lt
    rw [hI.A.active]; exact hl _ (List.prefix_refl _)
  have h2 : (fun n => wrap M (k.sh.d.acks n)) = k.sh.d.acks := by
    funext n
    apply wrap_of_lt
    rw [hI.B.acks]; exact owe_few hM _ hl n
  show ({ k.sh.d with active := wrap M k.sh.d.active, acks := fun n => wrap M (k.sh.d.acks n) } : PostAck.D) = k.sh.d
  rw [h1, h2]

/-! ## Too many agents -/

/-- The history of agents `0, …, m - 1` attaching. -/
def attaches (m : Nat) : List (PostAck.Event Nat) := (List.range m).map (fun a => .ds (.attached a))

theorem attaches_succ (m : Nat) : attaches (m + 1) = attaches m ++ [.ds (.attached m)] := by
  simp [attaches, List.range_succ]

theorem spec_attaches (m : Nat) : (spec (attaches m)).att = List.range m ∧ (spec (attaches m)).posts = 0 := by
  induction m with
  | zero => exact ⟨rfl, rfl⟩
  | succ m ih =>
    rw [attaches_succ, spec_append, List.range_succ]
    simp only [Spec.step, ih.1, ih.2, and_self]

/-- The state after `m` agents attached. -/
def paSt (M m : Nat) : RSt (PostAck.ds Nat) :=
  { RSt.init { PostAck.init with active := m % M, mech := fun a => decide (a < m), st := fun a => if a < m then .on else .off } with
    log := attaches m }

theorem many_agents (M m : Nat) : Reach (paMach Nat M) (RSt.init PostAck.init) ⟨paSt M m, List.replicate m [], false⟩ := by
  induction m with
  | zero =>
    have e : paSt M 0 = RSt.init PostAck.init := by
      simp [paSt, attaches, PostAck.init, RSt.init]
    rw [e]; exact .init
  | succ m ih =>
    have h1 := ih.step (l := (.env (.call (.attach m)) : Lbl (paMach Nat M)))
      (c' := (⟨{ paSt M m with d := { (paSt M m).d with st := upd (paSt M m).d.st m .attaching } },
          List.replicate m [] ++ [[.ds (.attach m)]], false⟩ : Conf (paMach Nat M))) (by
      simp [Mach.step, env, PostAck.call, paSt, RSt.init])
    have h2 := h1.step (l := .run m true)
      (c' := (⟨paSt M (m + 1), List.replicate m [] ++ [[]], false⟩ : Conf (paMach Nat M))) (by
      have e1 : upd (fun a => decide (a < m)) m true = fun a => decide (a < m + 1) := by
        funext a; simp only [upd_apply]; split <;> simp <;> omega
      have e2 : upd (upd (fun a => if a < m then AgSt.on else .off) m .attaching) m .on = fun a => if a < m + 1 then .on else .off := by
        funext a; simp only [upd_apply]; split
        · subst_vars; simp
        · have : a < m ↔ a < m + 1 := by omega
          simp only [this]
      have e3 : upd (fun _ => 0) m 0 = fun _ : Nat => 0 := by
        funext a; simp only [upd_apply]; split <;> rfl
      simp [Mach.step, Resolver.exec, PostAck.exec, paSt, RSt.init, PostAck.init, attaches_succ, e1, e2, e3, wrap])
    rw [replicate_last] at h2
    exact h2

/-- `M` agents are attached; a post completes right away. -/
theorem pa_false (M : Nat) : ∃ k : Conf (paMach Nat M), Reach (paMach Nat M) (RSt.init PostAck.init) k ∧ Quiescent k ∧
    ∃ before, k.sh.log = before ++ [.ds (.posted 0 7), .ds (.pdone 0)] ∧ (spec before).att.length = M ∧ (spec k.sh.log).owe 0 = (spec before).att ∧
      ∀ a n, (.ds (.acked a n) : PostAck.Event Nat) ∉ k.sh.log := by
  have h0 := many_agents M M
  generalize hs : paSt M M = s at h0
  have ha : s.d.active = 0 := by rw [← hs]; exact Nat.mod_self M
  have hp : s.d.polls = [] := by rw [← hs]; rfl
  have hn : s.d.posts = 0 := by rw [← hs]; rfl
  have hk : s.d.acks = fun _ => 0 := by rw [← hs]; rfl
  have hl : s.log = attaches M := by rw [← hs]; rfl
  have h1 := h0.step (l := (.env (.call (.post 7)) : Lbl (paMach Nat M)))
    (c' := (⟨s, List.replicate M [] ++ [[.ds (.post 7)]], false⟩ : Conf (paMach Nat M))) (by
    simp [Mach.step, env, PostAck.call])
  have h2 := h1.step (l := .run M true)
    (c' := (⟨{ s with d := { s.d with posts := 1 }, log := attaches M ++ [.ds (.posted 0 7)] },
      List.replicate M [] ++ [[.ds (.pdone 0)]], false⟩ : Conf (paMach Nat M))) (by
    simp [Mach.step, Resolver.exec, PostAck.exec, ha, hp, hn, hl, follow, hk, wrap])
  have h3 := h2.step (l := .run M true)
    (c' := (⟨{ s with d := { s.d with posts := 1 }, log := attaches M ++ [.ds (.posted 0 7), .ds (.pdone 0)] },
      List.replicate M [] ++ [[]], false⟩ : Conf (paMach Nat M))) (by
    simp [Mach.step, Resolver.exec, PostAck.exec, ha, hk, wrap])
  obtain ⟨g1, g2⟩ := spec_attaches M
  refine ⟨_, h3, ?_, attaches M, rfl, by rw [g1]; simp, ?_, ?_⟩
  · intro a ha
    rw [replicate_last] at ha
    exact (List.mem_replicate.1 ha).2
  · have e : attaches M ++ [.ds (.posted 0 7), .ds (.pdone 0)] = (attaches M ++ [.ds (.posted 0 7)]) ++ [.ds (.pdone 0)] := by simp
    show (spec (attaches M ++ [.ds (.posted 0 7), .ds (.pdone 0)])).owe 0 = _
    rw [e, spec_append, spec_append]
    simp [Spec.step]
  · intro a n hm
    simp [attaches] at hm

end Verif.Width
