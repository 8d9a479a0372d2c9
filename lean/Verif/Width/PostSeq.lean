import Verif.Width.PostAck
import Verif.Induct

/-!
# The sequence numbers of `post_ack_mechanism` with arithmetic modulo `N`

`post_seq_` (post-ack.hpp line 152), `node_seq` (line 35) and `poll_seq_` (line 402) have 64 bits. Here every instruction leaves `post_seq_` and
`poll_seq_` modulo `N`, besides the two counters of `Verif/Width/PostAck.lean` modulo `M`. `node_seq` is a copy of `post_seq_`. Simplified: as in
`Verif/PostAck/Model.lean` a post is identified by its `node_seq`, so two posts with the same number are not told apart.
-/

namespace Verif.Width

open Resolver PostAck

/-- `active_agents_` and `acks_left` modulo `M`, `post_seq_` and `poll_seq_` modulo `N`. -/
def paWrap (M N : Nat) (d : PostAck.D) : PostAck.D :=
  { d with active := wrap M d.active, acks := fun n => wrap M (d.acks n), posts := wrap N d.posts, pollSeq := fun a => wrap N (d.pollSeq a) }

/-- `post_ack_mechanism` with all counters of fixed width. -/
abbrev psMach (T : Type) (M N : Nat) : Mach := trunc (mach (PostAck.ds T)) (fun s => { s with d := paWrap M N s.d })

variable {T : Type}

/-- An agent on which nothing is running has not seen more than there is. -/
theorem att_le {s : RSt (PostAck.ds T)} {acts : List (List (Instr (PostAck.ds T)))} (h : RInv (PostAck.lawful T) s acts) {a : Agent}
    (ha : s.d.st a = .on) : s.d.pollSeq a ≤ s.d.posts := by
  obtain ⟨ph, hI, _⟩ := h
  exact (hI.A.cur a ((hI.A.att a).2 (.inl ha))).2

theorem det_lt {s : RSt (PostAck.ds T)} {acts : List (List (Instr (PostAck.ds T)))} (h : RInv (PostAck.lawful T) s acts) {a r k : Nat}
    {l : List (Instr (PostAck.ds T))} (hk : acts[k]? = some (.ds (.det a r) :: l)) : s.d.pollSeq a < s.d.posts := by
  obtain ⟨ph, hI, _⟩ := h
  have hm : (.det a r : PostAck.I T) ∈ dsPend acts := by
    simp only [dsPend, List.mem_flatten, List.mem_map]
    exact ⟨_, ⟨_, List.mem_of_getElem? hk, rfl⟩, by simp [dsl]⟩
  have h1 := hI.B.det a r hm
  have h2 := hI.A.posts
  omega

theorem take_seq {n : Nat} {l : List OpId} {d d' : PostAck.D} (h : take d n l = some d') : d'.pollSeq = d.pollSeq ∧ d'.posts = d.posts := by
  induction l generalizing d with
  | nil => simp only [take, Option.some.injEq] at h; subst h; exact ⟨rfl, rfl⟩
  | cons i l ih =>
    simp only [take] at h
    split at h
    · cases h
    · have := ih h
      exact this

theorem release_seq {d d' : PostAck.D} {a r : Nat} {ps : List (OpId ⊕ PostAck.I T)} {es : List (PostAck.E T)}
    (h : release d a r = some (d', ps, es)) : d'.pollSeq = d.pollSeq ∧ d'.posts = d.posts := by
  simp only [release] at h
  split at h
  · split at h
    · cases h
    · split at h <;> (cases h; exact ⟨rfl, rfl⟩)
  · cases h

/-- No agent has seen more posts than there are, whether it is attached or not. -/
theorem seq_le {k : Conf (mach (PostAck.ds T))} (h : KReach k) (a : Agent) : k.sh.d.pollSeq a ≤ k.sh.d.posts := by
  have fin_le : ∀ (d : PostAck.D) (i : OpId), (∀ b, d.pollSeq b ≤ d.posts) →
      (∀ b, (fin d i).st b = .on → (fin d i).pollSeq b ≤ (fin d i).posts) → ∀ b, (fin d i).pollSeq b ≤ (fin d i).posts := by
    intro d i h1 h2 b
    by_cases hb : b = d.agOf i
    · subst hb
      apply h2
      simp only [fin]; split <;> simp
    · simp only [fin]
      split
      · simp only [upd_ne _ _ hb]; exact h1 b
      · exact h1 b
  revert a
  refine Reach.inv_with (M := mach (PostAck.ds T)) (P := RInv (PostAck.lawful T)) (Q := fun s _ => ∀ a, s.d.pollSeq a ≤ s.d.posts)
    (fun _ hc => reach_inv (PostAck.lawful T) hc) ?_ ?_ ?_ h
  · intro a; exact Nat.le_refl _
  · intro s acts act s' p _ _ hq he a
    cases act with
    | newOp i ct x =>
      simp only [env, admit] at he
      split at he
      · cases he
      · split at he
        · rename_i d' hd
          split at hd
          · cases hd; cases he; exact hq a
          · cases hd
        · cases he
    | cancel e => simp only [env] at he; cases he; exact hq a
    | call x =>
      simp only [env] at he
      split at he
      · rename_i d' hd
        cases he
        cases x <;> simp only [PostAck.call] at hd <;> first | (cases hd; exact hq a) | (split at hd <;> cases hd; exact hq a) | cases hd
      · cases he
    | reset e =>
      simp only [env] at he
      split at he
      · cases he; exact hq a
      · cases he
  · intro s acts k x r b s' p hP hP' hq hk he
    cases x with
    | start i =>
      simp only [Resolver.exec, PostAck.start] at he
      split at he
      · cases he
      · rename_i d' v es hd
        cases he
        split at hd
        · cases hd
        split at hd
        · cases hd
        split at hd
        · split at hd
          · cases hd; exact hq
          · cases hd
        · cases hd
      · rename_i d' es hd
        cases he
        split at hd
        · cases hd
        split at hd
        · cases hd
        split at hd
        · split at hd <;> cases hd
        · cases hd; exact hq
    | setFast i v =>
      simp only [Resolver.exec] at he; cases he
      exact fin_le s.d i hq (fun b hb => att_le hP' hb)
    | resume i =>
      simp only [Resolver.exec] at he; cases he
      exact fin_le s.d i hq (fun b hb => att_le hP' hb)
    | tryCancel i l =>
      simp only [Resolver.exec, PostAck.tryCancel] at he
      split at he
      · cases he
      · rename_i d' v es hd
        cases he
        split at hd
        · cases hd; exact hq
        split at hd
        · cases hd
        split at hd
        · cases hd; exact hq
        · cases hd
    | listen i => simp only [Resolver.exec] at he; split at he <;> (cases he; exact hq)
    | register i =>
      simp only [Resolver.exec] at he
      split at he
      · cases he
      · split at he <;> (cases he; exact hq)
    | transition i nb =>
      simp only [Resolver.exec] at he
      split at he
      · cases he
      · split at he
        · cases he; exact hq
        · split at he <;> (cases he; exact hq)
    | unregister i =>
      simp only [Resolver.exec] at he
      split at he
      · cases he
      · split at he
        · cases he; exact hq
        · split at he <;> cases he
          exact hq
    | complete i => simp only [Resolver.exec] at he; cases he; exact hq
    | cancel e => simp only [Resolver.exec] at he; cases he; exact hq
    | ds y =>
      simp only [Resolver.exec] at he
      split at he
      · cases he
      · rename_i d' ps es hd
        cases he
        intro a
        show d'.pollSeq a ≤ d'.posts
        cases y with
        | post v =>
          simp only [PostAck.exec] at hd
          split at hd
          · split at hd <;> cases hd
            exact Nat.le_succ_of_le (hq a)
          · split at hd <;> cases hd
            rename_i ht
            obtain ⟨e1, e2⟩ := take_seq ht
            rw [e1, e2]; exact Nat.le_succ_of_le (hq a)
        | pdone n => simp only [PostAck.exec] at hd; cases hd; exact hq a
        | attach c =>
          simp only [PostAck.exec] at hd
          split at hd <;> cases hd
          show upd s.d.pollSeq c s.d.posts a ≤ s.d.posts
          simp only [upd_apply]
          split
          · exact Nat.le_refl _
          · exact hq a
        | detach c =>
          simp only [PostAck.exec] at hd
          split at hd
          · cases hd
          · split at hd
            · split at hd <;> cases hd
              rename_i ht
              obtain ⟨e1, e2⟩ := release_seq ht
              rw [e1, e2]; exact hq a
            · cases hd; exact hq a
        | det c t =>
          have hlt := det_lt hP hk
          have hle : upd s.d.pollSeq c (s.d.pollSeq c + 1) a ≤ s.d.posts := by
            simp only [upd_apply]
            split
            · exact hlt
            · exact hq a
          simp only [PostAck.exec] at hd
          split at hd
          · cases hd; exact hle
          · obtain ⟨e1, e2⟩ := release_seq hd
            rw [e1, e2]; exact hle
        | ack c n =>
          simp only [PostAck.exec] at hd
          split at hd <;> cases hd
          exact hq a
        | erase n =>
          simp only [PostAck.exec] at hd
          split at hd <;> cases hd
          exact hq a

theorem ps_reach {M N : Nat} (hM : 0 < M) {k : Conf (psMach T M N)} (h : Reach (psMach T M N) (RSt.init PostAck.init) k)
    (hf : ∀ l, l <+: k.sh.log → (spec l).att.length < M ∧ (spec l).posts < N) :
    KReach (⟨k.sh, k.acts, k.bad⟩ : Conf (mach (PostAck.ds T))) := by
  refine ds_reach (S := PostAck.ds T) (f := paWrap M N)
    (P := fun l => ∀ m, m <+: l → (spec m).att.length < M ∧ (spec m).posts < N) ?_ h (fun l hl m hm => hf m (hm.trans hl))
  intro k hk hl
  obtain ⟨ph, hI, _⟩ := reach_inv (PostAck.lawful T) hk
  have hp : k.sh.d.posts < N := by rw [hI.A.posts]; exact (hl _ (List.prefix_refl _)).2
  have h1 : wrap M k.sh.d.active = k.sh.d.active := by
    apply wrap_of_lt
    rw [hI.A.active]; exact (hl _ (List.prefix_refl _)).1
  have h2 : (fun n => wrap M (k.sh.d.acks n)) = k.sh.d.acks := by
    funext n
    apply wrap_of_lt
    rw [hI.B.acks]; exact owe_few hM _ (fun m hm => (hl m hm).1) n
  have h3 : (fun a => wrap N (k.sh.d.pollSeq a)) = k.sh.d.pollSeq := by
    funext a
    exact wrap_of_lt (Nat.lt_of_le_of_lt (seq_le hk a) hp)
  simp only [paWrap, h1, h2, h3, wrap_of_lt hp]

/-! ## Too many posts -/

/-- The history of `m` posts without agents. -/
def postLog : Nat → List (PostAck.Event Nat)
  | 0 => []
  | m + 1 => postLog m ++ [.ds (.posted m 7), .ds (.pdone m)]

/-- The state after `m` posts without agents. -/
def psSt (m : Nat) : RSt (PostAck.ds Nat) := { RSt.init { PostAck.init with posts := m } with log := postLog m }

theorem many_posts (M N m : Nat) (hm : m < N) : Reach (psMach Nat M N) (RSt.init PostAck.init) ⟨psSt m, List.replicate m [], false⟩ := by
  induction m with
  | zero => exact .init
  | succ m ih =>
    have h1 := (ih (by omega)).step (l := (.env (.call (.post 7)) : Lbl (psMach Nat M N)))
      (c' := (⟨psSt m, List.replicate m [] ++ [[.ds (.post 7)]], false⟩ : Conf (psMach Nat M N))) (by
      simp [Mach.step, env, PostAck.call])
    have hw : wrap N (m + 1) = m + 1 := wrap_of_lt hm
    have h2 := h1.step (l := .run m true)
      (c' := (⟨{ psSt m with d := { (psSt m).d with posts := m + 1 }, log := postLog m ++ [.ds (.posted m 7)] },
        List.replicate m [] ++ [[.ds (.pdone m)]], false⟩ : Conf (psMach Nat M N))) (by
      simp [Mach.step, Resolver.exec, PostAck.exec, psSt, RSt.init, PostAck.init, follow, paWrap, hw]
      simp [wrap])
    have h3 := h2.step (l := .run m true)
      (c' := (⟨psSt (m + 1), List.replicate m [] ++ [[]], false⟩ : Conf (psMach Nat M N))) (by
      simp [Mach.step, Resolver.exec, PostAck.exec, psSt, RSt.init, PostAck.init, paWrap, hw, postLog]
      simp [wrap])
    rw [replicate_last] at h3
    exact h3

theorem postLog_done (m : Nat) (i : OpId) (v : Agent × Option Nat) : (.done i v : PostAck.Event Nat) ∉ postLog m := by
  induction m with
  | zero => simp [postLog]
  | succ m ih => simp [postLog, ih]

theorem spec_postLog (m : Nat) : (spec (postLog m)).posts = m := by
  induction m with
  | zero => rfl
  | succ m ih =>
    have e : postLog (m + 1) = (postLog m ++ [.ds (.posted m 7)]) ++ [.ds (.pdone m)] := by simp [postLog]
    rw [e, spec_append, spec_append]
    simp [Spec.step, ih]

/-- An agent attaches after `N - 1` posts. It polls after the next post, and suspends. -/
theorem ps_false (M N : Nat) (hM : 1 < M) (hN : 1 < N) : ∃ k : Conf (psMach Nat M N), Reach (psMach Nat M N) (RSt.init PostAck.init) k ∧
    Quiescent k ∧ k.bad = false ∧ ∃ before, k.sh.log = before ++ [.ds (.attached 0), .ds (.posted (N - 1) 7), .begin 0 none 0, .ds (.enq 0)] ∧
      (spec before).posts = N - 1 ∧ ∀ v, (.done 0 v : PostAck.Event Nat) ∉ k.sh.log := by
  obtain ⟨m, rfl⟩ : ∃ m, N = m + 1 := ⟨N - 1, by omega⟩
  have hm0 : m ≠ 0 := by omega
  have h0 := many_posts M (m + 1) m (Nat.lt_succ_self m)
  have w1 : wrap M 1 = 1 := wrap_of_lt hM
  have wm : wrap (m + 1) m = m := wrap_of_lt (Nat.lt_succ_self m)
  have wz : wrap (m + 1) (m + 1) = 0 := Nat.mod_self _
  have w0 : ∀ K, wrap K 0 = 0 := fun K => Nat.zero_mod K
  have wu : ∀ (K : Nat) (f : Nat → Nat) (a x : Nat), (∀ b, wrap K (f b) = f b) → wrap K x = x → (fun b => wrap K (upd f a x b)) = upd f a x := by
    intro K f a x h1 h2; funext b; simp only [upd_apply]; split
    · exact h2
    · exact h1 b
  have q1 : ∀ b, wrap (m + 1) (upd (fun _ => 0) 0 m b) = upd (fun _ => 0) 0 m b := by
    intro b; exact congrFun (wu (m + 1) (fun _ => 0) 0 m (fun _ => w0 _) wm) b
  have q2 : ∀ b, wrap M (upd (fun _ => 0) m 1 b) = upd (fun _ => 0) m 1 b := by
    intro b; exact congrFun (wu M (fun _ => 0) m 1 (fun _ => w0 _) w1) b
  have h1 := h0.step (l := (.env (.call (.attach 0)) : Lbl (psMach Nat M (m + 1))))
    (c' := (⟨{ psSt m with d := { (psSt m).d with st := upd (psSt m).d.st 0 .attaching } },
      List.replicate m [] ++ [[.ds (.attach 0)]], false⟩ : Conf (psMach Nat M (m + 1)))) (by
    simp [Mach.step, env, PostAck.call, psSt, RSt.init, PostAck.init])
  have h2 := h1.step (l := .run m true)
    (c' := (⟨{ psSt m with
        d := { (psSt m).d with st := upd (upd (psSt m).d.st 0 .attaching) 0 .on, mech := upd (psSt m).d.mech 0 true, active := 1,
                               pollSeq := upd (fun _ => 0) 0 m }
        log := postLog m ++ [.ds (.attached 0)] },
      List.replicate m [] ++ [[]], false⟩ : Conf (psMach Nat M (m + 1)))) (by
    simp [Mach.step, Resolver.exec, PostAck.exec, psSt, RSt.init, PostAck.init, paWrap, w1, wm, w0, q1])
  have h3 := h2.step (l := (.env (.call (.post 7)) : Lbl (psMach Nat M (m + 1))))
    (c' := (⟨{ psSt m with
        d := { (psSt m).d with st := upd (upd (psSt m).d.st 0 .attaching) 0 .on, mech := upd (psSt m).d.mech 0 true, active := 1,
                               pollSeq := upd (fun _ => 0) 0 m }
        log := postLog m ++ [.ds (.attached 0)] },
      List.replicate m [] ++ [[], [.ds (.post 7)]], false⟩ : Conf (psMach Nat M (m + 1)))) (by
    simp [Mach.step, env, PostAck.call])
  have h4 := h3.step (l := .run (m + 1) true)
    (c' := (⟨{ psSt m with
        d := { (psSt m).d with st := upd (upd (psSt m).d.st 0 .attaching) 0 .on, mech := upd (psSt m).d.mech 0 true, active := 1,
                               pollSeq := upd (fun _ => 0) 0 m, posts := 0, queue := [m], acks := upd (fun _ => 0) m 1 }
        log := postLog m ++ [.ds (.attached 0), .ds (.posted m 7)] },
      List.replicate m [] ++ [[], []], false⟩ : Conf (psMach Nat M (m + 1)))) (by
    simp [Mach.step, Resolver.exec, PostAck.exec, take, psSt, RSt.init, PostAck.init, paWrap, w1, wz, q1, q2, List.set_append_right])
  generalize hs : ({ psSt m with
        d := { (psSt m).d with st := upd (upd (psSt m).d.st 0 .attaching) 0 .on, mech := upd (psSt m).d.mech 0 true, active := 1,
                               pollSeq := upd (fun _ => 0) 0 m, posts := 0, queue := [m], acks := upd (fun _ => 0) m 1 }
        log := postLog m ++ [.ds (.attached 0), .ds (.posted m 7)] } : RSt (PostAck.ds Nat)) = s at h4
  have e1 : s.started 0 = false := by rw [← hs]; rfl
  have e2 : s.d.st 0 = .on := by rw [← hs]; simp
  have e3 : s.log = postLog m ++ [.ds (.attached 0), .ds (.posted m 7)] := by rw [← hs]
  have e4 : s.d.mech 0 = true := by rw [← hs]; simp
  have e5 : s.d.nd 0 = none := by rw [← hs]; rfl
  have e6 : s.d.posts = 0 := by rw [← hs]
  have e7 : s.d.polls = [] := by rw [← hs]; rfl
  have e8 : s.bits 0 = {} := by rw [← hs]; rfl
  have e9 : ∀ b, wrap M (s.d.acks b) = s.d.acks b := by rw [← hs]; exact q2
  have e10 : ∀ b, wrap (m + 1) (s.d.pollSeq b) = s.d.pollSeq b := by rw [← hs]; exact q1
  have e11 : wrap M s.d.active = s.d.active := by rw [← hs]; exact w1
  have e12 : wrap (m + 1) s.d.posts = s.d.posts := by rw [e6]; exact w0 _
  have h5 := h4.step (l := (.env (.newOp 0 none 0) : Lbl (psMach Nat M (m + 1))))
    (c' := (⟨{ s with d := { s.d with agOf := upd s.d.agOf 0 0, st := upd s.d.st 0 (.polling 0) }, ct := upd s.ct 0 none,
                      started := upd s.started 0 true, log := s.log ++ [.begin 0 none 0] },
      List.replicate m [] ++ [[], [], [.start 0]], false⟩ : Conf (psMach Nat M (m + 1)))) (by
    simp [Mach.step, env, PostAck.admit, e1, e2])
  have h6 := h5.step (l := .run (m + 2) true)
    (c' := (⟨{ s with d := { s.d with agOf := upd s.d.agOf 0 0, st := upd s.d.st 0 (.polling 0), polls := [0] }, ct := upd s.ct 0 none,
                      started := upd s.started 0 true, log := s.log ++ [.begin 0 none 0] ++ [.ds (.enq 0)] },
      List.replicate m [] ++ [[], [], [.listen 0]], false⟩ : Conf (psMach Nat M (m + 1)))) (by
    simp [Mach.step, Resolver.exec, PostAck.start, e4, e5, e6, e7, e9, e10, e11, w0, paWrap, List.set_append_right])
  have h7 := h6.step (l := .run (m + 2) true)
    (c' := (⟨{ s with d := { s.d with agOf := upd s.d.agOf 0 0, st := upd s.d.st 0 (.polling 0), polls := [0] }, ct := upd s.ct 0 none,
                      started := upd s.started 0 true, log := s.log ++ [.begin 0 none 0] ++ [.ds (.enq 0)], evt := upd s.evt 0 none },
      List.replicate m [] ++ [[], [], [.transition 0 { listen := true, canc := true }]], false⟩ : Conf (psMach Nat M (m + 1)))) (by
    simp [Mach.step, Resolver.exec, e9, e10, e11, e12, paWrap, List.set_append_right])
  have h8 := h7.step (l := .run (m + 2) true)
    (c' := (⟨{ s with d := { s.d with agOf := upd s.d.agOf 0 0, st := upd s.d.st 0 (.polling 0), polls := [0] }, ct := upd s.ct 0 none,
                      started := upd s.started 0 true, log := s.log ++ [.begin 0 none 0] ++ [.ds (.enq 0)], evt := upd s.evt 0 none,
                      bits := upd s.bits 0 { listen := true, canc := true } },
      List.replicate m [] ++ [[], [], []], false⟩ : Conf (psMach Nat M (m + 1)))) (by
    simp [Mach.step, Resolver.exec, e8, e9, e10, e11, e12, paWrap, List.set_append_right, Bits.meets, Bits.or])
  refine ⟨_, h8, ?_, rfl, postLog m, by simp [e3], spec_postLog m, ?_⟩
  · intro a ha
    simp only [List.mem_append, List.mem_replicate, List.mem_cons, List.not_mem_nil, or_false, or_self] at ha
    rcases ha with ⟨_, h⟩ | h <;> exact h
  · intro v
    simp [e3, postLog_done]

end Verif.Width
