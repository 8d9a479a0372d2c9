import Verif.PostAck.Handles

/-!
# Properties of `post_ack_handle`

`given log` and `acks log` list the deliveries and acknowledgements of a history.
-/

namespace Verif.PostAck.Handles

/-- States reachable by programs that respect `Allowed`. -/
inductive HReach : St → Prop where
  | init : HReach .init
  | step {s s' : St} {o : Op} : HReach s → Allowed s o → step s o = .ok s' → HReach s'

theorem HReach.inv {s : St} (h : HReach s) : Inv s := by
  induction h with
  | init => exact inv_init
  | step _ ha hs ih => exact inv_step ih ha hs

/-- Programs. -/
def run (s : St) : List Op → Res
  | [] => .ok s
  | o :: os =>
    match step s o with
    | .ok s' => run s' os
    | r => r

/-- C73. Every delivery is acknowledged at most once, after it was made, and with the mechanism it came from. -/
theorem C73_at_most_once {s : St} (h : HReach s) :
    (∀ n, (acks s.log).count n ≤ 1) ∧
    (∀ m n, .ack m n ∈ s.log → .give m n ∈ s.log ∧ ∀ m', .give m' n ∈ s.log → m' = m) := by
  have hI := h.inv
  refine ⟨fun n => List.nodup_iff_count.1 hI.one n, fun m n ha => ⟨hI.ack m n ha, ?_⟩⟩
  intro m' hm'
  have h1 := hI.ack m n ha
  have key : ∀ l : List Ev, (given l).Nodup → .give m n ∈ l → .give m' n ∈ l → m' = m := by
    intro l
    induction l with
    | nil => simp
    | cons v l ih =>
      intro hn a b
      have hg : ∀ k, .give k n ∈ l → n ∈ given l := fun k hk => mem_given.2 ⟨k, hk⟩
      cases v with
      | give a1 a2 =>
        have e : given (.give a1 a2 :: l) = a2 :: given l := rfl
        rw [e, List.nodup_cons] at hn
        grind
      | _ => exact ih hn (by simpa using a) (by simpa using b)
  exact key _ hI.gives h1 hm'

/-- C73. As long as a delivery is not acknowledged, exactly one variable holds it. -/
theorem C73_one_owner {s : St} (h : HReach s) {n : Nat} (hg : n ∈ given s.log) (ha : n ∉ acks s.log) :
    ∃ x ∈ s.live, (s.val x).nd = some n ∧ (s.val x).acked = false ∧ ∀ y ∈ s.live, (s.val y).nd = some n → y = x := by
  have hI := h.inv
  obtain ⟨x, hx, hn⟩ := hI.open_ n hg ha
  refine ⟨x, hx, hn, ?_, fun y hy hyn => hI.uniq y hy x hx n hyn hn⟩
  obtain ⟨m, -, -, hk⟩ := hI.own x hx n hn
  cases hb : (s.val x).acked with
  | false => rfl
  | true => exact absurd (hk.2 (.inl hb)) ha

/-- C73. When all variables are destroyed, every delivery has been acknowledged exactly once. -/
theorem C73_none_forgotten {s : St} (h : HReach s) (hl : s.live = []) {n : Nat} (hg : n ∈ given s.log) :
    (acks s.log).count n = 1 := by
  have h1 := (C73_at_most_once h).1 n
  have h2 : n ∈ acks s.log := by
    apply Classical.byContradiction
    intro ha
    obtain ⟨x, hx, -⟩ := C73_one_owner h hg ha
    rw [hl] at hx; simp at hx
  have := List.count_pos_iff.2 h2
  omega

/-- Misuse of existing handles: `ack` on an empty or acknowledged handle; access through an empty handle; destruction of a
handle, or assignment to another one, that has not been acknowledged. -/
def Misuse (s : St) : Op → Prop
  | .ack x => x ∈ s.live ∧ ((s.val x).nd = none ∨ (s.val x).acked = true)
  | .deref x => x ∈ s.live ∧ (s.val x).nd = none
  | .destroy x => x ∈ s.live ∧ (s.val x).nd ≠ none ∧ (s.val x).acked = false
  | .assign x y => x ∈ s.live ∧ y ∈ s.live ∧ x ≠ y ∧ (s.val x).nd ≠ none ∧ (s.val x).acked = false
  | _ => False

/-- C73. Operations of a program that respects the contract fail exactly in the cases of `Misuse`. -/
theorem C73_faults_iff {s : St} (h : HReach s) {o : Op} (ha : Allowed s o) : step s o = .fault ↔ Misuse s o := by
  obtain ⟨h1, h2, h3, h4, h5, h6, h7, h8, h9, h10⟩ := h.inv
  obtain ⟨a1, a2⟩ := ha
  cases o with
  | ack x =>
    simp only [step, Op.vars, Misuse] at *
    by_cases hx : x ∈ s.live
    · cases hn : (s.val x).nd with
      | none => simp [hx]
      | some n =>
        obtain ⟨m, hm, -, hk⟩ := h4 x hx n hn
        by_cases hb : (s.val x).acked = true
        · simp [hb, hx]
        · have hg : n ∉ s.gone := fun hg => by
            have := hk.1 (h10 n hg)
            grind
          simp [hb, hg, hx, hm]
    · simp [hx]
  | deref x =>
    simp only [step, Op.vars, Misuse] at *
    by_cases hx : x ∈ s.live
    · cases hn : (s.val x).nd with
      | none => simp [hx]
      | some n =>
        obtain ⟨m, hm, -, hk⟩ := h4 x hx n hn
        have hg : n ∉ s.gone := fun hg => by
          have := hk.1 (h10 n hg)
          grind
        simp [hg, hx]
    · simp [hx]
  | destroy x =>
    simp only [step, Misuse]
    by_cases hx : x ∈ s.live
    · cases hd : (s.val x).done <;> simp [Var.done] at hd <;> simp [hx, hd] <;> grind
    · simp [hx]
  | assign x y =>
    simp only [step, Var.done, Misuse, upd]
    by_cases hx : x ∈ s.live <;> by_cases hy : y ∈ s.live <;> by_cases e : x = y <;>
      cases hn : (s.val x).nd <;> cases hb : (s.val x).acked <;> simp [hx, hy, e, hn, hb, Var.empty] <;> simp_all [Var.empty]
  | ackEnd x =>
    simp only [step, Misuse]
    by_cases hx : x ∈ s.running
    · simp [hx, (h3 x hx).1]
    · simp [hx]
  | _ => simp only [step, Misuse]; split <;> simp

/-- C73. Access through a handle that is not acknowledged reaches a post that is not gone; and the post is delivered. -/
theorem C73_access {s : St} (h : HReach s) {x n : Nat} (hx : x ∈ s.live) (hn : (s.val x).nd = some n)
    (hb : (s.val x).acked = false) (hr : x ∉ s.running) :
    .free n ∉ s.log ∧ n ∉ acks s.log ∧ n ∈ given s.log ∧ ∃ s', step s (.deref x) = .ok s' := by
  have hI := h.inv
  obtain ⟨m, hm, hg, hk⟩ := hI.own x hx n hn
  have ha : n ∉ acks s.log := by grind
  have hgone : n ∉ s.gone := fun hgo => ha (hI.gone n hgo)
  have hfree : ∀ {s : St}, HReach s → .free n ∈ s.log → n ∈ acks s.log := by
    intro s h
    induction h with
    | init => simp [St.init]
    | @step s s' o _ _ hs ih =>
      cases o <;> simp only [step] at hs <;> (repeat' split at hs) <;> simp only [Res.ok.injEq, reduceCtorEq] at hs <;>
        subst hs <;> simp only [swap, acks_append, List.mem_append] <;> grind
  refine ⟨fun hf => ha (hfree h hf), ha, mem_given.2 ⟨m, hg⟩, ?_⟩
  simp only [step, hx, if_true, hn, hgone, if_false]
  exact ⟨_, rfl⟩

/-- C73. `operator bool` says whether the handle was filled by a poll that returned a post: false for a new handle and for the
result of a cancelled poll, true for the result of a successful one; moving and swapping takes it along. -/
theorem C73_bool {s s' : St} :
    (∀ x, step s (.new x) = .ok s' → (s'.val x).bool = false) ∧
    (∀ x m n, step s (.poll x m n) = .ok s' → (s'.val x).bool = n.isSome) ∧
    (∀ x y, x ≠ y → step s (.move x y) = .ok s' → s'.val x = s.val y ∧ (s'.val y).bool = false) ∧
    (∀ x y, x ≠ y → step s (.assign x y) = .ok s' → s'.val x = s.val y ∧ (s'.val y).bool = false) ∧
    (∀ x y, step s (.swap x y) = .ok s' → s'.val x = s.val y ∧ s'.val y = s.val x) ∧
    (∀ x, step s (.assign x x) = .ok s' → s'.val x = s.val x) := by
  refine ⟨?_, ?_, ?_, ?_, ?_, ?_⟩ <;> intros <;> rename_i hs <;> simp only [step] at hs <;> (repeat' split at hs) <;>
    simp only [Res.ok.injEq, reduceCtorEq] at hs <;> subst hs <;> simp [upd, swap, Var.empty, Var.bool] <;>
    first | grind | (rename_i hne _; simp [hne, Ne.symm hne])

/-- C73 is false without the contract: if the code that runs inside of `ack` moves the handle, the new handle counts as not
acknowledged, and the delivery can be acknowledged again (post-ack.hpp line 223 comes after line 221). -/
theorem C73_reentrant_move_false :
    ∃ s, run .init [.poll 0 7 (some 5), .ack 0, .move 1 0, .ackEnd 0, .ack 1, .ackEnd 1, .destroy 0, .destroy 1] = .ok s ∧
      (acks s.log).count 5 = 2 :=
  ⟨_, rfl, rfl⟩

/-- C73 is false without the contract: if the code that runs inside of `ack` destroys the handle, the assertion of the
destructor fails although the post has been acknowledged. -/
theorem C73_reentrant_destroy_false :
    ∃ s, run .init [.poll 0 7 (some 5), .ack 0] = .ok s ∧ 5 ∈ acks s.log ∧ step s (.destroy 0) = .fault :=
  ⟨_, rfl, by decide, rfl⟩

/-- C73 is false without the contract: a handle keeps its pointer after `ack`, so that an access may hit a
post that is gone. -/
theorem C73_access_after_ack_false :
    run .init [.poll 0 7 (some 5), .ack 0, .ackEnd 0, .free 5, .deref 0] = .fault := rfl

/-! ## Examples -/

/-- Two deliveries are moved around, accessed and acknowledged; the first post is destroyed. -/
def prog : List Op :=
  [.poll 0 7 (some 5), .poll 1 8 (some 6), .poll 2 7 none, .swap 0 1, .move 3 0, .assign 0 1, .deref 0, .ack 0, .ackEnd 0,
   .free 5, .assign 0 2, .assign 3 3, .deref 3]

/-- Then the rest is acknowledged, and everything is destroyed. -/
def prog2 : List Op := [.ack 3, .ackEnd 3, .destroy 0, .destroy 1, .destroy 2, .destroy 3]

instance (s : St) (o : Op) : Decidable (Allowed s o) := by
  unfold Allowed
  have : Decidable (∀ h, o = .deref h → (s.val h).acked = false) := by
    cases o with
    | deref h => exact decidable_of_iff ((s.val h).acked = false) (by simp)
    | _ => exact isTrue (by simp)
  infer_instance

/-- Runs a program and checks the contract. -/
def runC (s : St) : List Op → Option St
  | [] => some s
  | o :: os =>
    if Allowed s o then
      match step s o with
      | .ok s' => runC s' os
      | _ => none
    else none

theorem runC_reach {s s' : St} {os : List Op} (h : HReach s) (hr : runC s os = some s') : HReach s' := by
  induction os generalizing s with
  | nil => simp [runC] at hr; subst hr; exact h
  | cons o os ih =>
    simp only [runC] at hr
    repeat' split at hr
    all_goals first | cases hr | skip
    rename_i ha _ t ht
    exact ih (h.step ha ht) hr

theorem prog_ok : ∃ s, runC .init prog = some s ∧ s.live = [3, 2, 1, 0] ∧ (s.val 3).nd = some 6 ∧ (s.val 3).acked = false ∧
    s.running = [] ∧ s.log = [.give 7 5, .give 8 6, .use 5, .ack 7 5, .free 5, .use 6] :=
  ⟨_, rfl, rfl, rfl, rfl, rfl, rfl⟩

theorem prog2_ok : ∃ s, runC .init (prog ++ prog2) = some s ∧ s.live = [] ∧
    s.log = [.give 7 5, .give 8 6, .use 5, .ack 7 5, .free 5, .use 6, .ack 8 6] :=
  ⟨_, rfl, rfl, rfl⟩

example : ∃ s, HReach s ∧ (acks s.log).count 6 ≤ 1 ∧
    (∃ x ∈ s.live, (s.val x).nd = some 6 ∧ (s.val x).acked = false ∧ ∀ y ∈ s.live, (s.val y).nd = some 6 → y = x) ∧
    (.free 6 ∉ s.log ∧ 6 ∉ acks s.log ∧ 6 ∈ given s.log ∧ ∃ s', step s (.deref 3) = .ok s') ∧
    step s (.destroy 3) = .fault := by
  obtain ⟨s, h, h1, h2, h3, h4, h5⟩ := prog_ok
  have hr := runC_reach .init h
  exact ⟨s, hr, (C73_at_most_once hr).1 6, C73_one_owner hr (by rw [h5]; decide) (by rw [h5]; decide),
    C73_access hr (by rw [h1]; decide) h2 h3 (by rw [h4]; simp),
    (C73_faults_iff hr (o := .destroy 3) ⟨by rw [h4]; simp, by simp⟩).2 ⟨by rw [h1]; decide, by rw [h2]; simp, h3⟩⟩

example : ∃ s, HReach s ∧ (acks s.log).count 5 = 1 := by
  obtain ⟨s, h, h1, h2⟩ := prog2_ok
  have hr := runC_reach .init h
  exact ⟨s, hr, C73_none_forgotten hr h1 (by rw [h2]; decide)⟩

example : ∃ s, (s.val 0).bool = true ∧ step .init (.poll 0 7 (some 5)) = .ok s :=
  ⟨_, (C73_bool (s := .init)).2.1 0 7 (some 5) rfl, rfl⟩

end Verif.PostAck.Handles
