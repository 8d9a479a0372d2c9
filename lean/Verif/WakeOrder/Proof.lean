import Verif.WakeOrder.Spec

/-!
# The order in which waiting operations are completed

`Line` is what the structure has to guarantee beyond the contract of the resolver: its list of
waiting nodes grows at the end only, and its member functions take nodes off at the front. Some
structures take off all nodes or none (`Whole`), `queue` takes off one node at a time (`Single`).
-/

namespace Verif.Resolver

variable {S : DS} {d0 : S.D}

/-- A structure whose waiting nodes form a queue. -/
structure Line (L : Lawful S d0) where
  /-- The nodes that wait. -/
  q : S.D → List OpId
  mem : ∀ {d ph log pi}, L.Inv d ph log pi → ∀ i, i ∈ q d ↔ ph i = .waiting
  nodup : ∀ {d ph log pi}, L.Inv d ph log pi → (q d).Nodup
  admit : ∀ {d i p d'}, S.admit d i p = some d' → q d' = q d
  start : ∀ {d i b d' r es}, S.start d i b = some (d', r, es) →
    q d' = match r with | none => q d ++ [i] | some _ => q d
  tryCancel : ∀ {d ph log pi i d' r es}, L.Inv d ph log pi → S.tryCancel d i = some (d', r, es) →
    q d' = (q d).erase i ∨ q d' = q d
  fin : ∀ d i, q (S.fin d i) = q d
  call : ∀ {d x d'}, S.call d x = some d' → q d' = q d
  exec : ∀ {d x b d' ps es}, S.exec d x b = some (d', ps, es) →
    q d = ops ps ++ q d'

/-- Member functions take off all nodes or none. -/
def Line.Whole {L : Lawful S d0} (F : Line L) : Prop :=
  ∀ {d x b d' ps es}, S.exec d x b = some (d', ps, es) → ops ps = [] ∨ F.q d' = []

/-- Member functions take off at most one node and complete it at the end. -/
def Line.Single {L : Lawful S d0} (F : Line L) : Prop :=
  ∀ {d x b d' ps es}, S.exec d x b = some (d', ps, es) → F.q d' = F.q d ∧ ps = [] ∨ ∃ i, ps = [.inl i]

/-- What is left to do for an operation that was woken. -/
def Late (i : OpId) (x : Instr S) : Prop :=
  x = .complete i ∨ x = .transition i { compl := true } ∨ x = .unregister i ∨ x = .resume i

/-- The operation has listened, its event is not cancelled, and only its completion is pending. -/
structure Settled (s : RSt S) (acts : List (List (Instr S))) (i : OpId) : Prop where
  st : s.started i = true
  lis : (s.bits i).listen = true
  req : ∀ e, s.ct i = some e → s.req e = false
  late : ∀ x, Pending acts x → x.op = some i → Late i x

theorem Late.op {i : OpId} {x : Instr S} (h : Late i x) : x.op = some i := by
  rcases h with rfl | rfl | rfl | rfl <;> rfl

theorem late_follow {i : OpId} {y : OpId ⊕ S.I} (h : (follow y : Instr S).op = some i) :
    Late i (follow y) := by
  cases y with
  | inl k => simp [follow, Instr.op] at h; subst h; exact .inl rfl
  | inr x => simp [follow, Instr.op] at h

/-- Instructions of one operation push instructions of that operation only. -/
theorem push_op {s s' : RSt S} {x : Instr S} {b : Bool} {p : List (Instr S)} {k : OpId}
    (hx : x.op = some k) (he : exec s x b = .ok s' p) : ∀ y ∈ p, y.op = some k := by
  cases x <;> simp only [exec] at he <;> simp only [Instr.op] at hx
  all_goals
    repeat' split at he
    all_goals simp only [Out.ok.injEq, reduceCtorEq] at he
    all_goals try (obtain ⟨_, rfl⟩ := he)
    all_goals simp_all [Instr.op]

/-- The tokens of operations that were started do not change. -/
theorem ct_run {s s' : RSt S} {x : Instr S} {b : Bool} {p : List (Instr S)}
    (he : exec s x b = .ok s' p) : s'.ct = s.ct ∧ s'.started = s.started := by
  cases x <;> simp only [exec] at he
  all_goals
    repeat' split at he
    all_goals simp only [Out.ok.injEq, reduceCtorEq] at he
    all_goals try (obtain ⟨rfl, _⟩ := he)
    all_goals simp

theorem bits_run {s s' : RSt S} {x : Instr S} {b : Bool} {p : List (Instr S)} {i : OpId}
    (he : exec s x b = .ok s' p) (h : (s.bits i).listen = true) : (s'.bits i).listen = true := by
  cases x <;> simp only [exec] at he
  case transition k nb =>
    repeat' split at he
    all_goals simp only [Out.ok.injEq, reduceCtorEq] at he
    all_goals try (obtain ⟨rfl, _⟩ := he)
    all_goals
      simp only [upd]
      split
      · rename_i hk; subst hk; simp [Bits.or, h]
      · exact h
  all_goals
    repeat' split at he
    all_goals simp only [Out.ok.injEq, reduceCtorEq] at he
    all_goals try (obtain ⟨rfl, _⟩ := he)
    all_goals simpa using h

theorem req_run {s s' : RSt S} {x : Instr S} {b : Bool} {p : List (Instr S)} {e : EvId}
    (he : exec s x b = .ok s' p) (hx : x ≠ .cancel e) : s'.req e = s.req e := by
  cases x <;> simp only [exec] at he
  case cancel e' =>
    simp only [Out.ok.injEq] at he; obtain ⟨rfl, _⟩ := he
    simp only [upd]; split
    · rename_i h; subst h; exact absurd rfl hx
    · rfl
  all_goals
    repeat' split at he
    all_goals simp only [Out.ok.injEq, reduceCtorEq] at he
    all_goals try (obtain ⟨rfl, _⟩ := he)
    all_goals rfl

/-- What a step adds to the history. -/
theorem log_run {s s' : RSt S} {x : Instr S} {b : Bool} {p : List (Instr S)}
    (he : exec s x b = .ok s' p) : ∃ l, s'.log = s.log ++ l ∧
      (l = [] ∨ (∃ es : List S.E, l = es.map .ds) ∨ (∃ k v, l = [.done k v]) ∨ ∃ e, l = [.cancel e]) := by
  cases x <;> simp only [exec] at he
  all_goals
    repeat' split at he
    all_goals simp only [Out.ok.injEq, reduceCtorEq] at he
    all_goals try (obtain ⟨rfl, _⟩ := he)
    all_goals first
      | exact ⟨[], (List.append_nil _).symm, .inl rfl⟩
      | exact ⟨_, rfl, .inr (.inl ⟨_, rfl⟩)⟩
      | exact ⟨_, rfl, .inr (.inr (.inl ⟨_, _, rfl⟩))⟩
      | exact ⟨_, rfl, .inr (.inr (.inr ⟨_, rfl⟩))⟩

theorem log_env {s s' : RSt S} {acts : List (List (Instr S))} {a : Act S} {p : List (Instr S)}
    (he : env s acts a = some (s', p)) : ∃ l, s'.log = s.log ++ l ∧
      (l = [] ∨ (∃ i ct q, l = [.begin i ct q]) ∨ ∃ e, l = [.reset e]) := by
  cases a <;> simp only [env] at he
  · split at he
    · simp at he
    · split at he
      · simp at he; obtain ⟨rfl, _⟩ := he; exact ⟨_, rfl, .inr (.inl ⟨_, _, _, rfl⟩)⟩
      · simp at he
  · simp at he; obtain ⟨rfl, _⟩ := he; exact ⟨[], by simp, .inl rfl⟩
  · split at he
    · simp at he; obtain ⟨rfl, _⟩ := he; exact ⟨[], by simp, .inl rfl⟩
    · simp at he
  · split at he
    · simp at he; obtain ⟨rfl, _⟩ := he; exact ⟨_, rfl, .inr (.inr ⟨_, rfl⟩)⟩
    · simp at he

/-- What the user does, seen by an operation that was started. -/
theorem env_frame {s s' : RSt S} {acts : List (List (Instr S))} {a : Act S} {p : List (Instr S)}
    (he : env s acts a = some (s', p)) {i : OpId} (h : s.started i = true) :
    s'.started i = true ∧ s'.ct i = s.ct i ∧ s'.bits i = s.bits i ∧
      (∀ e, s.req e = false → s'.req e = false) ∧ ∀ x ∈ p, x.op ≠ some i := by
  cases a <;> simp only [env] at he
  · split at he
    · simp at he
    · rename_i k ct q hk
      split at he
      · simp at he; obtain ⟨rfl, rfl⟩ := he
        have hne : i ≠ k := by rintro rfl; exact hk h
        simp [upd, hne, h, Instr.op, Ne.symm hne]
      · simp at he
  · simp at he; obtain ⟨rfl, rfl⟩ := he; simp [h, Instr.op]
  · split at he
    · simp at he; obtain ⟨rfl, rfl⟩ := he; simp [h, Instr.op]
    · simp at he
  · split at he
    · simp at he; obtain ⟨rfl, rfl⟩ := he
      simp only [h, true_and, List.not_mem_nil, false_imp_iff, implies_true, and_true]
      intro e hr; simp only [upd]; split <;> simp [hr]
    · simp at he

theorem env_q {L : Lawful S d0} (F : Line L) {s s' : RSt S} {acts : List (List (Instr S))} {a : Act S}
    {p : List (Instr S)} (he : env s acts a = some (s', p)) : F.q s'.d = F.q s.d := by
  cases a <;> simp only [env] at he
  · split at he
    · simp at he
    · split at he
      · rename_i h; simp at he; obtain ⟨rfl, _⟩ := he; exact F.admit h
      · simp at he
  · simp at he; obtain ⟨rfl, _⟩ := he; rfl
  · split at he
    · rename_i h; simp at he; obtain ⟨rfl, _⟩ := he; exact F.call h
    · simp at he
  · split at he
    · simp at he; obtain ⟨rfl, _⟩ := he; rfl
    · simp at he

theorem Settled.env {s s' : RSt S} {acts : List (List (Instr S))} {a : Act S} {p : List (Instr S)} {i : OpId}
    (h : Settled s acts i) (he : env s acts a = some (s', p)) : Settled s' (acts ++ [p]) i := by
  obtain ⟨h1, h2, h3, h4, h5⟩ := env_frame he h.st
  refine ⟨h1, by rw [h3]; exact h.lis, fun e hc => h4 e (h.req e (h2 ▸ hc)), fun x hx ho => ?_⟩
  rcases pending_append hx with hx | hx
  · exact absurd ho (h5 x hx)
  · exact h.late x hx ho

theorem Core.evt_ct {s : RSt S} {acts : List (List (Instr S))} {ph : OpId → Phase S.V} (hC : Core s acts ph)
    {i : OpId} (h : (s.bits i).listen = true) : s.evt i = s.ct i := by
  have hv := hC.op i
  have hl : (view s acts ph i).l = 1 := by simp [view, h]
  have hp : 3 ≤ (view s acts ph i).ph := by
    have := hv.a2
    clear * - this hl; omega
  have h1 := hv.e1 hp
  exact evt_of_view (hv.e9 hp (by clear * - h1 hl; omega))

/-- The step of a woken operation: the next one, or the receiver is called. -/
theorem Settled.next {s s' : RSt S} {acts : List (List (Instr S))} {ph : OpId → Phase S.V} {x : Instr S}
    {b : Bool} {p : List (Instr S)} {i : OpId} (h : Settled s acts i) (hC : Core s acts ph) (hx : Late i x)
    (he : exec s x b = .ok s' p) : (∃ y, Late i y ∧ p = [y]) ∨ (p = [] ∧ ∃ v, s'.log = s.log ++ [.done i v]) := by
  rcases hx with rfl | rfl | rfl | rfl <;> simp only [exec] at he
  · simp only [Out.ok.injEq] at he; obtain ⟨rfl, rfl⟩ := he
    exact .inl ⟨_, .inr (.inl rfl), rfl⟩
  · have hl := h.lis
    split at he
    · simp at he
    · simp only [Bits.or, hl] at he
      simp only [Bool.or_true, Bool.not_true, Bool.or_false, Bool.false_eq_true, if_false] at he
      split at he
      · simp only [Out.ok.injEq] at he; obtain ⟨rfl, rfl⟩ := he
        exact .inl ⟨_, .inr (.inr (.inl rfl)), rfl⟩
      · simp only [Out.ok.injEq] at he; obtain ⟨rfl, rfl⟩ := he
        exact .inl ⟨_, .inr (.inr (.inr rfl)), rfl⟩
  · split at he
    · simp at he
    · rename_i e hev
      rw [hC.evt_ct h.lis] at hev
      rw [h.req e hev] at he
      simp only [Bool.false_eq_true, if_false] at he
      split at he
      · simp only [Out.ok.injEq] at he; obtain ⟨rfl, rfl⟩ := he
        exact .inl ⟨_, .inr (.inr (.inr rfl)), rfl⟩
      · simp at he
  · simp only [Out.ok.injEq] at he; obtain ⟨rfl, rfl⟩ := he
    exact .inr ⟨rfl, _, rfl⟩

theorem Settled.run {s s' : RSt S} {acts : List (List (Instr S))} {ph : OpId → Phase S.V} {k : Nat}
    {x : Instr S} {r : List (Instr S)} {b : Bool} {p : List (Instr S)} {i : OpId} (h : Settled s acts i)
    (hC : Core s acts ph) (hk : acts[k]? = some (x :: r)) (he : exec s x b = .ok s' p)
    (hn : ∀ e, s.ct i = some e → x ≠ .cancel e) : Settled s' (acts.set k (p ++ r)) i := by
  obtain ⟨h1, h2⟩ := ct_run he
  refine ⟨by rw [h2]; exact h.st, bits_run he h.lis, fun e hc => ?_, fun y hy ho => ?_⟩
  · rw [h1] at hc; rw [req_run he (hn e hc)]; exact h.req e hc
  · rcases pending_set hk hy with hy | hy
    · cases ho' : x.op with
      | some m =>
        have := push_op ho' he y hy
        rw [ho] at this; cases this
        have hl := h.late x (pending_top hk) ho'
        rcases h.next hC hl he with ⟨z, hz, rfl⟩ | ⟨rfl, _⟩
        · simp at hy; subst hy; exact hz
        · simp at hy
      | none =>
        cases x <;> simp [Instr.op] at ho'
        · rename_i e
          simp only [exec, Out.ok.injEq] at he; obtain ⟨_, rfl⟩ := he
          simp only [List.mem_map] at hy
          obtain ⟨m, hm, rfl⟩ := hy
          simp [Instr.op] at ho; subst ho
          exact absurd rfl (hn e (hC.gl.g3 e m hm))
        · simp only [exec] at he
          split at he
          · simp at he
          · simp only [Out.ok.injEq] at he; obtain ⟨_, rfl⟩ := he
            simp only [List.mem_map] at hy
            obtain ⟨z, _, rfl⟩ := hy
            exact late_follow ho
    · exact h.late y hy ho

/-! ## The queue -/

theorem sublist_of_append {i j : OpId} {a b : List OpId} (hnd : (a ++ b).Nodup) (hi : i ∈ b)
    (h : [i, j].Sublist (a ++ b)) : [i, j].Sublist b := by
  induction a with
  | nil => exact h
  | cons k a ih =>
    rw [List.cons_append, List.nodup_cons] at hnd
    rw [List.cons_append] at h
    rcases List.sublist_cons_iff.1 h with h | ⟨r, hr, _⟩
    · exact ih hnd.2 h
    · simp only [List.cons.injEq] at hr
      exact absurd (by simp [hr.1 ▸ hi]) hnd.1

/-- What a step does to the queue. -/
theorem run_q {L : Lawful S d0} (F : Line L) {s s' : RSt S} {x : Instr S} {b : Bool} {p : List (Instr S)}
    {ph : OpId → Phase S.V} {pi : List S.I} (hI : L.Inv s.d ph s.log pi) (he : exec s x b = .ok s' p) :
    F.q s'.d = F.q s.d ∨ (∃ i, x = .start i ∧ F.q s'.d = F.q s.d ++ [i]) ∨
      (∃ i l, x = .tryCancel i l ∧ F.q s'.d = (F.q s.d).erase i) ∨
      (∃ y d' ps es, x = .ds y ∧ S.exec s.d y b = some (d', ps, es) ∧ p = ps.map follow ∧ s'.d = d' ∧
        F.q s.d = ops ps ++ F.q d') := by
  cases x <;> simp only [exec] at he
  case start i =>
    split at he
    · simp at he
    · rename_i h; simp only [Out.ok.injEq] at he; obtain ⟨rfl, _⟩ := he
      exact .inl (F.start h)
    · rename_i h; simp only [Out.ok.injEq] at he; obtain ⟨rfl, _⟩ := he
      exact .inr (.inl ⟨_, rfl, F.start h⟩)
  case tryCancel i l =>
    split at he
    · simp at he
    · rename_i h; simp only [Out.ok.injEq] at he; obtain ⟨rfl, _⟩ := he
      rcases F.tryCancel hI h with h | h
      · exact .inr (.inr (.inl ⟨_, _, rfl, h⟩))
      · exact .inl h
  case ds y =>
    split at he
    · simp at he
    · rename_i h; simp only [Out.ok.injEq] at he; obtain ⟨rfl, rfl⟩ := he
      exact .inr (.inr (.inr ⟨_, _, _, _, rfl, h, rfl, rfl, F.exec h⟩))
  case setFast => simp only [Out.ok.injEq] at he; obtain ⟨rfl, _⟩ := he; exact .inl (F.fin _ _)
  case resume => simp only [Out.ok.injEq] at he; obtain ⟨rfl, _⟩ := he; exact .inl (F.fin _ _)
  all_goals
    repeat' split at he
    all_goals simp only [Out.ok.injEq, reduceCtorEq] at he
    all_goals try (obtain ⟨rfl, _⟩ := he)
    all_goals exact .inl rfl

/-- Nodes taken off together are completed in the order of the queue. -/
theorem split_follow {i j : OpId} {ps : List (OpId ⊕ S.I)} (h : [i, j].Sublist (ops ps)) :
    ∃ u v w, ps.map (follow (S := S)) = u ++ .complete i :: (v ++ .complete j :: w) := by
  have one : ∀ {ps : List (OpId ⊕ S.I)}, j ∈ ops ps →
      ∃ v w, ps.map (follow (S := S)) = v ++ .complete j :: w := by
    intro ps
    induction ps with
    | nil => simp [ops]
    | cons y ps ih =>
      intro h
      cases y with
      | inl k =>
        simp only [ops, List.mem_cons] at h
        rcases h with rfl | h
        · exact ⟨[], ps.map follow, rfl⟩
        · obtain ⟨v, w, e⟩ := ih h; exact ⟨.complete k :: v, w, by simp [follow, e]⟩
      | inr x =>
        obtain ⟨v, w, e⟩ := ih h; exact ⟨.ds x :: v, w, by simp [follow, e]⟩
  induction ps with
  | nil => simp [ops] at h
  | cons y ps ih =>
    cases y with
    | inl k =>
      simp only [ops] at h
      rcases List.sublist_cons_iff.1 h with h | ⟨r, hr, h⟩
      · obtain ⟨u, v, w, e⟩ := ih h; exact ⟨.complete k :: u, v, w, by simp [follow, e]⟩
      · simp only [List.cons.injEq] at hr
        obtain ⟨rfl, rfl⟩ := hr
        obtain ⟨v, w, e⟩ := one (h.subset (by simp))
        exact ⟨[], v, w, by simp [follow, e]⟩
    | inr x =>
      obtain ⟨u, v, w, e⟩ := ih h; exact ⟨.ds x :: u, v, w, by simp [follow, e]⟩

/-- `i` is completed, or `i` is ahead of `j` in the queue, or one call is going to complete `i` and
then `j`. -/
def Ahead {L : Lawful S d0} (F : Line L) (s : RSt S) (acts : List (List (Instr S))) (i j : OpId) : Prop :=
  0 < completions i s.log ∨ [i, j].Sublist (F.q s.d) ∨
    ∃ (m : Nat) (u v w : List (Instr S)) (x : Instr S), Late i x ∧ acts[m]? = some (u ++ x :: (v ++ .complete j :: w))

theorem completions_mono {s : RSt S} {l : List (Ev S)} {i : OpId} (h : 0 < completions i s.log) :
    0 < completions i (s.log ++ l) := by
  have := doneCnt_append i s.log l
  simp only [completions] at *; omega

theorem Ahead.env {L : Lawful S d0} {F : Line L} {s s' : RSt S} {acts : List (List (Instr S))} {a : Act S}
    {p : List (Instr S)} {i j : OpId} (h : Ahead F s acts i j) (he : env s acts a = some (s', p)) :
    Ahead F s' (acts ++ [p]) i j := by
  rcases h with h | h | ⟨m, u, v, w, x, hx, hm⟩
  · obtain ⟨l, hl, _⟩ := log_env he
    left; rw [hl]; exact completions_mono h
  · right; left; rw [env_q F he]; exact h
  · right; right
    refine ⟨m, u, v, w, x, hx, ?_⟩
    rw [List.getElem?_append_left (List.getElem?_eq_some_iff.1 hm).1]; exact hm

theorem Ahead.run {L : Lawful S d0} {F : Line L} {s s' : RSt S} {acts : List (List (Instr S))}
    {ph : OpId → Phase S.V} {pi : List S.I} {k : Nat} {x : Instr S} {r : List (Instr S)} {b : Bool}
    {p : List (Instr S)} {i j : OpId} (h : Ahead F s acts i j) (hI : L.Inv s.d ph s.log pi)
    (hC : Core s acts ph) (hF : F.Whole) (hi : Settled s acts i) (hj : Settled s acts j)
    (hk : acts[k]? = some (x :: r)) (he : exec s x b = .ok s' p) : Ahead F s' (acts.set k (p ++ r)) i j := by
  have hkl := (List.getElem?_eq_some_iff.1 hk).1
  rcases h with h | h | ⟨m, u, v, w, y, hy, hm⟩
  · obtain ⟨l, hl, _⟩ := log_run he
    left; rw [hl]; exact completions_mono h
  · rcases run_q F hI he with e | ⟨n, rfl, e⟩ | ⟨n, l, rfl, e⟩ | ⟨y, d', ps, es, rfl, hx, rfl, hd, e⟩
    · right; left; rw [e]; exact h
    · right; left; rw [e]; exact h.trans (List.sublist_append_left _ _)
    · have h1 : n ≠ i := by
        rintro rfl
        rcases hi.late _ (pending_top hk) rfl with h | h | h | h <;> cases h
      have h2 : n ≠ j := by
        rintro rfl
        rcases hj.late _ (pending_top hk) rfl with h | h | h | h <;> cases h
      right; left; rw [e]
      have := h.erase n
      rwa [List.erase_of_not_mem (by simp [h1, h2])] at this
    · rcases hF hx with e1 | e1
      · right; left; rw [hd]
        rw [e, e1] at h; exact h
      · obtain ⟨u, v, w, e'⟩ := split_follow (S := S) (ps := ps) (i := i) (j := j) (by
          rw [e, e1, List.append_nil] at h; exact h)
        right; right
        refine ⟨k, u, v, w ++ r, _, .inl rfl, ?_⟩
        rw [List.getElem?_set_self hkl, e']; simp
  · by_cases hmk : m = k
    · subst hmk
      rw [hk] at hm
      simp only [Option.some.injEq] at hm
      cases u with
      | nil =>
        simp only [List.nil_append, List.cons.injEq] at hm
        obtain ⟨rfl, rfl⟩ := hm
        rcases hi.next hC hy he with ⟨z, hz, rfl⟩ | ⟨rfl, z, hz⟩
        · right; right
          exact ⟨m, [], v, w, z, hz, by rw [List.getElem?_set_self hkl]; simp⟩
        · left; rw [hz]; simp [completions, doneCnt_append]
      | cons y' u =>
        simp only [List.cons_append, List.cons.injEq] at hm
        obtain ⟨rfl, rfl⟩ := hm
        right; right
        exact ⟨m, p ++ u, v, w, y, hy, by rw [List.getElem?_set_self hkl]; simp⟩
    · right; right
      exact ⟨m, u, v, w, y, hy, by rw [List.getElem?_set_ne (Ne.symm hmk)]; exact hm⟩

/-- A node that is going to be completed is not completed. -/
theorem Core.co_undone {s : RSt S} {acts : List (List (Instr S))} {ph : OpId → Phase S.V} (hC : Core s acts ph)
    {j : OpId} (h : Pending acts (.complete j)) : completions j s.log = 0 := by
  have hv := hC.op j
  obtain ⟨a, ha, hx⟩ := h
  have h1 := ws_pos_of_mem (w := W.co j) ha hx
  have h2 : 0 < (view s acts ph j).co := by
    have h3 : W.co (S := S) j (.complete j) = 1 := by simp [W.co]
    simp only [view]; omega
  have hd : (view s acts ph j).done = completions j s.log := rfl
  have e2 := hv.e2; have a2 := hv.a2; have e4b := hv.e4b; have d1 := hv.d1; have b0 := hv.b0
  clear * - h2 hd e2 a2 e4b d1 b0
  by_cases h3 : (view s acts ph j).ph < 3
  · have := a2 h3; omega
  · have h6 : (view s acts ph j).ph ≠ 6 := by
      intro h6
      have := e2.2 (by omega)
      have := e4b (.inr (by omega))
      omega
    omega

theorem Core.wait_undone {s : RSt S} {acts : List (List (Instr S))} {ph : OpId → Phase S.V} (hC : Core s acts ph)
    {j : OpId} (h : ph j = .waiting) : completions j s.log = 0 := by
  have h1 := hC.done_iff j
  have h2 := hC.done_le j
  rw [h] at h1
  simp only [Phase.code] at h1
  have : ¬ completions j s.log = 1 := by rw [h1]; omega
  omega

theorem Ahead.first {L : Lawful S d0} {F : Line L} {s : RSt S} {acts : List (List (Instr S))}
    {ph : OpId → Phase S.V} {pi : List S.I} {i j : OpId} (h : Ahead F s acts i j) (hI : L.Inv s.d ph s.log pi)
    (hC : Core s acts ph) : 0 < completions i s.log ∨ completions j s.log = 0 := by
  rcases h with h | h | ⟨m, u, v, w, y, hy, hm⟩
  · exact .inl h
  · exact .inr (hC.wait_undone ((F.mem hI j).1 (h.subset (by simp))))
  · exact .inr (hC.co_undone ⟨_, List.mem_of_getElem? hm, by simp⟩)

/-! ## Joining the queue -/

/-- Among the waiting operations, `i` is ahead of `j`; `i` does not join again. -/
structure Order {L : Lawful S d0} (F : Line L) (s : RSt S) (acts : List (List (Instr S))) (i j : OpId) : Prop where
  st : s.started i = true
  no : ¬ Pending acts (.start i)
  ne : i ≠ j
  sub : i ∈ F.q s.d → j ∈ F.q s.d → [i, j].Sublist (F.q s.d)

theorem Order.env {L : Lawful S d0} {F : Line L} {s s' : RSt S} {acts : List (List (Instr S))} {a : Act S}
    {p : List (Instr S)} {i j : OpId} (h : Order F s acts i j) (he : env s acts a = some (s', p)) :
    Order F s' (acts ++ [p]) i j := by
  obtain ⟨h1, _, _, _, h5⟩ := env_frame he h.st
  refine ⟨h1, fun hp => ?_, h.ne, by rw [env_q F he]; exact h.sub⟩
  rcases pending_append hp with hp | hp
  · exact h5 _ hp rfl
  · exact h.no hp

theorem push_start {s s' : RSt S} {x : Instr S} {b : Bool} {p : List (Instr S)} {i : OpId}
    (he : exec s x b = .ok s' p) : (.start i : Instr S) ∉ p := by
  cases x <;> simp only [exec] at he
  case cancel => simp only [Out.ok.injEq] at he; obtain ⟨_, rfl⟩ := he; simp
  case ds =>
    split at he
    · simp at he
    · simp only [Out.ok.injEq] at he; obtain ⟨_, rfl⟩ := he
      simp only [List.mem_map, not_exists, not_and]
      intro y _; cases y <;> simp [follow]
  all_goals
    repeat' split at he
    all_goals simp only [Out.ok.injEq, reduceCtorEq] at he
    all_goals try (obtain ⟨_, rfl⟩ := he)
    all_goals simp

theorem Order.run {L : Lawful S d0} {F : Line L} {s s' : RSt S} {acts : List (List (Instr S))}
    {ph : OpId → Phase S.V} {pi : List S.I} {k : Nat} {x : Instr S} {r : List (Instr S)} {b : Bool}
    {p : List (Instr S)} {i j : OpId} (h : Order F s acts i j) (hI : L.Inv s.d ph s.log pi)
    (hk : acts[k]? = some (x :: r)) (he : exec s x b = .ok s' p) :
    Order F s' (acts.set k (p ++ r)) i j := by
  refine ⟨by rw [(ct_run he).2]; exact h.st, fun hp => ?_, h.ne, ?_⟩
  · rcases pending_set hk hp with hp | hp
    · exact push_start he hp
    · exact h.no hp
  · rcases run_q F hI he with e | ⟨n, rfl, e⟩ | ⟨n, l, rfl, e⟩ | ⟨y, d', ps, es, rfl, hx, rfl, hd, e⟩
    · rw [e]; exact h.sub
    · have h1 : n ≠ i := by rintro rfl; exact h.no (pending_top hk)
      rw [e]
      intro hi hj
      simp only [List.mem_append, List.mem_singleton, Ne.symm h1, or_false] at hi hj
      by_cases hn : j = n
      · subst hn
        exact List.Sublist.append (List.singleton_sublist.2 hi) (List.Sublist.refl [j])
      · exact (h.sub hi (by simpa [hn] using hj)).trans (List.sublist_append_left _ _)
    · rw [e]
      intro hi hj
      have hnd := F.nodup hI
      have h1 : n ≠ i := by rintro rfl; exact (hnd.not_mem_erase hi)
      have h2 : n ≠ j := by rintro rfl; exact (hnd.not_mem_erase hj)
      have := (h.sub (List.mem_of_mem_erase hi) (List.mem_of_mem_erase hj)).erase n
      rwa [List.erase_of_not_mem (by simp [h1, h2])] at this
    · rw [hd]
      intro hi hj
      have hnd := F.nodup hI
      rw [e] at hnd
      have h1 := h.sub (by rw [e]; simp [hi]) (by rw [e]; simp [hj])
      rw [e] at h1
      exact sublist_of_append hnd hi h1

/-! ## Suspended operations -/

theorem Core.suspended {c : Conf (mach S)} {ph : OpId → Phase S.V} (hC : Core c.sh c.acts ph) {i : OpId}
    (h : Suspended c i) : ph i = .waiting ∧ Settled c.sh c.acts i := by
  obtain ⟨⟨ct, p, hb⟩, hd, hp⟩ := h
  have hs := hC.begin_started hb
  have hz : ∀ w : Instr S → Nat, (∀ x, off i x → w x = 0) → ws w c.acts = 0 := by
    intro w hw
    apply Classical.byContradiction
    intro hn
    obtain ⟨a, ha, x, hx, h0⟩ := exists_of_ws_pos (w := w) (acts := c.acts) (by omega)
    have := hw x (hp x ⟨a, ha, hx⟩)
    omega
  have z1 := hz (W.sta i) fun x h => (W.off h).1
  have z2 := hz (W.fas i) fun x h => (W.off h).2.1
  have z3 := hz (W.lis i) fun x h => (W.off h).2.2.1
  have z4 := hz (W.reg i) fun x h => (W.off h).2.2.2.1
  have z5 := hz (W.tryL i) fun x h => (W.off h).2.2.2.2.1
  have z6 := hz (W.tryC i) fun x h => (W.off h).2.2.2.2.2.1
  have z7 := hz (W.trL i) fun x h => (W.off h).2.2.2.2.2.2.1
  have z8 := hz (W.trC i) fun x h => (W.off h).2.2.2.2.2.2.2.1
  have z9 := hz (W.trX i) fun x h => (W.off h).2.2.2.2.2.2.2.2.1
  have z10 := hz (W.un i) fun x h => (W.off h).2.2.2.2.2.2.2.2.2.1
  have z11 := hz (W.res i) fun x h => (W.off h).2.2.2.2.2.2.2.2.2.2.1
  have z12 := hz (W.co i) fun x h => (W.off h).2.2.2.2.2.2.2.2.2.2.2
  have hv := hC.op i
  have hr := hv.rest (by simp only [view]; exact ⟨z1, z2, z3, z4, z5, z6, z7, z8, z9, z10, z11, z12⟩)
    (by simp [view, hs])
  have hph : (view c.sh c.acts ph i).ph = (ph i).code := rfl
  have hdone := hC.done_iff i
  rw [hd] at hdone
  have h3 : (view c.sh c.acts ph i).ph = 3 ∧ (view c.sh c.acts ph i).reqd = 0 := by
    rcases hr with h | h | ⟨h, h', _⟩
    · exact absurd (hdone.2 (.inl h)) (by omega)
    · exact absurd (hdone.2 (.inr h)) (by omega)
    · exact ⟨h, h'⟩
  have h4 := hv.e1 (by omega)
  have h5 : (view c.sh c.acts ph i).l = 1 := by
    simp only [view] at h4 ⊢; omega
  refine ⟨?_, hs, ?_, ?_, fun x hx ho => absurd ho (hp x hx)⟩
  · have := h3.1; rw [hph] at this
    cases h' : ph i <;> simp [h', Phase.code] at this ⊢
  · simp only [view] at h5
    cases hl : (c.sh.bits i).listen <;> simp [hl] at h5 ⊢
  · intro e he
    have := h3.2
    simp only [view, reqd, he] at this
    cases hr : c.sh.req e <;> simp [hr] at this ⊢

/-! ## Executions -/

theorem runs_reach {c c' : Conf (mach S)} {ls : List (Lbl (mach S))} (h : Reach (mach S) (RSt.init d0) c)
    (hr : (mach S).runs c ls = some c') : Reach (mach S) (RSt.init d0) c' := h.of_runs hr

/-- A step of a machine that does not fault. -/
theorem step_cases {c c' : Conf (mach S)} {l : Lbl (mach S)} (h : (mach S).step c l = some c')
    (hb : c'.bad = false) : (∃ a p, env c.sh c.acts a = some (c'.sh, p) ∧ c'.acts = c.acts ++ [p]) ∨
      (∃ k x r b p, c.acts[k]? = some (x :: r) ∧ exec c.sh x b = .ok c'.sh p ∧ c'.acts = c.acts.set k (p ++ r)) := by
  cases l with
  | env a =>
    simp only [Mach.step] at h
    split at h
    · simp at h
    · split at h
      · rename_i s' p he
        simp at h; subst h
        exact .inl ⟨a, p, he, rfl⟩
      · simp at h
  | run k b =>
    simp only [Mach.step] at h
    split at h
    · simp at h
    · split at h
      · rename_i x r hk
        split at h
        · rename_i s' p he
          simp at h; subst h
          exact .inr ⟨k, x, r, b, p, hk, he, rfl⟩
        · simp at h
        · simp at h; subst h; simp at hb
      · simp at h

theorem order_runs {L : Lawful S d0} {F : Line L} {i j : OpId} {ls : List (Lbl (mach S))}
    {c c' : Conf (mach S)} (h : Reach (mach S) (RSt.init d0) c) (hr : (mach S).runs c ls = some c')
    (ho : Order F c.sh c.acts i j) : Order F c'.sh c'.acts i j := by
  induction ls generalizing c with
  | nil => simp [Mach.runs] at hr; subst hr; exact ho
  | cons l ls ih =>
    simp only [Mach.runs] at hr
    split at hr
    · rename_i c1 hs
      have h1 : Reach (mach S) (RSt.init d0) c1 := .step h hs
      refine ih h1 hr ?_
      obtain ⟨ph, hI, hC⟩ := reach_inv L h
      rcases step_cases hs (bad_false L h1) with ⟨a, p, he, ha⟩ | ⟨k, x, r, b, p, hk, he, ha⟩
      · rw [ha]; exact ho.env he
      · rw [ha]; exact ho.run hI hk he
    · simp at hr

/-- The history only grows. -/
theorem log_step {c c' : Conf (mach S)} {l : Lbl (mach S)} (h : (mach S).step c l = some c')
    (hb : c'.bad = false) : ∃ l, c'.sh.log = c.sh.log ++ l := by
  rcases step_cases h hb with ⟨a, p, he, _⟩ | ⟨k, x, r, b, p, hk, he, _⟩
  · obtain ⟨l, h, _⟩ := log_env he; exact ⟨l, h⟩
  · obtain ⟨l, h, _⟩ := log_run he; exact ⟨l, h⟩

theorem log_runs (L : Lawful S d0) {ls : List (Lbl (mach S))} {c c' : Conf (mach S)}
    (h : Reach (mach S) (RSt.init d0) c) (hr : (mach S).runs c ls = some c') :
    ∃ l, c'.sh.log = c.sh.log ++ l := by
  induction ls generalizing c with
  | nil => simp [Mach.runs] at hr; subst hr; exact ⟨[], by simp⟩
  | cons l ls ih =>
    simp only [Mach.runs] at hr
    split at hr
    · rename_i c1 hs
      have h1 : Reach (mach S) (RSt.init d0) c1 := .step h hs
      obtain ⟨l1, e1⟩ := log_step hs (bad_false L h1)
      obtain ⟨l2, e2⟩ := ih h1 hr
      exact ⟨l1 ++ l2, by rw [e2, e1]; simp⟩
    · simp at hr

/-- What is kept once both operations wait. -/
structure Both (c : Conf (mach S)) (i j : OpId) : Prop where
  ne : i ≠ j
  si : Settled c.sh c.acts i
  sj : Settled c.sh c.acts j
  fst : First i j c.sh.log

theorem First.append {i j : OpId} {log l : List (Ev S)} (h : First i j log)
    (hl : ∀ v, Ev.done j v ∈ l → False) : First i j (log ++ l) := by
  intro l1 v l2 e
  rcases List.append_eq_append_iff.1 e with ⟨m, e1, e2⟩ | ⟨m, e1, e2⟩
  · exact (hl v (by rw [e2]; simp)).elim
  · cases m with
    | nil =>
      simp only [List.nil_append] at e2
      exact (hl v (by rw [← e2]; simp)).elim
    | cons y m =>
      simp only [List.cons_append, List.cons.injEq] at e2
      exact h l1 v m (by rw [e1, ← e2.1])

theorem First.snoc {i j : OpId} {log : List (Ev S)} {v : S.V} (h : First i j log)
    (hd : ∃ w, Ev.done i w ∈ log) : First i j (log ++ [.done j v]) := by
  have h1 : Hist (fun (l1 : List (Ev S)) (w : Ev S) => ∀ v, w = .done j v → ∃ w, Ev.done i w ∈ l1) log := by
    intro l1 w l2 e v hv; subst hv; exact h l1 v l2 e
  have h2 := Hist.snoc.2 ⟨h1, (fun _ _ => hd : ∀ v', (Ev.done j v : Ev S) = .done j v' → _)⟩
  intro l1 v l2 e
  exact h2 l1 _ l2 e v rfl

theorem done_mem {i : OpId} {log : List (Ev S)} (h : 0 < completions i log) : ∃ w, Ev.done i w ∈ log := by
  obtain ⟨v, hv, h⟩ := List.countP_pos_iff.1 h
  cases v <;> simp [isDone] at h
  subst h; exact ⟨_, hv⟩

theorem not_done {j : OpId} {log : List (Ev S)} (h : completions j log = 0) (v : S.V) : Ev.done j v ∉ log := by
  intro hv
  have : 0 < completions j log := List.countP_pos_iff.2 ⟨_, hv, by simp [isDone]⟩
  omega

theorem Both.step (L : Lawful S d0) {c c' : Conf (mach S)} {i j : OpId} {l : Lbl (mach S)}
    (h : Both c i j) (hr : Reach (mach S) (RSt.init d0) c) (hs : (mach S).step c l = some c')
    (hn : ∀ k e, k = i ∨ k = j → c.sh.ct k = some e → c'.sh.log ≠ c.sh.log ++ [.cancel e])
    (hf : 0 < completions i c'.sh.log ∨ completions j c'.sh.log = 0) : Both c' i j := by
  have hr' : Reach (mach S) (RSt.init d0) c' := .step hr hs
  obtain ⟨ph, hI, hC⟩ := reach_inv L hr
  rcases step_cases hs (bad_false L hr') with ⟨a, p, he, ha⟩ | ⟨k, x, r, b, p, hk, he, ha⟩
  · obtain ⟨m, hm, hm'⟩ := log_env he
    refine ⟨h.ne, by rw [ha]; exact h.si.env he, by rw [ha]; exact h.sj.env he, ?_⟩
    rw [hm]
    refine h.fst.append fun v hv => ?_
    rcases hm' with rfl | ⟨_, _, _, rfl⟩ | ⟨_, rfl⟩ <;> simp at hv
  · have hc : ∀ k e, k = i ∨ k = j → c.sh.ct k = some e → x ≠ .cancel e := by
      rintro k e hk' hct rfl
      simp only [exec, Out.ok.injEq] at he
      exact hn k e hk' hct (by rw [← he.1])
    refine ⟨h.ne, by rw [ha]; exact h.si.run hC hk he (fun e => hc i e (.inl rfl)),
      by rw [ha]; exact h.sj.run hC hk he (fun e => hc j e (.inr rfl)), ?_⟩
    obtain ⟨m, hm, hm'⟩ := log_run he
    by_cases hj : ∃ v, m = [.done j v]
    · obtain ⟨v, rfl⟩ := hj
      rw [hm]
      refine h.fst.snoc (done_mem ?_)
      rcases hf with h1 | h1
      · rw [hm] at h1
        simp only [completions, doneCnt_append, doneCnt_done, Ne.symm h.ne, if_false] at h1
        exact h1
      · rw [hm] at h1; simp [completions, doneCnt_append] at h1
    · rw [hm]
      refine h.fst.append fun v hv => ?_
      rcases hm' with rfl | ⟨_, rfl⟩ | ⟨n, v', rfl⟩ | ⟨_, rfl⟩
      · simp at hv
      · simp at hv
      · simp at hv; obtain ⟨rfl, rfl⟩ := hv; exact hj ⟨_, rfl⟩
      · simp at hv

theorem ct_step {c c' : Conf (mach S)} {l : Lbl (mach S)} (hs : (mach S).step c l = some c')
    (hb : c'.bad = false) {k : OpId} (h : c.sh.started k = true) : c'.sh.ct k = c.sh.ct k := by
  rcases step_cases hs hb with ⟨a, p, he, ha⟩ | ⟨k, x, r, b, p, hk, he, ha⟩
  · exact (env_frame he h).2.1
  · rw [(ct_run he).1]

/-- Two operations that wait, with a reason `A` why the first one is served first. -/
theorem Both.runs (L : Lawful S d0) {i j : OpId} (A : RSt S → List (List (Instr S)) → Prop)
    (G : Conf (mach S) → List (Lbl (mach S)) → Prop)
    (hG : ∀ {c c' l ls}, G c (l :: ls) → (mach S).step c l = some c' → G c' ls)
    (hA : ∀ {c c' l ls}, Reach (mach S) (RSt.init d0) c → Settled c.sh c.acts i → Settled c.sh c.acts j →
      G c (l :: ls) → (mach S).step c l = some c' → A c.sh c.acts → A c'.sh c'.acts)
    (hF : ∀ {c : Conf (mach S)}, Reach (mach S) (RSt.init d0) c → A c.sh c.acts →
      0 < completions i c.sh.log ∨ completions j c.sh.log = 0)
    {ls : List (Lbl (mach S))} {c c' : Conf (mach S)} (h : Both c i j) (ha : A c.sh c.acts) (hg : G c ls)
    (hr : Reach (mach S) (RSt.init d0) c) (hrun : (mach S).runs c ls = some c')
    (hn : ∀ k e, k = i ∨ k = j → c.sh.ct k = some e → Ev.cancel e ∉ c'.sh.log.drop c.sh.log.length) :
    First i j c'.sh.log := by
  induction ls generalizing c with
  | nil => simp [Mach.runs] at hrun; subst hrun; exact h.fst
  | cons l ls ih =>
    simp only [Mach.runs] at hrun
    split at hrun
    · rename_i c1 hs
      have h1 : Reach (mach S) (RSt.init d0) c1 := .step hr hs
      have hb := bad_false L h1
      obtain ⟨m, hm⟩ := log_step hs hb
      obtain ⟨m', hm'⟩ := log_runs L h1 hrun
      have hall : c'.sh.log = c.sh.log ++ (m ++ m') := by rw [hm', hm]; simp
      have a1 : A c1.sh c1.acts := hA hr h.si h.sj hg hs ha
      refine ih (h.step L hr hs ?_ (hF h1 a1)) a1 (hG hg hs) h1 hrun ?_
      · intro k e hk hct hl
        apply hn k e hk hct
        rw [hm] at hl
        have : m = [.cancel e] := List.append_cancel_left hl
        rw [hall, List.drop_left, this]; simp
      · intro k e hk hct hl
        have hst : c.sh.started k = true := hk.elim (fun e => e ▸ h.si.st) (fun e => e ▸ h.sj.st)
        rw [ct_step hs hb hst] at hct
        apply hn k e hk hct
        rw [hm', List.drop_left] at hl
        rw [hall, List.drop_left]; simp [hl]
    · simp at hrun

/-- What holds once both operations wait in line. -/
theorem InLine.both {L : Lawful S d0} (F : Line L) {i j : OpId} {c1 c2 : Conf (mach S)}
    (h : InLine d0 i j c1 c2) : Reach (mach S) (RSt.init d0) c2 ∧ i ≠ j ∧ Settled c2.sh c2.acts i ∧
      Settled c2.sh c2.acts j ∧ [i, j].Sublist (F.q c2.sh.d) ∧ First i j c2.sh.log := by
  obtain ⟨ls1, hr1⟩ := h.runs
  have h2 := h.reach.of_runs hr1
  obtain ⟨ph1, hI1, hC1⟩ := reach_inv L h.reach
  obtain ⟨ph2, hI2, hC2⟩ := reach_inv L h2
  obtain ⟨w1, s1⟩ := hC1.suspended h.first
  obtain ⟨w2, s2⟩ := hC2.suspended h.still
  obtain ⟨w3, s3⟩ := hC2.suspended h.second
  have hne : i ≠ j := by
    rintro rfl
    obtain ⟨⟨ct, p, hb⟩, _⟩ := h.first
    exact h.later ct p hb
  have hns : c1.sh.started j = false := by
    cases hs : c1.sh.started j with
    | false => rfl
    | true =>
      obtain ⟨p, hp⟩ := hC1.gl.g4 j hs
      exact absurd hp (h.later _ _)
  have ho : Order F c1.sh c1.acts i j := by
    refine ⟨s1.st, fun hp => h.first.2.2 _ hp rfl, hne, fun _ hj => ?_⟩
    have hw := (F.mem hI1 j).1 hj
    have := (hC1.op j).a3 (by simp [view, hns])
    simp only [view, hw, Phase.code] at this
    omega
  have ho2 := order_runs h.reach hr1 ho
  refine ⟨h2, hne, s2, s3, ho2.sub ((F.mem hI2 i).2 w2) ((F.mem hI2 j).2 w3), ?_⟩
  intro l1 v l2 e
  exact absurd (by rw [e]; simp) (not_done h.second.2.1 v)

theorem NotCancelled.ct {L : Lawful S d0} {c2 c3 : Conf (mach S)} {k : OpId} (h : NotCancelled c2 c3 k)
    (hr : Reach (mach S) (RSt.init d0) c2) (hs : c2.sh.started k = true) (e : EvId) (he : c2.sh.ct k = some e) :
    Ev.cancel e ∉ c3.sh.log.drop c2.sh.log.length := by
  obtain ⟨ph, _, hC⟩ := reach_inv L hr
  obtain ⟨p, hp⟩ := hC.gl.g4 k hs
  rw [he] at hp; exact h e p hp

/-- Operations that wait in line are completed in this order if all of them are woken at once. -/
theorem first_of_whole {L : Lawful S d0} {F : Line L} (hF : F.Whole) {i j : OpId} {c1 c2 c3 : Conf (mach S)}
    {ls : List (Lbl (mach S))} (h : InLine d0 i j c1 c2) (hr : (mach S).runs c2 ls = some c3)
    (hi : NotCancelled c2 c3 i) (hj : NotCancelled c2 c3 j) : First i j c3.sh.log := by
  obtain ⟨h2, hne, s2, s3, hs, hf⟩ := h.both F
  refine Both.runs L (fun s acts => Ahead F s acts i j) (fun _ _ => True) (fun _ _ => trivial) ?_ ?_
    ⟨hne, s2, s3, hf⟩ (.inr (.inl hs)) trivial h2 hr ?_
  · intro c c' l ls hr hi hj _ hs ha
    obtain ⟨ph, hI, hC⟩ := reach_inv L hr
    rcases step_cases hs (bad_false L (.step hr hs)) with ⟨a, p, he, e⟩ | ⟨k, x, r, b, p, hk, he, e⟩
    · simp only [e]; exact ha.env he
    · simp only [e]; exact ha.run hI hC hF hi hj hk he
  · intro c hr ha
    obtain ⟨ph, hI, hC⟩ := reach_inv L hr
    exact ha.first hI hC
  · rintro k e hk hct
    rcases hk with rfl | rfl
    · exact hi.ct (L := L) h2 s2.st e hct
    · exact hj.ct (L := L) h2 s3.st e hct

/-! ## Structures that wake one operation at a time -/

/-- `i` is completed, or `i` is ahead of `j` in the queue and at most one member function is about to
take effect, or a call is completing `i`, `j` waits and no member function is about to take effect. -/
def Ahead1 {L : Lawful S d0} (F : Line L) (s : RSt S) (acts : List (List (Instr S))) (i j : OpId) : Prop :=
  0 < completions i s.log ∨ ([i, j].Sublist (F.q s.d) ∧ (dsPend acts).length ≤ 1) ∨
    (j ∈ F.q s.d ∧ dsPend acts = [] ∧ ∃ (m : Nat) (x : Instr S) (r : List (Instr S)), Late i x ∧ acts[m]? = some (x :: r))

theorem push_dsl {s s' : RSt S} {x : Instr S} {b : Bool} {p : List (Instr S)} (hx : ∀ y, x ≠ .ds y)
    (he : exec s x b = .ok s' p) : dsl p = [] ∧ dsl [x] = [] := by
  cases x <;> simp only [exec] at he
  case ds y => exact absurd rfl (hx y)
  case cancel e =>
    simp only [Out.ok.injEq] at he; obtain ⟨_, rfl⟩ := he
    refine ⟨?_, rfl⟩
    induction s.cbs e with
    | nil => rfl
    | cons k l ih => exact ih
  all_goals
    repeat' split at he
    all_goals simp only [Out.ok.injEq, reduceCtorEq] at he
    all_goals try (obtain ⟨_, rfl⟩ := he)
    all_goals exact ⟨rfl, rfl⟩

theorem env_dsl {s s' : RSt S} {acts : List (List (Instr S))} {a : Act S} {p : List (Instr S)}
    (he : env s acts a = some (s', p)) : (∃ x, a = .call x ∧ dsl p = [x]) ∨ dsl p = [] := by
  cases a <;> simp only [env] at he
  · split at he
    · simp at he
    · split at he
      · simp at he; obtain ⟨_, rfl⟩ := he; exact .inr rfl
      · simp at he
  · simp at he; obtain ⟨_, rfl⟩ := he; exact .inr rfl
  · split at he
    · simp at he; obtain ⟨_, rfl⟩ := he; exact .inl ⟨_, rfl, rfl⟩
    · simp at he
  · split at he
    · simp at he; obtain ⟨_, rfl⟩ := he; exact .inr rfl
    · simp at he

theorem Ahead1.env {L : Lawful S d0} {F : Line L} {s s' : RSt S} {acts : List (List (Instr S))} {a : Act S}
    {p : List (Instr S)} {i j : OpId} (h : Ahead1 F s acts i j) (he : env s acts a = some (s', p))
    (hq : ∀ x, a = .call x → ∀ b ∈ acts, b = []) : Ahead1 F s' (acts ++ [p]) i j := by
  rcases h with h | ⟨h, hd⟩ | ⟨hj, hd, m, x, r, hx, hm⟩
  · obtain ⟨l, hl, _⟩ := log_env he
    left; rw [hl]; exact completions_mono h
  · right; left
    rw [env_q F he]
    refine ⟨h, ?_⟩
    have e := (dsPend_append acts p).length_eq
    rw [e]
    rcases env_dsl he with ⟨x, rfl, e1⟩ | e1
    · rw [e1, dsPend_quiescent (hq x rfl)]; simp
    · rw [e1]; exact hd
  · right; right
    rw [env_q F he]
    have hp : dsl p = [] := by
      rcases env_dsl he with ⟨y, rfl, _⟩ | e1
      · have := hq y rfl _ (List.mem_of_getElem? hm); simp at this
      · exact e1
    refine ⟨hj, ?_, m, x, r, hx, ?_⟩
    · have e := (dsPend_append acts p).length_eq
      rw [hp, hd] at e
      exact List.length_eq_zero_iff.1 e
    · rw [List.getElem?_append_left (List.getElem?_eq_some_iff.1 hm).1]; exact hm

theorem dsPend_mem {acts : List (List (Instr S))} {k : Nat} {y : S.I} {r : List (Instr S)}
    (hk : acts[k]? = some (.ds y :: r)) : dsPend acts ≠ [] := by
  intro h
  obtain ⟨rest, h1, _⟩ := dsPend_set [] hk
  rw [h] at h1
  have := h1.length_eq
  simp [dsl] at this

theorem Ahead1.run {L : Lawful S d0} {F : Line L} {s s' : RSt S} {acts : List (List (Instr S))}
    {ph : OpId → Phase S.V} {pi : List S.I} {k : Nat} {x : Instr S} {r : List (Instr S)} {b : Bool}
    {p : List (Instr S)} {i j : OpId} (h : Ahead1 F s acts i j) (hI : L.Inv s.d ph s.log pi)
    (hC : Core s acts ph) (hF : F.Single) (hne : i ≠ j) (hi : Settled s acts i) (hj : Settled s acts j)
    (hk : acts[k]? = some (x :: r)) (he : exec s x b = .ok s' p) : Ahead1 F s' (acts.set k (p ++ r)) i j := by
  have hkl := (List.getElem?_eq_some_iff.1 hk).1
  have hti : ∀ n l, x = .tryCancel n l → n ≠ i ∧ n ≠ j := by
    rintro n l rfl
    constructor
    · rintro rfl
      rcases hi.late _ (pending_top hk) rfl with h | h | h | h <;> cases h
    · rintro rfl
      rcases hj.late _ (pending_top hk) rfl with h | h | h | h <;> cases h
  obtain ⟨rest, q1, q2⟩ := dsPend_set p hk
  rcases h with h | ⟨h, hd⟩ | ⟨hjq, hd, m, y, v, hy, hm⟩
  · obtain ⟨l, hl, _⟩ := log_run he
    left; rw [hl]; exact completions_mono h
  · rw [q1.length_eq, List.length_append] at hd
    have same : (∀ y, x ≠ .ds y) → (dsPend (acts.set k (p ++ r))).length ≤ 1 := by
      intro hx
      obtain ⟨e1, e2⟩ := push_dsl hx he
      rw [q2.length_eq, List.length_append, e1]; rw [e2] at hd; exact hd
    by_cases hx : ∃ y, x = .ds y
    · obtain ⟨y, rfl⟩ := hx
      simp only [exec] at he
      split at he
      · simp at he
      · rename_i d' ps es hex
        simp only [Out.ok.injEq] at he; obtain ⟨rfl, rfl⟩ := he
        have hz : rest.length = 0 := by simp only [dsl, List.length_singleton] at hd; omega
        rcases hF hex with ⟨e1, rfl⟩ | ⟨n, rfl⟩
        · right; left
          refine ⟨by show [i, j].Sublist (F.q d'); rw [e1]; exact h, ?_⟩
          rw [q2.length_eq, List.length_append, hz]; simp [dsl]
        · have e := F.exec hex
          simp only [ops, List.cons_append, List.nil_append] at e
          rw [e] at h
          by_cases hni : n = i
          · subst hni
            right; right
            refine ⟨?_, ?_, k, .complete n, r, .inl rfl, ?_⟩
            · have := h.subset (a := j) (by simp)
              simp only [List.mem_cons, Ne.symm hne, false_or] at this
              exact this
            · apply List.length_eq_zero_iff.1
              rw [q2.length_eq, List.length_append, hz]; rfl
            · rw [List.getElem?_set_self hkl]; rfl
          · right; left
            refine ⟨?_, ?_⟩
            · rcases List.sublist_cons_iff.1 h with h | ⟨_, hr, _⟩
              · exact h
              · simp only [List.cons.injEq] at hr; exact absurd hr.1.symm hni
            · rw [q2.length_eq, List.length_append, hz]; simp [dsl, follow]
    · have hx' : ∀ y, x ≠ .ds y := fun y e => hx ⟨y, e⟩
      right; left
      refine ⟨?_, same hx'⟩
      rcases run_q F hI he with e | ⟨n, rfl, e⟩ | ⟨n, l, rfl, e⟩ | ⟨y, d', ps, es, rfl, _⟩
      · rw [e]; exact h
      · rw [e]; exact h.trans (List.sublist_append_left _ _)
      · obtain ⟨h1, h2⟩ := hti n l rfl
        rw [e]
        have := h.erase n
        rwa [List.erase_of_not_mem (by simp [h1, h2])] at this
      · exact absurd rfl (hx' y)
  · have hx' : ∀ y, x ≠ .ds y := by rintro y rfl; exact dsPend_mem hk hd
    obtain ⟨e1, e2⟩ := push_dsl hx' he
    have hd' : dsPend (acts.set k (p ++ r)) = [] := by
      apply List.length_eq_zero_iff.1
      have := q1.length_eq
      rw [hd, List.length_append, e2] at this
      rw [q2.length_eq, List.length_append, e1]; simp only [List.length_nil] at this ⊢; omega
    have hjq' : j ∈ F.q s'.d := by
      rcases run_q F hI he with e | ⟨n, rfl, e⟩ | ⟨n, l, rfl, e⟩ | ⟨y, d', ps, es, rfl, _⟩
      · rw [e]; exact hjq
      · rw [e]; simp [hjq]
      · obtain ⟨_, h2⟩ := hti n l rfl
        rw [e]; exact (List.mem_erase_of_ne (Ne.symm h2)).2 hjq
      · exact absurd rfl (hx' y)
    by_cases hmk : m = k
    · subst hmk
      rw [hk] at hm
      simp only [Option.some.injEq, List.cons.injEq] at hm
      obtain ⟨rfl, rfl⟩ := hm
      rcases hi.next hC hy he with ⟨z, hz, rfl⟩ | ⟨rfl, z, hz⟩
      · exact .inr (.inr ⟨hjq', hd', m, z, r, hz, by rw [List.getElem?_set_self hkl]; rfl⟩)
      · left; rw [hz]; simp [completions, doneCnt_append]
    · exact .inr (.inr ⟨hjq', hd', m, y, v, hy, by rw [List.getElem?_set_ne (Ne.symm hmk)]; exact hm⟩)

theorem Ahead1.first {L : Lawful S d0} {F : Line L} {s : RSt S} {acts : List (List (Instr S))}
    {ph : OpId → Phase S.V} {pi : List S.I} {i j : OpId} (h : Ahead1 F s acts i j) (hI : L.Inv s.d ph s.log pi)
    (hC : Core s acts ph) : 0 < completions i s.log ∨ completions j s.log = 0 := by
  rcases h with h | ⟨h, _⟩ | ⟨h, _⟩
  · exact .inl h
  · exact .inr (hC.wait_undone ((F.mem hI j).1 (h.subset (by simp))))
  · exact .inr (hC.wait_undone ((F.mem hI j).1 h))

/-- Operations that wait in line are completed in this order if they are woken one at a time, and
this is done only while no other call is running. -/
theorem first_of_single {L : Lawful S d0} {F : Line L} (hF : F.Single) {i j : OpId} {c1 c2 c3 : Conf (mach S)}
    {ls : List (Lbl (mach S))} (h : InLine d0 i j c1 c2) (hr : (mach S).runs c2 ls = some c3)
    (hq : ∀ x, ¬ Pending c2.acts (.ds x)) (hsep : Separate c2 ls)
    (hi : NotCancelled c2 c3 i) (hj : NotCancelled c2 c3 j) : First i j c3.sh.log := by
  obtain ⟨h2, hne, s2, s3, hs, hf⟩ := h.both F
  have hz : dsPend c2.acts = [] := by
    simp only [dsPend, List.flatten_eq_nil_iff, List.mem_map]
    rintro l ⟨a, ha, rfl⟩
    have : ∀ b : List (Instr S), (∀ x, .ds x ∉ b) → dsl b = [] := by
      intro b
      induction b with
      | nil => intro _; rfl
      | cons y b ih =>
        intro hb
        have := ih fun x hx => hb x (by simp [hx])
        cases y <;> first | exact this | exact absurd List.mem_cons_self (hb _)
    exact this a fun x hx => hq x ⟨a, ha, hx⟩
  refine Both.runs L (fun s acts => Ahead1 F s acts i j) Separate (fun h hs => h.2 _ hs) ?_ ?_
    ⟨hne, s2, s3, hf⟩ (.inr (.inl ⟨hs, by rw [hz]; simp⟩)) hsep h2 hr ?_
  · intro c c' l ls hr hi hj hg hs ha
    obtain ⟨ph, hI, hC⟩ := reach_inv L hr
    cases l with
    | env a =>
      simp only [Mach.step] at hs
      split at hs
      · simp at hs
      · split at hs
        · rename_i s' p he
          simp at hs; subst hs
          exact ha.env he fun x hx => hg.1 x (by rw [hx])
        · simp at hs
    | run n b =>
      simp only [Mach.step] at hs
      split at hs
      · simp at hs
      · split at hs
        · rename_i x r hk
          split at hs
          · rename_i s' p he
            simp at hs; subst hs
            exact ha.run hI hC hF hne hi hj hk he
          · simp at hs
          · simp at hs; subst hs; exact ha
        · simp at hs
  · intro c hr ha
    obtain ⟨ph, hI, hC⟩ := reach_inv L hr
    exact ha.first hI hC
  · rintro k e hk hct
    rcases hk with rfl | rfl
    · exact hi.ct (L := L) h2 s2.st e hct
    · exact hj.ct (L := L) h2 s3.st e hct

end Verif.Resolver
