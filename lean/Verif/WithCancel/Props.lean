import Verif.WithCancel.History

/-!
# Properties of `with_cancel_cb`

Histories consist of the events `Ev` of Verif/WithCancel/Model.lean.
-/

namespace Verif.WithCancel

abbrev WReach (c : Conf mach) : Prop := Reach mach init c

theorem step_ok {s : St} {acts : List (List Instr)} (h1 : Inv1 s acts) (h2 : Inv2 s acts) {k : Nat}
    {x : Instr} {r : List Instr} (hk : acts[k]? = some (x :: r)) (b : Bool) : ∃ s' p, exec s x b = .ok s' p := by
  have hpx := pending_top hk
  have ha := fun i => @Inv1.running_a s acts h1 x hpx i
  have hb := fun i => @Inv1.running_b s acts h1 x hpx i
  have hs := fun i => @Inv1.running_s s acts h1 x hpx i
  cases x with
  | set i =>
    have := hb i (by simp [bw])
    cases hr : reqT s.req (s.tok i) <;> simp [exec, this, hr]
  | istart i =>
    have := hs i (by simp [sw])
    simp [exec, this]
  | store i v =>
    have := ha i (by simp [aw])
    simp [exec, this]
  | tryReset i =>
    have := ha i (by simp [aw])
    cases hr : reqT s.req (s.tok i) with
    | true => simp [exec, this, hr]
    | false => simp [exec, this, hr, in_pool h1 h2 hpx hr]
  | sub i b' =>
    have hrun : s.phase i = .running := by
      cases b' with
      | true => exact (ha i (by simp [aw])).1
      | false => exact hb i (by simp [bw])
    have hpos : 0 < ta s acts i + tb s acts i := by
      have h3 := hpx.le (aw i); have h4 := hpx.le (bw i)
      unfold ta tb
      cases b' <;> simp [aw, bw] at h3 h4 <;> omega
    have hc0 : ws (cw i) acts = 0 := by
      have h3 := h1.ful i hrun
      have h4 := (h1.one i).2.2
      apply Classical.byContradiction
      intro hn
      have := h3.1 (by omega)
      omega
    have h5 := h1.cst i hrun hc0
    by_cases h6 : s.cst i = 1
    · simp [exec, hrun, h6]
    · have h7 : s.cst i ≠ 0 := by omega
      simp [exec, hrun, h6, h7]
  | cb i =>
    have := hb i (by simp [bw])
    simp [exec, this]
  | cbRet i =>
    have := hb i (by simp [bw])
    simp [exec, this]
  | complete i =>
    obtain ⟨h3, _, _, h4⟩ := h1.running_c hpx
    cases hv : s.val i with
    | none => exact absurd hv h4
    | some v => simp [exec, h3, hv]
  | cancelCS e => simp [exec]
  | drain l =>
    cases l with
    | nil => simp [exec]
    | cons i l =>
      have := hb i (by simp [bw])
      simp [exec, this]

/-- C09. The operation is not touched after its completion and `value_` is always set when it completes. -/
theorem C09_no_fault {c : Conf mach} (h : WReach c) : c.bad = false :=
  Reach.no_fault (P := fun s acts => Inv1 s acts ∧ Inv2 s acts)
    (fun _ hc => ⟨reach_inv1 hc, reach_inv2 hc⟩)
    (fun _ _ _ _ _ b ⟨h1, h2⟩ hk hf => by
      obtain ⟨s', p, he⟩ := step_ok h1 h2 hk b
      rw [show mach.exec = exec from rfl, he] at hf; simp at hf) h

/-- The event is the completion of operation `i`. -/
def isDone (i : Id) : Ev → Bool
  | .done j _ => j == i
  | _ => false

/-- The event is the completion of the inner operation of `i`. -/
def isInner (i : Id) : Ev → Bool
  | .inner j _ => j == i
  | _ => false

theorem ok_done (i : Id) (before : List Ev) (a : Ev) (ha : isDone i a = true) (h : Ok before a) :
    ∀ b ∈ before, isDone i b = false := by
  intro b hb
  cases a <;> simp [isDone] at ha
  subst ha
  cases b <;> simp [isDone]
  rintro rfl
  exact h.1 _ hb

theorem ok_inner (i : Id) (before : List Ev) (a : Ev) (ha : isInner i a = true) (h : Ok before a) :
    ∀ b ∈ before, isInner i b = false := by
  intro b hb
  cases a <;> simp [isInner] at ha
  subst ha
  cases b <;> simp [isInner]
  rintro rfl
  exact h.2 _ hb

/-- C09. An operation completes at most once. -/
theorem C09_at_most_once {c : Conf mach} (h : WReach c) (i : Id) : c.sh.log.countP (isDone i) ≤ 1 :=
  (reach_inv2 h).hist.countP_le_one _ (ok_done i)

/-- C09. The operation completes with the value of the inner operation, after that completed, and if `cb` was invoked,
after `cb` returned. -/
theorem C09_value {c : Conf mach} (h : WReach c) {i v : Nat} {l1 l2 : List Ev}
    (eq : c.sh.log = l1 ++ .done i v :: l2) :
    .inner i v ∈ l1 ∧ (∀ w, .inner i w ∈ c.sh.log → w = v) ∧ (.cb i ∈ c.sh.log → .cbRet i ∈ l1) := by
  have hh := (reach_inv2 h).hist
  obtain ⟨_, h1, h2⟩ := hh l1 _ l2 eq
  refine ⟨h1, fun w hw => ?_, fun hc => ?_⟩
  · have := hh.unique _ (ok_inner i) hw (show Ev.inner i v ∈ c.sh.log by rw [eq]; simp [h1]) (by simp [isInner])
      (by simp [isInner])
    simpa using this
  · rw [eq] at hc
    rcases List.mem_append.1 hc with hc | hc
    · exact h2 hc
    · obtain ⟨m, hm⟩ := hh.later eq (w := .cb i) (by simpa using hc)
      exact absurd (by simp) (hm.2.1 v)

/-- C09. `cb` is invoked at most once. -/
theorem C09_cb_at_most_once {c : Conf mach} (h : WReach c) (i : Id) : c.sh.log.count (.cb i) ≤ 1 :=
  (reach_inv2 h).hist.count_le_one (fun _ h => h.1)

theorem requested_mem {e : EvId} {log : List Ev} (h : requested e log = true) : .cancel e ∈ log := by
  have : ∀ l : List Ev, ∀ b, l.foldl (reqStep e) b = true → b = true ∨ .cancel e ∈ l := by
    intro l
    induction l with
    | nil => intro b hb; exact .inl hb
    | cons v l ih =>
      intro b hb
      rw [List.foldl_cons] at hb
      have := ih _ hb
      cases v <;> simp [reqStep] at this <;> grind
  rcases this log false h with h | h
  · simp at h
  · exact h

/-- C09. `cb` is invoked only after `cancel()` of the event of the token. -/
theorem C09_cb_only_if_cancelled {c : Conf mach} (h : WReach c) {i : Id} {l1 l2 : List Ev}
    (eq : c.sh.log = l1 ++ .cb i :: l2) : ∃ e, .start i (some e) ∈ l1 ∧ .cancel e ∈ l1 := by
  obtain ⟨_, _, e, h1, h2⟩ := (reach_inv2 h).hist l1 _ l2 eq
  exact ⟨e, h1, requested_mem h2⟩

/-- C09. When no call is running: the inner operation was started, and if it completed, so did the operation. -/
theorem C09_completes {c : Conf mach} (h : WReach c) (hq : Quiescent c) {i : Id} {t : Option EvId}
    (hs : .start i t ∈ c.sh.log) :
    .istart i ∈ c.sh.log ∧ ∀ v, .inner i v ∈ c.sh.log → .done i v ∈ c.sh.log := by
  have h1 := reach_inv1 h
  have h2 := reach_inv2 h
  obtain ⟨hp, _⟩ := (h2.st i t).1 hs
  have hin : c.sh.phase i = .running → c.sh.inner i ≠ .idle := by
    intro hr hi
    have := h1.sta i
    rw [ws_quiescent _ hq, if_pos ⟨hr, hi⟩] at this
    simp at this
  constructor
  · rw [h2.ist]
    cases hph : c.sh.phase i with
    | fresh => exact absurd hph hp
    | running => exact hin hph
    | done => rw [(h1.don i hph).1]; simp
  · intro v hv
    have hc := (h2.inn i).1 ⟨v, hv⟩
    have hd : c.sh.phase i = .done := by
      cases hph : c.sh.phase i with
      | fresh => exact absurd hph hp
      | done => rfl
      | running =>
        exfalso
        have hf := h1.ful i hph
        have hone := h1.one i
        have hcst := h1.cst i hph (ws_quiescent _ hq)
        simp [ta, tb, open_, hph, hc, ws_quiescent _ hq] at hf hone hcst
        have hpos : i ∈ c.sh.pool := mem_num.2 (by omega)
        have := h2.pa i hpos
        simp [ta, open_, hc, ws_quiescent _ hq] at this
    obtain ⟨w, hw⟩ := (h2.dn i).2 hd
    obtain ⟨l1, l2, e⟩ := List.append_of_mem hw
    rw [(C09_value h e).2.1 v hv]; exact hw

/-- C09. When no call is running, `cb` was invoked for every operation that is not completed although its token is
cancelled. -/
theorem C09_cb_invoked {c : Conf mach} (h : WReach c) (hq : Quiescent c) {i : Id} {e : EvId}
    (hs : .start i (some e) ∈ c.sh.log) (hr : requested e c.sh.log = true) (hd : ∀ v, .done i v ∉ c.sh.log) :
    .cb i ∈ c.sh.log := by
  have h2 := reach_inv2 h
  obtain ⟨hp, ht⟩ := (h2.st i _).1 hs
  have hph : c.sh.phase i = .running := by
    cases hph : c.sh.phase i with
    | fresh => exact absurd hph hp
    | running => rfl
    | done =>
      obtain ⟨v, hv⟩ := (h2.dn i).2 hph
      exact absurd hv (hd v)
  have n := fun x : Instr => not_pending_quiescent (y := x) hq
  rcases h2.fired i hph with h3 | h3 | ⟨_, h3, _⟩ | h3 | h3 | h3
  · have := h2.preq i h3
    rw [ht] at this
    simp [reqT, h2.reqlog, hr] at this
  · exact absurd h3 (n _)
  · exact absurd h3 (n _)
  · exact absurd h3 (n _)
  · exact h3
  · exact absurd h3 (n _)

/-- C09. No call ever blocks. -/
theorem C09_wait_free {c : Conf mach} (h : WReach c) {k : Nat} {x : Instr} {r : List Instr}
    (hk : c.acts[k]? = some (x :: r)) (b : Bool) : ∃ c', mach.step c (.run k b) = some c' := by
  obtain ⟨s', p, he⟩ := step_ok (reach_inv1 h) (reach_inv2 h) hk b
  refine ⟨⟨s', c.acts.set k (p ++ r), false⟩, ?_⟩
  simp only [Mach.step, C09_no_fault h, hk, he]
  rfl

/-! ## Termination -/

def pw : Instr → Nat
  | .set _ => 9
  | .istart _ => 1
  | .store _ _ => 5
  | .tryReset _ => 4
  | .sub _ _ => 3
  | .cb _ => 5
  | .cbRet _ => 4
  | .complete _ => 1
  | .cancelCS _ => 2
  | .drain l => 7 * l.length + 1

def pot (s : St) (acts : List (List Instr)) : Nat := ws pw acts + 7 * s.pool.length

theorem len_split (s : St) (e : EvId) : (listOf s e).length + (others s e).length = s.pool.length := by
  unfold listOf others
  induction s.pool with
  | nil => rfl
  | cons o l ih =>
    by_cases hp : s.tok o = some e <;> simp [hp] <;> simp at ih <;> omega

theorem decreases {s : St} {acts : List (List Instr)} {k : Nat} {x : Instr}
    {r p : List Instr} (hk : acts[k]? = some (x :: r)) {b : Bool} {s' : St} (he : exec s x b = .ok s' p) :
    pot s' (acts.set k (p ++ r)) + (if b then 1 else 0) ≤ pot s acts := by
  have e1 := ws_set pw p hk
  have hb : (if b then 1 else 0) ≤ 1 := by split <;> omega
  have h4 := len_split s
  have h5 : ∀ i, i ∈ s.pool → (s.pool.erase i).length + 1 = s.pool.length := by
    intro i hi
    have := List.length_erase_of_mem hi
    have := List.length_pos_of_mem hi
    omega
  unfold pot
  generalize (if b then 1 else 0) = n at *
  generalize acts.set k (p ++ r) = acts' at *
  clear hk
  exec_cases he <;> simp [pw] at * <;> grind

/-- C09. Running calls come to an end under every schedule. -/
theorem C09_terminates {c : Conf mach} (h : WReach c) : ∃ n, Bounded c n :=
  ⟨_, bounded_of (P := fun _ _ => True) (fun (s : St) acts => pot s acts) (fun _ _ => trivial)
    (fun _ hc => C09_no_fault hc) (fun _ _ _ _ _ _ _ _ _ hk he => decreases hk he) h⟩

/-! ## The hypotheses are met

Operation 0 is cancelled before its inner operation completes; operation 1 completes with value 8 and is not cancelled. -/

def demo : Conf mach :=
  mach.go init ([.env (.start 0 (some 5))] ++ List.replicate 2 (.run 0 true) ++ [.env (.start 1 none)] ++
    List.replicate 2 (.run 1 true) ++ [.env (.cancel 5)] ++ List.replicate 6 (.run 2 true) ++ [.env (.finish 0 7)] ++
    List.replicate 4 (.run 3 true) ++ [.env (.finish 1 8)] ++ List.replicate 4 (.run 4 true))

set_option maxRecDepth 10000 in
theorem demo_log : demo.sh.log = [.start 0 (some 5), .istart 0, .start 1 none, .istart 1, .cancel 5, .cb 0, .cbRet 0,
    .inner 0 7, .done 0 7, .inner 1 8, .done 1 8] := by decide

theorem demo_reach : WReach demo := Reach.go ..

set_option maxRecDepth 10000 in
theorem demo_quiescent : Quiescent demo := by
  have : demo.acts = [[], [], [], [], []] := by decide
  simp [Quiescent, this]

example : demo.sh.log.countP (isDone 0) ≤ 1 := C09_at_most_once demo_reach 0
example : demo.sh.log.count (.cb 0) ≤ 1 := C09_cb_at_most_once demo_reach 0

example : .cbRet 0 ∈ demo.sh.log.take 8 :=
  (C09_value (i := 0) (v := 7) (l2 := demo.sh.log.drop 9) demo_reach (by rw [demo_log]; rfl)).2.2
    (by rw [demo_log]; simp)

example : ∃ e, .start 0 (some e) ∈ demo.sh.log.take 5 ∧ .cancel e ∈ demo.sh.log.take 5 :=
  C09_cb_only_if_cancelled (i := 0) (l2 := demo.sh.log.drop 6) demo_reach (by rw [demo_log]; rfl)

example : .done 1 8 ∈ demo.sh.log :=
  (C09_completes (t := none) demo_reach demo_quiescent (i := 1) (by rw [demo_log]; simp)).2 8 (by rw [demo_log]; simp)

/-- The state after `cancel()` returned and before the inner operation completes. -/
def demo2 : Conf mach :=
  mach.go init ([.env (.start 0 (some 5))] ++ List.replicate 2 (.run 0 true) ++ [.env (.cancel 5)] ++
    List.replicate 6 (.run 1 true))

set_option maxRecDepth 10000 in
theorem demo2_log : demo2.sh.log = [.start 0 (some 5), .istart 0, .cancel 5, .cb 0, .cbRet 0] := by decide

theorem demo2_reach : WReach demo2 := Reach.go ..

set_option maxRecDepth 10000 in
example : .cb 0 ∈ demo2.sh.log :=
  C09_cb_invoked (e := 5) demo2_reach
    (by have : demo2.acts = [[], []] := by decide
        simp [Quiescent, this])
    (by rw [demo2_log]; simp) (by rw [demo2_log]; rfl) (by rw [demo2_log]; simp)

example : ∃ c', mach.step (mach.go init [.env (.start 0 (some 5))]) (.run 0 true) = some c' :=
  C09_wait_free (x := .set 0) (r := []) (Reach.go ..) (by rfl) true
example : demo.bad = false := C09_no_fault demo_reach
example : ∃ n, Bounded demo2 n := C09_terminates demo2_reach

end Verif.WithCancel
