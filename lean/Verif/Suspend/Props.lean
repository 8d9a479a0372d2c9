import Verif.Suspend.History

/-!
# Properties of `suspend_indefinitely`

Histories consist of the events `Ev` of Verif/Suspend/Model.lean.
-/

namespace Verif.Suspend

abbrev SReach (c : Conf mach) : Prop := Reach mach init c

theorem step_ok {s : St} {acts : List (List Instr)} (h1 : Inv1 s acts) (h2 : Inv2 s acts) (h : Inv3 s acts) {k : Nat}
    {x : Instr} {r : List Instr} (hk : acts[k]? = some (x :: r)) (b : Bool) : ∃ s' p, exec s x b = .ok s' p := by
  have hpx := pending_top hk
  have hwt := h1.wt x hpx
  cases x with
  | attach i l =>
    have := h1.running hpx (i := i) (by simp [unit])
    cases l <;> simp only [exec, this] <;> (repeat' split) <;> simp_all
  | tOr i b =>
    have := h1.running hpx (i := i) (by simp [unit])
    simp [exec, this]
  | rst i l c =>
    have hr := h1.running hpx (i := i) (by simp [unit]; exact hwt.2.2.1)
    cases l with
    | nil => simp [exec, hr]
    | cons o l =>
      have h3 := in_pool h1 h2 h hpx
      simp only [exec, hr]
      cases hq : s.reqT o.tok with
      | true => simp
      | false => simp [h3 hq]
  | sub i c =>
    have hr := h1.running hpx (i := i) (by simp [unit]; exact hwt)
    have h3 := h1.ctr i
    have h4 := hpx.le (unit i)
    simp [unit] at h4
    rw [if_pos hr] at h3
    simp only [exec, hr]
    by_cases h5 : s.ctr i = c
    · have h6 : s.ini i = true := by
        cases h6 : s.ini i with
        | true => rfl
        | false =>
        exfalso
        have h7 := h1.ini i
        rw [if_pos ⟨hr, h6⟩] at h7
        obtain ⟨a, ha, y, hy, hw⟩ := exists_of_ws_pos (w := initp i) (acts := acts) (by omega)
        have h8 : 0 < unit i y := by
          cases y with
          | attach j l => simp [initp] at hw; split at hw <;> simp_all [unit]
          | tOr j b => cases b <;> simp [initp] at hw; split at hw <;> simp_all [unit]
          | _ => simp [initp] at hw
        have hne : y ≠ .sub i c := by rintro rfl; simp [initp] at hw
        have h9 := pending_stays (p := []) hk ⟨a, ha, hy⟩ hne
        rcases pending_set2 hk h9 with h10 | ⟨_, h10⟩
        · simp at h10
        · have := h10 (unit i)
          have h12 : unit i (.sub i c) = c := by simp [unit]
          omega
      have h7 : c ≠ 0 := by have : 1 ≤ c := hwt; omega
      simp [h5, h6, h7]
    · have h6 : ¬ s.ctr i < c := by omega
      simp [h5, h6]
  | setv i =>
    have := (h1.setv_running hpx).1
    simp [exec, this]
  | cancelCS e => simp [exec]
  | drain l =>
    cases l with
    | nil => simp [exec]
    | cons o l =>
      have := h1.drain_running hpx (o := o) (by simp)
      simp [exec, this]

/-- C08. A completed operation is never touched again, and no assertion fails. -/
theorem C08_no_fault {c : Conf mach} (h : SReach c) : c.bad = false :=
  Reach.no_fault (P := fun s acts => Inv1 s acts ∧ Inv2 s acts ∧ Inv3 s acts)
    (fun _ hc => ⟨reach_inv1 hc, reach_inv2 hc, reach_inv3 hc⟩)
    (fun _ _ _ _ _ b ⟨h1, h2, h3⟩ hk hf => by
      obtain ⟨s', p, he⟩ := step_ok h1 h2 h3 hk b
      rw [show mach.exec = exec from rfl, he] at hf; simp at hf) h

/-- C08. An operation completes at most once. -/
theorem C08_at_most_once {c : Conf mach} (h : SReach c) (i : Id) : c.sh.log.count (.done i) ≤ 1 :=
  (reach_inv3 h).hist.count_le_one (fun _ h => h.1)

theorem requested_mem {e : EvId} {log : List Ev} (h : requested e log = true) : .cancel e ∈ log := by
  have : ∀ l : List Ev, ∀ b, l.foldl (fun b v => match v with
    | .cancel e' => if e' = e then true else b
    | .revive e' => if e' = e then false else b
    | _ => b) b = true → b = true ∨ .cancel e ∈ l := by
    intro l
    induction l with
    | nil => intro b hb; exact .inl hb
    | cons v l ih =>
      intro b hb
      rw [List.foldl_cons] at hb
      have := ih _ hb
      cases v <;> simp at this <;> grind
  rcases this log false h with h | h
  · simp at h
  · exact h

theorem requested_after {e : EvId} (l1 l2 : List Ev) :
    requested e (l1 ++ .cancel e :: l2) = true ∨ .revive e ∈ l2 := by
  have : ∀ l : List Ev, l.foldl (fun b v => match v with
    | .cancel e' => if e' = e then true else b
    | .revive e' => if e' = e then false else b
    | _ => b) true = true ∨ .revive e ∈ l := by
    intro l
    generalize hb : true = b0
    have : ∀ b, b = true → l.foldl (fun b v => match v with
      | .cancel e' => if e' = e then true else b
      | .revive e' => if e' = e then false else b
      | _ => b) b = true ∨ .revive e ∈ l := by
      induction l with
      | nil => intro b hb; exact .inl hb
      | cons v l ih =>
        intro b hb
        rw [List.foldl_cons]
        cases v with
        | revive e' =>
          by_cases he : e' = e
          · subst he; right; simp
          · simp only [he, if_false]
            rcases ih b hb with h | h
            · exact .inl h
            · right; simp [h]
        | cancel e' =>
          by_cases he : e' = e
          · simp only [he, if_true]
            rcases ih true rfl with h | h
            · exact .inl h
            · right; simp [h]
          · simp only [he, if_false]
            rcases ih b hb with h | h
            · exact .inl h
            · right; simp [h]
        | _ =>
          rcases ih b hb with h | h
          · exact .inl h
          · right; simp [h]
    subst hb; exact this true rfl
  rcases this l2 with h | h
  · left; simp [requested] at h ⊢; exact h
  · exact .inr h

theorem log_step {s : St} {x : Instr} {p : List Instr} {b : Bool} {s' : St} (he : exec s x b = .ok s' p) :
    s'.log = s.log ∨ ∃ v, s'.log = s.log ++ [v] := by
  exec_cases he <;> first | exact .inl rfl | exact .inr ⟨_, rfl⟩

theorem log_env {s : St} {acts : List (List Instr)} {a : Act} {s' : St} {p : List Instr}
    (he : env s acts a = some (s', p)) : s'.log = s.log ∨ ∃ v, s'.log = s.log ++ [v] := by
  env_cases he <;> first | exact .inl rfl | exact .inr ⟨_, rfl⟩

theorem mem_made {o : Obs} {log : List Ev} (h : o ∈ made log) : ∃ t, .start o.op t ∈ log ∧ o.tok ∈ t := by
  obtain ⟨v, hv, ho⟩ := List.mem_flatMap.1 h
  cases v <;> simp [madeF] at ho
  have := mkObs_op ho
  subst this
  exact ⟨_, hv, mkObs_tok ho⟩

/-- C08. An operation completes only after all its observers were attached, and after `cancel()` of the event of one of
its tokens. -/
theorem C08_only_if_cancelled {c : Conf mach} (h : SReach c) {i : Id} {l1 l2 : List Ev}
    (eq : c.sh.log = l1 ++ .done i :: l2) :
    .attached i ∈ l1 ∧ ∃ toks e, .start i toks ∈ l1 ∧ some e ∈ toks ∧ .cancel e ∈ l1 := by
  have hh := (reach_inv3 h).hist
  obtain ⟨_, h1, o, ho, hf⟩ := hh l1 _ l2 eq
  refine ⟨h1, ?_⟩
  obtain ⟨a, b, e1⟩ := List.append_of_mem hf
  obtain ⟨e, he, hr⟩ := hh a (.fire o) (b ++ .done i :: l2) (by rw [eq, e1]; simp)
  have hm : o ∈ made l1 :=
    Reach.prefixes (M := mach) (Q := fun l => .fire o ∈ l → o ∈ made l) (fun s : St => s.log) (by simp [init])
      (fun _ acts _ _ _ he => log_env (acts := acts) he) (fun _ _ _ _ _ he => log_step he)
      (fun c hc hm => (reach_inv2 hc).made_of (.inr (.inl (mem_goneL.2 (.inl hm))))) h l1 _ l2 eq hf
  obtain ⟨t, ht, ht2⟩ := mem_made hm
  rw [ho] at ht; rw [he] at ht2
  exact ⟨t, e, ht, ht2, by rw [e1]; simp [requested_mem hr]⟩

theorem made_of_start {s : St} {i : Id}
    {toks : List (Option EvId)} {e : EvId} (hs : .start i toks ∈ s.log) (he : some e ∈ toks) :
    ∃ o, o.op = i ∧ o.tok = some e ∧ o ∈ made s.log := by
  obtain ⟨k, hk, e1⟩ := List.getElem_of_mem he
  refine ⟨⟨i, k, some e⟩, rfl, rfl, List.mem_flatMap.2 ⟨_, hs, ?_⟩⟩
  simp only [madeF, mkObs, List.mem_map]
  refine ⟨(some e, k), ?_, rfl⟩
  rw [List.mem_zipIdx_iff_getElem?]
  simp [List.getElem?_eq_getElem hk, e1]

/-- C08. When no call is running, every started operation with a cancelled token is completed. -/
theorem C08_completes {c : Conf mach} (h : SReach c) (hq : Quiescent c) {i : Id} {toks : List (Option EvId)} {e : EvId}
    (hs : .start i toks ∈ c.sh.log) (he : some e ∈ toks) (hr : requested e c.sh.log = true) : .done i ∈ c.sh.log := by
  have h1 := reach_inv1 h
  have h2 := reach_inv2 h
  have h3 := reach_inv3 h
  obtain ⟨hp, _⟩ := h3.st i toks hs
  rw [h3.dn]
  cases hph : c.sh.phase i with
  | fresh => exact absurd hph hp
  | done => rfl
  | running =>
    exfalso
    rw [← h3.reqlog] at hr
    obtain ⟨o, ho, hto, hm⟩ := made_of_start hs he
    have hini : c.sh.ini i = true := by
      cases hi : c.sh.ini i with
      | true => rfl
      | false =>
        have := h1.ini i
        rw [ws_quiescent _ hq, if_pos ⟨hph, hi⟩] at this; simp at this
    have hcan : c.sh.can i = true := by
      rcases h2.where_ hm with h4 | h4 | ⟨x, hx, _⟩
      · have := h3.preq o h4
        rw [hto] at this; simp [St.reqT, hr] at this
      · rcases mem_goneL.1 h4 with h5 | h5
        · rcases h3.fcan o h5 with h6 | h6
          · rwa [ho] at h6
          · exact absurd h6 (not_pending_quiescent hq)
        · rw [← ho]; exact (h3.resb o h5).2
      · exact absurd hx (not_pending_quiescent hq)
    have hpool : c.sh.pool.countP (ofOp i) = 0 := by
      apply Classical.byContradiction
      intro hn
      obtain ⟨o', ho', hop⟩ := List.countP_pos_iff.1 (Nat.pos_of_ne_zero hn)
      simp [ofOp] at hop
      obtain ⟨l, ct, hx, _⟩ := h3.rst o' ho' (by rw [hop]; exact hini) (by rw [hop]; exact hcan)
      exact not_pending_quiescent hq hx
    have h4 := h1.ctr i
    rw [ws_quiescent _ hq, hpool, if_pos hph] at h4
    have h5 := h1.setv i
    rw [ws_quiescent _ hq, if_pos ⟨hph, h4.symm⟩] at h5
    simp at h5

/-- C08. If `cancel()` of one of its tokens happens after the start, then the operation is completed when all calls
have returned, even if the event was reset in the meantime. -/
theorem C08_cancel_completes {c : Conf mach} (h : SReach c) (hq : Quiescent c) {i : Id} {toks : List (Option EvId)}
    {e : EvId} {l1 l2 : List Ev} (eq : c.sh.log = l1 ++ .cancel e :: l2) (hs : .start i toks ∈ l1)
    (he : some e ∈ toks) : .done i ∈ c.sh.log := by
  rcases requested_after (e := e) l1 l2 with h1 | h1
  · exact C08_completes h hq (by rw [eq]; simp [hs]) he (by rw [eq]; exact h1)
  · obtain ⟨a, b, e1⟩ := List.append_of_mem h1
    have := (reach_inv3 h).hist (l1 ++ .cancel e :: a) (.revive e) b (by rw [eq, e1]; simp) i toks
      (by simp [hs]) he
    rw [eq, e1]
    simp at this ⊢
    grind

/-- C08. No call ever blocks. -/
theorem C08_wait_free {c : Conf mach} (h : SReach c) {k : Nat} {x : Instr} {r : List Instr}
    (hk : c.acts[k]? = some (x :: r)) (b : Bool) : ∃ c', mach.step c (.run k b) = some c' := by
  obtain ⟨s', p, he⟩ := step_ok (reach_inv1 h) (reach_inv2 h) (reach_inv3 h) hk b
  refine ⟨⟨s', c.acts.set k (p ++ r), false⟩, ?_⟩
  simp only [Mach.step, C08_no_fault h, hk, he]
  rfl

/-! ## The hypotheses are met

Operation 0 waits for two tokens of event 5 and for a token without an event; `cancel()` of event 5 completes it.  In the
second execution the event is cancelled while `start()` is still attaching. -/

def demo : Conf mach :=
  mach.go init ([.env (.start 0 [some 5, some 5, none])] ++ List.replicate 10 (.run 0 true) ++ [.env (.cancel 5)] ++
    List.replicate 30 (.run 1 true))

def demoRace : Conf mach :=
  mach.go init ([.env (.start 0 [some 5, none, some 5]), .run 0 true, .run 0 true, .env (.cancel 5)] ++
    List.replicate 4 (.run 1 true) ++ List.replicate 30 (.run 0 true) ++ List.replicate 30 (.run 1 true))

theorem demo_reach : SReach demo := Reach.go ..

theorem demoRace_reach : SReach demoRace := Reach.go ..

set_option maxRecDepth 10000 in
theorem demo_log : demo.sh.log = [.start 0 [some 5, some 5, none], .attached 0, .cancel 5, .fire ⟨0, 0, some 5⟩,
    .reset ⟨0, 2, none⟩, .fire ⟨0, 1, some 5⟩, .done 0] := by decide

set_option maxRecDepth 10000 in
theorem demoRace_log : demoRace.sh.log = [.start 0 [some 5, none, some 5], .cancel 5, .fire ⟨0, 0, some 5⟩,
    .fire ⟨0, 2, some 5⟩, .attached 0, .reset ⟨0, 1, none⟩, .done 0] := by decide

set_option maxRecDepth 10000 in
theorem demo_quiescent : Quiescent demo := by
  have : demo.acts = [[], []] := by decide
  simp [Quiescent, this]

set_option maxRecDepth 10000 in
theorem demoRace_quiescent : Quiescent demoRace := by
  have : demoRace.acts = [[], []] := by decide
  simp [Quiescent, this]

example : demo.sh.log.count (.done 0) ≤ 1 := C08_at_most_once demo_reach 0
example : demo.bad = false := C08_no_fault demo_reach

example : .attached 0 ∈ demoRace.sh.log.take 6 :=
  (C08_only_if_cancelled (l1 := demoRace.sh.log.take 6) (l2 := []) (i := 0) demoRace_reach
    (by rw [demoRace_log]; rfl)).1

example : .done 0 ∈ demo.sh.log :=
  C08_completes (e := 5) (toks := [some 5, some 5, none]) demo_reach demo_quiescent (by rw [demo_log]; simp)
    (by simp) (by rw [demo_log]; rfl)

example : .done 0 ∈ demoRace.sh.log :=
  C08_cancel_completes (e := 5) (toks := [some 5, none, some 5]) (l1 := demoRace.sh.log.take 1)
    (l2 := demoRace.sh.log.drop 2) demoRace_reach demoRace_quiescent (by rw [demoRace_log]; rfl)
    (by rw [demoRace_log]; simp) (by simp)

/-- The operation 0 is started and `start()` is about to attach its first observer. -/
example : ∃ c', mach.step (mach.go init [.env (.start 0 [some 5])]) (.run 0 true) = some c' :=
  C08_wait_free (x := .attach 0 (mkObs 0 [some 5])) (r := []) (Reach.go ..) (by rfl) true

/-! ## Termination -/

def cost (s : St) (i : Id) : Nat := (s.toks i).length + 5

def costs (s : St) (l : List Obs) : Nat := (l.map (fun o => cost s o.op + 1)).sum

def pw (s : St) : Instr → Nat
  | .attach i l => costs s l + l.length + 1 + cost s i
  | .tOr i _ => cost s i
  | .rst _ l _ => l.length + 4
  | .sub _ _ => 3
  | .setv _ => 1
  | .cancelCS _ => 2
  | .drain l => costs s l + 1

def pot (s : St) (acts : List (List Instr)) : Nat := ws (pw s) acts + costs s s.pool

theorem costs_split (s : St) (e : EvId) (l : List Obs) :
    costs s (listOf e l) + costs s (others e l) = costs s l := by
  unfold listOf others costs
  induction l with
  | nil => rfl
  | cons o l ih =>
    by_cases hp : o.tok = some e <;> simp [hp] at ih ⊢ <;> omega

theorem costs_erase (s : St) {l : List Obs} {o : Obs} (h : o ∈ l) :
    costs s (l.erase o) + (cost s o.op + 1) = costs s l := by
  unfold costs
  have := ((List.perm_cons_erase h).map (fun o => cost s o.op + 1)).sum_nat
  rw [this]; simp; omega

theorem decreases {s : St} {acts : List (List Instr)} (h1 : Inv1 s acts) {k : Nat} {x : Instr}
    {r p : List Instr} (hk : acts[k]? = some (x :: r)) {b : Bool} {s' : St} (he : exec s x b = .ok s' p) :
    pot s' (acts.set k (p ++ r)) + (if b then 1 else 0) ≤ pot s acts := by
  have hx := h1.wt x (pending_top hk)
  have hs : s'.toks = s.toks := by
    clear h1 hx hk
    exec_cases he <;> rfl
  have hc : ∀ i, cost s' i = cost s i := fun i => by simp [cost, hs]
  have hcs : costs s' = costs s := by
    funext l; simp [costs, hc]
  have hpw : pw s' = pw s := by
    funext y; cases y <;> simp [pw, hcs, hc]
  have e1 := ws_set (pw s) p hk
  have h4 := fun e => costs_split s e s.pool
  have h5 := fun o (ho : o ∈ s.pool) => costs_erase s ho
  have hb : (if b then 1 else 0) ≤ 1 := by split <;> omega
  have hlen := fun i => mkObs_len i (s.toks i)
  unfold pot
  rw [hpw, hcs]
  clear hpw hcs hc hs
  generalize (if b then 1 else 0) = n at *
  generalize acts.set k (p ++ r) = acts' at *
  clear h1 hk
  exec_cases he <;> simp [pw, costs, cost, WT, hlen] at * <;> grind

/-- C08. Running calls come to an end under every schedule. -/
theorem C08_terminates {c : Conf mach} (h : SReach c) : ∃ n, Bounded c n :=
  ⟨_, bounded_of (P := Inv1) (fun (s : St) acts => pot s acts) (fun _ hc => reach_inv1 hc)
    (fun _ hc => C08_no_fault hc) (fun _ _ _ _ _ _ _ _ hi hk he => decreases hi hk he) h⟩
example : ∃ n, Bounded demo n := C08_terminates demo_reach

end Verif.Suspend
