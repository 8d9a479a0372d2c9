import Verif.Suspend.Obs

/-! # Invariants of `suspend_indefinitely`: history -/

namespace Verif.Suspend

/-- `cancel()` took effect and `reset()` was not called since. -/
def requested (e : EvId) (log : List Ev) : Bool :=
  log.foldl (fun b v => match v with
    | .cancel e' => if e' = e then true else b
    | .revive e' => if e' = e then false else b
    | _ => b) false

@[simp] theorem requested_append (e : EvId) (l : List Ev) (v : Ev) : requested e (l ++ [v]) = match v with
    | .cancel e' => if e' = e then true else requested e l
    | .revive e' => if e' = e then false else requested e l
    | _ => requested e l := by
  simp [requested]

/-- Each event of the history is justified by the events before it. -/
def Ok (before : List Ev) : Ev → Prop
  | .done i => .done i ∉ before ∧ .attached i ∈ before ∧ ∃ o, o.op = i ∧ .fire o ∈ before
  | .fire o => ∃ e, o.tok = some e ∧ requested e before = true
  | .start i _ => ∀ t, .start i t ∉ before
  | .revive e => ∀ i t, .start i t ∈ before → some e ∈ t → .done i ∈ before
  | _ => True

structure Inv3 (s : St) (acts : List (List Instr)) : Prop where
  preq : ∀ o, o ∈ s.pool → s.reqT o.tok = false
  dreq : ∀ o l, Pending acts (.drain l) → o ∈ l → s.reqT o.tok = true
  freq : ∀ o, .fire o ∈ s.log → s.phase o.op = .running → s.reqT o.tok = true
  rres : ∀ i l c o, Pending acts (.rst i l c) → o ∈ l → .reset o ∉ s.log
  resb : ∀ o, .reset o ∈ s.log → s.ini o.op = true ∧ s.can o.op = true
  rst : ∀ o, o ∈ s.pool → s.ini o.op = true → s.can o.op = true → ∃ l c, Pending acts (.rst o.op l c) ∧ o ∈ l
  fcan : ∀ o, .fire o ∈ s.log → s.can o.op = true ∨ Pending acts (.tOr o.op false)
  canf : ∀ i, s.can i = true ∨ Pending acts (.tOr i false) → ∃ o, o.op = i ∧ .fire o ∈ s.log
  att : ∀ i, s.ini i = true ∨ Pending acts (.tOr i true) → .attached i ∈ s.log
  dn : ∀ i, .done i ∈ s.log ↔ s.phase i = .done
  st : ∀ i t, .start i t ∈ s.log → s.phase i ≠ .fresh ∧ s.toks i = t
  reqlog : ∀ e, s.req e = requested e s.log
  hist : Hist Ok s.log

theorem Inv1.running {s : St} {acts : List (List Instr)} (h : Inv1 s acts) {x : Instr} (hx : Pending acts x) {i : Id}
    (hu : 0 < unit i x) : s.phase i = .running := by
  have h1 := h.ctr i
  have h2 := hx.le (unit i)
  split at h1
  · assumption
  · omega

theorem Inv1.setv_running {s : St} {acts : List (List Instr)} (h : Inv1 s acts) {i : Id}
    (hx : Pending acts (.setv i)) : s.phase i = .running ∧ s.ctr i = 0 := by
  have h1 := h.setv i
  have h2 := hx.le (isSetv i)
  simp [isSetv] at h2
  split at h1
  · assumption
  · omega

theorem Inv1.not_ini {s : St} {acts : List (List Instr)} (h : Inv1 s acts) {x : Instr} (hx : Pending acts x) {i : Id}
    (hu : 0 < initp i x) : s.phase i = .running ∧ s.ini i = false := by
  have h1 := h.ini i
  have h2 := hx.le (initp i)
  split at h1
  · assumption
  · omega

theorem Inv1.drain_running {s : St} {acts : List (List Instr)} (h : Inv1 s acts) {l : List Obs}
    (hx : Pending acts (.drain l)) {o : Obs} (ho : o ∈ l) : s.phase o.op = .running :=
  h.running hx (List.countP_pos_iff.2 ⟨o, ho, by simp [ofOp]⟩)

theorem mem_goneL {o : Obs} {log : List Ev} : o ∈ goneL log ↔ .fire o ∈ log ∨ .reset o ∈ log := by
  unfold goneL
  rw [List.mem_flatMap]
  constructor
  · rintro ⟨v, hv, h⟩
    cases v <;> simp [goneF] at h <;> subst h <;> simp [hv]
  · rintro (h | h) <;> exact ⟨_, h, by simp [goneF]⟩

/-- An observer that is about to be reset is attached. -/
theorem in_pool {s : St} {acts : List (List Instr)} (h1 : Inv1 s acts) (h2 : Inv2 s acts) (h : Inv3 s acts)
    {i : Id} {o : Obs} {l : List Obs} {c : Nat} (hx : Pending acts (.rst i (o :: l) c))
    (hr : s.reqT o.tok = false) : o ∈ s.pool := by
  obtain ⟨hi, hc, hc1, hs⟩ := h1.wt _ hx
  have hrun : s.phase i = .running := h1.running hx (by simp [unit]; omega)
  obtain ⟨hop, _⟩ := suffix_op hs
  have hm : o ∈ made s.log := (h2.mop o).2 ⟨by rw [hop, hrun]; simp, by rw [hop]; exact hs.subset (by simp)⟩
  rcases h2.where_ hm with h3 | h3 | ⟨x, hx', ho⟩
  · exact h3
  · exfalso
    rcases mem_goneL.1 h3 with h4 | h4
    · have := h.freq o h4 (by rw [hop]; exact hrun)
      rw [hr] at this; simp at this
    · exact h.rres i _ c o hx (by simp) h4
  · exfalso
    cases x with
    | attach j l' =>
      have hj : o.op = j := h1.wt _ hx' o ho
      have := (h1.not_ini hx' (i := j) (by simp [initp])).2
      rw [← hj, hop, hi] at this; simp at this
    | drain l' =>
      have := h.dreq o l' hx' ho
      rw [hr] at this; simp at this
    | _ => simp [held] at ho

/-- What is known when the receiver is completed. -/
theorem at_setv {s : St} {acts : List (List Instr)} (h1 : Inv1 s acts) (h2 : Inv2 s acts) (h : Inv3 s acts)
    {i : Id} (hx : Pending acts (.setv i)) : .attached i ∈ s.log ∧ ∃ o, o.op = i ∧ .fire o ∈ s.log := by
  obtain ⟨hrun, hc⟩ := h1.setv_running hx
  refine ⟨h.att i (.inl (h1.zero i hrun hc)), ?_⟩
  obtain ⟨ht, _⟩ := h1.toks i (by rw [hrun]; simp)
  obtain ⟨o, ho⟩ : ∃ o, o ∈ mkObs i (s.toks i) := by
    apply List.exists_mem_of_ne_nil
    intro e
    have := mkObs_len i (s.toks i)
    rw [e] at this
    exact ht (List.length_eq_zero_iff.1 (by simpa using this.symm))
  have hop := mkObs_op ho
  have hz := h1.ctr i
  rw [if_pos hrun, hc] at hz
  rcases h2.where_ ((h2.mop o).2 ⟨by rw [hop, hrun]; simp, by rw [hop]; exact ho⟩) with h3 | h3 | ⟨x, hx', h3⟩
  · have : 0 < s.pool.countP (ofOp i) := List.countP_pos_iff.2 ⟨o, h3, by simp [ofOp, hop]⟩
    omega
  · rcases mem_goneL.1 h3 with h4 | h4
    · exact ⟨o, hop, h4⟩
    · have := (h.resb o h4).2
      rw [hop] at this; exact h.canf i (.inl this)
  · exfalso
    have h5 := hx'.le (unit i)
    cases x with
    | attach j l' =>
      have hj : o.op = j := h1.wt _ hx' o h3
      simp [unit, ← hj, hop] at h5; omega
    | drain l' =>
      have : 0 < l'.countP (ofOp i) := List.countP_pos_iff.2 ⟨o, h3, by simp [ofOp, hop]⟩
      simp [unit] at h5; omega
    | _ => simp [held] at h3

set_option maxHeartbeats 2000000 in
theorem run_inv3 {s : St} {acts : List (List Instr)} (h1 : Inv1 s acts) (h2 : Inv2 s acts) (h : Inv3 s acts)
    {k : Nat} {x : Instr} {r p : List Instr} (hk : acts[k]? = some (x :: r)) {b : Bool} {s' : St}
    (he : exec s x b = .ok s' p) : Inv3 s' (acts.set k (p ++ r)) := by
  have hpx := pending_top hk
  have hx := h1.wt x hpx
  have hnd := h2.pool_nodup
  have hini : ∀ i, 0 < initp i x → s.ini i = false := fun i hi => (h1.not_ini hpx hi).2
  constructor
  case preq =>
    intro o
    have h3 := h.preq o
    have h4 : o ∈ s.pool.erase o → False := fun h => by
      rw [List.Nodup.mem_erase_iff hnd] at h; exact h.1 rfl
    have h5 : ∀ a, o ∈ s.pool.erase a → o ∈ s.pool := fun a h => List.mem_of_mem_erase h
    clear h h1 h2 hk hpx hini
    exec_cases he <;> (try simp [mem_others, St.reqT, upd_apply] at *) <;> grind
  case dreq =>
    intro o l hy ho
    rcases pending_set2 hk hy with h3 | ⟨h3, _⟩
    · have h4 := h.dreq o
      clear h h1 h2 hk hini hy
      exec_cases he <;> simp at h3
      · subst h3
        rw [mem_listOf] at ho
        simp [ho.2, St.reqT]
      · subst h3
        exact h4 _ hpx (by simp [ho])
    · have h3 := h.dreq o l h3 ho
      clear h h1 h2 hk hpx hini hy
      exec_cases he <;> (try simp [St.reqT, upd_apply] at *) <;> grind
  case freq =>
    intro o
    have h3 := h.freq o
    have h4 := fun l (hl : x = .drain (o :: l)) => h.dreq o _ (hl ▸ hpx) (by simp)
    clear h h1 h2 hk hpx hini
    exec_cases he <;> (try simp [St.reqT, upd_apply] at *) <;> grind
  case rres =>
    intro i l c o hy ho
    rcases pending_set2 hk hy with h3 | ⟨h3, h4⟩
    · have h5 := fun l c => h.rres i l c o
      have h6 := h.resb o
      have h7 : ∀ o' l c, x = .rst i (o' :: l) c → o' ∉ l := by
        rintro o' l c rfl
        exact (List.nodup_cons.1 (hx.2.2.2.sublist.nodup (mkObs_nodup _ _))).1
      have h8 := fun i t o => @mkObs_op i t o
      clear h h1 h2 hk hini hy
      exec_cases he <;> simp at h3 <;> (try simp [WT] at *) <;> grind
    · have h5 := h.rres i l c o h3 ho
      have h6 : ∀ j l' c', x = .rst j l' c' → j ≠ i := by
        rintro j l' c' rfl rfl
        have h6 := h4 (isRst j)
        have h7 := h1.rone j
        simp only [isRst, if_true] at h6
        split at h7 <;> omega
      have h7 := (h1.wt _ h3)
      have h8 : o.op = i := mkObs_op (h7.2.2.2.subset ho)
      have h9 := fun i t o l => @suffix_op i t o l
      clear h h1 h2 hk hpx hini hy
      exec_cases he <;> (try simp [WT] at *) <;> grind
  case resb =>
    intro o
    have h3 := h.resb o
    clear h h1 h2 hk hpx hini
    have hs := fun i t o l => @suffix_op i t o l
    exec_cases he <;> (try simp [WT, upd_apply] at *) <;> grind
  case rst =>
    intro o
    have h3 := h.rst o
    have hst : ∀ y, Pending acts y → y ≠ x → Pending (acts.set k (p ++ r)) y := fun y hy hne => pending_stays hk hy hne
    have hnew : ∀ y ∈ p, Pending (acts.set k (p ++ r)) y := fun y hy => pending_new hk hy
    have h4 : o ∈ s.pool.erase o → False := fun h => by
      rw [List.Nodup.mem_erase_iff hnd] at h; exact h.1 rfl
    have h5 : ∀ a, o ∈ s.pool.erase a → o ∈ s.pool := fun a h => List.mem_of_mem_erase h
    have h6 := h.preq o
    have h7 : o ∈ s.pool → o ∈ mkObs o.op (s.toks o.op) := fun ho => ((h2.mop o).1 (h2.made_of (.inl ho))).2
    have h8 : ∀ i l, x = .attach i (o :: l) → s.ini o.op = false := by
      rintro i l rfl
      have := hx o (by simp)
      rw [this]; exact hini i (by simp [initp])
    clear h h1 h2 hk hpx hini
    exec_cases he <;> (try simp [WT, upd_apply, mem_others] at *) <;> grind
  case fcan =>
    intro o
    have h3 := h.fcan o
    have hst : ∀ y, Pending acts y → y ≠ x → Pending (acts.set k (p ++ r)) y := fun y hy hne => pending_stays hk hy hne
    have hnew : ∀ y ∈ p, Pending (acts.set k (p ++ r)) y := fun y hy => pending_new hk hy
    clear h h1 h2 hk hpx hini
    exec_cases he <;> (try simp [WT, upd_apply] at *) <;> grind
  case canf =>
    intro i
    have h3 := h.canf i
    have hold : Pending (acts.set k (p ++ r)) (.tOr i false) → .tOr i false ∈ p ∨ Pending acts (.tOr i false) :=
      fun hy => (pending_set2 hk hy).imp id (fun h => h.1)
    clear h h1 h2 hk hini
    exec_cases he <;> (try simp [WT, upd_apply] at *) <;> grind
  case att =>
    intro i
    have h3 := h.att i
    have hold : Pending (acts.set k (p ++ r)) (.tOr i true) → .tOr i true ∈ p ∨ Pending acts (.tOr i true) :=
      fun hy => (pending_set2 hk hy).imp id (fun h => h.1)
    clear h h1 h2 hk hini
    exec_cases he <;> (try simp [WT, upd_apply] at *) <;> grind
  case dn =>
    intro i
    have h3 := h.dn i
    clear h h1 h2 hk hpx hini
    exec_cases he <;> (try simp [upd_apply] at *) <;> grind
  case st =>
    intro i t
    have h3 := h.st i t
    clear h h1 h2 hk hpx hini
    exec_cases he <;> (try simp [upd_apply] at *) <;> grind
  case reqlog =>
    intro e
    have h3 := h.reqlog e
    clear h h1 h2 hk hpx hini
    exec_cases he <;> (try simp [upd_apply] at *) <;> grind
  case hist =>
    have h3 := h.hist
    have h4 := h.reqlog
    have h5 := h.dn
    have h6 := fun i (hi : x = .setv i) => at_setv h1 h2 h (hi ▸ hpx)
    have h7 := fun o l (hl : x = .drain (o :: l)) => h.dreq o _ (hl ▸ hpx) (by simp)
    have h8 : ∀ t, s.reqT t = true → ∃ e, t = some e ∧ s.req e = true := by
      intro t ht
      cases t with
      | none => simp [St.reqT] at ht
      | some e => exact ⟨e, rfl, ht⟩
    clear h h1 h2 hk hini
    exec_cases he <;> (try simp [Ok] at *) <;> grind

theorem init_inv3 : Inv3 init [] := by
  constructor <;> simp [init, Hist.nil, not_pending_nil, requested]

theorem env_inv3 {s : St} {acts : List (List Instr)} (h1 : Inv1 s acts) (h2 : Inv2 s acts) (h : Inv3 s acts)
    {a : Act} {s' : St} {p : List Instr} (he : env s acts a = some (s', p)) : Inv3 s' (acts ++ [p]) := by
  have hown : ∀ o, o ∈ made s.log → o.op ∈ s.ops ∧ o.tok ∈ s.toks o.op ∧ s.phase o.op ≠ .fresh := by
    intro o ho
    obtain ⟨h3, h4⟩ := (h2.mop o).1 ho
    exact ⟨(h1.toks _ h3).2, mkObs_tok h4, h3⟩
  have hrev : ∀ o e, o ∈ made s.log → s.phase o.op = .running →
      (∀ i ∈ s.ops, s.phase i = .done ∨ some e ∉ s.toks i) → o.tok ≠ some e := by
    intro o e ho hr hc ht
    obtain ⟨h3, h4, _⟩ := hown o ho
    rcases hc _ h3 with h5 | h5
    · rw [hr] at h5; simp at h5
    · rw [ht] at h4; exact h5 h4
  constructor
  case preq =>
    intro o
    have h3 := h.preq o
    clear h h1 h2 hrev
    env_cases he <;> (try simp [St.reqT, upd_apply] at *) <;> grind
  case dreq =>
    intro o l
    have h3 := h.dreq o l
    have h4 := fun (hp : Pending acts (.drain l)) (ho : o ∈ l) e => hrev o e (h2.made_of (.inr (.inr ⟨.drain l, hp, ho⟩))) (h1.drain_running hp ho)
    rw [pending_app]
    clear h h1 h2 hrev
    cases ht : o.tok <;> rw [ht] at h3 h4 <;>
    env_cases he <;> (try simp [St.reqT, upd_apply] at *) <;> grind
  case freq =>
    intro o
    have h3 := h.freq o
    have h4 := fun (hf : .fire o ∈ s.log) => hown o (h2.made_of (.inr (.inl (mem_goneL.2 (.inl hf)))))
    have h5 := fun (hf : .fire o ∈ s.log) e => hrev o e (h2.made_of (.inr (.inl (mem_goneL.2 (.inl hf)))))
    clear h h1 h2 hrev hown
    cases ht : o.tok <;> rw [ht] at h3 h5 <;>
    env_cases he <;> (try simp [St.reqT, upd_apply] at *) <;> grind
  case rres =>
    intro i l c o
    have h3 := h.rres i l c o
    rw [pending_app]
    clear h h1 h2 hrev hown
    env_cases he <;> (try simp at *) <;> grind
  case resb =>
    intro o
    have h3 := h.resb o
    clear h h1 h2 hrev hown
    env_cases he <;> (try simp at *) <;> grind
  case rst =>
    intro o
    have h3 := h.rst o
    simp only [pending_app]
    clear h h1 h2 hrev hown
    env_cases he <;> (try simp at *) <;> grind
  case fcan =>
    intro o
    have h3 := h.fcan o
    simp only [pending_app]
    clear h h1 h2 hrev hown
    env_cases he <;> (try simp at *) <;> grind
  case canf =>
    intro i
    have h3 := h.canf i
    simp only [pending_app]
    clear h h1 h2 hrev hown
    env_cases he <;> (try simp at *) <;> grind
  case att =>
    intro i
    have h3 := h.att i
    simp only [pending_app]
    clear h h1 h2 hrev hown
    env_cases he <;> (try simp at *) <;> grind
  case dn =>
    intro i
    have h3 := h.dn i
    clear h h1 h2 hrev hown
    env_cases he <;> (try simp [upd_apply] at *) <;> grind
  case st =>
    intro i t
    have h3 := h.st i
    clear h h1 h2 hrev hown
    env_cases he <;> (try simp [upd_apply] at *) <;> grind
  case reqlog =>
    intro e
    have h3 := h.reqlog e
    clear h h1 h2 hrev hown
    env_cases he <;> (try simp [upd_apply] at *) <;> grind
  case hist =>
    have h3 := h.hist
    have h4 := h.st
    have h5 := h.dn
    have h6 := fun i (hi : s.phase i ≠ .fresh) => (h1.toks i hi).2
    clear h h1 h2 hrev hown
    env_cases he <;> (try simp [Ok] at *) <;> grind

theorem reach_inv3 {c : Conf mach} (h : Reach mach init c) : Inv3 c.sh c.acts :=
  Reach.inv_with (M := mach) (P := fun s acts => Inv1 s acts ∧ Inv2 s acts) (Q := Inv3)
    (fun _ hc => ⟨reach_inv1 hc, reach_inv2 hc⟩) init_inv3
    (fun _ _ _ _ _ h1 _ h he => env_inv3 h1.1 h1.2 h he)
    (fun _ _ _ _ _ _ _ _ h1 _ h hk he => run_inv3 h1.1 h1.2 h hk he) h

end Verif.Suspend
