import Verif.Callback.History

/-! # Invariants of cancellation callbacks and observers: under the strict contract -/

namespace Verif.Callback

/-- A functor is not invoked after `unbind` or the destructor has returned. -/
def Ok5 (before : List Ev) : Ev → Prop
  | .call i _ => .unbound i ∉ before ∧ .dead i ∉ before
  | _ => True

structure Inv5 (s : St) (acts : List (List Instr)) : Prop where
  strict : s.strict = true
  excl : ∀ e y, Pending acts (.cancelCS e) → Pending acts y → closes e y = false
  unb : ∀ i e, Pending acts (.unb i (some e)) → ((i, e) ∈ wait s.log ↔ s.req e = false)
  dtor : ∀ i e, Pending acts (.dtor i (some e)) → ((i, e) ∈ wait s.log ↔ s.req e = false)
  uret : ∀ i, Pending acts (.uret i) → ∀ e, (i, e) ∉ wait s.log
  dret : ∀ i, Pending acts (.dret i) → ∀ e, (i, e) ∉ wait s.log
  unbd : ∀ i, .unbound i ∈ s.log → s.cb i = true ∧ s.phase i ≠ .fresh ∧ s.phase i ≠ .making ∧
    ∀ e, (i, e) ∉ wait s.log
  dead : ∀ i, .dead i ∈ s.log → s.cb i = true ∧ s.phase i = .gone
  gone : ∀ i, s.cb i = true → s.phase i = .gone → ∀ e, (i, e) ∉ wait s.log
  hist : Hist Ok5 s.log

/-- A registered object of a cancelled event is still to be invoked by a running `cancel()`. -/
theorem Inv2.threatened {s : St} {acts : List (List Instr)} (h : Inv2 s acts) {i : Id} {e : EvId}
    (hm : (i, e) ∈ wait s.log) (hr : s.req e = true) : ∃ x, Pending acts x ∧ i ∈ dl e x := by
  have h1 := h.lens e
  rw [h.cb2 e hr] at h1
  have h2 := mem_bnd.2 hm
  have h3 : 0 < (bnd e (wait s.log)).length := List.length_pos_of_mem h2
  obtain ⟨a, ha, x, hx, hw⟩ := exists_of_ws_pos (w := dlen e) (acts := acts) (by simp at h1; omega)
  refine ⟨x, ⟨a, ha, hx⟩, ?_⟩
  rw [h.seq e x ⟨a, ha, hx⟩ (fun h4 => by simp [dlen, h4] at hw)]
  exact h2

theorem threat_of_dl {s : St} {i : Id} {e : EvId} {x : Instr} (h : i ∈ dl e x) : threat s i x = true := by
  cases x <;> simp [dl, threat] at * <;> exact h.2

set_option maxHeartbeats 2000000 in
theorem run_inv5 {s : St} {acts : List (List Instr)} (h1 : Inv1 s acts) (h2 : Inv2 s acts) (h3 : Inv3 s acts)
    (h : Inv5 s acts) {k : Nat} {x : Instr} {r p : List Instr} (hk : acts[k]? = some (x :: r)) {b : Bool} {s' : St}
    (he : exec s x b = .ok s' p) : Inv5 s' (acts.set k (p ++ r)) := by
  have hpx := pending_top hk
  have hx := h1.wt x hpx
  have hw := fun i e => wait_step h2 hk he (i, e)
  have hown : ∀ y, Pending acts y → (∀ w : Instr → Nat, w x + w y ≤ ws w acts) →
      (∀ i, owner x = some i → owner y ≠ some i) := by
    intro y hy hw i hi hi'
    have h3 := hw (own i)
    simp only [own, hi, hi', if_true] at h3
    have := h1.own i
    split at this <;> omega
  have hunb : ∀ y, Pending acts y → (∀ w : Instr → Nat, w x + w y ≤ ws w acts) →
      (∀ i, isUnb i x = true → isUnb i y = false) := by
    intro y hy hw i hi
    cases hi' : isUnb i y with
    | false => rfl
    | true =>
    have h3 := hw (unbW i)
    simp only [unbW, hi, hi', if_true] at h3
    have := h1.unb i
    split at this <;> omega
  have hdr : ∀ e i l, x = .drain e (i :: l) → (i, e) ∈ wait s.log ∧ s.req e = true := by
    rintro e i l rfl
    have h7 := h2.seq e _ hpx (by simp [dl])
    simp [dl] at h7
    refine ⟨mem_bnd.1 (by rw [← h7]; simp), by simpa [WT] using hx⟩
  constructor
  case strict =>
    have := h.strict
    clear h h1 h2 h3 hk hpx hown hunb hw hdr
    exec_cases he <;> simpa using this
  case excl =>
    intro e y hc hy
    rcases pending_set2 hk hc with h4 | ⟨h4, _⟩
    · clear h h1 h2 h3 hk hpx hown hw hunb hdr
      exec_cases he <;> simp at h4
    · rcases pending_set2 hk hy with h5 | ⟨h5, _⟩
      · clear h h1 h2 h3 hk hpx hown hw hunb hdr
        exec_cases he <;> simp at h5 <;> subst h5 <;> rfl
      · exact h.excl e y h4 h5
  case unb =>
    intro i e hy
    rcases pending_set2 hk hy with h4 | ⟨h4, h5⟩
    · clear h h1 h2 h3 hk hpx hown hw hunb hdr
      exec_cases he <;> simp at h4
    · have h6 := h.unb i e h4
      have h7 := hown _ h4 h5
      have h8 := hunb _ h4 h5 i
      have h9 := h1.wt _ h4
      have h10 : x ≠ .cancelCS e := by
        rintro rfl; simpa [closes] using h.excl e _ hpx h4
      replace hw := hw i e
      clear h h1 h2 h3 hk hpx hown hunb hy h5
      exec_cases he <;> simp [WT, owner, isUnb, upd_apply] at * <;> grind
  case dtor =>
    intro i e hy
    rcases pending_set2 hk hy with h4 | ⟨h4, h5⟩
    · clear h h1 h2 h3 hk hpx hown hw hunb hdr
      exec_cases he <;> simp at h4
    · have h6 := h.dtor i e h4
      have h7 := hown _ h4 h5
      have h9 := h1.wt _ h4
      have h10 : x ≠ .cancelCS e := by
        rintro rfl; simpa [closes] using h.excl e _ hpx h4
      replace hw := hw i e
      clear h h1 h2 h3 hk hpx hown hunb hy h5
      exec_cases he <;> simp [WT, owner, upd_apply] at * <;> grind
  case uret =>
    intro i hy e
    replace hw := hw i e
    rcases pending_set2 hk hy with h4 | ⟨h4, h5⟩
    · have h6 := fun t (ht : x = .unb i (some t)) => h.unb i t (ht ▸ hpx)
      have h7 := h3.wev i e
      clear h h1 h2 h3 hk hpx hown hunb hdr hy
      exec_cases he <;> simp [WT] at * <;> grind
    · have h6 := h.uret i h4 e
      have h9 := h1.wt _ h4
      clear h h1 h2 h3 hk hpx hown hunb hy h5
      exec_cases he <;> simp [WT, owner, upd_apply] at * <;> grind
  case dret =>
    intro i hy e
    replace hw := hw i e
    rcases pending_set2 hk hy with h4 | ⟨h4, h5⟩
    · have h6 := fun t (ht : x = .dtor i (some t)) => h.dtor i t (ht ▸ hpx)
      have h7 := h3.wev i e
      clear h h1 h2 h3 hk hpx hown hunb hdr hy
      exec_cases he <;> simp [WT] at * <;> grind
    · have h6 := h.dret i h4 e
      have h9 := h1.wt _ h4
      clear h h1 h2 h3 hk hpx hown hunb hy h5
      exec_cases he <;> simp [WT, owner, upd_apply] at * <;> grind
  case unbd =>
    intro i
    have h4 := h.unbd i
    have h5 := fun (ht : x = .uret i) => h.uret i (ht ▸ hpx)
    replace hw := hw i
    clear h h1 h2 h3 hk hpx hown hunb hdr
    exec_cases he <;> simp [WT, upd_apply] at * <;> grind
  case dead =>
    intro i
    have h4 := h.dead i
    clear h h1 h2 h3 hk hpx hown hunb hdr hw
    exec_cases he <;> simp [WT, upd_apply] at * <;> grind
  case gone =>
    intro i hc hg e
    have h4 := h.gone i
    have h5 := fun (ht : x = .dret i) => h.dret i (ht ▸ hpx) e
    replace hw := hw i e
    clear h h1 h2 h3 hk hpx hown hunb hdr
    exec_cases he <;> simp [WT, upd_apply] at * <;> grind
  case hist =>
    have h4 := h.hist
    have h5 := h.unbd
    have h6 := h.dead
    have h7 := h.gone
    clear h h1 h2 h3 hk hown hw hunb
    exec_cases he <;> simp [WT, Ok5] at * <;> grind

theorem init_inv5 : Inv5 (init true) [] := by
  constructor <;> simp [init, Hist.nil, not_pending_nil, wait]

theorem env_inv5 {s : St} {acts : List (List Instr)} (h1 : Inv1 s acts) (h2 : Inv2 s acts) (h3 : Inv3 s acts)
    (h : Inv5 s acts) {a : Act} {s' : St} {p : List Instr} (he : env s acts a = some (s', p)) :
    Inv5 s' (acts ++ [p]) := by
  have hw : wait s'.log = wait s.log := by
    clear h h1; env_cases he <;> simp [wait.step]
  have hst := h.strict
  have hthr : ∀ i e, anyI acts (threat s i) = false → (i, e) ∈ wait s.log → s.req e = false := by
    intro i e ha hm
    cases hr : s.req e with
    | false => rfl
    | true =>
    obtain ⟨x, hx, hi⟩ := h2.threatened hm hr
    have := anyI_false.1 ha x hx
    rw [threat_of_dl hi] at this; simp at this
  have hclose : ∀ i e, s.mayClose acts i = true → s.phase i = .live → s.ev i = some e →
      (∀ x, Pending acts x → threat s i x = false) ∧ ((i, e) ∈ wait s.log ↔ s.req e = false) := by
    intro i e hm hl hev
    simp only [St.mayClose, hst, St.reqOf, hev] at hm
    simp at hm
    refine ⟨fun x hx => anyI_false.1 hm.1 x hx, hthr i e hm.1, fun hr => ?_⟩
    rw [hr] at hm; simp at hm
    exact h3.live i e hl hev hm.2 hr
  constructor
  case strict =>
    clear h h1 h2 h3 hw hthr hclose
    env_cases he <;> simpa using hst
  case excl =>
    intro e y
    have h4 := h.excl e y
    simp only [pending_app]
    clear h h1 h2 h3 hw hthr
    env_cases he <;> simp [closes, hst, anyI_false] at * <;> grind [threat, closes]
  case unb =>
    intro i e
    have h4 := h.unb i e
    rw [hw]
    simp only [pending_app]
    clear h h1 h2 h3 hw hthr
    env_cases he <;> simp [anyI_false, upd_apply] at * <;> grind [evOf]
  case dtor =>
    intro i e
    have h4 := h.dtor i e
    rw [hw]
    simp only [pending_app]
    clear h h1 h2 h3 hw hthr
    env_cases he <;> simp [anyI_false, upd_apply] at * <;> grind [evOf]
  case uret =>
    intro i
    have h4 := h.uret i
    rw [hw]
    simp only [pending_app]
    clear h h1 h2 h3 hw hthr
    env_cases he <;> (try simp at *) <;> grind
  case dret =>
    intro i
    have h4 := h.dret i
    rw [hw]
    simp only [pending_app]
    clear h h1 h2 h3 hw hthr
    env_cases he <;> (try simp at *) <;> grind
  case unbd =>
    intro i
    have h4 := h.unbd i
    rw [hw]
    clear h h1 h2 h3 hw hthr
    env_cases he <;> (try simp [upd_apply] at *) <;> grind
  case dead =>
    intro i
    have h4 := h.dead i
    clear h h1 h2 h3 hw hthr
    env_cases he <;> (try simp [upd_apply] at *) <;> grind
  case gone =>
    intro i
    have h4 := h.gone i
    rw [hw]
    clear h h1 h2 h3 hw hthr
    env_cases he <;> (try simp [upd_apply] at *) <;> grind
  case hist =>
    have h4 := h.hist
    clear h h1 h2 h3 hw hthr
    env_cases he <;> simp [Ok5, h4]

theorem reach_inv5 {c : Conf mach} (h : Reach mach (init true) c) : Inv5 c.sh c.acts :=
  Reach.inv_with (M := mach) (P := fun s acts => Inv1 s acts ∧ Inv2 s acts ∧ Inv3 s acts) (Q := Inv5)
    (fun _ hc => ⟨reach_inv1 hc, reach_inv2 hc, reach_inv3 hc⟩) init_inv5
    (fun _ _ _ _ _ h1 _ h he => env_inv5 h1.1 h1.2.1 h1.2.2 h he)
    (fun _ _ _ _ _ _ _ _ h1 _ h hk he => run_inv5 h1.1 h1.2.1 h1.2.2 h hk he) h

/-- When an instruction is faulty. -/
theorem fault_char {s : St} {x : Instr} {b : Bool} (h : exec s x b = .fault) :
    (∃ i e, (x = .unb i (some e) ∨ x = .dtor i (some e) ∨ x = .treset i (some e)) ∧ s.req e = false ∧
      i ∉ s.cbs e) ∨ ∃ e i l, x = .drain e (i :: l) ∧ s.cb i = true ∧ s.phase i = .gone := by
  simp only [exec, St.remove] at h
  split at h <;> (repeat' split at h) <;> simp at h <;> simp_all <;>
    first | exact ⟨_, _, ⟨rfl, rfl⟩, by assumption, by assumption⟩ | exact ⟨_, _, ⟨rfl, by assumption⟩⟩ | grind

theorem no_fault {c : Conf mach} (h : Reach mach (init true) c) : c.bad = false := by
  refine Reach.no_fault (M := mach) (s0 := init true)
    (P := fun s acts => Inv1 s acts ∧ Inv2 s acts ∧ Inv3 s acts ∧ Inv5 s acts)
    (fun c hc => ⟨reach_inv1 hc, reach_inv2 hc, reach_inv3 hc, reach_inv5 hc⟩) ?_ h
  rintro s acts k x r b ⟨h1, h2, h3, h5⟩ hk hf
  have hpx := pending_top hk
  have hmem : ∀ i e, s.req e = false → (i, e) ∈ wait s.log → i ∈ s.cbs e := by
    intro i e hr hm
    rw [h2.cb e hr]; exact mem_bnd.2 hm
  rcases fault_char hf with ⟨i, e, rfl | rfl | rfl, hr, hn⟩ | ⟨e, i, l, rfl, hc, hg⟩
  · exact hn (hmem i e hr ((h5.unb i e hpx).2 hr))
  · exact hn (hmem i e hr ((h5.dtor i e hpx).2 hr))
  · exact hn (hmem i e hr (h3.tres i e hpx hr))
  · have h7 := h2.seq e _ hpx (by simp [dl])
    simp [dl] at h7
    exact h5.gone i hc hg e (mem_bnd.1 (by rw [← h7]; simp))

/-- A fault is due to a call of `unbind` or of a destructor. -/
theorem fault_closes {b : Bool} {c : Conf mach} (h : Reach mach (init b) c) (hb : c.bad = true) :
    ∃ i, .unbind i ∈ c.sh.log ∨ .dtor i ∈ c.sh.log := by
  cases h with
  | init => simp [Mach.init] at hb
  | @step c0 _ l hc hs =>
    cases l with
    | env a =>
      simp only [Mach.step] at hs
      split at hs
      · simp at hs
      · split at hs
        · simp at hs; subst hs; simp at hb
        · simp at hs
    | run k ch =>
      simp only [Mach.step] at hs
      split at hs
      · simp at hs
      · split at hs
        · rename_i x r hk
          split at hs
          · simp at hs; subst hs; simp at hb
          · simp at hs
          · rename_i hf
            simp at hs; subst hs
            have h1 := reach_inv1 hc
            have h2 := reach_inv2 hc
            have h3 := reach_inv3 hc
            have h4 := reach_inv4 hc
            have hpx := pending_top hk
            rcases fault_char hf with ⟨i, e, rfl | rfl | rfl, hr, hn⟩ | ⟨e, i, l, rfl, hcb, hg⟩
            · exact ⟨i, .inl (h4.usrc i _ hpx)⟩
            · exact ⟨i, .inr (h4.dsrc i _ hpx)⟩
            · exfalso; apply hn
              rw [h2.cb e hr]; exact mem_bnd.2 (h3.tres i e hpx hr)
            · exact ⟨i, .inr (h4.gsrc i hcb (.inr hg))⟩
        · simp at hs

/-! ## Progress and termination -/

/-- Instructions that remain, apart from invocations by `cancel()`. -/
def base : Instr → Nat
  | .ctor _ _ | .set _ _ _ => 4
  | .cret _ _ | .unb _ _ | .dtor _ _ | .fire _ _ | .treset _ _ | .cancelCS _ | .ret _ _ _ => 2
  | _ => 1

def pot (s : St) (acts : List (List Instr)) : Nat := ws base acts + 3 * (wait s.log).length

theorem decreases {s : St} {acts : List (List Instr)} (h2 : Inv2 s acts) {k : Nat} {x : Instr}
    {r p : List Instr} (hk : acts[k]? = some (x :: r)) {b : Bool} {s' : St} (he : exec s x b = .ok s' p) :
    pot s' (acts.set k (p ++ r)) + (if b then 1 else 0) ≤ pot s acts := by
  have hpx := pending_top hk
  have e1 := ws_set base p hk
  have hund := fun i e (hi : (i, e) ∈ tok x) => (h2.undecided hpx (e' := e) hi).1
  have hdr : ∀ e i l, x = .drain e (i :: l) → (i, e) ∈ wait s.log := by
    rintro e i l rfl
    have h7 := h2.seq e _ hpx (by simp [dl])
    simp [dl] at h7
    exact mem_bnd.1 (by rw [← h7]; simp)
  have her : ∀ a, a ∈ wait s.log → ((wait s.log).erase a).length + 1 = (wait s.log).length := by
    intro a ha
    have := List.length_erase_of_mem ha
    have := List.length_pos_of_mem ha
    omega
  have hel : ∀ a, ((wait s.log).erase a).length ≤ (wait s.log).length :=
    fun a => List.length_erase_le
  have hb : (if b then 1 else 0) ≤ 1 := by split <;> omega
  generalize (if b then 1 else 0) = n at *
  generalize acts.set k (p ++ r) = acts' at *
  unfold pot
  clear h2 hk hpx
  exec_cases he <;> simp [base, tok, wait.step] at * <;> grind

theorem reach_short {b : Bool} {c : Conf mach} (h : Reach mach (init b) c) : ∀ a ∈ c.acts, a.length ≤ 1 := by
  refine Reach.inv (M := mach) (P := fun _ acts => ∀ a ∈ acts, a.length ≤ 1) (by simp) ?_ ?_ h
  · intro s acts a s' p hs he
    have hp : p.length ≤ 1 := by
      change env s acts a = some (s', p) at he
      env_cases he <;> simp
    intro a ha
    rcases List.mem_append.1 ha with ha | ha
    · exact hs a ha
    · simp at ha; subst ha; exact hp
  · intro s acts k x r b s' p hs hk he
    have hr : r = [] := by
      have := hs _ (List.mem_of_getElem? hk)
      simpa using this
    have hp : p.length ≤ 1 := by
      change exec s x b = .ok s' p at he
      exec_cases he <;> simp
    subst hr
    intro a ha
    rcases List.mem_or_eq_of_mem_set ha with ha | ha
    · exact hs a ha
    · subst ha; simpa using hp

theorem progress {s : St} {acts : List (List Instr)} (h : Inv1 s acts) (hs : ∀ a ∈ acts, a.length ≤ 1)
    (hq : ¬ ∀ a ∈ acts, a = []) :
    ∃ (k : Nat) (x : Instr) (r : List Instr), acts[k]? = some (x :: r) ∧ ∀ b, exec s x b ≠ .block := by
  have hblk : ∀ x b, exec s x b = .block → ∃ e, s.mtx e = true := by
    intro x b hb
    simp only [exec, St.remove] at hb
    split at hb <;> (repeat' split at hb) <;> simp at hb <;> exact ⟨_, by assumption⟩
  have top : ∀ x, Pending acts x → ∃ (k : Nat) (r : List Instr), acts[k]? = some (x :: r) := by
    rintro x ⟨a, ha, hx⟩
    match a, hs a ha, ha, hx with
    | [y], _, ha, hx =>
      simp at hx; subst hx
      obtain ⟨k, hk⟩ := List.getElem?_of_mem ha
      exact ⟨k, [], hk⟩
  by_cases hm : ∃ e, s.mtx e = true
  · obtain ⟨e, hm⟩ := hm
    have h1 := h.mtx e
    rw [if_pos hm] at h1
    obtain ⟨a, ha, x, hx, hw⟩ := exists_of_ws_pos (w := holds e) (acts := acts) (by omega)
    obtain ⟨k, r, hk⟩ := top x ⟨a, ha, hx⟩
    refine ⟨k, x, r, hk, fun b => ?_⟩
    cases x <;> simp [holds] at hw <;> simp [exec]
  · have : ∃ x, Pending acts x := by
      apply Classical.byContradiction
      intro hn
      apply hq
      intro a ha
      cases a with
      | nil => rfl
      | cons x r => exact absurd ⟨x, _, ha, by simp⟩ hn
    obtain ⟨x, hx⟩ := this
    obtain ⟨k, r, hk⟩ := top x hx
    exact ⟨k, x, r, hk, fun b hb => hm (hblk x b hb)⟩

end Verif.Callback
