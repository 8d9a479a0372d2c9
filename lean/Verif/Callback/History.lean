import Verif.Callback.Objects

/-! # Invariants of cancellation callbacks and observers: history -/

namespace Verif.Callback

/-- Each event of the history is justified by the events before it. -/
def Ok (before : List Ev) : Ev → Prop
  | .bound i e => requested e before = false ∧ ∀ e', .bound i e' ∉ before
  | .call j e => requested e before = true ∧
      ((j, e) ∈ wait before → (bnd e (wait before)).head? = some j ∧
        ∀ i, .bound i e ∈ before → .call i e ∈ before → .ret i ∈ before)
  | .query none b => b = false
  | .query (some e) b => b = requested e before
  | .refuse _ e => requested e before = true
  | _ => True

structure Inv4 (s : St) (acts : List (List Instr)) : Prop where
  bsrc : ∀ i e, .bound i e ∈ s.log → (i, e) ∈ wait s.log ∨ .call i e ∈ s.log ∨ .erase i e ∈ s.log
  wsrc : ∀ i e, (i, e) ∈ wait s.log → .bound i e ∈ s.log
  rsrc : ∀ i e, .bound i e ∈ s.log → .call i e ∈ s.log → .ret i ∈ s.log ∨ ∃ l, Pending acts (.ret i e l)
  usrc : ∀ i t, Pending acts (.unb i t) → .unbind i ∈ s.log
  dsrc : ∀ i t, Pending acts (.dtor i t) → .dtor i ∈ s.log
  tsrc : ∀ i t, Pending acts (.treset i t) → .treset i ∈ s.log
  ssrc : ∀ i t f, Pending acts (.set i t f) → .set i t f ∈ s.log
  gsrc : ∀ i, s.cb i = true → s.phase i = .closing ∨ s.phase i = .gone → .dtor i ∈ s.log
  esrc : ∀ i e, .erase i e ∈ s.log → .unbind i ∈ s.log ∨ .dtor i ∈ s.log ∨ .treset i ∈ s.log
  fsrc : ∀ i e, .refuse i e ∈ s.log → .set i (some e) false ∈ s.log
  cev : ∀ i t, .ctor i t ∈ s.log → s.ev i = t ∧ s.cb i = true ∧ s.phase i ≠ .fresh
  sev : ∀ i t f, .set i t f ∈ s.log → s.ev i = t ∧ s.cb i = false ∧ s.phase i ≠ .fresh
  once : ∀ i t f f', .set i t f ∈ s.log → .set i t f' ∈ s.log → f = f'
  oe : ∀ i e, s.cb i = false → .erase i e ∈ s.log → (s.phase i = .closing ∨ s.phase i = .gone) ∧
    ∀ t, ¬ Pending acts (.treset i t)
  ebd : ∀ i e, .erase i e ∈ s.log → .bound i e ∈ s.log
  eev : ∀ i e, .erase i e ∈ s.log → s.ev i = some e ∧ s.phase i ≠ .fresh
  tt : ∀ i, Pending acts (.tret i true) → ∀ e, s.ev i = some e → .erase i e ∈ s.log
  tf : ∀ i, Pending acts (.tret i false) → s.ev i ≠ none ∧ ∀ e, .erase i e ∉ s.log
  rt : ∀ i, .tret i true ∈ s.log → s.phase i = .gone ∧ s.cb i = false ∧ ∀ e, s.ev i = some e → .erase i e ∈ s.log
  rf : ∀ i, .tret i false ∈ s.log → s.phase i = .gone ∧ s.cb i = false ∧ s.ev i ≠ none ∧ ∀ e, .erase i e ∉ s.log
  osrc : ∀ i, s.cb i = false → s.phase i ≠ .fresh → ∃ f, .set i (s.ev i) f ∈ s.log
  ogone : ∀ i, s.cb i = false → s.phase i = .gone ∨ s.phase i = .closing → .treset i ∈ s.log
  tcb : ∀ i, .treset i ∈ s.log → s.cb i = false ∧ s.phase i ≠ .fresh
  cst : ∀ i e, .call i e ∈ s.log → s.phase i ≠ .gone → s.req e = true
  urem : ∀ i e, Pending acts (.uret i) → s.ev i = some e → .cancel e ∈ s.log ∨ .erase i e ∈ s.log
  drem : ∀ i e, Pending acts (.dret i) → s.ev i = some e → .cancel e ∈ s.log ∨ .erase i e ∈ s.log
  lrem : ∀ i, .unbound i ∈ s.log ∨ .dead i ∈ s.log → s.phase i ≠ .fresh ∧
    ∀ e, s.ev i = some e → .cancel e ∈ s.log ∨ .erase i e ∈ s.log
  hist : Hist Ok s.log
  doom : ∀ l1 l2 i e, s.log = l1 ++ .cancel e :: l2 → (i, e) ∈ wait l1 →
    .call i e ∈ l2 ∨ ((i, e) ∈ wait s.log ∧ s.req e = true)

theorem requested_mem {e : EvId} {log : List Ev} (h : requested e log = true) : .cancel e ∈ log := by
  have : ∀ l : List Ev, ∀ b, l.foldl (fun b v => match v with
    | .cancel e' => if e' = e then true else b
    | .reset e' => if e' = e then false else b
    | _ => b) b = true → b = true ∨ .cancel e ∈ l := by
    intro l
    induction l with
    | nil => intro b hb; exact .inl hb
    | cons v l ih =>
      intro b hb
      rw [List.foldl_cons] at hb
      have := ih _ hb
      cases v <;> simp at this <;> grind
  rcases this log false h with h | h
  · simp at h
  · exact h

/-- What was registered, invoked, removed or refused was made. -/
theorem Inv2.made_of {s : St} {acts : List (List Instr)} (h : Inv2 s acts) {a : Reg}
    (ha : a ∈ wait s.log ∨ a ∈ goneL s.log) : a ∈ made s.log := by
  have key : ∀ q : Reg → Bool, q a = true → ∃ b ∈ made s.log, q b = true := by
    intro q hq
    have h1 := h.place q
    apply List.countP_pos_iff.1
    rcases ha with ha | ha
    · have := List.countP_pos_iff (p := q) |>.2 ⟨a, ha, hq⟩; omega
    · have := List.countP_pos_iff (p := q) |>.2 ⟨a, ha, hq⟩; omega
  obtain ⟨b, hb, hba⟩ := key (fun p => decide (p = a)) (by simp)
  simp at hba; exact hba ▸ hb

theorem Inv2.not_fresh {s : St} {acts : List (List Instr)} (h : Inv2 s acts) {i : Id} {e : EvId}
    (ha : (i, e) ∈ made s.log) : s.phase i ≠ .fresh := by
  intro h9
  have h7 := h.uniq i
  have h8 : 0 < (made s.log).countP (fun p => p.1 == i) := List.countP_pos_iff.2 ⟨_, ha, by simp⟩
  rw [if_pos h9] at h7; omega

theorem snoc_split {l l1 l2 : List Ev} {v w : Ev} (h : l ++ [v] = l1 ++ w :: l2) :
    (l1 = l ∧ w = v ∧ l2 = []) ∨ ∃ l3, l2 = l3 ++ [v] ∧ l = l1 ++ w :: l3 := by
  rcases List.eq_nil_or_concat l2 with rfl | ⟨l3, y, rfl⟩
  · obtain ⟨rfl, h3⟩ := List.append_inj' (s₁ := l) (t₁ := [v]) (s₂ := l1) (t₂ := [w]) h rfl
    simp at h3; exact .inl ⟨rfl, h3.symm, rfl⟩
  · have e' : l ++ [v] = (l1 ++ w :: l3) ++ [y] := by simpa using h
    obtain ⟨rfl, h3⟩ := List.append_inj' e' rfl
    simp at h3; subst h3; exact .inr ⟨l3, by simp, rfl⟩

/-- The history grows by at most one event. -/
theorem log_step {s : St} {x : Instr} {p : List Instr} {b : Bool} {s' : St} (he : exec s x b = .ok s' p) :
    s'.log = s.log ∨ ∃ v, s'.log = s.log ++ [v] := by
  exec_cases he <;> first | exact .inl rfl | exact .inr ⟨_, rfl⟩

theorem log_env {s : St} {acts : List (List Instr)} {a : Act} {s' : St} {p : List Instr}
    (he : env s acts a = some (s', p)) : s'.log = s.log ∨ ∃ v, s'.log = s.log ++ [v] := by
  env_cases he <;> first | exact .inl rfl | exact .inr ⟨_, rfl⟩

theorem doom_snoc {l : List Ev} {v : Ev} {R R' : EvId → Prop}
    (h : ∀ l1 l2 i e, l = l1 ++ .cancel e :: l2 → (i, e) ∈ wait l1 → .call i e ∈ l2 ∨ ((i, e) ∈ wait l ∧ R e))
    (h1 : ∀ i e, (i, e) ∈ wait l → R e → v = .call i e ∨ ((i, e) ∈ wait (l ++ [v]) ∧ R' e))
    (h2 : ∀ i e, v = .cancel e → (i, e) ∈ wait l → (i, e) ∈ wait (l ++ [v]) ∧ R' e) :
    ∀ l1 l2 i e, l ++ [v] = l1 ++ .cancel e :: l2 → (i, e) ∈ wait l1 →
      .call i e ∈ l2 ∨ ((i, e) ∈ wait (l ++ [v]) ∧ R' e) := by
  intro l1 l2 i e hl hm
  rcases snoc_split hl with ⟨rfl, hv, rfl⟩ | ⟨l3, rfl, rfl⟩
  · exact .inr (h2 i e hv.symm hm)
  · rcases h l1 l3 i e rfl hm with h3 | ⟨h3, h4⟩
    · left; simp [h3]
    · rcases h1 i e h3 h4 with rfl | h5
      · left; simp
      · exact .inr h5

set_option maxHeartbeats 2000000 in
theorem run_inv4 {s : St} {acts : List (List Instr)} (h1 : Inv1 s acts) (h2 : Inv2 s acts) (h3 : Inv3 s acts)
    (h : Inv4 s acts) {k : Nat} {x : Instr} {r p : List Instr} (hk : acts[k]? = some (x :: r)) {b : Bool} {s' : St}
    (he : exec s x b = .ok s' p) : Inv4 s' (acts.set k (p ++ r)) := by
  have hpx := pending_top hk
  have hx := h1.wt x hpx
  have hw := fun i e => wait_step h2 hk he (i, e)
  have hund := fun i e (hi : (i, e) ∈ tok x) => (h2.undecided hpx (e' := e) hi).1
  have hown : ∀ y, Pending acts y → (∀ w : Instr → Nat, w x + w y ≤ ws w acts) →
      (∀ i, owner x = some i → owner y ≠ some i) := by
    intro y hy hw i hi hi'
    have h3 := hw (own i)
    simp only [own, hi, hi', if_true] at h3
    have := h1.own i
    split at this <;> omega
  constructor
  case bsrc =>
    intro i e
    have h4 := h.bsrc i e
    replace hw := hw i e
    clear h h1 h2 h3 hk hpx hown
    exec_cases he <;> simp [tok] at * <;> grind
  case wsrc =>
    intro i e
    have h4 := h.wsrc i e
    replace hw := hw i e
    clear h h1 h2 h3 hk hpx hown hund
    exec_cases he <;> (try simp at *) <;> grind
  case rsrc =>
    intro i e
    have h4 := h.rsrc i e
    have h5 := fun l (hl : Instr.ret i e l ≠ x) (hp : Pending acts (.ret i e l)) => pending_stays (p := p) hk hp hl
    have h6 : ∀ y ∈ p, Pending (acts.set k (p ++ r)) y := fun y hy => pending_new hk hy
    have h7 : .bound i e ∈ s.log → (i, e) ∉ tok x := by
      intro h7 h8
      have := h2.undecided hpx (e' := e) h8
      rcases h.bsrc i e h7 with h9 | h9 | h9
      · exact this.1 h9
      · exact this.2.1 (List.mem_filterMap.2 ⟨_, h9, rfl⟩)
      · exact this.2.1 (List.mem_filterMap.2 ⟨_, h9, rfl⟩)
    have h8 : (i, e) ∈ tok x → .call i e ∉ s.log := by
      intro h8 h9
      exact (h2.undecided hpx (e' := e) h8).2.1 (List.mem_filterMap.2 ⟨_, h9, rfl⟩)
    clear h h1 h2 h3 hk hown hund hw
    exec_cases he <;> simp [tok] at * <;> grind
  case usrc =>
    intro i t hy
    rcases pending_set2 hk hy with h4 | ⟨h4, _⟩
    · clear h h1 h2 h3 hk hpx hown hund hw hy
      exec_cases he <;> simp at h4
    · have h4 := h.usrc i t h4
      clear h h1 h2 h3 hk hpx hown hund hw hy
      exec_cases he <;> (try simp only [List.mem_append]) <;> simp [h4]
  case dsrc =>
    intro i t hy
    rcases pending_set2 hk hy with h4 | ⟨h4, _⟩
    · clear h h1 h2 h3 hk hpx hown hund hw hy
      exec_cases he <;> simp at h4
    · have h4 := h.dsrc i t h4
      clear h h1 h2 h3 hk hpx hown hund hw hy
      exec_cases he <;> (try simp only [List.mem_append]) <;> simp [h4]
  case tsrc =>
    intro i t hy
    rcases pending_set2 hk hy with h4 | ⟨h4, _⟩
    · clear h h1 h2 h3 hk hpx hown hund hw hy
      exec_cases he <;> simp at h4
    · have h4 := h.tsrc i t h4
      clear h h1 h2 h3 hk hpx hown hund hw hy
      exec_cases he <;> (try simp only [List.mem_append]) <;> simp [h4]
  case ssrc =>
    intro i t f hy
    rcases pending_set2 hk hy with h4 | ⟨h4, _⟩
    · clear h h1 h2 h3 hk hpx hown hund hw hy
      exec_cases he <;> simp at h4
    · have h4 := h.ssrc i t f h4
      clear h h1 h2 h3 hk hpx hown hund hw hy
      exec_cases he <;> (try simp only [List.mem_append]) <;> simp [h4]
  case esrc =>
    intro i e
    have h4 := h.esrc i e
    have h5 := fun t => h.usrc i t
    have h6 := fun t => h.dsrc i t
    have h7 := fun t => h.tsrc i t
    clear h h1 h2 h3 hk hown hund hw
    exec_cases he <;> (try simp at *) <;> grind
  case gsrc =>
    intro i
    have h4 := h.gsrc i
    clear h h1 h2 h3 hk hown hund hw
    exec_cases he <;> simp [WT, upd_apply] at * <;> grind
  case fsrc =>
    intro i e
    have h4 := h.fsrc i e
    have h5 := fun t f (hf : x = .set i t f) => h.ssrc i t f (hf ▸ hpx)
    clear h h1 h2 h3 hk hown hund hw
    exec_cases he <;> (try simp at *) <;> grind
  case cev =>
    intro i t
    have h4 := h.cev i t
    clear h h1 h2 h3 hk hown hund hw
    exec_cases he <;> simp [WT, upd_apply] at * <;> grind
  case sev =>
    intro i t f
    have h4 := h.sev i t f
    clear h h1 h2 h3 hk hown hund hw
    exec_cases he <;> simp [WT, upd_apply] at * <;> grind
  case once =>
    intro i t f f'
    have h4 := h.once i t f f'
    clear h h1 h2 h3 hk hown hund hw
    exec_cases he <;> simp [WT] at * <;> grind
  case oe =>
    intro i e
    have h4 := h.oe i e
    have h5 : ∀ t, Pending (acts.set k (p ++ r)) (.treset i t) → Pending acts (.treset i t) ∧ owner x ≠ some i := by
      intro t hy
      rcases pending_set2 hk hy with h5 | ⟨h5, h6⟩
      · clear h h1 h2 h3 hk hpx hown hund hw hy h4
        exec_cases he <;> simp at h5
      · exact ⟨h5, fun h7 => hown _ h5 h6 i h7 rfl⟩
    clear h h1 h2 h3 hk hown hund hw hpx
    exec_cases he <;> simp [WT, upd_apply, owner] at * <;> grind
  case ebd =>
    intro i e
    have h4 := h.ebd i e
    have h5 := h.wsrc i e
    have h6 : s.req e = false → i ∈ s.cbs e → (i, e) ∈ wait s.log := by
      intro hr hi; rw [h2.cb e hr] at hi; exact mem_bnd.1 hi
    clear h h1 h2 h3 hk hown hund hw
    exec_cases he <;> (try simp at *) <;> grind
  case eev =>
    intro i e
    have h4 := h.eev i e
    clear h h1 h2 h3 hk hown hund hw
    exec_cases he <;> simp [WT, upd_apply] at * <;> grind
  case tt =>
    intro i hy
    rcases pending_set2 hk hy with h4 | ⟨h4, _⟩
    · clear h h1 h2 h3 hk hpx hown hund hw hy
      exec_cases he <;> simp at h4 <;> subst h4 <;> simp [WT] at * <;> grind
    · have h4 := h.tt i h4
      clear h h1 h2 h3 hk hpx hown hund hw hy
      exec_cases he <;> (try simp at *) <;> grind
  case tf =>
    intro i hy
    rcases pending_set2 hk hy with h4 | ⟨h4, h5⟩
    · have h6 : ∀ e t, s.cb i = false → .erase i e ∈ s.log → x = .treset i t → False := by
        rintro e t h6 h7 rfl
        exact (h.oe i e h6 h7).2 t hpx
      clear h h1 h2 h3 hk hpx hown hund hw hy
      exec_cases he <;> simp at h4 <;> subst h4 <;> simp [WT] at * <;> grind
    · have h6 := h.tf i h4
      have h7 := hown _ h4 h5
      have h8 := h1.wt _ h4
      clear h h1 h2 h3 hk hpx hown hund hw hy h4 h5
      exec_cases he <;> simp [WT, owner] at * <;> grind
  case rt =>
    intro i
    have h4 := h.rt i
    have h5 := h.tt i
    clear h h1 h2 h3 hk hown hund hw
    exec_cases he <;> simp [WT, upd_apply] at * <;> grind
  case rf =>
    intro i
    have h4 := h.rf i
    have h5 := h.tf i
    clear h h1 h2 h3 hk hown hund hw
    exec_cases he <;> simp [WT, upd_apply] at * <;> grind
  case osrc =>
    intro i
    have h4 := h.osrc i
    clear h h1 h2 h3 hk hown hund hw
    exec_cases he <;> simp [WT, upd_apply] at * <;> grind
  case ogone =>
    intro i
    have h4 := h.ogone i
    clear h h1 h2 h3 hk hown hund hw
    exec_cases he <;> simp [WT, upd_apply] at * <;> grind
  case tcb =>
    intro i
    have h4 := h.tcb i
    clear h h1 h2 h3 hk hown hund hw
    exec_cases he <;> simp [WT, upd_apply] at * <;> grind
  case cst =>
    intro i e
    have h4 := h.cst i e
    have h5 := h3.fire
    clear h h1 h2 h3 hk hown hund hw
    exec_cases he <;> simp [WT, upd_apply] at * <;> grind
  case urem =>
    intro i e hy
    have h6 := fun (hr : s.req e = true) => requested_mem ((h3.reqlog e).symm.trans hr)
    rcases pending_set2 hk hy with h4 | ⟨h4, h5⟩
    · clear h h1 h2 h3 hk hpx hown hund hw hy
      exec_cases he <;> simp [WT] at * <;> grind
    · have h7 := h.urem i e h4
      clear h h1 h2 h3 hk hpx hown hund hw hy h4 h5
      exec_cases he <;> simp [WT] at * <;> grind
  case drem =>
    intro i e hy
    have h6 := fun (hr : s.req e = true) => requested_mem ((h3.reqlog e).symm.trans hr)
    rcases pending_set2 hk hy with h4 | ⟨h4, h5⟩
    · clear h h1 h2 h3 hk hpx hown hund hw hy
      exec_cases he <;> simp [WT] at * <;> grind
    · have h7 := h.drem i e h4
      clear h h1 h2 h3 hk hpx hown hund hw hy h4 h5
      exec_cases he <;> simp [WT] at * <;> grind
  case lrem =>
    intro i
    have h4 := h.lrem i
    have h5 := fun (ht : x = .uret i) => fun e => h.urem i e (ht ▸ hpx)
    have h6 := fun (ht : x = .dret i) => fun e => h.drem i e (ht ▸ hpx)
    clear h h1 h2 h3 hk hown hund hw
    exec_cases he <;> simp [WT, upd_apply] at * <;> grind
  case hist =>
    have h4 := h.hist
    have h5 := h3.reqlog
    have h8 : ∀ i e e', (i, e) ∈ tok x → .bound i e' ∉ s.log := by
      intro i e e' h7 h8
      have := h2.undecided hpx (e' := e') h7
      rcases h.bsrc i e' h8 with h9 | h9 | h9
      · exact this.1 h9
      · exact this.2.1 (List.mem_filterMap.2 ⟨_, h9, rfl⟩)
      · exact this.2.1 (List.mem_filterMap.2 ⟨_, h9, rfl⟩)
    have h6 := h3.fire
    have h7 : ∀ e i l, x = .drain e (i :: l) → (bnd e (wait s.log)).head? = some i ∧
        ∀ j, .bound j e ∈ s.log → .call j e ∈ s.log → .ret j ∈ s.log := by
      rintro e i l rfl
      have h7 := h2.seq e _ hpx (by simp [dl])
      simp [dl] at h7
      refine ⟨by rw [← h7]; rfl, fun j hb hc => ?_⟩
      rcases h.rsrc j e hb hc with h8 | ⟨l', h8⟩
      · exact h8
      · exfalso
        have h9 := h2.one e
        have h10 := pending_set2 (p := []) hk (pending_stays (p := []) hk h8 (by simp))
        simp at h10
        have := h10.2 (act e)
        simp [act] at this
        split at h9 <;> omega
    clear h h1 h2 h3 hk hown hw
    exec_cases he <;> simp [WT, Ok, tok] at * <;> grind
  case doom =>
    have h4 := h.doom
    have hcan : ∀ e i l, x = .drain e (i :: l) → s'.log = s.log ++ [.call i e] := by
      rintro e i l rfl
      clear h h1 h2 h3 hk hown hw hund hpx
      exec_cases he <;> rfl
    have her : ∀ i e, s'.log = s.log ++ [.erase i e] → s.req e = false := by
      clear h h1 h2 h3 hk hown hw hund hpx hcan h4
      exec_cases he <;> (try simp at *) <;> grind
    have hreq : ∀ e, s.req e = true → s'.req e = true := by
      clear h h1 h2 h3 hk hown hw hund hpx hcan h4 her
      exec_cases he <;> simp [upd_apply] at * <;> grind
    have hc : ∀ e, s'.log = s.log ++ [.cancel e] → s'.req e = true := by
      clear h h1 h2 h3 hk hown hw hund hpx hcan h4 her
      exec_cases he <;> (try simp at *) <;> grind
    have hkeep : ∀ i e, (i, e) ∈ wait s.log → s.req e = true → s'.log = s.log ++ [.call i e] ∨
        ((i, e) ∈ wait s'.log ∧ s'.req e = true) := by
      intro i e hm hr
      by_cases hd : ∃ l, x = .drain e (i :: l)
      · obtain ⟨l, hd⟩ := hd; exact .inl (hcan e i l hd)
      · right
        refine ⟨(hw i e).2 (.inl ⟨hm, fun l hl => hd ⟨l, hl⟩, fun hl => ?_⟩), hreq e hr⟩
        rw [her i e hl] at hr; simp at hr
    rcases log_step he with hl | ⟨v, hl⟩
    · rw [hl]
      intro l1 l2 i e h6 h7
      rcases h4 l1 l2 i e h6 h7 with h8 | ⟨h8, h9⟩
      · exact .inl h8
      · rcases hkeep i e h8 h9 with h10 | h10
        · rw [hl] at h10; simp at h10
        · rw [hl] at h10; exact .inr h10
    · have := doom_snoc (v := v) (R := fun e => s.req e = true) (R' := fun e => s'.req e = true) h4 (by
          intro i e hm hr
          have := hkeep i e hm hr
          rw [hl] at this; simpa using this) (by
          rintro i e rfl hm
          refine ⟨by simpa [wait.step] using hm, hc e hl⟩)
      rw [hl]; exact this

theorem init_inv4 (b : Bool) : Inv4 (init b) [] := by
  constructor <;> simp [init, Hist.nil, not_pending_nil, wait]

theorem env_inv4 {s : St} {acts : List (List Instr)} (h1 : Inv1 s acts) (h2 : Inv2 s acts) (h3 : Inv3 s acts)
    (h : Inv4 s acts) {a : Act} {s' : St} {p : List Instr} (he : env s acts a = some (s', p)) :
    Inv4 s' (acts ++ [p]) := by
  have hw : wait s'.log = wait s.log := by
    clear h h1; env_cases he <;> simp [wait.step]
  constructor
  case bsrc =>
    intro i e
    rw [hw]
    have h4 := h.bsrc i e
    clear h h1 h2 h3 hw
    env_cases he <;> (try simp at *) <;> grind
  case wsrc =>
    intro i e
    rw [hw]
    have h4 := h.wsrc i e
    clear h h1 h2 h3 hw
    env_cases he <;> (try simp at *) <;> grind
  case rsrc =>
    intro i e
    have h4 := h.rsrc i e
    simp only [pending_app]
    clear h h1 h2 h3 hw
    env_cases he <;> (try simp at *) <;> grind
  case usrc =>
    intro i t
    have h4 := h.usrc i t
    simp only [pending_app]
    clear h h1 h2 h3 hw
    env_cases he <;> (try simp at *) <;> grind
  case dsrc =>
    intro i t
    have h4 := h.dsrc i t
    simp only [pending_app]
    clear h h1 h2 h3 hw
    env_cases he <;> (try simp at *) <;> grind
  case tsrc =>
    intro i t
    have h4 := h.tsrc i t
    simp only [pending_app]
    clear h h1 h2 h3 hw
    env_cases he <;> (try simp at *) <;> grind
  case ssrc =>
    intro i t f
    have h4 := h.ssrc i t f
    simp only [pending_app]
    clear h h1 h2 h3 hw
    env_cases he <;> (try simp at *) <;> grind
  case esrc =>
    intro i e
    have h4 := h.esrc i e
    clear h h1 h2 h3 hw
    env_cases he <;> (try simp at *) <;> grind
  case gsrc =>
    intro i
    have h4 := h.gsrc i
    have h5 := h1.fresh i
    clear h h1 h2 h3 hw
    env_cases he <;> (try simp [upd_apply] at *) <;> grind
  case fsrc =>
    intro i e
    have h4 := h.fsrc i e
    clear h h1 h2 h3 hw
    env_cases he <;> (try simp at *) <;> grind
  case cev =>
    intro i t
    have h4 := h.cev i t
    clear h h1 h2 h3 hw
    env_cases he <;> (try simp [upd_apply] at *) <;> grind
  case sev =>
    intro i t f
    have h4 := h.sev i t f
    have h5 := h1.fresh
    clear h h1 h2 h3 hw
    env_cases he <;> (try simp [upd_apply] at *) <;> grind
  case once =>
    intro i t f f'
    have h4 := h.once i t f f'
    have h5 := h.sev i t f
    have h6 := h.sev i t f'
    clear h h1 h2 h3 hw
    env_cases he <;> (try simp at *) <;> grind
  case oe =>
    intro i e
    have h4 := h.oe i e
    have h5 := h.eev i e
    simp only [pending_app]
    clear h h1 h2 h3 hw
    env_cases he <;> (try simp [upd_apply] at *) <;> grind
  case ebd =>
    intro i e
    have h4 := h.ebd i e
    clear h h1 h2 h3 hw
    env_cases he <;> (try simp at *) <;> grind
  case eev =>
    intro i e
    have h4 := h.eev i e
    clear h h1 h2 h3 hw
    env_cases he <;> (try simp [upd_apply] at *) <;> grind
  case tt =>
    intro i
    have h4 := h.tt i
    have h5 : Pending acts (.tret i true) → s.phase i = .closing := fun h5 => (h1.wt _ h5).1
    simp only [pending_app]
    clear h h1 h2 h3 hw
    env_cases he <;> (try simp [upd_apply] at *) <;> grind
  case tf =>
    intro i
    have h4 := h.tf i
    have h5 : Pending acts (.tret i false) → s.phase i = .closing := fun h5 => (h1.wt _ h5).1
    simp only [pending_app]
    clear h h1 h2 h3 hw
    env_cases he <;> (try simp [upd_apply] at *) <;> grind
  case rt =>
    intro i
    have h4 := h.rt i
    clear h h1 h2 h3 hw
    env_cases he <;> (try simp [upd_apply] at *) <;> grind
  case rf =>
    intro i
    have h4 := h.rf i
    clear h h1 h2 h3 hw
    env_cases he <;> (try simp [upd_apply] at *) <;> grind
  case osrc =>
    intro i
    have h4 := h.osrc i
    clear h h1 h2 h3 hw
    env_cases he <;> (try simp [upd_apply] at *) <;> grind
  case ogone =>
    intro i
    have h4 := h.ogone i
    clear h h1 h2 h3 hw
    env_cases he <;> (try simp [upd_apply] at *) <;> grind
  case tcb =>
    intro i
    have h4 := h.tcb i
    clear h h1 h2 h3 hw
    env_cases he <;> (try simp [upd_apply] at *) <;> grind
  case cst =>
    intro i e
    have h4 := h.cst i e
    have h5 : .call i e ∈ s.log → s.ev i = some e ∧ i ∈ s.objs ∧ s.phase i ≠ .fresh := by
      intro hc
      have hq := h2.made_of (.inr (List.mem_filterMap.2 ⟨_, hc, rfl⟩ : (i, e) ∈ goneL s.log))
      have h9 := h2.not_fresh hq
      exact ⟨h2.mev i e hq, h1.objs i h9, h9⟩
    clear h h1 h2 h3 hw
    env_cases he <;> (try simp [upd_apply] at *) <;> grind
  case urem =>
    intro i e
    have h4 := h.urem i e
    have h5 := fun (hp : Pending acts (.uret i)) => h1.wt _ hp
    simp only [pending_app]
    clear h h1 h2 h3 hw
    env_cases he <;> (try simp [WT, upd_apply] at *) <;> grind
  case drem =>
    intro i e
    have h4 := h.drem i e
    have h5 := fun (hp : Pending acts (.dret i)) => h1.wt _ hp
    simp only [pending_app]
    clear h h1 h2 h3 hw
    env_cases he <;> (try simp [WT, upd_apply] at *) <;> grind
  case lrem =>
    intro i
    have h4 := h.lrem i
    clear h h1 h2 h3 hw
    env_cases he <;> (try simp [upd_apply] at *) <;> grind
  case hist =>
    have h4 := h.hist
    clear h h1 h2 h3 hw
    env_cases he <;> simp [Ok, h4]
  case doom =>
    have hem : ∀ i e, anyI acts (fun x => evOf s x == some e) = false → s.req e = true → (i, e) ∉ wait s.log := by
      intro i e h3 h4 hm
      have := h2.idle_empty h3 h4
      have := mem_bnd.2 hm
      simp_all
    have hkeep : ∀ i e, (i, e) ∈ wait s.log → s.req e = true → s'.req e = true := by
      intro i e
      have := hem i e
      clear h h1 h2 h3 hw hem
      env_cases he <;> (try simp [upd_apply] at *) <;> grind
    have hc : ∀ e, s'.log ≠ s.log ++ [.cancel e] := by
      intro e
      clear h h1 h2 h3 hw hem hkeep
      env_cases he <;> simp
    rcases log_env he with hl | ⟨v, hl⟩
    · rw [hl]
      intro l1 l2 i e h6 h7
      rcases h.doom l1 l2 i e h6 h7 with h8 | ⟨h8, h9⟩
      · exact .inl h8
      · exact .inr ⟨h8, hkeep i e h8 h9⟩
    · have := doom_snoc (v := v) (R := fun e => s.req e = true) (R' := fun e => s'.req e = true) h.doom (by
          intro i e hm hr
          rw [← hl, hw]; exact .inr ⟨hm, hkeep i e hm hr⟩) (by
          rintro i e rfl hm
          exact absurd hl (hc e))
      rw [hl]; exact this

theorem reach_inv4 {b : Bool} {c : Conf mach} (h : Reach mach (init b) c) : Inv4 c.sh c.acts :=
  Reach.inv_with (M := mach) (P := fun s acts => Inv1 s acts ∧ Inv2 s acts ∧ Inv3 s acts) (Q := Inv4)
    (fun _ hc => ⟨reach_inv1 hc, reach_inv2 hc, reach_inv3 hc⟩) (init_inv4 b)
    (fun _ _ _ _ _ h1 _ h he => env_inv4 h1.1 h1.2.1 h1.2.2 h he)
    (fun _ _ _ _ _ _ _ _ h1 _ h hk he => run_inv4 h1.1 h1.2.1 h1.2.2 h hk he) h

end Verif.Callback
