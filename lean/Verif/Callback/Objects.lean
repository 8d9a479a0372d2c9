import Verif.Callback.Lists

/-! # Invariants of cancellation callbacks and observers: registered objects -/

namespace Verif.Callback

structure Inv3 (s : St) (acts : List (List Instr)) : Prop where
  reqlog : ∀ e, s.req e = requested e s.log
  live : ∀ i e, s.phase i = .live → s.ev i = some e → s.unb i = false → s.req e = false → (i, e) ∈ wait s.log
  tres : ∀ i e, Pending acts (.treset i (some e)) → s.req e = false → (i, e) ∈ wait s.log
  dtor : ∀ i e, Pending acts (.dtor i (some e)) → s.unb i = false → s.req e = false → (i, e) ∈ wait s.log
  gone : ∀ i e, (i, e) ∈ wait s.log → s.phase i = .gone → s.req e = true
  dret : ∀ i e, (i, e) ∈ wait s.log → Pending acts (.dret i) → s.req e = true
  tret : ∀ i e b, (i, e) ∈ wait s.log → Pending acts (.tret i b) → s.req e = true
  wev : ∀ i e, (i, e) ∈ wait s.log → s.ev i = some e ∧ s.phase i ≠ .fresh ∧ s.phase i ≠ .making
  fire : ∀ i e, Pending acts (.fire i e) → s.req e = true

theorem wait_nodup {s : St} {acts : List (List Instr)} (h : Inv2 s acts) : (wait s.log).Nodup := by
  rw [List.nodup_iff_count]
  intro a
  have h1 := h.wait_count a.1
  have h2 : (wait s.log).count a ≤ (wait s.log).countP (fun p => p.1 == a.1) := by
    unfold List.count
    refine List.countP_mono_left (fun x _ hx => ?_)
    simp at hx; simp [hx]
  omega

/-- How the list of registered objects changes. -/
theorem wait_step {s : St} {acts : List (List Instr)} (h : Inv2 s acts) {k : Nat} {x : Instr}
    {r p : List Instr} (hk : acts[k]? = some (x :: r)) {b : Bool} {s' : St}
    (he : exec s x b = .ok s' p) (a : Reg) : a ∈ wait s'.log ↔
      (a ∈ wait s.log ∧ (∀ l, x ≠ .drain a.2 (a.1 :: l)) ∧ s'.log ≠ s.log ++ [.erase a.1 a.2]) ∨
      s'.log = s.log ++ [.bound a.1 a.2] := by
  have hn := wait_nodup h
  have hm := fun c => List.Nodup.mem_erase_iff (a := a) (b := c) hn
  have hund := fun i e (hi : (i, e) ∈ tok x) => (h.undecided (pending_top hk) (e' := e) hi).1
  obtain ⟨i, e⟩ := a
  clear h hk hn
  exec_cases he <;> simp [wait.step, tok] at * <;> grind [List.erase_of_not_mem]

theorem run_inv3 {s : St} {acts : List (List Instr)} (h1 : Inv1 s acts) (h2 : Inv2 s acts) (h : Inv3 s acts)
    {k : Nat} {x : Instr} {r p : List Instr} (hk : acts[k]? = some (x :: r)) {b : Bool} {s' : St}
    (he : exec s x b = .ok s' p) : Inv3 s' (acts.set k (p ++ r)) := by
  have hpx := pending_top hk
  have hx := h1.wt x hpx
  have hw := fun i e => wait_step h2 hk he (i, e)
  have hpop : ∀ e i l, x = .drain e (i :: l) → s.req e = true := by
    rintro e i l rfl; simpa [WT] using hx
  have hcbs : ∀ e i, s.req e = false → i ∈ s.cbs e → (i, e) ∈ wait s.log := by
    intro e i hr hi; rw [h2.cb e hr] at hi; exact mem_bnd.1 hi
  have hund := fun i e (hi : (i, e) ∈ tok x) => (h2.undecided hpx (e' := e) hi).1
  have hother : ∀ y, Pending acts y → (∀ w : Instr → Nat, w x + w y ≤ ws w acts) →
      (∀ i, owner x = some i → owner y ≠ some i) := by
    intro y hy hw i hi hi'
    have h3 := hw (own i)
    simp only [own, hi, hi', if_true] at h3
    have := h1.own i
    split at this <;> omega
  constructor
  case reqlog =>
    intro e
    have h3 := h.reqlog e
    clear h h1 h2 hk hpx hother hw
    exec_cases he <;> simp [upd_apply] at * <;> grind
  case live =>
    intro i e
    have h3 := h.live i e
    have h4 := h1.own i
    have h5 := ws_pos (w := own i) hk
    replace hw := hw i e
    clear h h1 h2 hk hpx hother
    exec_cases he <;> simp [upd_apply, WT, own, owner] at * <;> grind
  case tres =>
    intro i e hy hr
    rcases pending_set2 hk hy with h3 | ⟨h3, h4⟩
    · clear h h1 h2 hk hpx hother hy
      exec_cases he <;> simp at h3
    · have h5 := h.tres i e h3
      have h6 := hother _ h3 h4
      have h7 := h1.wt _ h3
      replace hw := hw i e
      clear h h1 h2 hk hpx hother hy h4 h3
      exec_cases he <;> simp [upd_apply, WT, owner] at * <;> grind
  case dtor =>
    intro i e hy hu hr
    rcases pending_set2 hk hy with h3 | ⟨h3, h4⟩
    · clear h h1 h2 hk hpx hother hy
      exec_cases he <;> simp at h3
    · have h5 := h.dtor i e h3
      have h6 := hother _ h3 h4
      have h7 := h1.wt _ h3
      replace hw := hw i e
      clear h h1 h2 hk hpx hother hy h4 h3
      exec_cases he <;> simp [upd_apply, WT, owner] at * <;> grind
  case gone =>
    intro i e
    have h3 := h.gone i e
    have h4 := fun hm hp => h.dret i e hm hp
    have h5 : ∀ b, x = .tret i b → (i, e) ∈ wait s.log → s.req e = true :=
      fun b hb hm => h.tret i e b hm (hb ▸ hpx)
    replace hw := hw i e
    clear h h1 h2 hk hother
    exec_cases he <;> simp [upd_apply, WT] at * <;> grind
  case dret =>
    intro i e hm hy
    rcases pending_set2 hk hy with h3 | ⟨h3, h4⟩
    · replace hw := hw i e
      have h7 := h.wev i e
      clear h h1 h2 hk hpx hother hy
      exec_cases he <;> simp at h3 <;> (try subst h3) <;> simp [upd_apply, WT, owner] at * <;> grind
    · have h5 := fun hm => h.dret i e hm h3
      have h6 := hother _ h3 h4
      have h7 := h1.wt _ h3
      replace hw := hw i e
      clear h h1 h2 hk hpx hother hy h4 h3
      exec_cases he <;> simp [upd_apply, WT, owner] at * <;> grind
  case tret =>
    intro i e b hm hy
    rcases pending_set2 hk hy with h3 | ⟨h3, h4⟩
    · replace hw := hw i e
      have h7 := h.wev i e
      clear h h1 h2 hk hpx hother hy
      exec_cases he <;> simp at h3 <;> (try (obtain ⟨rfl, rfl⟩ := h3)) <;> simp [upd_apply, WT, owner] at * <;> grind
    · have h5 := fun hm => h.tret i e b hm h3
      have h6 := hother _ h3 h4
      have h7 := h1.wt _ h3
      replace hw := hw i e
      clear h h1 h2 hk hpx hother hy h4 h3
      exec_cases he <;> simp [upd_apply, WT, owner] at * <;> grind
  case wev =>
    intro i e
    have h3 := h.wev i e
    replace hw := hw i e
    clear h h1 h2 hk hpx hother
    exec_cases he <;> simp [upd_apply, WT] at * <;> grind
  case fire =>
    intro i e hy
    rcases pending_set2 hk hy with h3 | ⟨h3, h4⟩
    · clear h h1 h2 hk hpx hother hy hw
      exec_cases he <;> simp at h3 <;> (try (obtain ⟨rfl, rfl⟩ := h3)) <;> simp [upd_apply, WT, owner] at * <;> grind
    · have h5 := h.fire i e h3
      clear h h1 h2 hk hpx hother hy h4 h3 hw
      exec_cases he <;> simp [upd_apply] at * <;> grind

theorem init_inv3 (b : Bool) : Inv3 (init b) [] where
  reqlog := by intro e; rfl
  live := by intro i e h; simp [init] at h
  tres := by intro i e h; exact absurd h not_pending_nil
  dtor := by intro i e h; exact absurd h not_pending_nil
  gone := by intro i e h; simp [init, wait] at h
  dret := by intro i e _ h; exact absurd h not_pending_nil
  tret := by intro i e b _ h; exact absurd h not_pending_nil
  wev := by intro i e h; simp [init, wait] at h
  fire := by intro i e h; exact absurd h not_pending_nil

theorem env_inv3 {s : St} {acts : List (List Instr)} (h1 : Inv1 s acts) (h2 : Inv2 s acts) (h : Inv3 s acts)
    {a : Act} {s' : St} {p : List Instr} (he : env s acts a = some (s', p)) : Inv3 s' (acts ++ [p]) := by
  have hw : wait s'.log = wait s.log := by
    clear h h1; env_cases he <;> simp [wait.step]
  have hre : ∀ e, anyI acts (fun x => evOf s x == some e) = false → ∀ x, Pending acts x → evOf s x ≠ some e := by
    intro e he x hx; rw [anyI_false] at he; simpa using he x hx
  have hem : ∀ i e, anyI acts (fun x => evOf s x == some e) = false → s.req e = true → (i, e) ∉ wait s.log := by
    intro i e h3 h4 hm
    have := h2.idle_empty h3 h4
    have := mem_bnd.2 hm
    simp_all
  constructor
  case reqlog =>
    intro e
    have h3 := h.reqlog e
    clear h h1 h2 hre hem hw
    env_cases he <;> (try simp [upd_apply] at *) <;> grind
  case live =>
    intro i e
    rw [hw]
    have h3 := h.live i e
    have h4 : s.phase i ≠ .fresh → i ∈ s.objs := h1.objs i
    clear h h1 h2 hre hem hw
    env_cases he <;> (try simp [upd_apply] at *) <;> grind
  case tres =>
    intro i e hy
    rw [hw]
    have h6 := h.live i e
    have h7 := h1.obs i
    rcases pending_append hy with h3 | h3
    · clear h h1 h2 hre hem hw hy
      env_cases he <;> simp at h3
      obtain ⟨rfl, h3⟩ := h3
      grind
    · have h4 := h.tres i e h3
      have h5 := fun hr => hre e hr _ h3
      clear h h1 h2 hre hem hw hy
      env_cases he <;> (try simp [upd_apply, evOf] at *) <;> grind
  case dtor =>
    intro i e hy
    rw [hw]
    have h6 := h.live i e
    rcases pending_append hy with h3 | h3
    · clear h h1 h2 hre hem hw hy
      env_cases he <;> simp at h3
      obtain ⟨rfl, h3⟩ := h3
      grind
    · have h4 := h.dtor i e h3
      have h5 := fun hr => hre e hr _ h3
      clear h h1 h2 hre hem hw hy
      env_cases he <;> (try simp [upd_apply, evOf] at *) <;> grind
  case gone =>
    intro i e
    rw [hw]
    have h3 := h.gone i e
    have h4 := hem i e
    clear h h1 h2 hre hem hw
    env_cases he <;> (try simp [upd_apply] at *) <;> grind
  case dret =>
    intro i e
    rw [hw]
    intro hm hy
    have h4 := hem i e
    rcases pending_append hy with h3 | h3
    · clear h h1 h2 hre hem hw hy
      env_cases he <;> simp at h3
    · have h3 := h.dret i e hm h3
      clear h h1 h2 hre hem hw hy
      env_cases he <;> (try simp [upd_apply] at *) <;> grind
  case tret =>
    intro i e b
    rw [hw]
    intro hm hy
    have h4 := hem i e
    rcases pending_append hy with h3 | h3
    · clear h h1 h2 hre hem hw hy
      env_cases he <;> simp at h3
    · have h3 := h.tret i e b hm h3
      clear h h1 h2 hre hem hw hy
      env_cases he <;> (try simp [upd_apply] at *) <;> grind
  case wev =>
    intro i e
    rw [hw]
    have h3 := h.wev i e
    clear h h1 h2 hre hem hw
    env_cases he <;> (try simp [upd_apply] at *) <;> grind
  case fire =>
    intro i e hy
    rcases pending_append hy with h3 | h3
    · clear h h1 h2 hre hem hw hy
      env_cases he <;> simp at h3
    · have h4 := h.fire i e h3
      have h5 := fun hr => hre e hr _ h3
      clear h h1 h2 hre hem hw hy
      env_cases he <;> (try simp [upd_apply, evOf] at *) <;> grind

theorem reach_inv3 {b : Bool} {c : Conf mach} (h : Reach mach (init b) c) : Inv3 c.sh c.acts :=
  Reach.inv_with (M := mach) (P := fun s acts => Inv1 s acts ∧ Inv2 s acts) (Q := Inv3)
    (fun _ hc => ⟨reach_inv1 hc, reach_inv2 hc⟩) (init_inv3 b)
    (fun _ _ _ _ _ h1 _ h he => env_inv3 h1.1 h1.2 h he)
    (fun _ _ _ _ _ _ _ _ h1 _ h hk he => run_inv3 h1.1 h1.2 h hk he) h

end Verif.Callback
