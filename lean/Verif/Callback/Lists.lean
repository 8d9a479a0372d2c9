import Verif.Callback.Proof

/-! # Invariants of cancellation callbacks and observers: lists and history -/

namespace Verif.Callback

abbrev Reg := Id × EvId

def wait.step (w : List Reg) : Ev → List Reg
  | .bound i e => w ++ [(i, e)]
  | .call i e => w.erase (i, e)
  | .erase i e => w.erase (i, e)
  | _ => w

/-- Registered objects that were neither removed nor invoked, in the order of registration. -/
def wait (log : List Ev) : List Reg := log.foldl wait.step []

@[simp] theorem wait_append (l : List Ev) (v : Ev) : wait (l ++ [v]) = wait.step (wait l) v := by
  simp [wait]

/-- Those of event `e`. -/
def bnd (e : EvId) (w : List Reg) : List Id := w.filterMap (fun p => if p.2 = e then some p.1 else none)

/-- `cancel()` took effect and `reset()` was not called since. -/
def requested (e : EvId) (log : List Ev) : Bool :=
  log.foldl (fun b v => match v with
    | .cancel e' => if e' = e then true else b
    | .reset e' => if e' = e then false else b
    | _ => b) false

@[simp] theorem requested_append (e : EvId) (l : List Ev) (v : Ev) : requested e (l ++ [v]) = match v with
    | .cancel e' => if e' = e then true else requested e l
    | .reset e' => if e' = e then false else requested e l
    | _ => requested e l := by
  simp [requested]

def madeF : Ev → Option Reg
  | .ctor i (some e) => some (i, e)
  | .set i (some e) _ => some (i, e)
  | _ => none

/-- All objects with a token. -/
def made (log : List Ev) : List Reg := log.filterMap madeF

def goneF : Ev → Option Reg
  | .call i e | .erase i e | .refuse i e => some (i, e)
  | _ => none

/-- Objects that were invoked, removed or refused. -/
def goneL (log : List Ev) : List Reg := log.filterMap goneF

@[simp] theorem made_append (l : List Ev) (v : Ev) : made (l ++ [v]) = made l ++ (madeF v).toList := by
  simp only [made, List.filterMap_append, List.filterMap_cons, List.filterMap_nil]
  cases madeF v <;> rfl
@[simp] theorem goneL_append (l : List Ev) (v : Ev) : goneL (l ++ [v]) = goneL l ++ (goneF v).toList := by
  simp only [goneL, List.filterMap_append, List.filterMap_cons, List.filterMap_nil]
  cases goneF v <;> rfl

/-- Objects whose fate an instruction is about to decide. -/
def tok : Instr → List Reg
  | .ctor i (some e) | .set i (some e) _ | .fire i e => [(i, e)]
  | _ => []

/-- The list that an instruction of `cancel()` of event `e` carries. -/
def dl (e : EvId) : Instr → List Id
  | .drain e' l | .ret _ e' l => if e' = e then l else []
  | _ => []

def dlen (e : EvId) (x : Instr) : Nat := (dl e x).length

/-- An instruction of a `cancel()` of event `e` that invokes functors. -/
def act (e : EvId) : Instr → Nat
  | .drain e' l => if e' = e ∧ l ≠ [] then 1 else 0
  | .ret _ e' _ => if e' = e then 1 else 0
  | _ => 0

structure Inv2 (s : St) (acts : List (List Instr)) : Prop where
  place : ∀ q, ws (cw tok q) acts + (wait s.log).countP q + (goneL s.log).countP q = (made s.log).countP q
  uniq : ∀ i, (made s.log).countP (fun p => p.1 == i) ≤ if s.phase i = .fresh then 0 else 1
  mev : ∀ i e, (i, e) ∈ made s.log → s.ev i = some e
  cb : ∀ e, s.req e = false → s.cbs e = bnd e (wait s.log)
  cb2 : ∀ e, s.req e = true → s.cbs e = []
  seq : ∀ e x, Pending acts x → dl e x ≠ [] → dl e x = bnd e (wait s.log)
  lens : ∀ e, ws (dlen e) acts + (s.cbs e).length = (bnd e (wait s.log)).length
  one : ∀ e, ws (act e) acts ≤ if s.req e then 1 else 0

theorem countP_erase_mem {w : List Reg} {a : Reg} (h : a ∈ w) (q : Reg → Bool) :
    (w.erase a).countP q + (if q a then 1 else 0) = w.countP q := by
  have := (List.perm_cons_erase h).countP_eq q
  rw [this, List.countP_cons]

@[simp] theorem mem_bnd {i : Id} {e : EvId} {w : List Reg} : i ∈ bnd e w ↔ (i, e) ∈ w := by
  unfold bnd
  rw [List.mem_filterMap]
  constructor
  · rintro ⟨⟨a, b⟩, h, h2⟩
    simp at h2; obtain ⟨rfl, rfl⟩ := h2; exact h
  · intro h; exact ⟨_, h, by simp⟩

theorem bnd_snoc (e : EvId) (w : List Reg) (i : Id) (e' : EvId) :
    bnd e (w ++ [(i, e')]) = bnd e w ++ if e' = e then [i] else [] := by
  simp only [bnd, List.filterMap_append, List.filterMap_cons, List.filterMap_nil]
  split <;> split at * <;> simp_all

theorem bnd_erase (e : EvId) (w : List Reg) (i : Id) (e' : EvId) :
    bnd e (w.erase (i, e')) = if e' = e then (bnd e w).erase i else bnd e w := by
  induction w with
  | nil => simp [bnd]
  | cons p w ih =>
    obtain ⟨j, f⟩ := p
    by_cases h : (j, f) = (i, e')
    · rw [h, List.erase_cons_head]
      by_cases he : e' = e
      · simp [bnd, he]
      · simp [bnd, he]
    · rw [List.erase_cons_tail (by simpa using h)]
      by_cases hf : f = e
      · subst hf
        have h1 : bnd f ((j, f) :: w.erase (i, e')) = j :: bnd f (w.erase (i, e')) := by simp [bnd]
        have h2 : bnd f ((j, f) :: w) = j :: bnd f w := by simp [bnd]
        rw [h1, h2, ih]
        by_cases he : e' = f
        · subst he
          have hne : j ≠ i := by rintro rfl; exact h rfl
          simp [hne]
        · simp [he]
      · have h1 : bnd e ((j, f) :: w.erase (i, e')) = bnd e (w.erase (i, e')) := by simp [bnd, hf]
        have h2 : bnd e ((j, f) :: w) = bnd e w := by simp [bnd, hf]
        rw [h1, h2, ih]

/-- An object whose fate is about to be decided is not registered, invoked, removed or refused. -/
theorem Inv2.undecided {s : St} {acts : List (List Instr)} (h : Inv2 s acts) {x : Instr}
    (hx : Pending acts x) {i : Id} {e e' : EvId} (hi : (i, e) ∈ tok x) :
    (i, e') ∉ wait s.log ∧ (i, e') ∉ goneL s.log ∧ s.ev i = some e ∧ s.phase i ≠ .fresh := by
  have h1 := h.place (fun p => p.1 == i)
  have h2 := h.uniq i
  have h3 := hx.le (cw tok (fun p => p.1 == i))
  have h4 : 0 < cw tok (fun p => p.1 == i) x := List.countP_pos_iff.2 ⟨_, hi, by simp⟩
  have h5 : (made s.log).countP (fun p => p.1 == i) ≤ 1 := by split at h2 <;> omega
  refine ⟨fun hm => ?_, fun hm => ?_, ?_, ?_⟩
  · have : 0 < (wait s.log).countP (fun p => p.1 == i) := List.countP_pos_iff.2 ⟨_, hm, by simp⟩
    omega
  · have : 0 < (goneL s.log).countP (fun p => p.1 == i) := List.countP_pos_iff.2 ⟨_, hm, by simp⟩
    omega
  · have h1 := h.place (fun p => decide (p = (i, e)))
    have h3 := hx.le (cw tok (fun p => decide (p = (i, e))))
    have h4 : 0 < cw tok (fun p => decide (p = (i, e))) x := List.countP_pos_iff.2 ⟨_, hi, by simp⟩
    have h5 : 0 < (made s.log).countP (fun p => decide (p = (i, e))) := by
      rw [← h.place]; exact Nat.lt_of_lt_of_le h4 (by rw [Nat.add_assoc]; exact Nat.le_trans h3 (Nat.le_add_right _ _))
    obtain ⟨p, hp, hpe⟩ := List.countP_pos_iff.1 h5
    simp at hpe; subst hpe; exact h.mev i e hp
  · intro hf; rw [if_pos hf] at h2; omega

theorem Inv2.wait_count {s : St} {acts : List (List Instr)} (h : Inv2 s acts) (i : Id) :
    (wait s.log).countP (fun p => p.1 == i) + (goneL s.log).countP (fun p => p.1 == i) ≤ 1 := by
  have h1 := h.place (fun p => p.1 == i)
  have h2 := h.uniq i
  split at h2 <;> omega

theorem bnd_same {s : St} {acts : List (List Instr)} (h : Inv2 s acts) (h1 : Inv1 s acts) {k : Nat} {x : Instr}
    {r p : List Instr} (hk : acts[k]? = some (x :: r)) {b : Bool} {s' : St}
    (he : exec s x b = .ok s' p) {e : EvId} (hr : s.req e = true) (ha : act e x = 0) :
    bnd e (wait s'.log) = bnd e (wait s.log) := by
  have hpx := pending_top hk
  have hcall : ∀ i e, (i, e) ∈ tok x → (wait s.log).erase (i, e) = wait s.log :=
    fun i e hi => List.erase_of_not_mem (h.undecided hpx hi).1
  clear h1 h hk hpx
  exec_cases he <;> simp [wait.step, act, tok, bnd_snoc, bnd_erase] at * <;> grind [List.erase_of_not_mem, mem_bnd]

theorem run_inv2 {s : St} {acts : List (List Instr)} (h1 : Inv1 s acts) (h : Inv2 s acts) {k : Nat} {x : Instr}
    {r p : List Instr} (hk : acts[k]? = some (x :: r)) {b : Bool} {s' : St}
    (he : exec s x b = .ok s' p) : Inv2 s' (acts.set k (p ++ r)) := by
  have hpx := pending_top hk
  have hx := h1.wt x hpx
  have hpop : ∀ e i l, x = .drain e (i :: l) → bnd e (wait s.log) = i :: l ∧ (i, e) ∈ wait s.log := by
    rintro e i l rfl
    have h2 := h.seq e _ hpx (by simp [dl])
    simp [dl] at h2
    exact ⟨h2.symm, mem_bnd.1 (by rw [← h2]; simp)⟩
  have hret : ∀ e j l, x = .ret j e l → l ≠ [] → bnd e (wait s.log) = l := by
    rintro e i l rfl hl
    have h2 := h.seq e _ hpx (by simp [dl, hl])
    simp [dl] at h2
    exact h2.symm
  have hcall : ∀ i e, (i, e) ∈ tok x → (wait s.log).erase (i, e) = wait s.log :=
    fun i e hi => List.erase_of_not_mem (h.undecided hpx hi).1
  have hcbs : ∀ e i, s.req e = false → i ∈ s.cbs e → (i, e) ∈ wait s.log := by
    intro e i hr hi; rw [h.cb e hr] at hi; exact mem_bnd.1 hi
  constructor
  case place =>
    intro q
    have e1 := cw_set tok q p hk
    have h2 := h.place q
    have h3 := fun a ha => countP_erase_mem (w := wait s.log) (a := a) ha q
    clear h h1 hk hpx
    exec_cases he <;> simp [tok, wait.step, madeF, goneF, dl, WT] at * <;> grind [List.erase_of_not_mem, mem_bnd]
  case uniq =>
    intro i
    have h2 := h.uniq i
    clear h h1 hk hpx
    exec_cases he <;> simp [madeF, upd_apply, WT] at * <;> grind [List.erase_of_not_mem, mem_bnd]
  case mev =>
    have h2 := h.mev
    clear h h1 hk hpx
    exec_cases he <;> simp [madeF] at * <;> exact h2
  case cb =>
    intro e
    have h2 := h.cb e
    clear h h1 hk hpx
    exec_cases he <;> simp [wait.step, tok, upd_apply, WT, bnd_snoc, bnd_erase] at * <;> grind [List.erase_of_not_mem, mem_bnd]
  case cb2 =>
    intro e
    have h2 := h.cb2 e
    clear h h1 hk hpx
    exec_cases he <;> simp [upd_apply] at * <;> grind [List.erase_of_not_mem, mem_bnd]
  case one =>
    intro e
    have h2 := h.one e
    have h3 := h.cb2 e
    have e1 := ws_set (act e) p hk
    clear h h1 hk hpx
    exec_cases he <;> simp [upd_apply, act, WT] at * <;> grind [List.erase_of_not_mem, mem_bnd]
  case lens =>
    intro e
    have h2 := h.lens e
    have e1 := ws_set (dlen e) p hk
    clear h h1 hk hpx
    exec_cases he <;> simp [upd_apply, dlen, dl, WT, wait.step, tok, bnd_snoc, bnd_erase] at * <;> grind [List.erase_of_not_mem, mem_bnd]
  case seq =>
    intro e y hy hne
    rcases pending_set2 hk hy with h2 | ⟨h2, h3⟩
    · have h4 := h.cb e
      have h5 := h.cb2 e
      clear h h1 hk hpx hy
      exec_cases he <;> simp at h2 <;> (try subst h2) <;>
        simp [upd_apply, dl, WT, wait.step, tok, bnd_snoc, bnd_erase] at * <;> grind [List.erase_of_not_mem, mem_bnd]
    · have h4 := h.seq e y h2 hne
      have h5 := h3 (act e)
      have h6 := h.one e
      have h7 : 1 ≤ act e y := by
        clear h3 h5 hy h2 he hk hpx hx hpop hret hcall hcbs h1 h
        cases y <;> simp [dl, act] at * <;> grind
      have h8 : s.req e = true := by
        cases hr : s.req e with
        | true => rfl
        | false => rw [hr] at h6; simp at h6; omega
      rw [h8] at h6
      rw [h4, bnd_same h h1 hk he h8 (by simp at h6; omega)]

theorem init_inv2 (b : Bool) : Inv2 (init b) [] where
  place := by intro q; rfl
  uniq := by intro i; simp [init, made]
  mev := by intro i e h; simp [init, made] at h
  cb := by intro e _; rfl
  cb2 := by intro e h; simp [init] at h
  seq := by intro e x hx; exact absurd hx not_pending_nil
  lens := by intro e; rfl
  one := by intro e; simp

/-- No running call concerns the event. -/
theorem idle_zero {s : St} {acts : List (List Instr)} {e : EvId}
    (h : anyI acts (fun x => evOf s x == some e) = false) : ws (dlen e) acts = 0 ∧ ws (act e) acts = 0 := by
  rw [anyI_false] at h
  constructor
  · refine ws_zero (fun x hx => ?_)
    have := h x hx
    cases x <;> simp [evOf, dlen, dl] at * <;> grind
  · refine ws_zero (fun x hx => ?_)
    have := h x hx
    cases x <;> simp [evOf, act] at * <;> grind

/-- Then no object of the event is registered if it is cancelled. -/
theorem Inv2.idle_empty {s : St} {acts : List (List Instr)} (h : Inv2 s acts) {e : EvId}
    (hi : anyI acts (fun x => evOf s x == some e) = false) (hr : s.req e = true) : bnd e (wait s.log) = [] := by
  have h1 := h.lens e
  rw [(idle_zero hi).1, h.cb2 e hr] at h1
  simpa using h1.symm

theorem env_inv2 {s : St} {acts : List (List Instr)} (h1 : Inv1 s acts) (h : Inv2 s acts) {a : Act} {s' : St}
    {p : List Instr} (he : env s acts a = some (s', p)) : Inv2 s' (acts ++ [p]) := by
  have hw : wait s'.log = wait s.log := by
    clear h h1; env_cases he <;> simp [wait.step]
  have hcbs : s'.cbs = s.cbs := by
    clear h h1; env_cases he <;> rfl
  constructor
  case place =>
    intro q
    have h2 := h.place q
    rw [cw_app, hw]
    clear h h1 hw hcbs
    env_cases he
    case h_1.isTrue => rename_i i t _; cases t <;> simp [tok, madeF, goneF] at * <;> grind
    case h_4.isTrue => rename_i i t f _; cases t <;> simp [tok, madeF, goneF] at * <;> grind
    all_goals (simp [tok, madeF, goneF] at * <;> grind)
  case uniq =>
    intro i
    have h2 := h.uniq i
    clear h h1 hw hcbs
    env_cases he
    case h_1.isTrue => rename_i i t _; cases t <;> simp [madeF, upd_apply] at * <;> grind
    case h_4.isTrue => rename_i i t f _; cases t <;> simp [madeF, upd_apply] at * <;> grind
    all_goals (simp [madeF, upd_apply] at * <;> grind)
  case mev =>
    intro i e
    have h2 := h.mev i e
    have h3 := h.uniq i
    have h4 : (i, e) ∈ made s.log → s.phase i ≠ .fresh := by
      intro hm hf
      have : 0 < (made s.log).countP (fun p => p.1 == i) := List.countP_pos_iff.2 ⟨_, hm, by simp⟩
      rw [if_pos hf] at h3; omega
    clear h h1 hw hcbs h3
    env_cases he
    case h_1.isTrue => rename_i i t _; cases t <;> simp [madeF, upd_apply] at * <;> grind
    case h_4.isTrue => rename_i i t f _; cases t <;> simp [madeF, upd_apply] at * <;> grind
    all_goals (simp [madeF] at * <;> grind)
  case cb =>
    intro e
    rw [hw, hcbs]
    have h2 := h.cb e
    have h3 := h.cb2 e
    have h4 : anyI acts (fun x => evOf s x == some e) = false → s.req e = true → bnd e (wait s.log) = [] :=
      fun h5 h6 => h.idle_empty h5 h6
    clear h h1 hw hcbs
    env_cases he <;> (try simp only [upd_apply] at *) <;> grind
  case cb2 =>
    intro e
    rw [hcbs]
    have h3 := h.cb2 e
    clear h h1 hw hcbs
    env_cases he <;> (try simp only [upd_apply] at *) <;> grind
  case seq =>
    intro e x hx hne
    rw [hw]
    rcases pending_append hx with h2 | h2
    · clear h h1 hw hcbs hx
      env_cases he <;> simp at h2 <;> (try subst h2) <;> simp [dl] at *
    · exact h.seq e x h2 hne
  case lens =>
    intro e
    rw [hw, hcbs, ws_append]
    have h2 := h.lens e
    clear h h1 hw hcbs
    env_cases he <;> simp [dlen, dl] at * <;> exact h2
  case one =>
    intro e
    rw [ws_append]
    have h2 := h.one e
    have h4 : anyI acts (fun x => evOf s x == some e) = false → ws (act e) acts = 0 :=
      fun h5 => (idle_zero h5).2
    clear h h1 hw hcbs
    env_cases he <;> simp [act, upd_apply] at * <;> grind

theorem reach_inv2 {b : Bool} {c : Conf mach} (h : Reach mach (init b) c) : Inv2 c.sh c.acts :=
  Reach.inv_with (M := mach) (P := Inv1) (Q := Inv2) (fun _ hc => reach_inv1 hc) (init_inv2 b)
    (fun _ _ _ _ _ h1 _ h he => env_inv2 h1 h he)
    (fun _ _ _ _ _ _ _ _ h1 _ h hk he => run_inv2 h1 h hk he) h

end Verif.Callback
