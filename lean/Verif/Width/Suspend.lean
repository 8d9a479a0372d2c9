import Verif.Suspend.Props

/-!
# The state word of `suspend_indefinitely` (cancellation.hpp 403-448)

`Verif/Suspend/Model.lean` has two flags and an unbounded counter for each operation. The code has one word of type `size_t`: bit 31
is `state_init`, bit 30 is `state_cancel`, and the bits below are the counter. Here is the same machine with the word, and with
the operations on words that the code executes: unsigned arithmetic modulo `2 ^ w`, where `w` is the width of `size_t`.
-/

namespace Verif.Width.Suspend

open Verif.Suspend (Id EvId Obs Ev Phase Instr mkObs listOf others)

/-- Lines 443-445. -/
def stateInit : Nat := 1 <<< 31
def stateCancel : Nat := 1 <<< 30
def stateCtr : Nat := (1 <<< 30) - 1

/-- As `Verif.Suspend.St`, with the word `st_` (line 448) of each operation. -/
structure St where
  req : EvId → Bool
  pool : List Obs
  toks : Id → List (Option EvId)
  word : Id → Nat
  phase : Id → Phase
  ops : List Id
  log : List Ev

def init : St := ⟨fun _ => false, [], fun _ => [], fun _ => 0, fun _ => .fresh, [], []⟩

/-- The event of this token is cancelled. -/
def St.reqT (s : St) : Option EvId → Bool
  | some e => s.req e
  | none => false

/-- Lines 416-418. -/
def initAndCancel (x : Nat) : Bool := (x &&& stateInit != 0) && (x &&& stateCancel != 0)

/-- As `Verif.Suspend.exec`; `tOr` and `sub` execute the code of lines 407-434 on the word. -/
def exec (w : Nat) (s : St) : Instr → Bool → Out St Instr
  | .attach i l, _ =>
    if s.phase i ≠ .running then .fault
    else match l with
    | [] => .ok { s with log := s.log ++ [.attached i] } [.tOr i true]
    | o :: l =>
      if s.reqT o.tok then .ok { s with log := s.log ++ [.fire o] } [.tOr i false, .attach i l]
      else .ok { s with pool := s.pool ++ [o] } [.attach i l]
  | .tOr i b, _ =>
    if s.phase i ≠ .running then .fault
    else
      let st := s.word i
      let newSt := st ||| (if b then stateInit else stateCancel)  -- fetch_or, lines 407-408
      .ok { s with word := upd s.word i newSt }
        (if !initAndCancel st && initAndCancel newSt then [.rst i (mkObs i (s.toks i)) 1] else [.sub i 1])
  | .rst i l c, _ =>
    if s.phase i ≠ .running then .fault
    else match l with
    | [] => .ok s [.sub i c]
    | o :: l =>
      if s.reqT o.tok then .ok s [.rst i l c]
      else if o ∈ s.pool then
        .ok { s with pool := s.pool.erase o, log := s.log ++ [.reset o] } [.rst i l (c + 1)]
      else .fault
  | .sub i c, _ =>
    if s.phase i ≠ .running then .fault
    else
      let fin := s.word i
      let s' := { s with word := upd s.word i ((fin + 2 ^ w - c % 2 ^ w) % 2 ^ w) }  -- fetch_sub, line 428
      if fin &&& stateCtr < c then .fault  -- assert, line 429
      else if fin &&& stateCtr = c then  -- line 430
        if fin &&& stateInit = 0 then .fault  -- assert, line 431
        else if fin &&& stateCtr = 0 then .fault  -- assert, line 432
        else .ok s' [.setv i]
      else .ok s' []
  | .setv i, _ =>
    if s.phase i ≠ .running then .fault
    else .ok { s with phase := upd s.phase i .done, log := s.log ++ [.done i] } []
  | .cancelCS e, _ =>
    .ok { s with req := upd s.req e true, pool := others e s.pool, log := s.log ++ [.cancel e] }
      [.drain (listOf e s.pool)]
  | .drain [], _ => .ok s []
  | .drain (o :: l), _ =>
    if s.phase o.op ≠ .running then .fault
    else .ok { s with log := s.log ++ [.fire o] } [.tOr o.op false, .drain l]

/-- As `Verif.Suspend.env`, with `st_{N + 1}` (line 448). The number `N` of tokens is at most `L`. -/
def env (L : Nat) (s : St) (_ : List (List Instr)) : Verif.Suspend.Act → Option (St × List Instr)
  | .start i toks =>
    if s.phase i = .fresh ∧ toks ≠ [] ∧ toks.length ≤ L then
      some ({ s with phase := upd s.phase i .running, toks := upd s.toks i toks, word := upd s.word i (toks.length + 1),
                     ops := i :: s.ops, log := s.log ++ [.start i toks] }, [.attach i (mkObs i toks)])
    else none
  | .cancel e => some (s, [.cancelCS e])
  | .revive e =>
    if s.ops.all (fun i => s.phase i == .done || !(s.toks i).contains (some e)) then
      some ({ s with req := upd s.req e false, log := s.log ++ [.revive e] }, [])
    else none

abbrev mach (w L : Nat) : Mach := ⟨St, Instr, Verif.Suspend.Act, exec w, env L⟩

/-- The greatest number of tokens for which the counter fits below the flags. -/
abbrev maxToks : Nat := 2 ^ 30 - 2

/-! ## Words -/

/-- The word that stands for the flags and the counter. -/
def pack (ini can : Bool) (ctr : Nat) : Nat := 2 ^ 30 * (2 * ini.toNat + can.toNat) + ctr

theorem pack_ctr {i c : Bool} {n : Nat} (h : n < 2 ^ 30) : pack i c n &&& stateCtr = n := by
  have : stateCtr = 2 ^ 30 - 1 := by decide
  rw [this, Nat.and_two_pow_sub_one_eq_mod]
  unfold pack; omega

theorem pack_bit30 {i c : Bool} {n : Nat} (h : n < 2 ^ 30) : (pack i c n).testBit 30 = c := by
  rw [Nat.testBit_eq_decide_div_mod_eq]
  unfold pack
  cases i <;> cases c <;> simp <;> omega

theorem pack_bit31 {i c : Bool} {n : Nat} (h : n < 2 ^ 30) : (pack i c n).testBit 31 = i := by
  rw [Nat.testBit_eq_decide_div_mod_eq]
  unfold pack
  cases i <;> cases c <;> simp <;> omega

theorem and_two_pow (x k : Nat) : x &&& 2 ^ k = (x.testBit k).toNat * 2 ^ k := by
  apply Nat.eq_of_testBit_eq
  intro j
  rw [Nat.testBit_and, Nat.testBit_two_pow]
  by_cases e : k = j
  · subst e; cases x.testBit k <;> simp
  · cases x.testBit k <;> simp [e, Nat.testBit_two_pow]

theorem pack_init {i c : Bool} {n : Nat} (h : n < 2 ^ 30) : pack i c n &&& stateInit = i.toNat * 2 ^ 31 := by
  have : stateInit = 2 ^ 31 := by decide
  rw [this, and_two_pow, pack_bit31 h]

theorem pack_cancel {i c : Bool} {n : Nat} (h : n < 2 ^ 30) : pack i c n &&& stateCancel = c.toNat * 2 ^ 30 := by
  have : stateCancel = 2 ^ 30 := by decide
  rw [this, and_two_pow, pack_bit30 h]

theorem pack_or {i c b : Bool} {n : Nat} (h : n < 2 ^ 30) :
    pack i c n ||| (if b then stateInit else stateCancel) = pack (i || b) (c || !b) n := by
  have e : ∀ a k : Nat, (2 ^ 30 * a + n) ||| 2 ^ 30 * k = 2 ^ 30 * (a ||| k) + n := by
    intro a k
    rw [Nat.two_pow_add_eq_or_of_lt h, Nat.two_pow_add_eq_or_of_lt h, Nat.or_assoc, Nat.or_comm n, ← Nat.or_assoc]
    congr 1
    rw [Nat.mul_comm _ a, Nat.mul_comm _ k, Nat.mul_comm _ (a ||| k), ← Nat.shiftLeft_eq, ← Nat.shiftLeft_eq,
      ← Nat.shiftLeft_eq, Nat.shiftLeft_or_distrib]
  have h1 : stateInit = 2 ^ 30 * 2 := by decide
  have h2 : stateCancel = 2 ^ 30 * 1 := by decide
  unfold pack
  cases b
  · rw [if_neg (by simp), h2, e]; cases i <;> cases c <;> rfl
  · rw [if_pos rfl, h1, e]; cases i <;> cases c <;> rfl

theorem pack_sub {i c : Bool} {n k w : Nat} (hw : 32 ≤ w) (h : n < 2 ^ 30) (hk : k ≤ n) :
    (pack i c n + 2 ^ w - k % 2 ^ w) % 2 ^ w = pack i c (n - k) := by
  have hp : (2 : Nat) ^ 32 ≤ 2 ^ w := Nat.pow_le_pow_right (by omega) hw
  have hm : pack i c n < 2 ^ 32 := by unfold pack; cases i <;> cases c <;> simp <;> omega
  have h0 : k % 2 ^ w = k := Nat.mod_eq_of_lt (by omega)
  have h1 : pack i c n = pack i c (n - k) + k := by unfold pack; omega
  rw [h0, show pack i c n + 2 ^ w - k = pack i c (n - k) + 2 ^ w by omega, Nat.add_mod_right]
  exact Nat.mod_eq_of_lt (by omega)

theorem pack_both {i c : Bool} {n : Nat} (h : n < 2 ^ 30) : initAndCancel (pack i c n) = (i && c) := by
  unfold initAndCancel
  rw [pack_init h, pack_cancel h]
  cases i <;> cases c <;> rfl

/-! ## Refinement -/

/-- The state of the other machine that a state with words stands for. -/
structure Abs (s : St) (t : Verif.Suspend.St) : Prop where
  req : t.req = s.req
  pool : t.pool = s.pool
  toks : t.toks = s.toks
  phase : t.phase = s.phase
  ops : t.ops = s.ops
  log : t.log = s.log
  word : ∀ i, s.word i = pack (t.ini i) (t.can i) (t.ctr i)
  small : ∀ i, t.ctr i < 2 ^ 30
  fresh : ∀ i, t.phase i = .fresh → t.ini i = false ∧ t.can i = false

/-- Outcomes that correspond. -/
def Sim : Out St Instr → Out Verif.Suspend.St Instr → Prop
  | .ok s p, .ok t q => Abs s t ∧ p = q
  | .fault, .fault => True
  | .block, .block => True
  | _, _ => False

theorem exec_sim {w : Nat} (hw : 32 ≤ w) {s : St} {t : Verif.Suspend.St} (h : Abs s t) (x : Instr) (b : Bool) :
    Sim (exec w s x b) (Verif.Suspend.exec t x b) := by
  obtain ⟨req, pool, toks, ini, can, ctr, phase, ops, log⟩ := t
  obtain ⟨req', pool', toks', word, phase', ops', log'⟩ := s
  obtain ⟨h1, h2, h3, h4, h5, h6, hwd, hs, hf⟩ := h
  simp only at h1 h2 h3 h4 h5 h6 hwd hs hf
  subst h1 h2 h3 h4 h5 h6
  have hr : ∀ o, (Verif.Suspend.St.mk req pool toks ini can ctr phase ops log).reqT o =
      (St.mk req pool toks word phase ops log).reqT o := by intro o; cases o <;> rfl
  cases x with
  | attach i l =>
    simp only [exec, Verif.Suspend.exec, hr]
    split
    · trivial
    · cases l with
      | nil => exact ⟨⟨rfl, rfl, rfl, rfl, rfl, rfl, hwd, hs, hf⟩, rfl⟩
      | cons o l =>
        simp only
        split <;> exact ⟨⟨rfl, rfl, rfl, rfl, rfl, rfl, hwd, hs, hf⟩, rfl⟩
  | tOr i b =>
    simp only [exec, Verif.Suspend.exec]
    split
    · trivial
    · rw [hwd i, pack_or (hs i), pack_both (hs i), pack_both (hs i)]
      refine ⟨⟨rfl, rfl, rfl, rfl, rfl, rfl, fun j => ?_, hs, fun j hj => ?_⟩, ?_⟩
      · simp only [upd_apply]
        by_cases e : j = i
        · subst e; simp
        · simp [e, hwd j]
      · rename_i hp
        have e : j ≠ i := by intro e; subst e; simp_all
        simpa [upd_apply, e] using hf j hj
      · rw [Bool.and_comm]
  | rst i l c =>
    simp only [exec, Verif.Suspend.exec, hr]
    split
    · trivial
    · cases l with
      | nil => exact ⟨⟨rfl, rfl, rfl, rfl, rfl, rfl, hwd, hs, hf⟩, rfl⟩
      | cons o l =>
        simp only
        split
        · exact ⟨⟨rfl, rfl, rfl, rfl, rfl, rfl, hwd, hs, hf⟩, rfl⟩
        · split
          · exact ⟨⟨rfl, rfl, rfl, rfl, rfl, rfl, hwd, hs, hf⟩, rfl⟩
          · trivial
  | sub i c =>
    simp only [exec, Verif.Suspend.exec]
    rw [hwd i, pack_ctr (hs i), pack_init (hs i)]
    by_cases hp : phase i = .running
    · simp only [hp, ne_eq, not_true_eq_false, if_false, false_or]
      by_cases hc : ctr i < c
      · simp only [hc, if_true]; trivial
      · simp only [hc, if_false]
        have hup : ∀ j, upd word i ((pack (ini i) (can i) (ctr i) + 2 ^ w - c % 2 ^ w) % 2 ^ w) j =
            pack (ini j) (can j) (upd ctr i (ctr i - c) j) := by
          intro j
          rw [pack_sub hw (hs i) (by omega)]
          simp only [upd_apply]
          by_cases e : j = i
          · subst e; simp
          · simp [e, hwd j]
        have hsm : ∀ j, upd ctr i (ctr i - c) j < 2 ^ 30 := by
          intro j
          have := hs i; have := hs j
          simp only [upd_apply]; split <;> omega
        by_cases he : ctr i = c
        · simp only [he, if_true]
          cases hi : ini i
          · simp; trivial
          · by_cases h0 : c = 0
            · simp [h0]; trivial
            · simp only [h0, Bool.toNat_true, not_false_eq_true, and_self, if_true]
              rw [if_neg (by decide), if_false]
              refine ⟨⟨rfl, rfl, rfl, rfl, rfl, rfl, fun j => ?_, fun j => ?_, hf⟩, rfl⟩
              · have := hup j
                rw [he, hi, Nat.sub_self] at this; exact this
              · have := hsm j
                rw [he, Nat.sub_self] at this; exact this
        · simp only [he, if_false]
          exact ⟨⟨rfl, rfl, rfl, rfl, rfl, rfl, hup, hsm, hf⟩, rfl⟩
    · simp only [hp, ne_eq, not_false_eq_true, if_true, true_or]; trivial
  | setv i =>
    simp only [exec, Verif.Suspend.exec]
    split
    · trivial
    · refine ⟨⟨rfl, rfl, rfl, rfl, rfl, rfl, hwd, hs, fun j hj => ?_⟩, rfl⟩
      by_cases e : j = i
      · subst e; simp at hj
      · exact hf j (by simpa [upd_apply, e] using hj)
  | cancelCS e => exact ⟨⟨rfl, rfl, rfl, rfl, rfl, rfl, hwd, hs, hf⟩, rfl⟩
  | drain l =>
    cases l with
    | nil => exact ⟨⟨rfl, rfl, rfl, rfl, rfl, rfl, hwd, hs, hf⟩, rfl⟩
    | cons o l =>
      simp only [exec, Verif.Suspend.exec]
      split
      · trivial
      · exact ⟨⟨rfl, rfl, rfl, rfl, rfl, rfl, hwd, hs, hf⟩, rfl⟩

theorem env_sim {s : St} {t : Verif.Suspend.St} (h : Abs s t) (acts : List (List Instr)) (a : Verif.Suspend.Act) {s' : St}
    {p : List Instr} (he : env maxToks s acts a = some (s', p)) :
    ∃ t', Verif.Suspend.env t acts a = some (t', p) ∧ Abs s' t' := by
  obtain ⟨req, pool, toks, ini, can, ctr, phase, ops, log⟩ := t
  obtain ⟨req', pool', toks', word, phase', ops', log'⟩ := s
  obtain ⟨h1, h2, h3, h4, h5, h6, hwd, hs, hf⟩ := h
  simp only at h1 h2 h3 h4 h5 h6 hwd hs hf
  subst h1 h2 h3 h4 h5 h6
  cases a with
  | start i tk =>
    simp only [env] at he
    split at he
    case isFalse => simp at he
    case isTrue hc =>
      simp only [Option.some.injEq, Prod.mk.injEq] at he
      obtain ⟨rfl, rfl⟩ := he
      simp only [Verif.Suspend.env]
      rw [if_pos ⟨hc.1, hc.2.1⟩]
      refine ⟨_, rfl, rfl, rfl, rfl, rfl, rfl, rfl, fun j => ?_, fun j => ?_, fun j hj => ?_⟩
      · simp only [upd_apply]
        by_cases e : j = i
        · subst e; simp [pack, hf j hc.1]
        · simp [e, hwd j]
      · have := hs j
        have h3 : tk.length ≤ 2 ^ 30 - 2 := hc.2.2
        simp only [upd_apply]; split <;> omega
      · refine hf j ?_
        by_cases e : j = i
        · subst e; exact hc.1
        · simpa [upd_apply, e] using hj
  | cancel e =>
    simp only [env, Option.some.injEq, Prod.mk.injEq] at he
    obtain ⟨rfl, rfl⟩ := he
    exact ⟨_, rfl, rfl, rfl, rfl, rfl, rfl, rfl, hwd, hs, hf⟩
  | revive e =>
    simp only [env] at he
    split at he
    case isFalse => simp at he
    case isTrue hc =>
      simp only [Option.some.injEq, Prod.mk.injEq] at he
      obtain ⟨rfl, rfl⟩ := he
      simp only [Verif.Suspend.env]
      rw [if_pos hc]
      exact ⟨_, rfl, rfl, rfl, rfl, rfl, rfl, rfl, hwd, hs, hf⟩

/-- Configurations that correspond. -/
def AbsC {w : Nat} (c : Conf (mach w maxToks)) (d : Conf Verif.Suspend.mach) : Prop :=
  Abs c.sh d.sh ∧ d.acts = c.acts ∧ d.bad = c.bad

/-- The label of the other machine. -/
def lbl {w : Nat} : Lbl (mach w maxToks) → Lbl Verif.Suspend.mach
  | .env a => .env a
  | .run k b => .run k b

theorem step_sim {w : Nat} (hw : 32 ≤ w) {c c' : Conf (mach w maxToks)} {d : Conf Verif.Suspend.mach} (h : AbsC c d)
    {l : Lbl (mach w maxToks)} (hs : (mach w maxToks).step c l = some c') :
    ∃ d', Verif.Suspend.mach.step d (lbl l) = some d' ∧ AbsC c' d' := by
  obtain ⟨s, acts, bad⟩ := c
  obtain ⟨t, acts', bad'⟩ := d
  obtain ⟨ha, h1, h2⟩ := h
  simp only at ha h1 h2
  subst h1 h2
  cases l with
  | env a =>
    simp only [Mach.step] at hs
    split at hs
    · simp at hs
    · rename_i hb
      split at hs
      · rename_i s' p he
        simp at hs; subst hs
        obtain ⟨t', ht, ha'⟩ := env_sim ha _ _ he
        refine ⟨⟨t', acts' ++ [p], false⟩, ?_, ha', rfl, rfl⟩
        simp only [lbl, Mach.step, hb]
        rw [if_neg (by simp)]
        simp only [ht]
      · simp at hs
  | run k b =>
    simp only [Mach.step] at hs
    split at hs
    · simp at hs
    · rename_i hb
      split at hs
      · rename_i x r hk
        have := exec_sim hw ha x b
        simp only [lbl, Mach.step, hb, hk]
        cases hx : exec w s x b <;> cases hy : Verif.Suspend.exec t x b <;> rw [hx, hy] at this <;>
          simp only [Sim] at this <;> simp only [hx] at hs
        · obtain ⟨ha', rfl⟩ := this
          simp at hs; subst hs
          exact ⟨⟨_, acts'.set k (_ ++ r), false⟩, by simp, ha', rfl, rfl⟩
        · simp at hs
        · simp at hs; subst hs
          exact ⟨⟨t, acts', true⟩, by simp, ha, rfl, rfl⟩
      · simp at hs

theorem runs_sim {w : Nat} (hw : 32 ≤ w) {ls : List (Lbl (mach w maxToks))} {c c' : Conf (mach w maxToks)} {d : Conf Verif.Suspend.mach}
    (h : AbsC c d) (hr : (mach w maxToks).runs c ls = some c') :
    ∃ d', Verif.Suspend.mach.runs d (ls.map lbl) = some d' ∧ AbsC c' d' := by
  induction ls generalizing c d with
  | nil => simp [Mach.runs] at hr; subst hr; exact ⟨d, rfl, h⟩
  | cons l ls ih =>
    simp only [Mach.runs] at hr
    split at hr
    · rename_i c1 h1
      obtain ⟨d1, hd, ha⟩ := step_sim hw h h1
      obtain ⟨d', hd', ha'⟩ := ih ha hr
      exact ⟨d', by simp [Mach.runs, hd, hd'], ha'⟩
    · simp at hr

theorem init_sim {w : Nat} : AbsC ((mach w maxToks).init init) (Verif.Suspend.mach.init Verif.Suspend.init) :=
  ⟨⟨rfl, rfl, rfl, rfl, rfl, rfl, fun _ => rfl, fun _ => Nat.two_pow_pos 30, fun _ _ => ⟨rfl, rfl⟩⟩, rfl, rfl⟩

/-! ## Too many tokens -/

theorem mkObs_none (i n : Nat) : ∀ o ∈ mkObs i (List.replicate n none), o.tok = none := by
  intro o ho
  simp only [mkObs, List.mem_map] at ho
  obtain ⟨p, hp, rfl⟩ := ho
  have := List.fst_mem_of_mem_zipIdx hp
  simpa using (List.mem_replicate.1 this).2

/-- Attaching observers without an event. -/
theorem attach_all {w L : Nat} {toks : Id → List (Option EvId)} {word : Id → Nat} {phase : Id → Phase} {ops : List Id} {log : List Ev}
    {req : EvId → Bool} (hp : phase 0 = .running) (l pool : List Obs) (hl : ∀ o ∈ l, o.tok = none)
    (h : Reach (mach w L) init ⟨⟨req, pool, toks, word, phase, ops, log⟩, [[.attach 0 l]], false⟩) :
    Reach (mach w L) init ⟨⟨req, pool ++ l, toks, word, phase, ops, log⟩, [[.attach 0 []]], false⟩ := by
  induction l generalizing pool with
  | nil => simpa using h
  | cons o l ih =>
    have ho : o.tok = none := hl o (by simp)
    have := ih (pool ++ [o]) (fun o' h' => hl o' (by simp [h'])) (h.step (l := .run 0 true) (by
      simp [Mach.step, exec, hp, ho, St.reqT]))
    simpa using this

/-- Resetting them. -/
theorem reset_all {w L : Nat} {toks : Id → List (Option EvId)} {word : Id → Nat} {phase : Id → Phase} {ops : List Id}
    {req : EvId → Bool} (hp : phase 0 = .running) (l : List Obs) (c : Nat) (log : List Ev) (hl : ∀ o ∈ l, o.tok = none)
    (h : Reach (mach w L) init ⟨⟨req, l, toks, word, phase, ops, log⟩, [[.rst 0 l c]], false⟩) :
    Reach (mach w L) init ⟨⟨req, [], toks, word, phase, ops, log ++ l.map .reset⟩, [[.rst 0 [] (c + l.length)]], false⟩ := by
  induction l generalizing c log with
  | nil => simpa using h
  | cons o l ih =>
    have ho : o.tok = none := hl o (by simp)
    have := ih (c + 1) (log ++ [.reset o]) (fun o' h' => hl o' (by simp [h'])) (h.step (l := .run 0 true) (by
      simp [Mach.step, exec, hp, ho, St.reqT]))
    simpa [Nat.add_assoc, Nat.add_comm 1] using this

/-- With one token more, the counter is zero and `state_cancel` is set from the beginning. -/
theorem too_many {w : Nat} (N : Nat) (hN : N + 1 = 2 ^ 30) :
    ∃ c : Conf (mach w N), Reach (mach w N) init c ∧ c.bad = true ∧
      .start 0 (List.replicate N none) ∈ c.sh.log ∧ ∀ e, .cancel e ∉ c.sh.log := by
  have hne : List.replicate N (none : Option EvId) ≠ [] := by
    intro h
    have := congrArg List.length h
    simp only [List.length_replicate, List.length_nil] at this
    omega
  have h1 : Reach (mach w N) init ⟨⟨fun _ => false, [], upd (fun _ => []) 0 (List.replicate N none), upd (fun _ => 0) 0 (N + 1),
      upd (fun _ => .fresh) 0 .running, [0], [.start 0 (List.replicate N none)]⟩,
      [[.attach 0 (mkObs 0 (List.replicate N none))]], false⟩ := by
    refine Reach.step (l := .env (.start 0 (List.replicate N none))) .init ?_
    simp only [Mach.step, Mach.init, env, init]
    rw [if_neg (by simp)]
    simp [hne]
  have hno := mkObs_none 0 N
  have hlen : (mkObs 0 (List.replicate N none)).length = N := by simp [mkObs]
  generalize hl : mkObs 0 (List.replicate N none) = l at *
  have h2 := attach_all (by simp) l [] hno h1
  have h3 : Reach (mach w N) init ⟨⟨fun _ => false, l, upd (fun _ => []) 0 (List.replicate N none),
      upd (fun _ => 0) 0 (N + 1), upd (fun _ => .fresh) 0 .running, [0], [.start 0 (List.replicate N none), .attached 0]⟩,
      [[.tOr 0 true]], false⟩ := h2.step (l := .run 0 true) (by simp [Mach.step, exec])
  have e1 : (N + 1) ||| stateInit = 2 ^ 31 + 2 ^ 30 := by rw [hN]; decide
  have e2 : initAndCancel (N + 1) = false := by rw [hN]; decide
  have e3 : initAndCancel (2 ^ 31 + 2 ^ 30) = true := by decide
  have h4 : Reach (mach w N) init ⟨⟨fun _ => false, l, upd (fun _ => []) 0 (List.replicate N none),
      upd (upd (fun _ => 0) 0 (N + 1)) 0 (2 ^ 31 + 2 ^ 30), upd (fun _ => .fresh) 0 .running, [0],
      [.start 0 (List.replicate N none), .attached 0]⟩, [[.rst 0 l 1]], false⟩ := h3.step (l := .run 0 true) (by
    simp only [Mach.step, exec, List.getElem?_cons_zero, upd_same, if_true, e1, e2, e3, hl]
    rfl)
  have h5 := reset_all (by simp) l 1 _ hno h4
  generalize hlog : [Ev.start 0 (List.replicate N none), .attached 0] ++ l.map .reset = log at h5
  have h6 : Reach (mach w N) init ⟨⟨fun _ => false, [], upd (fun _ => []) 0 (List.replicate N none),
      upd (upd (fun _ => 0) 0 (N + 1)) 0 (2 ^ 31 + 2 ^ 30), upd (fun _ => .fresh) 0 .running, [0], log⟩,
      [[.sub 0 (1 + l.length)]], false⟩ := h5.step (l := .run 0 true) (by simp [Mach.step, exec])
  have e4 : (2 ^ 31 + 2 ^ 30) &&& stateCtr < 1 + l.length := by
    have : (2 ^ 31 + 2 ^ 30) &&& stateCtr = 0 := by decide
    omega
  have h7 : Reach (mach w N) init ⟨⟨fun _ => false, [], upd (fun _ => []) 0 (List.replicate N none),
      upd (upd (fun _ => 0) 0 (N + 1)) 0 (2 ^ 31 + 2 ^ 30), upd (fun _ => .fresh) 0 .running, [0], log⟩,
      [[.sub 0 (1 + l.length)]], true⟩ := h6.step (l := .run 0 true) (by
    simp only [Mach.step, exec, List.getElem?_cons_zero, upd_same, e4, if_true]
    rfl)
  refine ⟨_, h7, rfl, ?_, ?_⟩
  · simp [← hlog]
  · simp [← hlog]

end Verif.Width.Suspend
