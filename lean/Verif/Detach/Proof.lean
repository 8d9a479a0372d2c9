import Verif.Detach.Model
import Verif.Induct
import Verif.Finish

/-! # Invariants of `detach` and `spawn` -/

namespace Verif.Detach

/-- Case distinction on the outcome of an instruction. -/
macro "exec_cases" he:ident : tactic => `(tactic|
  (simp only [exec] at $he:ident
   (split at $he:ident <;> (repeat' split at $he:ident) <;>
    simp only [Out.ok.injEq, reduceCtorEq] at $he:ident) <;>
   (rcases $he:ident with ⟨he1, he2⟩; subst he1; subst he2)))

macro "env_cases" he:ident : tactic => `(tactic|
  (simp only [env] at $he:ident
   (split at $he:ident <;> (try split at $he:ident) <;>
    simp only [Option.some.injEq, Prod.mk.injEq, reduceCtorEq] at $he:ident) <;>
   (rcases $he:ident with ⟨he1, he2⟩; subst he1; subst he2)))

def sw (b : Id) : Instr → Nat
  | .start j => if j = b then 1 else 0
  | _ => 0
def rw' (b : Id) : Instr → Nat
  | .recv j _ => if j = b then 1 else 0
  | _ => 0
def nw (b : Id) : Instr → Nat
  | .fin j => if j = b then 1 else 0
  | _ => 0
def fw (b : Id) : Instr → Nat
  | .free j => if j = b then 1 else 0
  | _ => 0
def cw (b : Id) : Instr → Nat
  | .cont j => if j = b then 1 else 0
  | _ => 0

/-- What may happen after `before`. -/
def Ok (before : List Ev) : Ev → Prop
  | .create b _ => ∀ sp, .create b sp ∉ before
  | .complete b _ => (∃ sp, .create b sp ∈ before) ∧ ∀ v, .complete b v ∉ before
  | .recv b v => .create b true ∈ before ∧ .complete b v ∈ before ∧ .free b ∉ before ∧ ∀ w, .recv b w ∉ before
  | .free b => (∃ v, .complete b v ∈ before) ∧ .free b ∉ before ∧
      (.create b true ∈ before → ∃ v, .recv b v ∈ before)
  | .cont b => .create b false ∈ before ∧ .free b ∈ before ∧ .cont b ∉ before

structure Inv (s : St) (acts : List (List Instr)) : Prop where
  st : ∀ b, ws (sw b) acts = if s.phase b = .alive ∧ s.oper b = .idle then 1 else 0
  fr : ∀ b, s.phase b = .fresh → s.oper b = .idle
  al : ∀ b, s.oper b = .started → s.phase b = .alive
  fc : ∀ b, s.phase b = .freed → s.oper b = .completed
  cs : ∀ b, ws (rw' b) acts + ws (nw b) acts + ws (fw b) acts =
    if s.phase b = .alive ∧ s.oper b = .completed then 1 else 0
  rs : ∀ b, 1 ≤ ws (rw' b) acts → s.spawn b = true
  cc : ∀ b, 1 ≤ ws (cw b) acts → s.phase b = .freed ∧ s.spawn b = false ∧ ws (cw b) acts = 1
  lcr : ∀ b sp, .create b sp ∈ s.log ↔ s.phase b ≠ .fresh ∧ s.spawn b = sp
  lco : ∀ b, s.oper b = .completed ↔ ∃ v, .complete b v ∈ s.log
  pr : ∀ b v, Pending acts (.recv b v) → .complete b v ∈ s.log
  lre : ∀ b v, .recv b v ∈ s.log → s.spawn b = true ∧ s.oper b = .completed ∧ ws (rw' b) acts = 0
  lrr : ∀ b, s.spawn b = true → s.oper b = .completed → ws (rw' b) acts = 0 → ∃ v, .recv b v ∈ s.log
  lfr : ∀ b, .free b ∈ s.log ↔ s.phase b = .freed
  lct : ∀ b, .cont b ∈ s.log ↔ s.phase b = .freed ∧ s.spawn b = false ∧ ws (cw b) acts = 0
  ok : Hist Ok s.log

set_option maxHeartbeats 2000000 in
theorem run_inv {s : St} {acts : List (List Instr)} (h : Inv s acts) {k : Nat} {x : Instr}
    {r p : List Instr} (hk : acts[k]? = some (x :: r)) {b : Bool} {s' : St}
    (he : exec s x b = .ok s' p) : Inv s' (acts.set k (p ++ r)) := by
  have S := fun i => ws_set (sw i) p hk
  have R := fun i => ws_set (rw' i) p hk
  have N := fun i => ws_set (nw i) p hk
  have F := fun i => ws_set (fw i) p hk
  have C := fun i => ws_set (cw i) p hk
  have C1 := fun i => ws_pos (w := cw i) hk
  have R1 := fun i => ws_pos (w := rw' i) hk
  have P := fun i v => pending_set (y := .recv i v) (p := p) hk
  have P1 := pending_top hk
  generalize acts.set k (p ++ r) = acts' at *
  obtain ⟨st, fr, al, fc, cs, rs, cc, lcr, lco, pr, lre, lrr, lfr, lct, ok⟩ := h
  constructor
  case ok =>
    clear hk
    exec_cases he <;> simp [sw, rw', nw, fw, cw, upd_apply, Ok] at * <;> grind
  all_goals
    intro i; specialize S i; specialize R i; specialize N i; specialize F i; specialize C i; specialize C1 i
    specialize R1 i
    specialize st i; specialize fr i; specialize al i; specialize fc i; specialize cs i; specialize rs i
    specialize cc i; specialize lcr i; specialize lco i; specialize pr i; specialize lre i; specialize lrr i
    specialize lfr i; specialize lct i; specialize P i
    clear hk
    exec_cases he <;> simp [sw, rw', nw, fw, cw, upd_apply] at * <;> grind (splits := 30)

set_option maxHeartbeats 2000000 in
theorem env_inv {s : St} {acts : List (List Instr)} (h : Inv s acts) {a : Act} {s' : St} {p : List Instr}
    (he : env s acts a = some (s', p)) : Inv s' (acts ++ [p]) := by
  have P := fun i v => pending_append (acts := acts) (p := p) (y := .recv i v)
  obtain ⟨st, fr, al, fc, cs, rs, cc, lcr, lco, pr, lre, lrr, lfr, lct, ok⟩ := h
  constructor
  case ok =>
    env_cases he <;> simp [sw, rw', nw, fw, cw, upd_apply, Ok] at * <;> grind
  all_goals
    intro i
    specialize st i; specialize fr i; specialize al i; specialize fc i; specialize cs i; specialize rs i
    specialize cc i; specialize lcr i; specialize lco i; specialize pr i; specialize lre i; specialize lrr i
    specialize lfr i; specialize lct i; specialize P i
    env_cases he <;> simp [sw, rw', nw, fw, cw, upd_apply] at * <;> (try split) <;>
      grind (splits := 30) [sw, rw', nw, fw, cw]

theorem init_inv : Inv init [] := by
  constructor <;> simp [init, Pending, Hist.nil]

theorem reach_inv {c : Conf mach} (h : Reach mach init c) : Inv c.sh c.acts :=
  Reach.inv (M := mach) (P := Inv) init_inv (fun _ _ _ _ _ h he => env_inv h he)
    (fun _ _ _ _ _ _ _ _ h hk he => run_inv h hk he) h

theorem not_fault {s : St} {acts : List (List Instr)} (h : Inv s acts) {k : Nat} {x : Instr}
    {r : List Instr} (hk : acts[k]? = some (x :: r)) (b : Bool) : exec s x b ≠ .fault := by
  intro he
  have S := fun i => ws_pos (w := sw i) hk
  have R := fun i => ws_pos (w := rw' i) hk
  have N := fun i => ws_pos (w := nw i) hk
  have F := fun i => ws_pos (w := fw i) hk
  have st := h.st
  have cs := h.cs
  clear hk h
  cases x with
  | recv i v => specialize R i; specialize cs i; simp only [exec] at he; simp [rw'] at *; grind
  | start i => specialize S i; specialize st i; simp only [exec] at he; simp [sw] at *; grind
  | fin i => specialize N i; specialize cs i; simp only [exec] at he; simp [nw] at *; grind
  | free i => specialize F i; specialize cs i; simp only [exec] at he; simp [fw] at *; grind
  | cont i => simp [exec] at he

/-- How many instructions are left at most. -/
def cost : Instr → Nat
  | .start _ => 1
  | .recv _ _ => 4
  | .fin _ => 3
  | .free _ => 2
  | .cont _ => 1

theorem exec_cost {s s' : St} {x : Instr} {b : Bool} {p : List Instr} (he : exec s x b = .ok s' p) :
    wl cost p + 1 ≤ cost x := by
  exec_cases he <;> (try split) <;> simp [cost]

end Verif.Detach
