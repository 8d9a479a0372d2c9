import Verif.Run.Model
import Verif.Induct
import Verif.Finish

/-! # Invariants of `run` -/

namespace Verif.Run

/-- Case distinction on the outcome of an instruction. -/
macro "exec_cases" he:ident : tactic => `(tactic|
  (simp only [exec] at $he:ident
   (split at $he:ident <;> (repeat' split at $he:ident) <;>
    simp only [Out.ok.injEq, reduceCtorEq] at $he:ident) <;>
   (rcases $he:ident with ⟨he1, he2⟩; subst he1; subst he2)))

macro "env_cases" he:ident : tactic => `(tactic|
  (simp only [env] at $he:ident
   (split at $he:ident <;> (try split at $he:ident) <;>
    simp only [Option.some.injEq, Prod.mk.injEq, reduceCtorEq] at $he:ident) <;>
   (rcases $he:ident with ⟨he1, he2⟩; subst he1; subst he2)))

def sw (r : Id) : Instr → Nat
  | .start j => if j = r then 1 else 0
  | _ => 0
def vw (r : Id) : Instr → Nat
  | .leave j => if j = r then 1 else 0
  | _ => 0
def lw (r : Id) : Instr → Nat
  | .loop j => if j = r then 1 else 0
  | _ => 0
def ww (r : Id) : Instr → Nat
  | .wait j => if j = r then 1 else 0
  | _ => 0
def rw' (r : Id) : Instr → Nat
  | .ret j => if j = r then 1 else 0
  | _ => 0
def ew (r : Id) : Instr → Nat
  | .emplace j _ => if j = r then 1 else 0
  | _ => 0
def dw (r : Id) : Instr → Nat
  | .setDone j => if j = r then 1 else 0
  | _ => 0

/-- What may happen after `before`. -/
def Ok (mt : Bool) (before : List Ev) : Ev → Prop
  | .call r => .call r ∉ before
  | .complete r _ => .call r ∈ before ∧ ∀ v, .complete r v ∉ before
  | .wait r => .call r ∈ before ∧ (∀ v, .ret r v ∉ before) ∧ (mt = false → ∀ v, .complete r v ∉ before)
  | .ret r v => .complete r v ∈ before ∧ ∀ w, .ret r w ∉ before

structure Inv (mt : Bool) (s : St) (acts : List (List Instr)) : Prop where
  th : ∀ r, ws (sw r) acts + ws (vw r) acts + ws (lw r) acts + ws (ww r) acts + ws (rw' r) acts =
    if s.phase r = .running then 1 else 0
  ins : ∀ r, ws (vw r) acts = if s.inside r then 1 else 0
  bus : ∀ r, ws (ew r) acts + ws (dw r) acts = if s.busy r then 1 else 0
  fre : ∀ r, s.phase r = .fresh → s.started r = false
  sta : ∀ r, ws (sw r) acts = 1 → s.started r = false
  cst : ∀ r, s.compl r = true → s.started r = true
  bco : ∀ r, s.busy r = true → s.compl r = true ∧ s.done r = false
  dco : ∀ r, s.done r = true ↔ s.compl r = true ∧ s.busy r = false
  rdo : ∀ r, ws (rw' r) acts = 1 → s.done r = true
  pdo : ∀ r, s.phase r = .done → s.done r = true
  bin : ∀ r, mt = false → s.busy r = true → s.inside r = true
  wnc : ∀ r, mt = false → ws (ww r) acts = 1 → s.compl r = false
  lca : ∀ r, .call r ∈ s.log ↔ s.phase r ≠ .fresh
  lco : ∀ r, s.compl r = true ↔ ∃ v, .complete r v ∈ s.log
  pe : ∀ r v, Pending acts (.emplace r v) → .complete r v ∈ s.log
  va : ∀ r v, s.value r = some v → .complete r v ∈ s.log
  vs : ∀ r, (s.done r = true ∨ ws (dw r) acts = 1) → s.value r ≠ none
  lre : ∀ r, s.phase r = .done ↔ ∃ v, .ret r v ∈ s.log
  ok : Hist (Ok mt) s.log

variable {mt dummy : Bool}

set_option maxHeartbeats 2000000 in
theorem run_inv {s : St} {acts : List (List Instr)} (h : Inv mt s acts) {k : Nat} {x : Instr}
    {r p : List Instr} (hk : acts[k]? = some (x :: r)) {b : Bool} {s' : St}
    (he : exec mt dummy s x b = .ok s' p) : Inv mt s' (acts.set k (p ++ r)) := by
  have S := fun i => ws_set (sw i) p hk
  have V := fun i => ws_set (vw i) p hk
  have L := fun i => ws_set (lw i) p hk
  have W := fun i => ws_set (ww i) p hk
  have R := fun i => ws_set (rw' i) p hk
  have E := fun i => ws_set (ew i) p hk
  have D := fun i => ws_set (dw i) p hk
  have S1 := fun i => ws_pos (w := sw i) hk
  have V1 := fun i => ws_pos (w := vw i) hk
  have L1 := fun i => ws_pos (w := lw i) hk
  have W1 := fun i => ws_pos (w := ww i) hk
  have R1 := fun i => ws_pos (w := rw' i) hk
  have E1 := fun i => ws_pos (w := ew i) hk
  have D1 := fun i => ws_pos (w := dw i) hk
  have P := fun i v => pending_set (y := .emplace i v) (p := p) hk
  have P1 := pending_top hk
  generalize acts.set k (p ++ r) = acts' at *
  obtain ⟨th, ins, bus, fre, sta, cst, bco, dco, rdo, pdo, bin, wnc, lca, lco, pe, va, vs, lre, ok⟩ := h
  constructor
  case ok =>
    clear hk
    exec_cases he <;> simp [sw, vw, lw, ww, rw', ew, dw, upd_apply, Ok] at * <;> grind
  all_goals
    intro i; specialize S i; specialize V i; specialize L i; specialize W i; specialize R i; specialize E i
    specialize D i; specialize S1 i; specialize V1 i; specialize L1 i; specialize W1 i; specialize R1 i
    specialize E1 i; specialize D1 i
    specialize th i; specialize ins i; specialize bus i; specialize fre i; specialize sta i; specialize cst i
    specialize bco i; specialize dco i; specialize rdo i; specialize pdo i; specialize bin i; specialize wnc i
    specialize lca i; specialize lco i; specialize pe i; specialize va i; specialize vs i; specialize lre i
    specialize P i
    clear hk
    exec_cases he <;> simp [sw, vw, lw, ww, rw', ew, dw, upd_apply] at * <;> grind (splits := 30)

set_option maxHeartbeats 2000000 in
theorem env_inv {s : St} {acts : List (List Instr)} (h : Inv mt s acts) {a : Act} {s' : St} {p : List Instr}
    (he : env mt s acts a = some (s', p)) : Inv mt s' (acts ++ [p]) := by
  have P := fun i v => pending_append (acts := acts) (p := p) (y := .emplace i v)
  obtain ⟨th, ins, bus, fre, sta, cst, bco, dco, rdo, pdo, bin, wnc, lca, lco, pe, va, vs, lre, ok⟩ := h
  constructor
  case ok =>
    env_cases he <;> simp [upd_apply, Ok] at * <;> grind
  all_goals
    intro i
    specialize th i; specialize ins i; specialize bus i; specialize fre i; specialize sta i; specialize cst i
    specialize bco i; specialize dco i; specialize rdo i; specialize pdo i; specialize bin i; specialize wnc i
    specialize lca i; specialize lco i; specialize pe i; specialize va i; specialize vs i; specialize lre i
    specialize P i
    env_cases he <;> simp [sw, vw, lw, ww, rw', ew, dw, upd_apply] at * <;> grind (splits := 30)

theorem init_inv : Inv mt init [] := by
  constructor <;> simp [init, Pending, Hist.nil]

theorem reach_inv {c : Conf (mach mt dummy)} (h : Reach (mach mt dummy) init c) : Inv mt c.sh c.acts :=
  Reach.inv (M := mach mt dummy) (P := Inv mt) init_inv (fun _ _ _ _ _ h he => env_inv h he)
    (fun _ _ _ _ _ _ _ _ h hk he => run_inv h hk he) h

/-- Only `wait()` of `dummy_io_service` goes wrong. -/
theorem fault_wait {s : St} {acts : List (List Instr)} (h : Inv mt s acts) {k : Nat} {x : Instr}
    {r : List Instr} (hk : acts[k]? = some (x :: r)) {b : Bool} (he : exec mt dummy s x b = .fault) :
    dummy = true ∧ ∃ i, x = .wait i := by
  have S := fun i => ws_pos (w := sw i) hk
  have L := fun i => ws_pos (w := lw i) hk
  have R := fun i => ws_pos (w := rw' i) hk
  have E := fun i => ws_pos (w := ew i) hk
  have D := fun i => ws_pos (w := dw i) hk
  have th := h.th
  have bus := h.bus
  have pdo := h.pdo
  have rdo := h.rdo
  have vs := h.vs
  have bco := h.bco
  have fre := h.fre
  have cst := h.cst
  clear hk h
  cases x with
  | start i => specialize S i; specialize th i; simp only [exec] at he; simp [sw] at *; grind
  | leave i => simp only [exec] at he; split at he <;> simp at he
  | loop i => specialize L i; specialize th i; simp only [exec] at he; simp [lw] at *; grind
  | wait i => simp only [exec] at he; split at he <;> simp_all
  | ret i =>
    specialize R i; specialize th i; specialize rdo i; specialize vs i; simp only [exec] at he; simp [rw'] at *; grind
  | emplace i v =>
    specialize E i; specialize bus i; specialize bco i; specialize pdo i; specialize fre i; specialize cst i
    simp only [exec] at he; simp [ew] at *
    cases hp : s.phase i <;> grind
  | setDone i =>
    specialize D i; specialize bus i; specialize bco i; specialize pdo i; specialize fre i; specialize cst i
    simp only [exec] at he; simp [dw] at *
    cases hp : s.phase i <;> grind

end Verif.Run
