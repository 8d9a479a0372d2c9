import Verif.WithCancel.Model
import Verif.Induct
import Verif.Termination

/-! # Invariants of `with_cancel_cb` -/

namespace Verif.WithCancel

/-- Case distinction on the outcome of an instruction. -/
macro "exec_cases" he:ident : tactic => `(tactic|
  (simp only [exec] at $he:ident
   (split at $he:ident <;> (repeat' split at $he:ident) <;>
    simp only [Out.ok.injEq, reduceCtorEq] at $he:ident) <;>
   (rcases $he:ident with ⟨he1, he2⟩; subst he1; subst he2)))

macro "env_cases" he:ident : tactic => `(tactic|
  (simp only [env] at $he:ident
   (split at $he:ident <;> (try split at $he:ident) <;>
    simp only [Option.some.injEq, Prod.mk.injEq, reduceCtorEq] at $he:ident) <;>
   (rcases $he:ident with ⟨he1, he2⟩; subst he1; subst he2)))

/-- Number of occurrences in a list. -/
def num (i : Id) (l : List Id) : Nat := l.count i

@[simp] theorem num_nil (i : Id) : num i [] = 0 := rfl
@[simp] theorem num_cons (i j : Id) (l : List Id) : num i (j :: l) = num i l + if j = i then 1 else 0 := by
  simp [num, List.count_cons]
@[simp] theorem num_append (i : Id) (l l' : List Id) : num i (l ++ l') = num i l + num i l' := by
  simp [num]

theorem mem_num {l : List Id} {i : Id} : i ∈ l ↔ 0 < num i l := List.count_pos_iff.symm

/-- The side of the inner operation is not done. -/
def aw (i : Id) : Instr → Nat
  | .store j _ | .tryReset j => if j = i then 1 else 0
  | .sub j b => if j = i ∧ b = true then 1 else 0
  | _ => 0

/-- The side of the cancellation handler is not done. -/
def bw (i : Id) : Instr → Nat
  | .set j | .cb j | .cbRet j => if j = i then 1 else 0
  | .sub j b => if j = i ∧ b = false then 1 else 0
  | .drain l => num i l
  | _ => 0

def cw (i : Id) : Instr → Nat
  | .complete j => if j = i then 1 else 0
  | _ => 0

/-- The inner operation is going to be started. -/
def sw (i : Id) : Instr → Nat
  | .set j | .istart j => if j = i then 1 else 0
  | _ => 0

def stw (i : Id) : Instr → Nat
  | .store j _ => if j = i then 1 else 0
  | _ => 0

def running (s : St) (i : Id) : Nat := if s.phase i = .running then 1 else 0

def open_ (s : St) (i : Id) : Nat := if s.phase i = .running ∧ s.inner i ≠ .completed then 1 else 0

/-- The number of sides that are not done. -/
def ta (s : St) (acts : List (List Instr)) (i : Id) : Nat := ws (aw i) acts + open_ s i
def tb (s : St) (acts : List (List Instr)) (i : Id) : Nat := ws (bw i) acts + num i s.pool

structure Inv1 (s : St) (acts : List (List Instr)) : Prop where
  one : ∀ i, ta s acts i ≤ 1 ∧ tb s acts i ≤ 1 ∧ ws (cw i) acts ≤ 1
  off : ∀ i, s.phase i ≠ .running → ta s acts i = 0 ∧ tb s acts i = 0 ∧ ws (cw i) acts = 0
  ful : ∀ i, s.phase i = .running → (ws (cw i) acts = 1 ↔ ta s acts i = 0 ∧ tb s acts i = 0)
  cst : ∀ i, s.phase i = .running → ws (cw i) acts = 0 → s.cst i = ta s acts i + tb s acts i
  sta : ∀ i, ws (sw i) acts = if s.phase i = .running ∧ s.inner i = .idle then 1 else 0
  sto : ∀ i, ws (stw i) acts ≤ 1
  val : ∀ i, s.phase i ≠ .fresh → (s.val i = none ↔ s.inner i ≠ .completed ∨ 0 < ws (stw i) acts)
  fre : ∀ i, s.phase i = .fresh → s.inner i = .idle ∧ s.cst i = 2 ∧ s.val i = none
  ops : ∀ i, s.phase i ≠ .fresh → i ∈ s.ops
  don : ∀ i, s.phase i = .done → s.inner i = .completed ∧ ws (stw i) acts = 0

theorem filter_split (s : St) (i : Id) (e : EvId) : num i (listOf s e) + num i (others s e) = num i s.pool := by
  unfold listOf others num
  induction s.pool with
  | nil => rfl
  | cons o l ih =>
    by_cases hp : s.tok o = some e <;> simp [hp, List.count_cons] <;> simp at ih <;> omega

theorem mem_listOf {s : St} {e : EvId} {o : Id} : o ∈ listOf s e ↔ o ∈ s.pool ∧ s.tok o = some e := by
  simp [listOf]

theorem mem_others {s : St} {e : EvId} {o : Id} : o ∈ others s e ↔ o ∈ s.pool ∧ s.tok o ≠ some e := by
  simp [others]

theorem num_erase {l : List Id} {j : Id} (h : j ∈ l) (i : Id) :
    num i (l.erase j) + (if j = i then 1 else 0) = num i l := by
  have := (List.perm_cons_erase h).count_eq i
  unfold num
  rw [this, List.count_cons]
  simp

theorem stw_le (i : Id) (x : Instr) : stw i x ≤ aw i x := by
  cases x <;> simp [stw, aw]

theorem ws_stw_le (i : Id) (acts : List (List Instr)) : ws (stw i) acts ≤ ws (aw i) acts :=
  ws_mono (stw_le i) acts

set_option maxHeartbeats 2000000 in
theorem run_inv1 {s : St} {acts : List (List Instr)} (h : Inv1 s acts) {k : Nat} {x : Instr}
    {r p : List Instr} (hk : acts[k]? = some (x :: r)) {b : Bool} {s' : St}
    (he : exec s x b = .ok s' p) : Inv1 s' (acts.set k (p ++ r)) := by
  have hfs := fun i e => filter_split s i e
  have hce := fun i j (h : j ∈ s.pool) => num_erase h i
  have A := fun i => ws_set (aw i) p hk
  have B := fun i => ws_set (bw i) p hk
  have C := fun i => ws_set (cw i) p hk
  have S := fun i => ws_set (sw i) p hk
  have T := fun i => ws_set (stw i) p hk
  have L := fun i => ws_stw_le i acts
  generalize acts.set k (p ++ r) = acts' at *
  obtain ⟨one, off, ful, cst, sta, sto, val, fre, ops, don⟩ := h
  constructor <;> intro i <;> specialize A i <;> specialize B i <;> specialize C i <;> specialize S i <;>
    specialize T i <;> specialize L i <;> specialize one i <;> specialize off i <;> specialize ful i <;>
    specialize cst i <;> specialize sta i <;> specialize sto i <;> specialize val i <;> specialize fre i <;>
    specialize ops i <;> specialize don i <;> specialize hfs i <;> specialize hce i <;> clear hk <;>
    exec_cases he <;>
    simp [ta, tb, open_, aw, bw, cw, sw, stw, upd_apply] at * <;> grind (splits := 30)

set_option maxHeartbeats 2000000 in
theorem env_inv1 {s : St} {acts : List (List Instr)} (h : Inv1 s acts) {a : Act} {s' : St} {p : List Instr}
    (he : env s acts a = some (s', p)) : Inv1 s' (acts ++ [p]) := by
  have L := fun i => ws_stw_le i acts
  obtain ⟨one, off, ful, cst, sta, sto, val, fre, ops, don⟩ := h
  have hsr : ∀ i, s.inner i = .started → s.phase i = .running := by
    intro i hi
    have h1 := fre i
    have h2 := don i
    cases hp : s.phase i <;> simp_all
  constructor <;> intro i <;> specialize L i <;> specialize one i <;> specialize off i <;> specialize ful i <;>
    specialize cst i <;> specialize sta i <;> specialize sto i <;> specialize val i <;> specialize fre i <;>
    specialize ops i <;> specialize don i <;>
    env_cases he <;>
    simp [ta, tb, open_, aw, bw, cw, sw, stw, upd_apply] at * <;> grind (splits := 20)

theorem init_inv1 : Inv1 init [] := by
  constructor <;> simp [init, ta, tb, open_]

theorem reach_inv1 {c : Conf mach} (h : Reach mach init c) : Inv1 c.sh c.acts :=
  Reach.inv (P := Inv1) init_inv1 (fun _ _ _ _ _ h he => env_inv1 h he)
    (fun _ _ _ _ _ _ _ _ h hk he => run_inv1 h hk he) h

end Verif.WithCancel
