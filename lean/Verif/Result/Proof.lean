import Verif.Result.Model
import Verif.Induct
import Verif.Termination

/-! # Invariants of `result<T>` -/

namespace Verif.Result

/-- Case distinction on the outcome of an instruction. -/
macro "exec_cases" he:ident : tactic => `(tactic|
  (simp only [exec] at $he:ident
   (split at $he:ident <;> (repeat' split at $he:ident) <;>
    simp only [Out.ok.injEq, reduceCtorEq] at $he:ident) <;>
   (rcases $he:ident with ⟨he1, he2⟩; subst he1; subst he2)))

macro "env_cases" he:ident : tactic => `(tactic|
  (simp only [env] at $he:ident
   (split at $he:ident <;> (try split at $he:ident) <;>
    simp only [Option.some.injEq, Prod.mk.injEq, reduceCtorEq] at $he:ident) <;>
   (rcases $he:ident with ⟨he1, he2⟩; subst he1; subst he2)))

variable {B : Body}

def lw (i : Id) : Instr → Nat
  | .link j => if j = i then 1 else 0
  | _ => 0
def gw (i : Id) : Instr → Nat
  | .go j => if j = i then 1 else 0
  | _ => 0
def xw (i : Id) : Instr → Nat
  | .exStart j => if j = i then 1 else 0
  | _ => 0
def sw (i : Id) : Instr → Nat
  | .seg j => if j = i then 1 else 0
  | _ => 0
def aw (i : Id) : Instr → Nat
  | .awStart j => if j = i then 1 else 0
  | _ => 0
def ew (i : Id) : Instr → Nat
  | .emplace j _ => if j = i then 1 else 0
  | _ => 0
def hw (i : Id) : Instr → Nat
  | .hres j => if j = i then 1 else 0
  | _ => 0
def fw (i : Id) : Instr → Nat
  | .exFin j => if j = i then 1 else 0
  | _ => 0
def vw (i : Id) : Instr → Nat
  | .setv j => if j = i then 1 else 0
  | _ => 0

def Leaf.num : Leaf → Nat
  | .connected => 0
  | .started => 1
  | .completed => 2

theorem Leaf.num_le (l : Leaf) : l.num ≤ 2 := by cases l <;> simp [Leaf.num]
grind_pattern Leaf.num_le => l.num

theorem Leaf.num_two {l : Leaf} (h : l.num = 2) : l = .completed := by cases l <;> simp [Leaf.num] at h ⊢

/-- Where control is. -/
def tag : Option (Frame S) → Nat
  | none => 0
  | some (.fresh _) => 1
  | some (.running _) => 2
  | some (.waiting _ l _) => 3 + l.num
  | some .returning => 6
  | some .final => 7

structure Inv1 (s : St B) (acts : List (List Instr)) : Prop where
  lg : ∀ i, ws (lw i) acts + ws (gw i) acts = if tag (s.frame i) = 1 then 1 else 0
  sg : ∀ i, ws (sw i) acts = if tag (s.frame i) = 2 then 1 else 0
  as : ∀ i, ws (aw i) acts = if tag (s.frame i) = 3 then 1 else 0
  eh : ∀ i, ws (ew i) acts + ws (hw i) acts = if tag (s.frame i) = 5 then 1 else 0
  fi : ∀ i, ws (fw i) acts = if tag (s.frame i) = 6 then 1 else 0
  vx : ∀ i, ws (vw i) acts = if tag (s.frame i) = 7 ∧ ws (xw i) acts = 0 then 1 else 0
  x1 : ∀ i, ws (xw i) acts ≤ if tag (s.frame i) = 0 then 0 else 1
  cf : ∀ i, ws (xw i) acts = 1 → s.cfp i = if tag (s.frame i) = 7 then .pastSuspend else .indeterminate
  ps : ∀ i, ws (xw i) acts = 0 → 1 ≤ tag (s.frame i) → tag (s.frame i) ≤ 6 → s.cfp i = .pastStart
  co : ∀ i, (1 ≤ ws (gw i) acts ∨ 2 ≤ tag (s.frame i)) → s.cont i = true
  ob : ∀ i, 6 ≤ tag (s.frame i) → s.obj i ≠ none
  re : ∀ i k l, s.frame i = some (.waiting k l none) → ws (hw i) acts = 0
  ph : ∀ i, tag (s.frame i) = 0 ↔ s.phase i ≠ .started
  fr : ∀ i, s.phase i = .fresh → s.cfp i = .indeterminate

set_option maxHeartbeats 2000000 in
theorem run_inv1 {s : St B} {acts : List (List Instr)} (h : Inv1 s acts) {k : Nat} {x : Instr}
    {r p : List Instr} (hk : acts[k]? = some (x :: r)) {b : Bool} {s' : St B}
    (he : exec s x b = .ok s' p) : Inv1 s' (acts.set k (p ++ r)) := by
  have L := fun i => ws_set (lw i) p hk
  have G := fun i => ws_set (gw i) p hk
  have X := fun i => ws_set (xw i) p hk
  have S := fun i => ws_set (sw i) p hk
  have A := fun i => ws_set (aw i) p hk
  have E := fun i => ws_set (ew i) p hk
  have H := fun i => ws_set (hw i) p hk
  have F := fun i => ws_set (fw i) p hk
  have V := fun i => ws_set (vw i) p hk
  have E1 := fun i => ws_pos (w := ew i) hk
  generalize acts.set k (p ++ r) = acts' at *
  obtain ⟨lg, sg, as, eh, fi, vx, x1, cf, ps, co, ob, re, ph, fr⟩ := h
  constructor <;> intro i <;> specialize L i <;> specialize G i <;> specialize X i <;> specialize S i <;>
    specialize A i <;> specialize E i <;> specialize H i <;> specialize F i <;> specialize V i <;> specialize E1 i <;>
    specialize lg i <;> specialize sg i <;> specialize as i <;> specialize eh i <;> specialize fi i <;>
    specialize vx i <;> specialize x1 i <;> specialize cf i <;> specialize ps i <;> specialize co i <;>
    specialize ob i <;> specialize re i <;> specialize ph i <;> specialize fr i <;> clear hk <;>
    exec_cases he <;>
    simp [lw, gw, xw, sw, aw, ew, hw, fw, vw, upd_apply] at * <;> grind (splits := 30) [tag, Leaf.num]

set_option maxHeartbeats 2000000 in
theorem env_inv1 {s : St B} {acts : List (List Instr)} (h : Inv1 s acts) {a : Act B} {s' : St B} {p : List Instr}
    (he : env s acts a = some (s', p)) : Inv1 s' (acts ++ [p]) := by
  obtain ⟨lg, sg, as, eh, fi, vx, x1, cf, ps, co, ob, re, ph, fr⟩ := h
  constructor <;> intro i <;>
    specialize lg i <;> specialize sg i <;> specialize as i <;> specialize eh i <;> specialize fi i <;>
    specialize vx i <;> specialize x1 i <;> specialize cf i <;> specialize ps i <;> specialize co i <;>
    specialize ob i <;> specialize re i <;> specialize ph i <;> specialize fr i <;>
    env_cases he <;>
    simp [lw, gw, xw, sw, aw, ew, hw, fw, vw, upd_apply] at * <;> grind (splits := 30) [tag, Leaf.num]

theorem init_inv1 : Inv1 (B := B) init [] := by
  constructor <;> simp [init, tag]

theorem reach_inv1 {c : Conf (mach B)} (h : Reach (mach B) init c) : Inv1 c.sh c.acts :=
  Reach.inv (M := mach B) (P := Inv1) init_inv1 (fun _ _ _ _ _ h he => env_inv1 h he)
    (fun _ _ _ _ _ _ _ _ h hk he => run_inv1 h hk he) h

theorem not_fault {s : St B} {acts : List (List Instr)} (h : Inv1 s acts) {k : Nat} {x : Instr}
    {r : List Instr} (hk : acts[k]? = some (x :: r)) (b : Bool) : exec s x b ≠ .fault := by
  intro he
  have L := fun i => ws_pos (w := lw i) hk
  have G := fun i => ws_pos (w := gw i) hk
  have X := fun i => ws_pos (w := xw i) hk
  have S := fun i => ws_pos (w := sw i) hk
  have A := fun i => ws_pos (w := aw i) hk
  have E := fun i => ws_pos (w := ew i) hk
  have H := fun i => ws_pos (w := hw i) hk
  have F := fun i => ws_pos (w := fw i) hk
  have V := fun i => ws_pos (w := vw i) hk
  obtain ⟨lg, sg, as, eh, fi, vx, x1, cf, ps, co, ob, re, ph, fr⟩ := h
  clear hk
  obtain ⟨i, hi⟩ : ∃ i, (x = .link i ∨ x = .go i ∨ x = .exStart i ∨ x = .seg i ∨ x = .awStart i ∨
      (∃ v, x = .emplace i v) ∨ x = .hres i ∨ x = .exFin i ∨ x = .setv i) := by
    cases x
    case emplace i v => exact ⟨i, by simp⟩
    all_goals rename_i i; exact ⟨i, by simp⟩
  specialize L i; specialize G i; specialize X i; specialize S i
  specialize A i; specialize E i; specialize H i; specialize F i; specialize V i
  specialize lg i; specialize sg i; specialize as i; specialize eh i; specialize fi i
  specialize vx i; specialize x1 i; specialize cf i; specialize ps i; specialize co i
  specialize ob i; specialize re i; specialize ph i; specialize fr i
  rcases hf : s.frame i with _ | (_ | _ | ⟨_, l, r⟩ | _ | _) <;> rw [hf] at lg sg as eh fi vx x1 cf ps co ob re ph <;>
    (try cases l) <;> (try cases r) <;>
    rcases hi with rfl | rfl | rfl | rfl | rfl | ⟨v, rfl⟩ | rfl | rfl | rfl <;>
    simp only [exec, hf] at he <;>
    simp [lw, gw, xw, sw, aw, ew, hw, fw, vw, tag, Leaf.num] at * <;> grind (splits := 30)

end Verif.Result
