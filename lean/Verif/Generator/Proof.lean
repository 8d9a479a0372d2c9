import Verif.Generator.Model
import Verif.Induct
import Verif.Termination

/-! # Invariants of `generator<T>` -/

namespace Verif.Generator

/-- Case distinction on the outcome of an instruction. -/
macro "exec_cases" he:ident : tactic => `(tactic|
  (simp only [exec] at $he:ident
   (split at $he:ident <;> (repeat' split at $he:ident) <;>
    simp only [Out.ok.injEq, reduceCtorEq] at $he:ident) <;>
   (rcases $he:ident with ⟨he1, he2⟩; subst he1; subst he2)))

macro "env_cases" he:ident : tactic => `(tactic|
  (simp only [env] at $he:ident
   (split at $he:ident <;> (try split at $he:ident) <;>
    simp only [Option.some.injEq, Prod.mk.injEq, reduceCtorEq] at $he:ident) <;>
   (rcases $he:ident with ⟨he1, he2⟩; subst he1; subst he2)))

variable {B : Body}

def lw (i : Id) : Instr → Nat
  | .nlink j _ => if j = i then 1 else 0
  | _ => 0
def rw (i : Id) : Instr → Nat
  | .nres j _ => if j = i then 1 else 0
  | _ => 0
def sw (i : Id) : Instr → Nat
  | .seg j => if j = i then 1 else 0
  | _ => 0
def aw (i : Id) : Instr → Nat
  | .awStart j => if j = i then 1 else 0
  | _ => 0
def ew (i : Id) : Instr → Nat
  | .emplace j _ => if j = i then 1 else 0
  | _ => 0
def hw (i : Id) : Instr → Nat
  | .hres j => if j = i then 1 else 0
  | _ => 0
def yw (i : Id) : Instr → Nat
  | .ysusp j => if j = i then 1 else 0
  | _ => 0
def cw (i : Id) : Instr → Nat
  | .comp j _ => if j = i then 1 else 0
  | _ => 0
def vw (i : Id) : Instr → Nat
  | .setv j _ _ => if j = i then 1 else 0
  | _ => 0

def Leaf.num : Leaf → Nat
  | .connected => 0
  | .started => 1
  | .completed => 2

theorem Leaf.num_le (l : Leaf) : l.num ≤ 2 := by cases l <;> simp [Leaf.num]
grind_pattern Leaf.num_le => l.num

theorem Leaf.num_two {l : Leaf} (h : l.num = 2) : l = .completed := by cases l <;> simp [Leaf.num] at h ⊢

/-- Where control is. -/
def tag : Option (Frame S) → Nat
  | none => 0
  | some (.suspended _) => 1
  | some (.running _) => 2
  | some (.waiting _ l _) => 3 + l.num
  | some .final => 6

theorem tag_zero {f : Option (Frame S)} : tag f = 0 ↔ f = none := by
  rcases f with _ | (_ | _ | ⟨_, l, r⟩ | _) <;> simp [tag]

theorem tag_le (f : Option (Frame S)) : tag f ≤ 6 := by
  rcases f with _ | (_ | _ | ⟨_, l, r⟩ | _) <;> simp [tag]
  have := l.num_le; omega

/-- The operation that an instruction works on. -/
def Instr.uses : Instr → Option (Id × Id)
  | .nlink g n | .nres g n | .comp g n | .setv g n _ => some (g, n)
  | _ => none

structure Inv1 (s : St B) (acts : List (List Instr)) : Prop where
  us : ∀ x g n, Pending acts x → x.uses = some (g, n) → s.outst g = some n
  op : ∀ g n, s.outst g = some n → s.op n = .started ∧ 1 ≤ tag (s.frame g)
  inj : ∀ g g' n, s.outst g = some n → s.outst g' = some n → g = g'
  sg : ∀ i, ws (sw i) acts = if tag (s.frame i) = 2 then 1 else 0
  as : ∀ i, ws (aw i) acts = if tag (s.frame i) = 3 then 1 else 0
  eh : ∀ i, ws (ew i) acts + ws (hw i) acts = if tag (s.frame i) = 5 then 1 else 0
  ot : ∀ i, 2 ≤ tag (s.frame i) → tag (s.frame i) ≤ 5 → s.outst i ≠ none
  su : ∀ i, ws (lw i) acts + ws (rw i) acts + ws (yw i) acts + ws (cw i) acts + ws (vw i) acts =
    if (tag (s.frame i) = 1 ∨ tag (s.frame i) = 6) ∧ s.outst i ≠ none then 1 else 0
  fi : ∀ i, tag (s.frame i) = 6 → ws (lw i) acts + ws (rw i) acts = 0
  co : ∀ i, s.cont i = if ws (lw i) acts + ws (cw i) acts + ws (vw i) acts = 0 then s.outst i else none
  re : ∀ i k l, s.frame i = some (.waiting k l none) → ws (hw i) acts = 0
  ma : ∀ i, s.made i = false → tag (s.frame i) = 0 ∧ s.ended i = false
  cu : ∀ i, s.cur i ≠ none → tag (s.frame i) = 1 ∧ 1 ≤ ws (yw i) acts + ws (cw i) acts
  sv : ∀ g n o, Pending acts (.setv g n o) → tag (s.frame g) = 6 → o = none
  en : ∀ i, tag (s.frame i) = 6 → s.outst i = none → s.ended i = true
  mo : ∀ i, s.made i = false → s.outst i = none

set_option maxHeartbeats 2000000 in
theorem run_inv1 {s : St B} {acts : List (List Instr)} (h : Inv1 s acts) {k : Nat} {x : Instr}
    {r p : List Instr} (hk : acts[k]? = some (x :: r)) {b : Bool} {s' : St B}
    (he : exec s x b = .ok s' p) : Inv1 s' (acts.set k (p ++ r)) := by
  have L := fun i => ws_set (lw i) p hk
  have R := fun i => ws_set (rw i) p hk
  have S := fun i => ws_set (sw i) p hk
  have A := fun i => ws_set (aw i) p hk
  have E := fun i => ws_set (ew i) p hk
  have H := fun i => ws_set (hw i) p hk
  have Y := fun i => ws_set (yw i) p hk
  have C := fun i => ws_set (cw i) p hk
  have V := fun i => ws_set (vw i) p hk
  have hx := fun g n hu => h.us x g n (pending_top hk) hu
  have hp := fun y (hy : Pending (acts.set k (p ++ r)) y) => pending_set2 hk hy
  have hsu := fun i => ws_add (w := fun x => vw i x + (lw i x + rw i x + yw i x + cw i x))
    (w' := vw i) (w'' := fun x => lw i x + rw i x + yw i x + cw i x) (fun _ => rfl) acts
  have hsu2 := fun i => ws_add (w := fun x => lw i x + rw i x + yw i x + cw i x)
    (w' := lw i) (w'' := fun x => rw i x + yw i x + cw i x) (fun _ => by omega) acts
  have hsu3 := fun i => ws_add (w := fun x => rw i x + yw i x + cw i x)
    (w' := rw i) (w'' := fun x => yw i x + cw i x) (fun _ => by omega) acts
  have hsu4 := fun i => ws_add (w := fun x => yw i x + cw i x)
    (w' := yw i) (w'' := cw i) (fun _ => rfl) acts
  generalize acts.set k (p ++ r) = acts' at *
  obtain ⟨us, op, inj, sg, as, eh, ot, su, fi, co, re, ma, cu, sv, en, mo⟩ := h
  constructor
  case us =>
    intro y g n hy hu
    have h1 := hp y hy
    have h2 := us y g n
    specialize hx g n
    specialize su g; specialize hsu g; specialize hsu2 g; specialize hsu3 g; specialize hsu4 g
    have h3 : (fun x => vw g x + (lw g x + rw g x + yw g x + cw g x)) x +
      (fun x => vw g x + (lw g x + rw g x + yw g x + cw g x)) y ≤ 1 ∨ y ∈ p := by
      rcases h1 with h1 | ⟨_, h1⟩
      · exact .inr h1
      · left
        have := h1 (fun x => vw g x + (lw g x + rw g x + yw g x + cw g x))
        have h0 : ws (fun x => vw g x + (lw g x + rw g x + yw g x + cw g x)) acts ≤ 1 := by
          split at su <;> omega
        exact Nat.le_trans this h0
    clear hsu hsu2 hsu3 hsu4 hp L R S A E H Y C V hk
    exec_cases he <;> cases y <;> simp [Instr.uses, upd_apply, vw, lw, rw, yw, cw] at * <;> grind
  case op =>
    intro g n
    specialize op g n
    have hi := fun g' => inj g g' n
    exec_cases he <;> simp [Instr.uses, upd_apply] at * <;> grind [tag]
  case inj =>
    intro g g' n
    specialize inj g g' n
    exec_cases he <;> simp [upd_apply] at * <;> grind
  case sv =>
    intro g n o hy
    have h1 := hp _ hy
    have h2 := sv g n o
    specialize su g; specialize cu g; specialize sg g
    have h3 := ws_pos (w := sw g) hk
    have h5 := ws_pos (w := cw g) hk
    have h4 := fun (h : Pending acts (.setv g n o)) => h.le (vw g)
    clear hsu hsu2 hsu3 hsu4 hp L R S A E H Y C V hk us op inj as eh
    exec_cases he <;> simp [upd_apply, sw, cw, vw] at * <;> grind [tag, Leaf.num]
  case en =>
    intro i
    specialize en i
    have hs := fun n o => sv i n o
    have hp := pending_top hk
    specialize ot i; specialize sg i
    have h3 := ws_pos (w := sw i) hk
    clear hsu hsu2 hsu3 hsu4 L R S A E H Y C V hk us op inj as eh
    exec_cases he <;> simp [upd_apply, sw] at * <;> grind [tag]
  all_goals
    intro i
    specialize L i; specialize R i; specialize S i; specialize A i; specialize E i; specialize H i; specialize Y i
    specialize C i; specialize V i; specialize sg i; specialize as i; specialize eh i; specialize ot i
    specialize su i; specialize fi i; specialize co i; specialize re i; specialize ma i; specialize op i
    specialize cu i; specialize en i; specialize mo i; have tz := tag_zero (f := s.frame i)
    clear hk hsu hsu2 hsu3 hsu4 hp us inj
    exec_cases he <;>
    simp [lw, rw, sw, aw, ew, hw, yw, cw, vw, upd_apply, Instr.uses] at * <;> grind (splits := 30) [tag, Leaf.num]

set_option maxHeartbeats 2000000 in
theorem env_inv1 {s : St B} {acts : List (List Instr)} (h : Inv1 s acts) {a : Act B} {s' : St B} {p : List Instr}
    (he : env s acts a = some (s', p)) : Inv1 s' (acts ++ [p]) := by
  obtain ⟨us, op, inj, sg, as, eh, ot, su, fi, co, re, ma, cu, sv, en, mo⟩ := h
  constructor
  case us =>
    intro y g n hy hu
    rw [pending_app] at hy
    have h2 := us y g n
    env_cases he <;> cases y <;> simp [Instr.uses, upd_apply] at * <;> grind
  case op =>
    intro g n
    specialize op g n
    have tz := tag_zero (f := s.frame g)
    env_cases he <;> simp [upd_apply] at * <;> grind [tag]
  case sv =>
    intro g n o hy
    rw [pending_app] at hy
    have h2 := sv g n o
    have h3 := fun (h : Pending acts (.setv g n o)) => h.le (vw g)
    specialize su g
    env_cases he <;> simp [upd_apply, vw] at * <;> grind [tag, Leaf.num]
  case inj =>
    intro g g' n
    have op1 := op g n
    have op2 := op g' n
    specialize inj g g' n
    env_cases he <;> simp [upd_apply] at * <;> grind
  all_goals
    intro i
    specialize sg i; specialize as i; specialize eh i; specialize ot i
    specialize su i; specialize fi i; specialize co i; specialize re i; specialize ma i; specialize op i
    specialize cu i; specialize en i; specialize mo i; have tz := tag_zero (f := s.frame i)
    have tl := tag_le (s.frame i)
    clear us inj
    env_cases he <;>
    simp [lw, rw, sw, aw, ew, hw, yw, cw, vw, upd_apply] at * <;> grind (splits := 30) [tag, Leaf.num]

theorem init_inv1 : Inv1 (B := B) init [] := by
  constructor <;> simp [init, tag, not_pending_nil]

theorem reach_inv1 {c : Conf (mach B)} (h : Reach (mach B) init c) : Inv1 c.sh c.acts :=
  Reach.inv (M := mach B) (P := Inv1) init_inv1 (fun _ _ _ _ _ h he => env_inv1 h he)
    (fun _ _ _ _ _ _ _ _ h hk he => run_inv1 h hk he) h

/-- The generator that an instruction works on. -/
def Instr.gen : Instr → Id
  | .nlink g _ | .nres g _ | .seg g | .awStart g | .emplace g _ | .hres g | .ysusp g | .comp g _ | .setv g _ _ => g

set_option maxHeartbeats 2000000 in
theorem not_fault {s : St B} {acts : List (List Instr)} (h : Inv1 s acts) {k : Nat} {x : Instr}
    {r : List Instr} (hk : acts[k]? = some (x :: r)) (b : Bool) : exec s x b ≠ .fault := by
  intro he
  obtain ⟨i, hi⟩ : ∃ i, x.gen = i := ⟨_, rfl⟩
  have L := ws_pos (w := lw i) hk
  have R := ws_pos (w := rw i) hk
  have S := ws_pos (w := sw i) hk
  have A := ws_pos (w := aw i) hk
  have E := ws_pos (w := ew i) hk
  have H := ws_pos (w := hw i) hk
  have Y := ws_pos (w := yw i) hk
  have C := ws_pos (w := cw i) hk
  have V := ws_pos (w := vw i) hk
  obtain ⟨us, op, inj, sg, as, eh, ot, su, fi, co, re, ma, cu, sv, en, mo⟩ := h
  have hx := fun g n hu => us x g n (pending_top hk) hu
  specialize sg i; specialize as i; specialize eh i; specialize ot i
  specialize su i; specialize fi i; specialize co i; specialize re i; specialize ma i
  have op1 := op i
  clear hk us inj op
  rcases hf : s.frame i with _ | (_ | _ | ⟨_, l, r⟩ | _) <;> rw [hf] at sg as eh ot su fi re op1 <;>
    (try cases l) <;> (try cases r) <;>
    cases x <;> simp only [Instr.gen] at hi <;> subst hi <;>
    simp only [exec, hf] at he <;>
    simp [lw, rw, sw, aw, ew, hw, yw, cw, vw, tag, Leaf.num, Instr.uses] at * <;> grind (splits := 30)

end Verif.Generator
