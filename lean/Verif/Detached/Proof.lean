import Verif.Detached.Model
import Verif.Induct
import Verif.Termination

/-! # Invariants of `detached` coroutines -/

namespace Verif.Detached

open Verif.Result (Body Cmd Leaf Runs Awaits Returns)

/-- Case distinction on the outcome of an instruction. -/
macro "exec_cases" he:ident : tactic => `(tactic|
  (simp only [exec] at $he:ident
   (split at $he:ident <;> (repeat' split at $he:ident) <;>
    simp only [Out.ok.injEq, reduceCtorEq] at $he:ident) <;>
   (rcases $he:ident with ⟨he1, he2⟩; subst he1; subst he2)))

macro "env_cases" he:ident : tactic => `(tactic|
  (simp only [env] at $he:ident
   (split at $he:ident <;> (try split at $he:ident) <;>
    simp only [Option.some.injEq, Prod.mk.injEq, reduceCtorEq] at $he:ident) <;>
   (rcases $he:ident with ⟨he1, he2⟩; subst he1; subst he2)))

variable {B : Body}

def sw (i : Id) : Instr → Nat
  | .seg j => if j = i then 1 else 0
  | _ => 0
def aw (i : Id) : Instr → Nat
  | .awStart j => if j = i then 1 else 0
  | _ => 0
def ew (i : Id) : Instr → Nat
  | .emplace j _ => if j = i then 1 else 0
  | _ => 0
def hw (i : Id) : Instr → Nat
  | .hres j => if j = i then 1 else 0
  | _ => 0
def fw (i : Id) : Instr → Nat
  | .fin j => if j = i then 1 else 0
  | _ => 0
def bw (i : Id) : Instr → Nat
  | .back j => if j = i then 1 else 0
  | _ => 0

def num : Leaf → Nat
  | .connected => 0
  | .started => 1
  | .completed => 2

theorem num_le (l : Leaf) : num l ≤ 2 := by cases l <;> simp [num]
grind_pattern num_le => num l

theorem num_two {l : Leaf} (h : num l = 2) : l = .completed := by cases l <;> simp [num] at h ⊢

/-- Where control is. -/
def tag : Option (Frame S) → Nat
  | none => 0
  | some (.running _) => 2
  | some (.waiting _ l _) => 3 + num l
  | some .returning => 6

structure Inv1 (s : St B) (acts : List (List Instr)) : Prop where
  sg : ∀ i, ws (sw i) acts = if tag (s.frame i) = 2 then 1 else 0
  as : ∀ i, ws (aw i) acts = if tag (s.frame i) = 3 then 1 else 0
  eh : ∀ i, ws (ew i) acts + ws (hw i) acts = if tag (s.frame i) = 5 then 1 else 0
  fi : ∀ i, ws (fw i) acts = if tag (s.frame i) = 6 then 1 else 0
  re : ∀ i k l, s.frame i = some (.waiting k l none) → ws (hw i) acts = 0
  ph : ∀ i, tag (s.frame i) = 0 ↔ s.phase i ≠ .alive

set_option maxHeartbeats 2000000 in
theorem run_inv1 {s : St B} {acts : List (List Instr)} (h : Inv1 s acts) {k : Nat} {x : Instr}
    {r p : List Instr} (hk : acts[k]? = some (x :: r)) {b : Bool} {s' : St B}
    (he : exec s x b = .ok s' p) : Inv1 s' (acts.set k (p ++ r)) := by
  have S := fun i => ws_set (sw i) p hk
  have A := fun i => ws_set (aw i) p hk
  have E := fun i => ws_set (ew i) p hk
  have H := fun i => ws_set (hw i) p hk
  have F := fun i => ws_set (fw i) p hk
  have E1 := fun i => ws_pos (w := ew i) hk
  generalize acts.set k (p ++ r) = acts' at *
  obtain ⟨sg, as, eh, fi, re, ph⟩ := h
  constructor <;> intro i <;> specialize S i <;>
    specialize A i <;> specialize E i <;> specialize H i <;> specialize F i <;> specialize E1 i <;>
    specialize sg i <;> specialize as i <;> specialize eh i <;> specialize fi i <;>
    specialize re i <;> specialize ph i <;> clear hk <;>
    exec_cases he <;>
    simp [sw, aw, ew, hw, fw, upd_apply] at * <;> grind (splits := 30) [tag, num]

set_option maxHeartbeats 2000000 in
theorem env_inv1 {s : St B} {acts : List (List Instr)} (h : Inv1 s acts) {a : Act B} {s' : St B} {p : List Instr}
    (he : env s acts a = some (s', p)) : Inv1 s' (acts ++ [p]) := by
  obtain ⟨sg, as, eh, fi, re, ph⟩ := h
  constructor <;> intro i <;>
    specialize sg i <;> specialize as i <;> specialize eh i <;> specialize fi i <;>
    specialize re i <;> specialize ph i <;>
    env_cases he <;>
    simp [sw, aw, ew, hw, fw, upd_apply] at * <;> grind (splits := 30) [tag, num]

theorem init_inv1 : Inv1 (B := B) init [] := by
  constructor <;> simp [init, tag]

theorem reach_inv1 {c : Conf (mach B)} (h : Reach (mach B) init c) : Inv1 c.sh c.acts :=
  Reach.inv (M := mach B) (P := Inv1) init_inv1 (fun _ _ _ _ _ h he => env_inv1 h he)
    (fun _ _ _ _ _ _ _ _ h hk he => run_inv1 h hk he) h

theorem not_fault {s : St B} {acts : List (List Instr)} (h : Inv1 s acts) {k : Nat} {x : Instr}
    {r : List Instr} (hk : acts[k]? = some (x :: r)) (b : Bool) : exec s x b ≠ .fault := by
  intro he
  have S := fun i => ws_pos (w := sw i) hk
  have A := fun i => ws_pos (w := aw i) hk
  have E := fun i => ws_pos (w := ew i) hk
  have H := fun i => ws_pos (w := hw i) hk
  have F := fun i => ws_pos (w := fw i) hk
  obtain ⟨sg, as, eh, fi, re, ph⟩ := h
  clear hk
  have Y : ∀ i, tag (s.frame i) = 3 → ∃ k r, s.frame i = some (.waiting k .connected r) := fun i => by
    rcases s.frame i with _ | (_ | ⟨_, l, r⟩ | _) <;> simp [tag]
    cases l <;> simp [num]
  have Z : ∀ i, tag (s.frame i) = 5 → ∃ k r, s.frame i = some (.waiting k .completed r) := fun i => by
    rcases s.frame i with _ | (_ | ⟨_, l, r⟩ | _) <;> simp [tag]
    cases l <;> simp [num]
  have R : ∀ i, tag (s.frame i) = 2 → ∃ b, s.frame i = some (.running b) := fun i => by
    rcases s.frame i with _ | (_ | ⟨_, l, r⟩ | _) <;> simp [tag] <;> cases l <;> simp [num]
  have Q : ∀ i, tag (s.frame i) = 6 → s.frame i = some .returning := fun i => by
    rcases s.frame i with _ | (_ | ⟨_, l, r⟩ | _) <;> simp [tag] <;> cases l <;> simp [num]
  cases x with
  | seg i =>
    obtain ⟨b', h⟩ := R i (by have := S i; have := sg i; simp [sw] at *; grind)
    simp only [exec, h] at he
    split at he <;> simp at he
  | awStart i =>
    obtain ⟨k', r', h⟩ := Y i (by have := A i; have := as i; simp [aw] at *; grind)
    simp [exec, h] at he
  | emplace i v =>
    obtain ⟨k', r', h⟩ := Z i (by have := E i; have := eh i; simp [ew] at *; grind)
    simp [exec, h] at he
  | hres i =>
    have h0 := H i
    obtain ⟨k', r', h⟩ := Z i (by have := eh i; simp [hw] at *; grind)
    cases r' with
    | none => have := re i _ _ h; simp [hw] at *; omega
    | some v => simp [exec, h] at he
  | fin i =>
    have h := Q i (by have := F i; have := fi i; simp [fw] at *; grind)
    simp [exec, h] at he
  | back i => simp [exec] at he

theorem no_fault {c : Conf (mach B)} (h : Reach (mach B) init c) : c.bad = false :=
  Reach.no_fault (P := Inv1) (fun _ h => reach_inv1 h) (fun _ _ _ _ _ b h hk => not_fault h hk b) h

/-! ## The history -/

theorem resumed_snoc {S : Type} (i : Id) (log : List (Ev S)) (e : Ev S) :
    resumed i (log ++ [e]) = resumed i log ++ match e with
      | .resume j v => if j = i then [v] else []
      | _ => [] := by
  cases e <;> simp [resumed, List.filterMap_append]
  split <;> simp [*]

theorem completed_snoc {S : Type} (i : Id) (log : List (Ev S)) (e : Ev S) :
    completed i (log ++ [e]) = completed i log ++ match e with
      | .complete j v => if j = i then [v] else []
      | _ => [] := by
  cases e <;> simp [completed, List.filterMap_append]
  split <;> simp [*]

theorem awaited_snoc {S : Type} (i : Id) (log : List (Ev S)) (e : Ev S) :
    awaited i (log ++ [e]) = awaited i log ++ match e with
      | .await j v => if j = i then [v] else []
      | _ => [] := by
  cases e <;> simp [awaited, List.filterMap_append]
  split <;> simp [*]

theorem resumed_nil {S : Type} {i : Id} {log : List (Ev S)} (h : ∀ e ∈ log, e.op ≠ i) : resumed i log = [] := by
  unfold resumed
  rw [List.filterMap_eq_nil_iff]
  intro e he
  have := h e he
  cases e <;> simp_all [Ev.op]

/-- The body is where the history says. -/
def At (B : Body) (s0 : B.S) (vs : List Nat) : Option (Frame B.S) → Prop
  | none => True
  | some (.running b) => Runs B s0 vs b
  | some (.waiting k _ _) => ∃ t a, Runs B s0 vs t ∧ B.next t = .await a k
  | some .returning => ∃ t v, Runs B s0 vs t ∧ B.next t = .ret v

structure Inv2 (s : St B) (acts : List (List Instr)) : Prop where
  body : ∀ i s0, .call i s0 ∈ s.log → At B s0 (resumed i s.log) (s.frame i)
  evs : ∀ e ∈ s.log, s.phase e.op ≠ .fresh
  sta : ∀ i, s.phase i ≠ .fresh → ∃ s0, .call i s0 ∈ s.log
  nret : ∀ i, .ret i ∈ s.log ↔ tag (s.frame i) = 6 ∨ s.phase i = .freed
  nfree : ∀ i, .free i ∈ s.log ↔ s.phase i = .freed
  cr : ∀ i, tag (s.frame i) ≠ 5 → completed i s.log = resumed i s.log
  ce : ∀ i v, Pending acts (.emplace i v) → completed i s.log = resumed i s.log ++ [v]
  cw : ∀ i k l v, s.frame i = some (.waiting k l (some v)) → l = .completed ∧ completed i s.log = resumed i s.log ++ [v]
  aw : ∀ i, (awaited i s.log).length = (completed i s.log).length + if tag (s.frame i) = 3 ∨ tag (s.frame i) = 4 then 1 else 0
  bk : ∀ i, s.phase i ≠ .fresh → .back i ∉ s.log → ws (bw i) acts = 1
  nb : ∀ i, s.phase i = .fresh ∨ .back i ∈ s.log → ws (bw i) acts = 0
  ok : Hist (Ok B) s.log

theorem run_inv2 {s : St B} {acts : List (List Instr)} (h1 : Inv1 s acts) (h : Inv2 s acts) {k : Nat} {x : Instr}
    {r p : List Instr} (hk : acts[k]? = some (x :: r)) {b : Bool} {s' : St B}
    (he : exec s x b = .ok s' p) : Inv2 s' (acts.set k (p ++ r)) := by
  have ph := h1.ph
  have E := fun i => ws_pos (w := ew i) hk
  have H := fun i => ws_pos (w := hw i) hk
  have W := fun i => ws_pos (w := bw i) hk
  have W2 := fun i => ws_set (bw i) p hk
  have eh := h1.eh
  constructor
  case body =>
    intro i s0
    have h2 := h.body i s0
    clear hk
    exec_cases he <;> simp [At, resumed_snoc, upd_apply] at * <;> grind [At, Runs, Returns]
  case evs =>
    have h2 := h.evs
    have nb := h.nb
    clear hk
    exec_cases he <;> simp [Ev.op, upd_apply, bw] at * <;> grind [Ev.op, tag]
  case sta =>
    have h2 := h.sta
    clear hk
    exec_cases he <;> simp [upd_apply] at * <;> grind [tag]
  case nret =>
    intro i; have h2 := h.nret i
    have ph := ph i
    clear hk
    exec_cases he <;> simp [upd_apply] at * <;> grind [tag, num]
  case nfree =>
    intro i; have h2 := h.nfree i
    clear hk
    exec_cases he <;> simp [upd_apply] at * <;> grind
  case cr =>
    intro i; have h2 := h.cr i; have h3 := h.cw i
    have E := E i; have eh := eh i; have H := H i
    clear hk
    exec_cases he <;> simp [upd_apply, resumed_snoc, completed_snoc, ew, hw] at * <;> grind [tag, num]
  case ce =>
    intro i v hy
    rcases pending_set2 hk hy with h5 | ⟨h5, h6⟩
    · clear hy h hk
      exec_cases he <;> simp at h5
    · have h2 := h.ce i v h5
      have h7 := h6 (ew i)
      have h8 := h6 (fun x => ew i x + hw i x)
      have h9 := ws_add (w := fun x => ew i x + hw i x) (w' := ew i) (w'' := hw i) (fun _ => rfl) acts
      have eh := eh i
      clear hy h hk h5 h6
      exec_cases he <;> simp [upd_apply, resumed_snoc, completed_snoc, ew, hw] at * <;> grind
  case cw =>
    intro i; have h2 := h.cw i
    have h3 := h.ce i
    have hp := pending_top hk
    have E := E i; have eh := eh i
    clear hk
    exec_cases he <;> simp [upd_apply, resumed_snoc, completed_snoc, ew] at * <;> grind [tag, num, num_two]
  case aw =>
    intro i; have h2 := h.aw i; have h3 := h.cr i
    have E := E i; have eh := eh i; have H := H i
    clear hk
    exec_cases he <;> simp [upd_apply, awaited_snoc, completed_snoc, ew, hw] at * <;> grind [tag, num]
  case bk =>
    intro i; have h2 := h.bk i; have h3 := h.nb i; have W := W i; have W2 := W2 i
    generalize acts.set k (p ++ r) = acts' at *
    clear hk
    exec_cases he <;> simp [upd_apply, bw] at * <;> grind [tag]
  case nb =>
    intro i; have h2 := h.bk i; have h3 := h.nb i; have W := W i; have W2 := W2 i
    have h4 : ws (bw i) acts ≤ 1 := by
      by_cases h5 : s.phase i = .fresh ∨ .back i ∈ s.log
      · rw [h3 h5]; omega
      · rw [not_or] at h5; rw [h2 h5.1 h5.2]; omega
    generalize acts.set k (p ++ r) = acts' at *
    clear hk
    exec_cases he <;> simp [upd_apply, bw] at * <;> grind [tag]
  case ok =>
    obtain ⟨body, evs, sta, nret, nfree, cr, ce, cw, aw, bk, nb, ok⟩ := h
    clear hk
    exec_cases he <;> (try exact ok) <;> rw [Hist.snoc] <;> refine ⟨ok, ?_⟩ <;> simp [Ok, Awaits, Returns, hw, bw] at *
    · rename_i i _ b hb _ a k hn
      have hph : s.phase i = .alive := by grind [tag]
      specialize sta i
      simp [hph] at sta
      obtain ⟨s0, h0⟩ := sta
      have h2 := body i s0 h0
      rw [hb] at h2
      simp only [At] at h2
      exact ⟨s0, h0, ⟨b, h2, k, hn⟩, by grind [tag], by grind [tag], by grind [tag]⟩
    · rename_i i _ b hb _ v hn
      have hph : s.phase i = .alive := by grind [tag]
      specialize sta i
      simp [hph] at sta
      obtain ⟨s0, h0⟩ := sta
      have h2 := body i s0 h0
      rw [hb] at h2
      simp only [At] at h2
      exact ⟨⟨s0, h0, v, b, h2, hn⟩, by grind [tag], by grind [tag]⟩
    · grind
    · rename_i i _ hf
      have hph : s.phase i = .alive := by grind [tag]
      specialize sta i
      simp [hph] at sta
      obtain ⟨s0, h0⟩ := sta
      have h2 := body i s0 h0
      rw [hf] at h2
      obtain ⟨t, v, h3, h4⟩ := h2
      rw [cr i (by rw [hf]; simp [tag])]
      exact ⟨by grind [tag], s0, h0, v, t, h3, h4⟩
    · rename_i i
      have h2 := W i
      simp at h2
      have h3 : ¬ (s.phase i = .fresh ∨ .back i ∈ s.log) := fun h4 => by have := nb i h4; omega
      rw [not_or] at h3
      exact ⟨sta i h3.1, h3.2⟩

theorem env_inv2 {s : St B} {acts : List (List Instr)} (h1 : Inv1 s acts) (h : Inv2 s acts) {a : Act B} {s' : St B}
    {p : List Instr} (he : env s acts a = some (s', p)) : Inv2 s' (acts ++ [p]) := by
  have ph := h1.ph
  have eh := h1.eh
  constructor
  case body =>
    intro i s0
    have h2 := h.body i s0
    have h3 : .call i s0 ∈ s.log → s.phase i ≠ .fresh := h.evs (.call i s0)
    have h4 := fun hp => resumed_nil (i := i) (log := s.log) (fun e he hi => h.evs e he (hi ▸ hp))
    env_cases he <;> simp [At, resumed_snoc, upd_apply] at * <;> grind [At, Runs, Returns]
  case evs =>
    have h2 := h.evs
    env_cases he <;> simp [Ev.op, upd_apply] at * <;> grind [Ev.op, tag]
  case sta =>
    have h2 := h.sta
    env_cases he <;> simp [upd_apply] at * <;> grind
  case nret =>
    intro i; have h2 := h.nret i
    have ph := ph i
    env_cases he <;> simp [upd_apply] at * <;> grind [tag, num]
  case nfree =>
    intro i; have h2 := h.nfree i
    env_cases he <;> simp [upd_apply] at * <;> grind
  case cr =>
    intro i; have h2 := h.cr i
    env_cases he <;> simp [upd_apply, resumed_snoc, completed_snoc] at * <;> grind [tag, num]
  case ce =>
    intro i v hy
    rw [pending_app] at hy
    have h2 := h.ce i v
    have h3 := h.cr i
    have h4 := fun (h : Pending acts (.emplace i v)) => h.le (ew i)
    have eh := eh i
    env_cases he <;> simp [upd_apply, resumed_snoc, completed_snoc, ew] at * <;> grind [tag, num]
  case cw =>
    intro i; have h2 := h.cw i
    env_cases he <;> simp [upd_apply, resumed_snoc, completed_snoc] at * <;> grind [tag, num]
  case aw =>
    intro i; have h2 := h.aw i; have h3 := h.cr i
    env_cases he <;> simp [upd_apply, awaited_snoc, completed_snoc] at * <;> grind [tag, num]
  case bk =>
    intro i; have h2 := h.bk i; have h4 := h.nb i
    have h3 : .back i ∈ s.log → s.phase i ≠ .fresh := h.evs (.back i)
    env_cases he <;> simp [upd_apply, bw] at * <;> grind [tag]
  case nb =>
    intro i; have h2 := h.bk i; have h4 := h.nb i
    have h3 : .back i ∈ s.log → s.phase i ≠ .fresh := h.evs (.back i)
    env_cases he <;> simp [upd_apply, bw] at * <;> grind [tag]
  case ok =>
    obtain ⟨body, evs, sta, nret, nfree, cr, ce, cw, aw, bk, nb, ok⟩ := h
    env_cases he <;> rw [Hist.snoc] <;> refine ⟨ok, ?_⟩ <;> simp [Ok] at *
    · grind
    · grind [tag, num]

theorem init_inv2 : Inv2 (B := B) init [] := by
  constructor <;> simp [init, resumed, completed, awaited, tag, not_pending_nil, Hist.nil]

theorem reach_inv2 {c : Conf (mach B)} (h : Reach (mach B) init c) : Inv2 c.sh c.acts :=
  Reach.inv_with (M := mach B) (P := Inv1) (Q := Inv2) (fun _ h => reach_inv1 h) init_inv2
    (fun _ _ _ _ _ h1 _ h he => env_inv2 h1 h he)
    (fun _ _ _ _ _ _ _ _ h1 _ h hk he => run_inv2 h1 h hk he) h

end Verif.Detached
