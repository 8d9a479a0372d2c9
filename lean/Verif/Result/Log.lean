import Verif.Result.Proof
import Verif.Result.Spec

/-! # The history of `result<T>` -/

namespace Verif.Result

variable {B : Body}

theorem resumed_snoc {S : Type} (i : Id) (log : List (Ev S)) (e : Ev S) :
    resumed i (log ++ [e]) = resumed i log ++ match e with
      | .resume j v => if j = i then [v] else []
      | _ => [] := by
  cases e <;> simp [resumed, List.filterMap_append]
  split <;> simp [*]

theorem completed_snoc {S : Type} (i : Id) (log : List (Ev S)) (e : Ev S) :
    completed i (log ++ [e]) = completed i log ++ match e with
      | .complete j v => if j = i then [v] else []
      | _ => [] := by
  cases e <;> simp [completed, List.filterMap_append]
  split <;> simp [*]

theorem awaited_snoc {S : Type} (i : Id) (log : List (Ev S)) (e : Ev S) :
    awaited i (log ++ [e]) = awaited i log ++ match e with
      | .await j v => if j = i then [v] else []
      | _ => [] := by
  cases e <;> simp [awaited, List.filterMap_append]
  split <;> simp [*]

theorem resumed_nil {S : Type} {i : Id} {log : List (Ev S)} (h : ∀ e ∈ log, e.op ≠ i) : resumed i log = [] := by
  unfold resumed
  rw [List.filterMap_eq_nil_iff]
  intro e he
  have := h e he
  cases e <;> simp_all [Ev.op]

/-- The body is where the history says. -/
def At (B : Body) (s0 : B.S) (vs : List Nat) (obj : Option Nat) (rets : Nat → Prop) : Option (Frame B.S) → Prop
  | none => True
  | some (.fresh b) => b = s0 ∧ vs = []
  | some (.running b) => Runs B s0 vs b
  | some (.waiting k _ _) => ∃ t a, Runs B s0 vs t ∧ B.next t = .await a k
  | some .returning | some .final => ∃ v, obj = some v ∧ rets v ∧ Returns B s0 vs v

structure Inv2 (s : St B) (acts : List (List Instr)) : Prop where
  body : ∀ i s0, .start i s0 ∈ s.log → At B s0 (resumed i s.log) (s.obj i) (fun v => .ret i v ∈ s.log) (s.frame i)
  evs : ∀ e ∈ s.log, s.phase e.op ≠ .fresh
  sta : ∀ i, s.phase i ≠ .fresh → ∃ s0, .start i s0 ∈ s.log
  nret : ∀ i v, .ret i v ∈ s.log → 6 ≤ tag (s.frame i) ∨ s.phase i = .done
  ndone : ∀ i v, .done i v ∈ s.log → s.phase i = .done
  isdone : ∀ i, s.phase i = .done → ∃ v, .done i v ∈ s.log
  cr : ∀ i, tag (s.frame i) ≠ 5 → completed i s.log = resumed i s.log
  ce : ∀ i v, Pending acts (.emplace i v) → completed i s.log = resumed i s.log ++ [v]
  cw : ∀ i k l v, s.frame i = some (.waiting k l (some v)) → l = .completed ∧ completed i s.log = resumed i s.log ++ [v]
  aw : ∀ i, (awaited i s.log).length = (completed i s.log).length + if tag (s.frame i) = 3 ∨ tag (s.frame i) = 4 then 1 else 0
  ok : Hist (Ok B) s.log

theorem run_inv2 {s : St B} {acts : List (List Instr)} (h1 : Inv1 s acts) (h : Inv2 s acts) {k : Nat} {x : Instr}
    {r p : List Instr} (hk : acts[k]? = some (x :: r)) {b : Bool} {s' : St B}
    (he : exec s x b = .ok s' p) : Inv2 s' (acts.set k (p ++ r)) := by
  have ph := h1.ph
  have E := fun i => ws_pos (w := ew i) hk
  have H := fun i => ws_pos (w := hw i) hk
  have V := fun i => ws_pos (w := vw i) hk
  have eh := h1.eh
  have vx := h1.vx
  constructor
  case body =>
    intro i s0
    have h2 := h.body i s0
    clear hk
    exec_cases he <;> simp [At, resumed_snoc, upd_apply] at * <;> grind [At, Runs, Returns]
  case evs =>
    have h2 := h.evs
    clear hk
    exec_cases he <;> simp [Ev.op, upd_apply] at * <;> grind [Ev.op]
  case sta =>
    have h2 := h.sta
    clear hk
    exec_cases he <;> simp [upd_apply] at * <;> grind
  case nret =>
    intro i v; have h2 := h.nret i v
    have ph := ph i
    clear hk
    exec_cases he <;> simp [upd_apply] at * <;> grind [tag, Leaf.num]
  case ndone =>
    intro i v; have h2 := h.ndone i v
    clear hk
    exec_cases he <;> simp [upd_apply] at * <;> grind
  case isdone =>
    intro i; have h2 := h.isdone i
    clear hk
    exec_cases he <;> simp [upd_apply] at * <;> grind
  case cr =>
    intro i; have h2 := h.cr i; have h3 := h.cw i
    have E := E i; have eh := eh i; have H := H i; have V := V i; have vx := vx i
    clear hk
    exec_cases he <;> simp [upd_apply, resumed_snoc, completed_snoc, ew, hw, vw] at * <;> grind [tag, Leaf.num]
  case ce =>
    intro i v hy
    rcases pending_set2 hk hy with h5 | ⟨h5, h6⟩
    · clear hy h hk
      exec_cases he <;> simp at h5 <;> grind
    · have h2 := h.ce i v h5
      have h7 := h6 (ew i)
      have h8 := h6 (fun x => ew i x + hw i x)
      have h9 := ws_add (w := fun x => ew i x + hw i x) (w' := ew i) (w'' := hw i) (fun _ => rfl) acts
      have eh := eh i
      clear hy h hk h5 h6
      exec_cases he <;> simp [upd_apply, resumed_snoc, completed_snoc, ew, hw] at * <;> grind
  case cw =>
    intro i; have h2 := h.cw i
    have h3 := h.ce i
    have hp := pending_top hk
    have E := E i; have eh := eh i
    clear hk
    exec_cases he <;> simp [upd_apply, resumed_snoc, completed_snoc, ew] at * <;> grind [tag, Leaf.num, Leaf.num_two]
  case aw =>
    intro i; have h2 := h.aw i; have h3 := h.cr i
    have E := E i; have eh := eh i; have H := H i; have V := V i; have vx := vx i
    clear hk
    exec_cases he <;> simp [upd_apply, awaited_snoc, completed_snoc, ew, hw, vw] at * <;> grind [tag, Leaf.num]
  case ok =>
    obtain ⟨body, evs, sta, nret, ndone, isdone, cr, ce, cw, aw, ok⟩ := h
    clear hk
    exec_cases he <;> (try exact ok) <;> rw [Hist.snoc] <;> refine ⟨ok, ?_⟩ <;> simp [Ok, Awaits, Returns, hw, vw] at *
    · rename_i i _ b hb _ a k hn hph
      specialize sta i
      simp [hph] at sta
      obtain ⟨s0, h0⟩ := sta
      have h2 := body i s0 h0
      rw [hb] at h2
      simp only [At] at h2
      exact ⟨s0, h0, ⟨b, h2, k, hn⟩, by grind [tag], by grind [tag], by grind [tag]⟩
    · rename_i i _ b hb _ v hn _ hph
      specialize sta i
      simp [hph] at sta
      obtain ⟨s0, h0⟩ := sta
      have h2 := body i s0 h0
      rw [hb] at h2
      simp only [At] at h2
      exact ⟨s0, h0, ⟨b, h2, hn⟩, by grind [tag]⟩
    · grind
    · grind
    · grind
    · grind
    · grind
    · rename_i i _ v hv hph
      specialize sta i
      simp [hph] at sta
      obtain ⟨s0, h0⟩ := sta
      have h2 := body i s0 h0
      have h3 : tag (s.frame i) = 7 := by grind
      have h4 : s.frame i = some .final := by
        rcases hf : s.frame i with _ | (_ | _ | ⟨_, l, r⟩ | _ | _) <;> grind [tag]
      rw [h4] at h2
      simp only [At] at h2
      obtain ⟨w, h5, h6, h7⟩ := h2
      rw [hv] at h5; cases h5
      exact ⟨⟨h6, s0, h0, h7, cr i (by omega)⟩, by grind⟩

theorem env_inv2 {s : St B} {acts : List (List Instr)} (h1 : Inv1 s acts) (h : Inv2 s acts) {a : Act B} {s' : St B}
    {p : List Instr} (he : env s acts a = some (s', p)) : Inv2 s' (acts ++ [p]) := by
  have ph := h1.ph
  have eh := h1.eh
  constructor
  case body =>
    intro i s0
    have h2 := h.body i s0
    have h3 : .start i s0 ∈ s.log → s.phase i ≠ .fresh := h.evs (.start i s0)
    have h4 := fun hp => resumed_nil (i := i) (log := s.log) (fun e he hi => h.evs e he (hi ▸ hp))
    env_cases he <;> simp [At, resumed_snoc, upd_apply] at * <;> grind [At, Runs, Returns]
  case evs =>
    have h2 := h.evs
    env_cases he <;> simp [Ev.op, upd_apply] at * <;> grind [Ev.op, tag]
  case sta =>
    have h2 := h.sta
    env_cases he <;> simp [upd_apply] at * <;> grind
  case nret =>
    intro i v; have h2 := h.nret i v
    have ph := ph i
    env_cases he <;> simp [upd_apply] at * <;> grind [tag, Leaf.num]
  case ndone =>
    intro i v; have h2 := h.ndone i v
    env_cases he <;> simp [upd_apply] at * <;> grind
  case isdone =>
    intro i; have h2 := h.isdone i
    env_cases he <;> simp [upd_apply] at * <;> grind
  case cr =>
    intro i; have h2 := h.cr i
    env_cases he <;> simp [upd_apply, resumed_snoc, completed_snoc] at * <;> grind [tag, Leaf.num]
  case ce =>
    intro i v hy
    rw [pending_app] at hy
    have h2 := h.ce i v
    have h3 := h.cr i
    have h4 := fun (h : Pending acts (.emplace i v)) => h.le (ew i)
    have eh := eh i
    env_cases he <;> simp [upd_apply, resumed_snoc, completed_snoc, ew] at * <;> grind [tag, Leaf.num]
  case cw =>
    intro i; have h2 := h.cw i
    env_cases he <;> simp [upd_apply, resumed_snoc, completed_snoc] at * <;> grind [tag, Leaf.num]
  case aw =>
    intro i; have h2 := h.aw i; have h3 := h.cr i
    env_cases he <;> simp [upd_apply, awaited_snoc, completed_snoc] at * <;> grind [tag, Leaf.num]
  case ok =>
    obtain ⟨body, evs, sta, nret, ndone, isdone, cr, ce, cw, aw, ok⟩ := h
    env_cases he <;> rw [Hist.snoc] <;> refine ⟨ok, ?_⟩ <;> simp [Ok] at *
    · grind
    · grind [tag, Leaf.num]

theorem init_inv2 : Inv2 (B := B) init [] := by
  constructor <;> simp [init, resumed, completed, awaited, tag, not_pending_nil, Hist.nil]

theorem reach_inv2 {c : Conf (mach B)} (h : Reach (mach B) init c) : Inv2 c.sh c.acts :=
  Reach.inv_with (M := mach B) (P := Inv1) (Q := Inv2) (fun _ h => reach_inv1 h) init_inv2
    (fun _ _ _ _ _ h1 _ h he => env_inv2 h1 h he)
    (fun _ _ _ _ _ _ _ _ h1 _ h hk he => run_inv2 h1 h hk he) h

end Verif.Result
