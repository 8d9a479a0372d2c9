import Verif.Generator.Proof
import Verif.Generator.Spec

/-! # The history of `generator<T>` -/

namespace Verif.Generator

variable {B : Body}

theorem resumed_snoc {S : Type} (i : Id) (log : List (Ev S)) (e : Ev S) :
    resumed i (log ++ [e]) = resumed i log ++ match e with
      | .resume j v => if j = i then [v] else []
      | _ => [] := by
  cases e <;> simp [resumed, List.filterMap_append]
  split <;> simp [*]

theorem completed_snoc {S : Type} (i : Id) (log : List (Ev S)) (e : Ev S) :
    completed i (log ++ [e]) = completed i log ++ match e with
      | .complete j v => if j = i then [v] else []
      | _ => [] := by
  cases e <;> simp [completed, List.filterMap_append]
  split <;> simp [*]

theorem awaited_snoc {S : Type} (i : Id) (log : List (Ev S)) (e : Ev S) :
    awaited i (log ++ [e]) = awaited i log ++ match e with
      | .await j v => if j = i then [v] else []
      | _ => [] := by
  cases e <;> simp [awaited, List.filterMap_append]
  split <;> simp [*]

theorem yielded_snoc {S : Type} (i : Id) (log : List (Ev S)) (e : Ev S) :
    yielded i (log ++ [e]) = yielded i log ++ match e with
      | .yield j v => if j = i then [v] else []
      | _ => [] := by
  cases e <;> simp [yielded, List.filterMap_append]
  split <;> simp [*]

theorem results_snoc {S : Type} (i : Id) (log : List (Ev S)) (e : Ev S) :
    results i (log ++ [e]) = results i log ++ match e with
      | .result j _ o => if j = i then [o] else []
      | _ => [] := by
  cases e <;> simp [results, List.filterMap_append]
  split <;> simp [*]

/-- The generator that an event is about. -/
def Ev.gen : Ev S → Id
  | .create g _ | .next g _ | .await g _ | .complete g _ | .resume g _ | .yield g _ | .ret g | .result g _ _
  | .destroy g => g

theorem none_of {S : Type} {g : Id} {log : List (Ev S)} (h : ∀ e ∈ log, e.gen ≠ g) :
    resumed g log = [] ∧ completed g log = [] ∧ awaited g log = [] ∧ yielded g log = [] ∧ results g log = [] := by
  unfold resumed completed awaited yielded results
  simp only [List.filterMap_eq_nil_iff]
  refine ⟨?_, ?_, ?_, ?_, ?_⟩ <;> intro e he <;> have := h e he <;> cases e <;> simp_all [Ev.gen]

/-- The body is where the history says. -/
def At (B : Body) (s0 : B.S) (vs os : List Nat) : Option (Frame B.S) → Prop
  | none => True
  | some (.suspended b) | some (.running b) => Gives B s0 vs os b
  | some (.waiting k _ _) => ∃ t a, Gives B s0 vs os t ∧ B.next t = .await a k
  | some .final => ∃ t, Gives B s0 vs os t ∧ B.next t = .ret

structure Inv2 (s : St B) (acts : List (List Instr)) : Prop where
  body : ∀ i s0, .create i s0 ∈ s.log → At B s0 (resumed i s.log) (yielded i s.log) (s.frame i)
  evs : ∀ e ∈ s.log, s.made e.gen = true
  cre : ∀ i, s.made i = true → ∃ s0, .create i s0 ∈ s.log
  cr : ∀ i, tag (s.frame i) ≠ 5 → completed i s.log = resumed i s.log
  ce : ∀ i v, Pending acts (.emplace i v) → completed i s.log = resumed i s.log ++ [v]
  wc : ∀ i k l v, s.frame i = some (.waiting k l (some v)) → l = .completed ∧ completed i s.log = resumed i s.log ++ [v]
  wa : ∀ i, (awaited i s.log).length = (completed i s.log).length + if tag (s.frame i) = 3 ∨ tag (s.frame i) = 4 then 1 else 0
  rs : ∀ i, ws (yw i) acts + ws (cw i) acts + ws (vw i) acts = 0 →
    results i s.log = (yielded i s.log).map some ++ (if s.ended i then [none] else [])
  ry : ∀ i, 1 ≤ ws (yw i) acts + ws (cw i) acts → tag (s.frame i) = 1 →
    s.cur i ≠ none ∧ (yielded i s.log).map some = results i s.log ++ [s.cur i]
  rf : ∀ i, tag (s.frame i) = 6 → s.ended i = false → (yielded i s.log).map some = results i s.log
  rv : ∀ i n o, Pending acts (.setv i n o) → tag (s.frame i) = 1 →
    o ≠ none ∧ (yielded i s.log).map some = results i s.log ++ [o]
  ed : ∀ i, s.ended i = true → s.outst i = none ∧ (tag (s.frame i) = 6 ∨ tag (s.frame i) = 0)
  nx : ∀ i n, s.outst i = some n → .next i n ∈ s.log
  nd : ∀ i n, .next i n ∈ s.log → s.outst i = some n ∨ ∃ o, .result i n o ∈ s.log
  dn : ∀ i n o, .result i n o ∈ s.log → s.op n = .done
  ok : Hist (Ok B) s.log

theorem map_some_snoc {l : List Nat} {r : List (Option Nat)} {v : Nat} (h : l.map some = r ++ [some v]) :
    ∃ os, l = os ++ [v] ∧ r = os.map some := by
  rcases List.eq_nil_or_concat l with rfl | ⟨os, w, rfl⟩
  · simp at h
  · rw [List.concat_eq_append, List.map_append] at h
    obtain ⟨h1, h2⟩ := List.append_inj' h rfl
    simp at h2; subst h2
    exact ⟨os, by simp, h1.symm⟩

set_option maxHeartbeats 2000000 in
theorem run_inv2 {s : St B} {acts : List (List Instr)} (h1 : Inv1 s acts) (h : Inv2 s acts) {k : Nat} {x : Instr}
    {r p : List Instr} (hk : acts[k]? = some (x :: r)) {b : Bool} {s' : St B}
    (he : exec s x b = .ok s' p) (h1' : Inv1 s' (acts.set k (p ++ r))) : Inv2 s' (acts.set k (p ++ r)) := by
  have E := fun i => ws_pos (w := ew i) hk
  have H := fun i => ws_pos (w := hw i) hk
  have V := fun i => ws_pos (w := vw i) hk
  have S := fun i => ws_pos (w := sw i) hk
  have eh := h1.eh
  have hx := fun g n hu => h1.us x g n (pending_top hk) hu
  constructor
  case body =>
    intro i s0
    have h2 := h.body i s0
    clear hk h1'
    exec_cases he <;> simp [At, resumed_snoc, yielded_snoc, upd_apply] at * <;> grind [At, Gives]
  case evs =>
    have h2 := h.evs
    have h3 := h1.ma
    have h4 := h1.mo
    have tz := fun i => tag_zero (f := s.frame i)
    clear hk h1'
    exec_cases he <;> simp [Ev.gen, upd_apply, Instr.uses] at * <;> grind [Ev.gen, tag]
  case cre =>
    have h2 := h.cre
    clear hk h1'
    exec_cases he <;> simp [upd_apply] at * <;> grind
  case cr =>
    intro i; have h2 := h.cr i; have h3 := h.wc i
    have E := E i; have eh := eh i; have H := H i
    clear hk h1'
    exec_cases he <;> simp [upd_apply, resumed_snoc, completed_snoc, ew, hw] at * <;> grind [tag, Leaf.num]
  case ce =>
    intro i v hy
    rcases pending_set2 hk hy with h5 | ⟨h5, h6⟩
    · clear hy h hk h1'
      exec_cases he <;> simp at h5 <;> grind
    · have h2 := h.ce i v h5
      have h7 := h6 (ew i)
      have h8 := h6 (fun x => ew i x + hw i x)
      have h9 := ws_add (w := fun x => ew i x + hw i x) (w' := ew i) (w'' := hw i) (fun _ => rfl) acts
      have eh := eh i
      clear hy h hk h5 h6 h1'
      exec_cases he <;> simp [upd_apply, resumed_snoc, completed_snoc, ew, hw] at * <;> grind
  case wc =>
    intro i; have h2 := h.wc i
    have h3 := h.ce i
    have hp := pending_top hk
    have E := E i; have eh := eh i
    clear hk h1'
    exec_cases he <;> simp [upd_apply, resumed_snoc, completed_snoc, ew] at * <;> grind [tag, Leaf.num, Leaf.num_two]
  case wa =>
    intro i; have h2 := h.wa i; have h3 := h.cr i
    have E := E i; have eh := eh i; have H := H i
    clear hk h1'
    exec_cases he <;> simp [upd_apply, awaited_snoc, completed_snoc, ew, hw] at * <;> grind [tag, Leaf.num]
  case rs =>
    intro i; have h2 := h.rs i; have h3 := h.rf i; have h4 := h.rv i; have h6 := h.ed i
    have hp := pending_top hk
    have h5 := h1.sv i
    have su := h1.su i
    have sg := h1.sg i
    have V := V i; have S := S i
    have y1 := ws_set (yw i) p hk
    have c1 := ws_set (Generator.cw i) p hk
    have v1 := ws_set (vw i) p hk
    have hx := hx i
    clear hk h1' h1 h
    generalize acts.set k (p ++ r) = acts' at *
    exec_cases he <;> simp [upd_apply, results_snoc, yielded_snoc, yw, Generator.cw, vw, sw, Instr.uses] at * <;>
      grind [tag, Leaf.num]
  case ry =>
    intro i; have h2 := h.ry i; have h3 := h.rs i; have h6 := h.ed i
    have su := h1.su i
    have sg := h1.sg i
    have cu := h1.cu i
    have V := V i; have S := S i
    have y1 := ws_set (yw i) p hk
    have c1 := ws_set (Generator.cw i) p hk
    have v1 := ws_set (vw i) p hk
    have hx := hx i
    clear hk h1' h1 h
    generalize acts.set k (p ++ r) = acts' at *
    exec_cases he <;> simp [upd_apply, results_snoc, yielded_snoc, yw, Generator.cw, vw, sw, Instr.uses] at * <;>
      grind [tag, Leaf.num]
  case rf =>
    intro i; have h2 := h.rf i; have h3 := h.rs i; have h6 := h.ed i
    have hp := pending_top hk
    have h5 := h1.sv i
    have su := h1.su i
    have sg := h1.sg i
    have V := V i; have S := S i
    have hx := hx i
    clear hk h1' h1 h
    generalize acts.set k (p ++ r) = acts' at *
    exec_cases he <;> simp [upd_apply, results_snoc, yielded_snoc, vw, sw, Instr.uses] at * <;>
      grind [tag, Leaf.num]
  case rv =>
    intro i n o hy
    have h2 := h.ry i
    have su := h1.su i
    have C := ws_pos (w := Generator.cw i) hk
    have S := S i
    have sg := h1.sg i
    have su' := h1'.su i
    have h3 := h.rv i n o
    have hv := hy.le (vw i)
    have v1 := ws_set (vw i) p hk
    have h4 := fun (h : Pending acts (.setv i n o)) => h.le (vw i)
    have h5 := pending_set2 hk hy
    have h6 : Pending acts (.setv i n o) → ¬ Instr.setv i n o ∈ p → x.gen = i → vw i x = 0 := by
      intro a b c
      rcases h5 with h5 | ⟨_, h5⟩
      · exact absurd h5 b
      · have := h5 (vw i)
        simp [vw] at this ⊢
        cases x <;> simp [vw] at this ⊢ <;> grind
    clear hk h1' h1 h hx
    generalize acts.set k (p ++ r) = acts' at *
    exec_cases he <;> simp [upd_apply, results_snoc, yielded_snoc, vw, sw, Generator.cw, Instr.gen] at * <;>
      grind [tag, Leaf.num]
  case ed =>
    intro i; have h2 := h.ed i
    have su := h1.su i
    have sg := h1.sg i
    have h5 := fun n o => h.rv i n o
    have hp := pending_top hk
    have V := V i; have S := S i
    have hx := hx i
    have E := E i; have eh := eh i; have H := H i
    have A := ws_pos (w := Generator.aw i) hk
    have as := h1.as i
    have R := ws_pos (w := rw i) hk
    clear hk h1' h1 h
    exec_cases he <;> simp [upd_apply, vw, sw, ew, hw, rw, Generator.aw, Instr.uses] at * <;> grind [tag, Leaf.num]
  case nx =>
    intro i n; have h2 := h.nx i n
    clear hk h1'
    exec_cases he <;> simp [upd_apply] at * <;> grind
  case nd =>
    intro i n; have h2 := h.nd i n
    have hx := hx i
    clear hk h1'
    exec_cases he <;> simp [upd_apply, Instr.uses] at * <;> grind
  case dn =>
    intro i n o; have h2 := h.dn i n o
    clear hk h1'
    exec_cases he <;> simp [upd_apply] at * <;> grind
  case ok =>
    obtain ⟨body, evs, cre, cr, ce, wc, wa, rs, ry, rf, rv, ed, nx, nd, dn, ok⟩ := h
    have ptop := pending_top hk
    have su := h1.su
    have sv := h1.sv
    have mo := h1.mo
    clear hk h1'
    exec_cases he <;> (try exact ok) <;> rw [Hist.snoc] <;> refine ⟨ok, ?_⟩ <;> (try trivial)
    rename_i g n o hop
    simp only [Ok]
    have ho := hx g n rfl
    have hm : s.made g = true := by
      cases hm : s.made g
      · simp [mo g hm] at ho
      · rfl
    obtain ⟨s0, h0⟩ := cre g hm
    have hb := body g s0 h0
    have hv := V g
    have hs := su g
    have he : s.ended g = false := by
      cases he : s.ended g
      · rfl
      · simp [(ed g he).1] at ho
    simp [vw] at hv
    have ht : tag (s.frame g) = 1 ∨ tag (s.frame g) = 6 := by
      split at hs
      · rename_i hh; exact hh.1
      · omega
    refine ⟨⟨⟨s0, ?_⟩, nx g n ho⟩, ?_⟩
    · rw [cr g (by omega)]
      rcases ht with ht | ht
      · obtain ⟨h2, h3⟩ := rv g n o ptop ht
        cases o with
        | none => exact absurd rfl h2
        | some v =>
          obtain ⟨os, h4, h5⟩ := map_some_snoc h3
          refine ⟨os, h0, h5, ?_⟩
          show Yields B s0 (resumed g s.log) (os ++ [v])
          rw [← h4]
          rcases hf : s.frame g with _ | (_ | _ | ⟨_, l, r⟩ | _) <;> rw [hf] at ht hb <;> simp [tag] at ht
          · exact ⟨_, hb⟩
          · omega
      · have h2 := sv g n o ptop ht
        subst h2
        refine ⟨yielded g s.log, h0, (rf g ht he).symm, ?_⟩
        rcases hf : s.frame g with _ | (_ | _ | ⟨_, l, r⟩ | _) <;> rw [hf] at ht hb <;> simp [tag] at ht
        · have := l.num_le; omega
        · exact hb
    · intro g' o' hm
      have := dn g' n o' hm
      simp [this] at hop

set_option maxHeartbeats 2000000 in
theorem env_inv2 {s : St B} {acts : List (List Instr)} (h1 : Inv1 s acts) (h : Inv2 s acts) {a : Act B} {s' : St B}
    {p : List Instr} (he : env s acts a = some (s', p)) : Inv2 s' (acts ++ [p]) := by
  have hn := fun i (hm : s.made i = false) => none_of (g := i) (log := s.log)
    (fun e he hi => by have := h.evs e he; rw [hi, hm] at this; simp at this)
  constructor
  case body =>
    intro i s0
    have h2 := h.body i s0
    have h3 : .create i s0 ∈ s.log → s.made i = true := h.evs (.create i s0)
    have hn := hn i
    env_cases he <;> simp [At, resumed_snoc, yielded_snoc, upd_apply] at * <;> grind [At, Gives]
  case evs =>
    have h2 := h.evs
    have h3 := h1.ma
    have tz := fun i => tag_zero (f := s.frame i)
    env_cases he <;> simp [Ev.gen, upd_apply] at * <;> grind [Ev.gen, tag]
  case cre =>
    have h2 := h.cre
    env_cases he <;> simp [upd_apply] at * <;> grind
  case cr =>
    intro i; have h2 := h.cr i; have h3 := h.wc i; have hn := hn i
    have h4 := h1.ot i
    env_cases he <;> simp [upd_apply, resumed_snoc, completed_snoc] at * <;> grind [tag, Leaf.num]
  case ce =>
    intro i v hy
    rw [pending_app] at hy
    have h2 := h.ce i v
    have h3 := h.cr i
    have h4 := fun (h : Pending acts (.emplace i v)) => h.le (ew i)
    have eh := h1.eh i
    env_cases he <;> simp [upd_apply, resumed_snoc, completed_snoc, ew] at * <;> grind [tag, Leaf.num]
  case wc =>
    intro i; have h2 := h.wc i
    env_cases he <;> simp [upd_apply, resumed_snoc, completed_snoc] at * <;> grind [tag, Leaf.num]
  case wa =>
    intro i; have h2 := h.wa i; have h3 := h.cr i; have hn := hn i
    have h4 := h1.ot i
    env_cases he <;> simp [upd_apply, awaited_snoc, completed_snoc] at * <;> grind [tag, Leaf.num]
  case rs =>
    intro i; have h2 := h.rs i
    env_cases he <;> simp [upd_apply, results_snoc, yielded_snoc, yw, cw, vw] at * <;> grind
  case ry =>
    intro i; have h2 := h.ry i; have su := h1.su i; have ma := h1.ma i
    env_cases he <;> simp [upd_apply, results_snoc, yielded_snoc, yw, cw, vw] at * <;> grind [tag, Leaf.num]
  case rf =>
    intro i; have h2 := h.rf i
    env_cases he <;> simp [upd_apply, results_snoc, yielded_snoc] at * <;> grind [tag, Leaf.num]
  case rv =>
    intro i n o hy
    rw [pending_app] at hy
    have h2 := h.rv i n o
    have su := h1.su i; have ma := h1.ma i
    have h4 := fun (h : Pending acts (.setv i n o)) => h.le (vw i)
    env_cases he <;> simp [upd_apply, results_snoc, yielded_snoc, vw] at * <;> grind [tag, Leaf.num]
  case ed =>
    intro i; have h2 := h.ed i
    have ma := h1.ma i
    env_cases he <;> simp [upd_apply] at * <;> grind [tag, Leaf.num]
  case nx =>
    intro i n; have h2 := h.nx i n
    env_cases he <;> simp [upd_apply] at * <;> grind
  case nd =>
    intro i n; have h2 := h.nd i n
    env_cases he <;> simp [upd_apply] at * <;> grind
  case dn =>
    intro i n o; have h2 := h.dn i n o
    env_cases he <;> simp [upd_apply] at * <;> grind
  case ok =>
    have ok := h.ok
    env_cases he <;> rw [Hist.snoc] <;> exact ⟨ok, trivial⟩

theorem init_inv2 : Inv2 (B := B) init [] := by
  constructor <;> simp [init, resumed, completed, awaited, yielded, results, tag, not_pending_nil, Hist.nil]

theorem reach_inv2 {c : Conf (mach B)} (h : Reach (mach B) init c) : Inv2 c.sh c.acts :=
  Reach.inv_with (M := mach B) (P := Inv1) (Q := Inv2) (fun _ h => reach_inv1 h) init_inv2
    (fun _ _ _ _ _ h1 _ h he => env_inv2 h1 h he)
    (fun _ _ _ _ _ _ _ _ h1 h1' h hk he => run_inv2 h1 h hk he h1') h

end Verif.Generator
