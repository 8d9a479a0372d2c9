import Verif.Callback.Model
import Verif.Induct
import Verif.Termination

/-! # Invariants of cancellation callbacks and observers: objects and running calls -/

namespace Verif.Callback

/-- Case distinction on the outcome of an instruction. -/
macro "exec_cases" he:ident : tactic => `(tactic|
  (simp only [exec, St.remove, St.emit] at $he:ident
   (split at $he:ident <;> (repeat' split at $he:ident) <;>
    simp only [Out.ok.injEq, reduceCtorEq] at $he:ident) <;>
   (rcases $he:ident with ⟨he1, he2⟩; subst he1; subst he2)))

macro "env_cases" he:ident : tactic => `(tactic|
  (simp only [env] at $he:ident
   (split at $he:ident <;> (try split at $he:ident) <;>
    simp only [Option.some.injEq, Prod.mk.injEq, reduceCtorEq] at $he:ident) <;>
   (rcases $he:ident with ⟨he1, he2⟩; subst he1; subst he2)))

/-- The object whose construction, attachment, destruction or reset is going on. -/
def owner : Instr → Option Id
  | .ctor i _ | .cret i _ | .unlock i _ | .dtor i _ | .dret i | .set i _ _ | .treset i _ | .tret i _ => some i
  | _ => none

def own (i : Id) (x : Instr) : Nat := if owner x = some i then 1 else 0

def unbW (i : Id) (x : Instr) : Nat := if isUnb i x then 1 else 0

def holds (e : EvId) : Instr → Nat
  | .cret _ e' | .unlock _ e' => if e' = e then 1 else 0
  | _ => 0

/-- Facts about a running instruction. -/
def WT (s : St) : Instr → Prop
  | .ctor i t => s.phase i = .making ∧ s.ev i = t ∧ s.cb i = true
  | .cret i e => s.phase i = .making ∧ s.ev i = some e ∧ s.cb i = true ∧ s.req e = true
  | .unlock i e => s.phase i = .making ∧ s.ev i = some e ∧ s.cb i = true ∧ s.req e = true
  | .unb i t => s.phase i = .live ∧ s.ev i = t ∧ s.cb i = true ∧ s.unb i = true
  | .uret i => s.phase i = .live ∧ s.cb i = true ∧ s.unb i = true
  | .dtor i t => s.phase i = .closing ∧ s.ev i = t ∧ s.cb i = true
  | .dret i => s.phase i = .closing ∧ s.cb i = true
  | .set i t _ => s.phase i = .making ∧ s.ev i = t ∧ s.cb i = false
  | .fire i e => s.phase i ≠ .fresh ∧ s.phase i ≠ .making ∧ s.ev i = some e ∧ s.cb i = false
  | .fret i => s.phase i ≠ .fresh
  | .treset i t => s.phase i = .closing ∧ s.ev i = t ∧ s.cb i = false
  | .tret i _ => s.phase i = .closing ∧ s.cb i = false
  | .cancelCS _ => True
  | .drain e l => l ≠ [] → s.req e = true
  | .ret _ e _ => s.req e = true
  | .query _ => True

structure Inv1 (s : St) (acts : List (List Instr)) : Prop where
  wt : ∀ x, Pending acts x → WT s x
  own : ∀ i, ws (own i) acts = if s.phase i = .making ∨ s.phase i = .closing then 1 else 0
  unb : ∀ i, ws (unbW i) acts ≤ if s.phase i = .live then 1 else 0
  mtx : ∀ e, ws (holds e) acts = if s.mtx e then 1 else 0
  objs : ∀ i, s.phase i ≠ .fresh → i ∈ s.objs
  fresh : ∀ i, s.phase i = .fresh → s.cb i = false ∧ s.unb i = false
  obs : ∀ i, s.cb i = false → s.unb i = false

theorem anyI_false {acts : List (List Instr)} {f : Instr → Bool} :
    anyI acts f = false ↔ ∀ x, Pending acts x → f x = false := by
  unfold anyI Pending
  rw [List.any_eq_false]
  constructor
  · rintro h x ⟨a, ha, hx⟩
    have := h a ha
    rw [Bool.not_eq_true, List.any_eq_false] at this
    simpa using this x hx
  · intro h a ha
    rw [Bool.not_eq_true, List.any_eq_false]
    intro x hx
    simpa using h x ⟨a, ha, hx⟩

theorem ws_zero {acts : List (List Instr)} {w : Instr → Nat} (h : ∀ x, Pending acts x → w x = 0) :
    ws w acts = 0 := by
  apply Classical.byContradiction
  intro hn
  obtain ⟨a, ha, x, hx, hw⟩ := exists_of_ws_pos (Nat.pos_of_ne_zero hn)
  have := h x ⟨a, ha, hx⟩
  omega

theorem run_inv1 {s : St} {acts : List (List Instr)} (h : Inv1 s acts) {k : Nat} {x : Instr}
    {r p : List Instr} (hk : acts[k]? = some (x :: r)) {b : Bool} {s' : St}
    (he : exec s x b = .ok s' p) : Inv1 s' (acts.set k (p ++ r)) := by
  have hx := h.wt x (pending_top hk)
  have hother : ∀ y, Pending acts y → (∀ w : Instr → Nat, w x + w y ≤ ws w acts) → WT s' y := by
    intro y hy hw
    have hwt := h.wt y hy
    have h1 : ∀ i, owner x = some i → owner y ≠ some i := by
      intro i hi hi'
      have h3 := hw (own i)
      simp only [own, hi, hi', if_true] at h3
      have := h.own i
      split at this <;> omega
    have h2 : ∀ i, owner x = some i → isUnb i y = false := by
      intro i hi
      cases hu : isUnb i y with
      | false => rfl
      | true =>
      exfalso
      have := hy.le (unbW i)
      have h3 := h.unb i
      have h4 := h.own i
      have h5 := ws_pos (w := own i) hk
      simp only [own, hi, if_true] at h5
      simp only [unbW, hu, if_true] at *
      split at h4
      · rename_i h6
        rw [if_neg (by rcases h6 with h6 | h6 <;> rw [h6] <;> simp)] at h3; omega
      · omega
    clear hw h hy hk
    exec_cases he <;>
    first
    | exact hwt
    | (cases y <;> first
        | exact hwt
        | (simp only [WT, owner, isUnb, upd_apply] at *; grind))
  constructor
  case wt =>
    intro y hy
    rcases pending_set2 hk hy with h1 | ⟨h1, h2⟩
    · clear hother hy h hk
      exec_cases he <;> simp at h1 <;> (try subst h1) <;> simp [WT] at * <;> grind
    · exact hother y h1 h2
  case own =>
    intro i; have h1 := h.own i; have e1 := ws_set (own i) p hk
    clear hother h hk
    exec_cases he <;> simp [own, owner, upd_apply, WT] at * <;> grind
  case unb =>
    intro i; have h1 := h.unb i; have e1 := ws_set (unbW i) p hk
    have h4 := h.own i
    have h5 := ws_pos (w := own i) hk
    clear hother h hk
    exec_cases he <;> simp [unbW, isUnb, own, owner, upd_apply, WT] at * <;> grind
  case mtx =>
    intro i; have h1 := h.mtx i; have e1 := ws_set (holds i) p hk
    clear hother h hk
    exec_cases he <;> simp [holds, upd_apply, WT] at * <;> grind
  case objs =>
    intro i; have h1 := h.objs i
    clear hother h hk
    exec_cases he <;> simp [upd_apply, WT] at * <;> grind
  case fresh =>
    intro i; have h1 := h.fresh i
    clear hother h hk
    exec_cases he <;> simp [upd_apply, WT] at * <;> grind
  case obs =>
    intro i; have h1 := h.obs i
    clear hother h hk
    exec_cases he <;> exact h1

theorem init_inv1 (b : Bool) : Inv1 (init b) [] where
  wt := by intro x hx; exact absurd hx not_pending_nil
  own := by intro i; simp [init]
  unb := by intro i; simp
  mtx := by intro e; simp [init]
  objs := by intro i hi; simp [init] at hi
  fresh := by intro i _; simp [init]
  obs := by intro i _; simp [init]

theorem unbW_zero {acts : List (List Instr)} {i : Id} (h : anyI acts (isUnb i) = false) :
    ws (unbW i) acts = 0 := by
  rw [anyI_false] at h
  exact ws_zero (fun x hx => by simp [unbW, h x hx])

theorem env_inv1 {s : St} {acts : List (List Instr)} (h : Inv1 s acts) {a : Act} {s' : St}
    {p : List Instr} (he : env s acts a = some (s', p)) : Inv1 s' (acts ++ [p]) := by
  have hold : ∀ y, Pending acts y → WT s' y := by
    intro y hy
    have hwt := h.wt y hy
    have h2 : ∀ i, s.phase i ≠ .making → s.phase i ≠ .closing → owner y ≠ some i := by
      intro i h3 h4 hi
      have h5 := hy.le (own i)
      have h6 := h.own i
      simp only [own, hi, if_true] at h5
      simp [h3, h4] at h6; omega
    have hr : ∀ e, anyI acts (fun x => evOf s x == some e) = false → evOf s y ≠ some e := by
      intro e he; rw [anyI_false] at he; simpa using he y hy
    have hu : ∀ i, anyI acts (isUnb i) = false → isUnb i y = false := by
      intro i he; rw [anyI_false] at he; exact he y hy
    clear h hy
    env_cases he <;>
    first
    | exact hwt
    | (cases y <;> first
        | exact hwt
        | (simp only [WT, owner, isUnb, evOf, upd_apply] at *; grind))
  constructor
  case wt =>
    intro y hy
    rcases pending_append hy with h1 | h1
    · clear hold hy
      have h3 := h.fresh
      clear h
      env_cases he <;> simp at h1 <;> (try subst h1) <;> simp [WT] at * <;> grind
    · exact hold y h1
  case own =>
    intro i; have h1 := h.own i
    rw [ws_append]
    clear hold h
    env_cases he <;> simp [own, owner, upd_apply] at * <;> grind
  case unb =>
    intro i; have h1 := h.unb i
    have h2 : anyI acts (isUnb i) = false → ws (unbW i) acts = 0 := unbW_zero
    have h3 : s.cb i = false → ws (unbW i) acts = 0 := by
      intro hc
      refine ws_zero (fun x hx => ?_)
      have := h.wt x hx
      cases x <;> simp [unbW, isUnb, WT] at * <;> grind
    rw [ws_append]
    clear hold h
    env_cases he <;> simp [unbW, isUnb, upd_apply] at * <;> grind
  case mtx =>
    intro i; have h1 := h.mtx i
    rw [ws_append]
    clear hold h
    env_cases he <;> simp [holds] at * <;> grind
  case objs =>
    intro i; have h1 := h.objs i
    clear hold h
    env_cases he <;> (try simp [upd_apply] at *) <;> grind
  case fresh =>
    intro i; have h1 := h.fresh i
    clear hold h
    env_cases he <;> (try simp [upd_apply] at *) <;> grind
  case obs =>
    intro i; have h1 := h.obs i; have h2 := h.fresh i
    clear hold h
    env_cases he <;> (try simp [upd_apply] at *) <;> grind

theorem reach_inv1 {b : Bool} {c : Conf mach} (h : Reach mach (init b) c) : Inv1 c.sh c.acts :=
  Reach.inv (M := mach) (P := Inv1) (init_inv1 b) (fun _ _ _ _ _ h he => env_inv1 h he)
    (fun _ _ _ _ _ _ _ _ h hk he => run_inv1 h hk he) h

end Verif.Callback
