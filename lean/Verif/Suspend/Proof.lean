import Verif.Suspend.Model
import Verif.Induct
import Verif.Termination

/-! # Invariants of `suspend_indefinitely` -/

namespace Verif.Suspend

/-- Case distinction on the outcome of an instruction. -/
macro "exec_cases" he:ident : tactic => `(tactic|
  (simp only [exec] at $he:ident
   (split at $he:ident <;> (repeat' split at $he:ident) <;>
    simp only [Out.ok.injEq, reduceCtorEq] at $he:ident) <;>
   (rcases $he:ident with ⟨he1, he2⟩; subst he1; subst he2)))

macro "env_cases" he:ident : tactic => `(tactic|
  (simp only [env] at $he:ident
   (split at $he:ident <;> (try split at $he:ident) <;>
    simp only [Option.some.injEq, Prod.mk.injEq, reduceCtorEq] at $he:ident) <;>
   (rcases $he:ident with ⟨he1, he2⟩; subst he1; subst he2)))

def ofOp (i : Id) (o : Obs) : Bool := o.op == i

/-- The share of the counter of operation `i` that an instruction will subtract. -/
def unit (i : Id) : Instr → Nat
  | .attach j l => if j = i then l.length + 1 else 0
  | .tOr j _ => if j = i then 1 else 0
  | .rst j _ c | .sub j c => if j = i then c else 0
  | .drain l => l.countP (ofOp i)
  | _ => 0

def isSetv (i : Id) : Instr → Nat
  | .setv j => if j = i then 1 else 0
  | _ => 0

/-- `start()` has not yet set the bit. -/
def initp (i : Id) : Instr → Nat
  | .attach j _ | .tOr j true => if j = i then 1 else 0
  | _ => 0

def isRst (i : Id) : Instr → Nat
  | .rst j _ _ => if j = i then 1 else 0
  | _ => 0

/-- Facts about a running instruction. -/
def WT (s : St) : Instr → Prop
  | .attach i l => ∀ o ∈ l, o.op = i
  | .rst i l c => s.ini i = true ∧ s.can i = true ∧ 1 ≤ c ∧ l <:+ mkObs i (s.toks i)
  | .sub _ c => 1 ≤ c
  | _ => True

structure Inv1 (s : St) (acts : List (List Instr)) : Prop where
  wt : ∀ x, Pending acts x → WT s x
  ctr : ∀ i, ws (unit i) acts + s.pool.countP (ofOp i) = if s.phase i = .running then s.ctr i else 0
  setv : ∀ i, ws (isSetv i) acts = if s.phase i = .running ∧ s.ctr i = 0 then 1 else 0
  ini : ∀ i, ws (initp i) acts = if s.phase i = .running ∧ s.ini i = false then 1 else 0
  rone : ∀ i, ws (isRst i) acts ≤ if s.ini i = true ∧ s.can i = true then 1 else 0
  fresh : ∀ i, s.phase i = .fresh → s.ini i = false ∧ s.can i = false
  zero : ∀ i, s.phase i = .running → s.ctr i = 0 → s.ini i = true
  toks : ∀ i, s.phase i ≠ .fresh → s.toks i ≠ [] ∧ i ∈ s.ops

theorem mkObs_op {i : Id} {t : List (Option EvId)} {o : Obs} (h : o ∈ mkObs i t) : o.op = i := by
  unfold mkObs at h
  obtain ⟨p, _, rfl⟩ := List.mem_map.1 h
  rfl

theorem mkObs_len (i : Id) (t : List (Option EvId)) : (mkObs i t).length = t.length := by
  simp [mkObs]

theorem mkObs_tok {i : Id} {t : List (Option EvId)} {o : Obs} (h : o ∈ mkObs i t) : o.tok ∈ t := by
  unfold mkObs at h
  obtain ⟨⟨a, b⟩, hp, rfl⟩ := List.mem_map.1 h
  exact (List.mem_zipIdx' hp).2 ▸ List.getElem_mem _

theorem mkObs_nodup (i : Id) (t : List (Option EvId)) : (mkObs i t).Nodup := by
  have h : ((mkObs i t).map Obs.k).Nodup := by
    have : (mkObs i t).map Obs.k = List.range' 0 t.length := by
      simp [mkObs, Function.comp_def]
    rw [this]; exact List.nodup_range'
  exact List.Pairwise.of_map Obs.k (fun a b hab => fun e => hab (e ▸ rfl)) h

theorem filter_split (q : Obs → Bool) (e : EvId) (l : List Obs) :
    (listOf e l).countP q + (others e l).countP q = l.countP q := by
  unfold listOf others
  induction l with
  | nil => rfl
  | cons o l ih =>
    by_cases hp : o.tok = some e <;> simp [hp, List.countP_cons] <;> simp at ih <;> omega

theorem mem_listOf {e : EvId} {l : List Obs} {o : Obs} : o ∈ listOf e l ↔ o ∈ l ∧ o.tok = some e := by
  simp [listOf]

theorem mem_others {e : EvId} {l : List Obs} {o : Obs} : o ∈ others e l ↔ o ∈ l ∧ o.tok ≠ some e := by
  simp [others]

theorem countP_erase_mem {l : List Obs} {o : Obs} (h : o ∈ l) (q : Obs → Bool) :
    (l.erase o).countP q + (if q o then 1 else 0) = l.countP q := by
  have := (List.perm_cons_erase h).countP_eq q
  rw [this, List.countP_cons]

theorem suffix_op {i : Id} {t : List (Option EvId)} {o : Obs} {l : List Obs} (h : o :: l <:+ mkObs i t) :
    o.op = i ∧ l <:+ mkObs i t :=
  ⟨mkObs_op (h.subset (by simp)), (List.suffix_cons o l).trans h⟩

theorem run_inv1 {s : St} {acts : List (List Instr)} (h : Inv1 s acts) {k : Nat} {x : Instr}
    {r p : List Instr} (hk : acts[k]? = some (x :: r)) {b : Bool} {s' : St}
    (he : exec s x b = .ok s' p) : Inv1 s' (acts.set k (p ++ r)) := by
  have hx := h.wt x (pending_top hk)
  have hsuf := fun i t o l => @suffix_op i t o l
  constructor
  case wt =>
    intro y hy
    rcases pending_set2 hk hy with h1 | ⟨h1, h2⟩
    · clear hy h hk
      exec_cases he <;> simp at h1 <;>
        first
        | (subst h1; simp [WT, upd_apply] at * <;> grind)
        | (rcases h1 with h1 | h1 <;> subst h1 <;> simp [WT] at * <;> grind)
    · have h3 := h.wt y h1
      clear hy h hk h1 h2
      exec_cases he <;> cases y <;> simp [WT, upd_apply] at * <;> grind
  case ctr =>
    intro i; have h1 := h.ctr i; have e1 := ws_set (unit i) p hk
    have h2 := h.setv i
    have h3 := ws_pos (w := isSetv i) hk
    have h4 := fun e => filter_split (ofOp i) e s.pool
    have h5 := fun o (ho : o ∈ s.pool) => countP_erase_mem ho (ofOp i)
    clear h hk
    generalize acts.set k (p ++ r) = acts' at *
    exec_cases he <;> simp [unit, isSetv, WT, ofOp, upd_apply, List.countP_append, List.countP_cons] at * <;> grind
  case setv =>
    intro i; have h1 := h.setv i; have e1 := ws_set (isSetv i) p hk
    have h2 := h.ctr i
    have h3 := ws_pos (w := unit i) hk
    clear h hk
    generalize acts.set k (p ++ r) = acts' at *
    exec_cases he <;> simp [unit, isSetv, WT, upd_apply] at * <;> grind
  case ini =>
    intro i; have h1 := h.ini i; have e1 := ws_set (initp i) p hk
    have h2 := h.setv i
    have h4 := h.ctr i
    have h3 := ws_pos (w := initp i) hk
    have h5 := h.zero i
    have h6 := ws_pos (w := isSetv i) hk
    clear h hk
    generalize acts.set k (p ++ r) = acts' at *
    exec_cases he <;> simp [initp, isSetv, WT, upd_apply] at * <;> grind
  case rone =>
    intro i; have h1 := h.rone i; have e1 := ws_set (isRst i) p hk
    clear h hk
    generalize acts.set k (p ++ r) = acts' at *
    exec_cases he <;> simp [isRst, WT, upd_apply] at * <;> grind
  case fresh =>
    intro i; have h1 := h.fresh i
    clear h hk
    exec_cases he <;> (try simp [upd_apply] at *) <;> grind
  case toks =>
    intro i; have h1 := h.toks i
    clear h hk
    exec_cases he <;> (try simp [upd_apply] at *) <;> grind
  case zero =>
    intro i; have h1 := h.zero i
    clear h hk
    exec_cases he <;> (try simp [upd_apply] at *) <;> grind

theorem init_inv1 : Inv1 init [] := by
  constructor <;> simp [init, not_pending_nil]

theorem env_inv1 {s : St} {acts : List (List Instr)} (h : Inv1 s acts) {a : Act} {s' : St} {p : List Instr}
    (he : env s acts a = some (s', p)) : Inv1 s' (acts ++ [p]) := by
  constructor
  case wt =>
    intro y hy
    have h3 := h.wt y
    have h4 := fun i (hi : s.phase i = .fresh) => (h.fresh i hi).1
    have h5 := fun i t o => @mkObs_op i t o
    rw [pending_app] at hy
    clear h
    env_cases he <;> rcases hy with hy | hy <;> (try simp at hy) <;>
      first
      | (subst hy; simp [WT] at * <;> grind)
      | (cases y <;> simp [WT, upd_apply] at * <;> grind)
  case ctr =>
    intro i; have h1 := h.ctr i
    clear h
    env_cases he <;> simp [unit, upd_apply, mkObs_len] at * <;> grind
  case setv =>
    intro i; have h1 := h.setv i
    clear h
    env_cases he <;> simp [isSetv, upd_apply] at * <;> grind
  case ini =>
    intro i; have h1 := h.ini i; have h2 := h.fresh i
    clear h
    env_cases he <;> simp [initp, upd_apply] at * <;> grind
  case rone =>
    intro i; have h1 := h.rone i
    clear h
    env_cases he <;> simp [isRst] at * <;> grind
  case fresh =>
    intro i; have h1 := h.fresh i
    clear h
    env_cases he <;> (try simp [upd_apply] at *) <;> grind
  case toks =>
    intro i; have h1 := h.toks i
    clear h
    env_cases he <;> (try simp [upd_apply] at *) <;> grind
  case zero =>
    intro i; have h1 := h.zero i
    clear h
    env_cases he <;> (try simp [upd_apply] at *) <;> grind

theorem reach_inv1 {c : Conf mach} (h : Reach mach init c) : Inv1 c.sh c.acts :=
  Reach.inv (M := mach) (P := Inv1) init_inv1 (fun _ _ _ _ _ h he => env_inv1 h he)
    (fun _ _ _ _ _ _ _ _ h hk he => run_inv1 h hk he) h

end Verif.Suspend
