import Verif.Promise.Owner

/-! # Invariant of the promise object -/

namespace Verif.Promise.Owner

/-- What `set_value` has to do yet: one instruction at a time. -/
def wS : Instr → Nat
  | .setCS | .wakeCS | .disR false | .unrefP false | .freeP false | .disW false | .retS => 1
  | _ => 0

/-- What the destructor has to do yet. -/
def wD : Instr → Nat
  | .disR true | .unrefP true | .freeP true | .disW true | .kill => 1
  | _ => 0

def wG : Instr → Nat
  | .pref _ => 1
  | _ => 0

def wSC : Instr → Nat
  | .setCS => 1
  | _ => 0

def wWk : Instr → Nat
  | .wakeCS => 1
  | _ => 0

def wUn : Instr → Nat
  | .unrefP _ => 1
  | _ => 0

/-- The reference of the promise was given up, the pointer is not cleared yet. -/
def wW : Instr → Nat
  | .freeP _ | .disW _ => 1
  | _ => 0

def wE : Instr → Nat
  | .retS | .kill => 1
  | _ => 0

def wUF : Instr → Nat
  | .unrefF _ => 1
  | _ => 0

def wFr : Instr → Nat
  | .freeP _ | .freeF => 1
  | _ => 0

def wFP : Instr → Nat
  | .freeP _ => 1
  | _ => 0

def wFin : Instr → Nat
  | .fin _ => 1
  | _ => 0

def wOp (i : Id) : Instr → Nat
  | .start j | .fin j => if j = i then 1 else 0
  | _ => 0

def wRef (h : Hd) : Instr → Nat
  | .ref h' _ => if h' = h then 1 else 0
  | _ => 0

structure Inv (s : St) (acts : List (List Instr)) : Prop where
  tS : ws wS acts = s.inSet.toNat
  tD : ws wD acts = (s.dead && s.alive).toNat
  tG : ws wG acts = s.inGet.toNat
  ex : s.dead = true → s.inSet = false ∧ s.inGet = false
  exG : s.inGet = true → s.inSet = false
  al : s.alive = false → s.dead = true
  sc : 0 < ws wSC acts → s.ptr = true ∧ s.has = false
  wk : 0 < ws wWk acts → s.ptr = true ∧ s.has = true
  un : 0 < ws wUn acts → s.ptr = true
  fp : 0 < ws wFP acts → s.ptr = true
  en : 0 < ws wE acts → s.ptr = false
  kl : s.alive = false → s.ptr = false
  hv : s.called = true → s.ptr = false ∨ s.inSet = true
  hc : s.has = true → s.called = true
  np : s.ptr = false → s.called = true ∨ s.dead = true
  ic : s.inSet = true → s.called = true
  ctr : s.ctr = s.own.length + ws wUF acts + (if s.ptr = true ∧ ws wW acts = 0 then 1 else 0)
  fr : ws wFr acts + s.freed.toNat = if s.ctr = 0 then 1 else 0
  fin : 0 < ws wFin acts → s.has = true
  op : ∀ i, ws (wOp i) acts + s.queue.count i = s.out.countP (·.1 = i)
  one : ∀ i, s.out.countP (·.1 = i) ≤ if i ∈ s.ops then 1 else 0
  outs : ∀ o ∈ s.out, o.2 ∈ s.own
  rf : ∀ h, 0 < ws (wRef h) acts → h ∈ s.own
  log : s.log.count .free = s.freed.toNat

theorem tok (acts : List (List Instr)) :
    ws wSC acts + ws wWk acts + ws wUn acts + ws wW acts + ws wE acts ≤ ws wS acts + ws wD acts ∧
    ws wFP acts ≤ ws wW acts ∧ ws wFP acts ≤ ws wFr acts := by
  have hl : ∀ l : List Instr, wl wSC l + wl wWk l + wl wUn l + wl wW l + wl wE l ≤ wl wS l + wl wD l ∧
      wl wFP l ≤ wl wW l ∧ wl wFP l ≤ wl wFr l := by
    intro l
    induction l with
    | nil => simp
    | cons x l ih =>
      simp only [wl_cons]
      have : wSC x + wWk x + wUn x + wW x + wE x ≤ wS x + wD x ∧ wFP x ≤ wW x ∧ wFP x ≤ wFr x := by
        cases x with
        | disR d | unrefP d | freeP d | disW d => cases d <;> decide
        | _ => simp [wSC, wWk, wUn, wW, wE, wS, wD, wFP, wFr]
      omega
  induction acts with
  | nil => simp
  | cons a acts ih => simp only [ws_cons]; have := hl a; omega

theorem toNat_le (b : Bool) : b.toNat ≤ 1 := by cases b <;> simp

/-- The weights after an instruction. -/
structure Wt (acts acts' : List (List Instr)) (x : Instr) (p : List Instr) : Prop where
  S : ws wS acts' + wS x = ws wS acts + wl wS p
  D : ws wD acts' + wD x = ws wD acts + wl wD p
  G : ws wG acts' + wG x = ws wG acts + wl wG p
  SC : ws wSC acts' + wSC x = ws wSC acts + wl wSC p
  Wk : ws wWk acts' + wWk x = ws wWk acts + wl wWk p
  Un : ws wUn acts' + wUn x = ws wUn acts + wl wUn p
  W : ws wW acts' + wW x = ws wW acts + wl wW p
  E : ws wE acts' + wE x = ws wE acts + wl wE p
  UF : ws wUF acts' + wUF x = ws wUF acts + wl wUF p
  Fr : ws wFr acts' + wFr x = ws wFr acts + wl wFr p
  FP : ws wFP acts' + wFP x = ws wFP acts + wl wFP p
  Fin : ws wFin acts' + wFin x = ws wFin acts + wl wFin p
  Op : ∀ i, ws (wOp i) acts' + wOp i x = ws (wOp i) acts + wl (wOp i) p
  Rf : ∀ h, ws (wRef h) acts' + wRef h x = ws (wRef h) acts + wl (wRef h) p

theorem Wt.run {acts : List (List Instr)} {k : Nat} {x : Instr} {r p : List Instr} (hk : acts[k]? = some (x :: r)) :
    Wt acts (acts.set k (p ++ r)) x p := by
  constructor
  all_goals first | exact ws_set _ p hk | exact fun _ => ws_set _ p hk

theorem Inv.one_tok {s : St} {acts : List (List Instr)} (h : Inv s acts) :
    ws wS acts + ws wD acts ≤ 1 ∧ (0 < ws wS acts → s.inSet = true) ∧
    (0 < ws wD acts → s.dead = true ∧ s.alive = true) ∧ (0 < ws wG acts → s.inGet = true) ∧
    (s.freed = true → s.ctr = 0) := by
  have fr := h.fr
  obtain ⟨tS, tD, tG, ex, -⟩ := h
  rw [tS, tD, tG]
  refine ⟨?_, ?_, ?_, ?_, ?_⟩
  · cases hd : s.dead
    · have := toNat_le s.inSet; simp; omega
    · rw [(ex hd).1]; simp; exact toNat_le _
  · cases s.inSet <;> simp
  · cases s.dead <;> cases s.alive <;> simp
  · cases s.inGet <;> simp
  · intro hf; rw [hf] at fr; split at fr
    · assumption
    · simp at fr

set_option maxHeartbeats 2000000 in
theorem Inv.run {s s' : St} {acts : List (List Instr)} (h : Inv s acts) {k : Nat} {x : Instr} {r p : List Instr} {b : Bool}
    (hk : acts[k]? = some (x :: r)) (he : exec s x b = .ok s' p) : Inv s' (acts.set k (p ++ r)) := by
  have W := Wt.run (p := p) hk
  have T := tok acts
  have T' := tok (acts.set k (p ++ r))
  have pS := ws_pos (w := wS) hk
  have pD := ws_pos (w := wD) hk
  have pG := ws_pos (w := wG) hk
  have hT := h.one_tok
  clear hk
  generalize acts.set k (p ++ r) = acts' at *
  obtain ⟨S, D, G, SC, Wk, Un, W', E, UF, Fr, FP, Fn, Op, Rf⟩ := W
  obtain ⟨tS, tD, tG, ex, exG, al, sc, wk, un, fp, en, kl, hv, hc, np, ic, ctr, fr, fin, op, one, outs, rf, log⟩ := h
  simp only [exec] at he
  cases x with
  | setCS =>
    simp only at he
    split at he
    · rename_i hb
      simp at he hb; obtain ⟨rfl, rfl⟩ := he
      simp [wS, wD, wG, wSC, wWk, wUn, wW, wE, wUF, wFr, wFP, wFin, wOp, wRef] at pS pD pG S D G SC Wk Un W' E UF Fr FP Fn Op Rf
      constructor
      all_goals first | (simp only [S, D, G, SC, Wk, Un, W', E, UF, Fr, FP, Fn, Op, Rf]; assumption) | grind
    · simp at he
  | wakeCS =>
    simp only at he
    split at he
    · rename_i hb
      simp at he hb; obtain ⟨rfl, rfl⟩ := he
      have hz : ∀ (w : Instr → Nat), (∀ i, w (.fin i) = 0) → wl w (s.queue.map Instr.fin) = 0 := by
        intro w hw; apply wl_zero; intro x hx; simp at hx; obtain ⟨i, _, rfl⟩ := hx; exact hw i
      have ho : ∀ i, wl (wOp i) (s.queue.map Instr.fin) = s.queue.count i := by
        intro i
        generalize s.queue = q
        induction q with
        | nil => rfl
        | cons j q ih => simp only [List.map_cons, wl_cons, ih, wOp, List.count_cons]; simp; omega
      simp only [wl_append, ho] at S D G SC Wk Un W' E UF Fr FP Fn Op Rf
      rw [hz _ (by simp [wS])] at S
      rw [hz _ (by simp [wD])] at D
      rw [hz _ (by simp [wG])] at G
      rw [hz _ (by simp [wSC])] at SC
      rw [hz _ (by simp [wWk])] at Wk
      rw [hz _ (by simp [wUn])] at Un
      rw [hz _ (by simp [wW])] at W'
      rw [hz _ (by simp [wE])] at E
      rw [hz _ (by simp [wUF])] at UF
      rw [hz _ (by simp [wFr])] at Fr
      rw [hz _ (by simp [wFP])] at FP
      simp only [hz _ (show ∀ i, wRef _ (.fin i) = 0 by simp [wRef])] at Rf
      clear Fn
      simp [wS, wD, wG, wSC, wWk, wUn, wW, wE, wUF, wFr, wFP, wOp, wRef] at pS pD pG S D G SC Wk Un W' E UF Fr FP Op Rf
      constructor
      all_goals first | (simp only [S, D, G, SC, Wk, Un, W', E, UF, Fr, FP, Op, Rf]; assumption) | grind
    · simp at he
  | disR d =>
    simp only at he
    split at he
    · rename_i hb
      simp at he hb; obtain ⟨rfl, rfl⟩ := he
      cases hp : s.ptr <;> cases d <;>
      simp [hp, wS, wD, wG, wSC, wWk, wUn, wW, wE, wUF, wFr, wFP, wFin, wOp, wRef] at pS pD pG S D G SC Wk Un W' E UF Fr FP Fn Op Rf <;>
      constructor
      all_goals first | (simp only [S, D, G, SC, Wk, Un, W', E, UF, Fr, FP, Fn, Op, Rf]; assumption) | grind
    · simp at he
  | unrefP d =>
    simp only at he
    split at he
    · simp at he
    · rename_i hb
      simp at he hb; obtain ⟨rfl, rfl⟩ := he
      by_cases hz : s.ctr - 1 = 0 <;> cases d <;>
      simp [hz, wS, wD, wG, wSC, wWk, wUn, wW, wE, wUF, wFr, wFP, wFin, wOp, wRef] at pS pD pG S D G SC Wk Un W' E UF Fr FP Fn Op Rf <;>
      constructor
      all_goals first | (simp only [S, D, G, SC, Wk, Un, W', E, UF, Fr, FP, Fn, Op, Rf]; assumption) | grind
  | freeP d =>
    simp only at he
    split at he
    · rename_i hb
      simp at he hb; obtain ⟨rfl, rfl⟩ := he
      cases d <;>
      simp [wS, wD, wG, wSC, wWk, wUn, wW, wE, wUF, wFr, wFP, wFin, wOp, wRef] at pS pD pG S D G SC Wk Un W' E UF Fr FP Fn Op Rf <;>
      constructor
      all_goals first | (simp only [S, D, G, SC, Wk, Un, W', E, UF, Fr, FP, Fn, Op, Rf]; assumption) | grind
    · simp at he
  | disW d =>
    simp only at he
    split at he
    · rename_i hb
      simp at he hb; obtain ⟨rfl, rfl⟩ := he
      cases d <;>
      simp [wS, wD, wG, wSC, wWk, wUn, wW, wE, wUF, wFr, wFP, wFin, wOp, wRef] at pS pD pG S D G SC Wk Un W' E UF Fr FP Fn Op Rf <;>
      constructor
      all_goals first | (simp only [S, D, G, SC, Wk, Un, W', E, UF, Fr, FP, Fn, Op, Rf]; assumption) | grind
    · simp at he
  | retS =>
    simp at he; obtain ⟨rfl, rfl⟩ := he
    simp [wS, wD, wG, wSC, wWk, wUn, wW, wE, wUF, wFr, wFP, wFin, wOp, wRef] at pS pD pG S D G SC Wk Un W' E UF Fr FP Fn Op Rf
    constructor
    all_goals first | (simp only [S, D, G, SC, Wk, Un, W', E, UF, Fr, FP, Fn, Op, Rf]; assumption) | grind
  | kill =>
    simp at he; obtain ⟨rfl, rfl⟩ := he
    simp [wS, wD, wG, wSC, wWk, wUn, wW, wE, wUF, wFr, wFP, wFin, wOp, wRef] at pS pD pG S D G SC Wk Un W' E UF Fr FP Fn Op Rf
    constructor
    all_goals first | (simp only [S, D, G, SC, Wk, Un, W', E, UF, Fr, FP, Fn, Op, Rf]; assumption) | grind
  | pref g =>
    simp only at he
    split at he
    · split at he
      · split at he
        · simp at he
        · simp at he; obtain ⟨rfl, rfl⟩ := he
          simp [wS, wD, wG, wSC, wWk, wUn, wW, wE, wUF, wFr, wFP, wFin, wOp, wRef] at pS pD pG S D G SC Wk Un W' E UF Fr FP Fn Op Rf
          constructor
          all_goals first | (simp only [S, D, G, SC, Wk, Un, W', E, UF, Fr, FP, Fn, Op, Rf]; assumption) | grind
      · simp at he; obtain ⟨rfl, rfl⟩ := he
        simp [wS, wD, wG, wSC, wWk, wUn, wW, wE, wUF, wFr, wFP, wFin, wOp, wRef] at pS pD pG S D G SC Wk Un W' E UF Fr FP Fn Op Rf
        constructor
        all_goals first | (simp only [S, D, G, SC, Wk, Un, W', E, UF, Fr, FP, Fn, Op, Rf]; assumption) | grind
    · simp at he
  | ref h g =>
    simp only at he
    split at he
    · simp at he
    · simp at he; obtain ⟨rfl, rfl⟩ := he
      have pR := Rf h
      simp [wS, wD, wG, wSC, wWk, wUn, wW, wE, wUF, wFr, wFP, wFin, wOp, wRef] at pS pD pG S D G SC Wk Un W' E UF Fr FP Fn Op Rf pR
      have hm : h ∈ s.own := rf h (by omega)
      have := List.length_pos_of_mem hm
      constructor
      all_goals first | (simp only [S, D, G, SC, Wk, Un, W', E, UF, Fr, FP, Fn, Op, Rf]; assumption) | grind
  | unrefF h =>
    simp only at he
    split at he
    · simp at he
    · simp at he; obtain ⟨rfl, rfl⟩ := he
      by_cases hz : s.ctr - 1 = 0 <;>
      simp [hz, wS, wD, wG, wSC, wWk, wUn, wW, wE, wUF, wFr, wFP, wFin, wOp, wRef] at pS pD pG S D G SC Wk Un W' E UF Fr FP Fn Op Rf <;>
      constructor
      all_goals first | (simp only [S, D, G, SC, Wk, Un, W', E, UF, Fr, FP, Fn, Op, Rf]; assumption) | grind
  | freeF =>
    simp only at he
    split at he
    · rename_i hb
      simp at he hb; obtain ⟨rfl, rfl⟩ := he
      simp [wS, wD, wG, wSC, wWk, wUn, wW, wE, wUF, wFr, wFP, wFin, wOp, wRef] at pS pD pG S D G SC Wk Un W' E UF Fr FP Fn Op Rf
      constructor
      all_goals first | (simp only [S, D, G, SC, Wk, Un, W', E, UF, Fr, FP, Fn, Op, Rf]; assumption) | grind
    · simp at he
  | start i =>
    simp only at he
    split at he
    · simp at he
    · split at he <;> simp at he <;> obtain ⟨rfl, rfl⟩ := he <;>
      simp [wS, wD, wG, wSC, wWk, wUn, wW, wE, wUF, wFr, wFP, wFin, wOp, wRef] at pS pD pG S D G SC Wk Un W' E UF Fr FP Fn Op Rf <;>
      constructor
      all_goals first | (simp only [S, D, G, SC, Wk, Un, W', E, UF, Fr, FP, Fn, Op, Rf]; assumption) | grind
  | fin i =>
    simp only at he
    split at he
    · simp at he
    · simp at he; obtain ⟨rfl, rfl⟩ := he
      simp [wS, wD, wG, wSC, wWk, wUn, wW, wE, wUF, wFr, wFP, wFin, wOp, wRef] at pS pD pG S D G SC Wk Un W' E UF Fr FP Fn Op Rf
      have hc1 : ∀ j, (s.out.filter (·.1 ≠ i)).countP (·.1 = j) = if j = i then 0 else s.out.countP (·.1 = j) := by
        intro j
        rw [List.countP_filter]
        split
        · rename_i e; subst e
          rw [List.countP_eq_zero]; simp
        · rename_i e
          apply List.countP_congr; intro o _; simp; intro h1; rw [h1]; exact e
      constructor
      case op =>
        intro j
        simp only [ne_eq, decide_not] at hc1 ⊢
        have h1 := hc1 j; have h2 := Op j; have h3 := op j; have h4 := one j; have h5 := op i; have h6 := one i; have h7 := Op i
        by_cases e : i = j
        · subst e; rw [if_pos rfl] at h1 h2; split at h4 <;> omega
        · have e' : ¬ j = i := fun h => e h.symm
          simp only [e, e', if_false] at h1 h2 ⊢; omega
      case one =>
        intro j
        have h1 := hc1 j; have h2 := one j
        simp only [ne_eq, decide_not] at h1 ⊢
        rw [h1]; split <;> omega
      case outs => intro o ho; exact outs o (List.mem_filter.1 ho).1
      all_goals first | (simp only [S, D, G, SC, Wk, Un, W', E, UF, Fr, FP, Fn, Op, Rf]; assumption) | grind

end Verif.Promise.Owner
