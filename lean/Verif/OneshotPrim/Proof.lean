import Verif.OneshotPrim.Model
import Verif.Weights
import Verif.Termination

/-! # Invariant of `oneshot_primitive` -/

namespace Verif.OneshotPrim

/-- `l` is the list that starts at `p`. -/
def Chain (next : Id → Ptr) : Ptr → List Id → Prop
  | p, [] => p = .null
  | p, i :: l => p = .node i ∧ Chain next (next i) l

theorem chain_upd {next : Id → Ptr} {p : Ptr} {l : List Id} {i : Id} {v : Ptr} (hi : l.count i = 0)
    (h : Chain next p l) : Chain (upd next i v) p l := by
  induction l generalizing p with
  | nil => exact h
  | cons j l ih =>
    have hj : j ≠ i := by rintro rfl; simp at hi
    refine ⟨h.1, ?_⟩
    rw [upd_ne _ _ hj]
    exact ih (by rw [List.count_cons_of_ne hj] at hi; exact hi) h.2

/-- The operations that an instruction is about to serve. -/
def ops : Instr → List Id
  | .start i | .loop i _ | .setv i | .complete i _ => [i]
  | .raise | .walk _ => []

def isRaise : Instr → Nat
  | .raise => 1
  | _ => 0

def isWalk : Instr → Nat
  | .walk _ | .complete _ _ => 1
  | _ => 0

/-- The remaining list of the loop in `raise()`. -/
def rest : Instr → Option Ptr
  | .walk p => some p
  | .complete _ q => some q
  | _ => none

/-- The instruction has seen that the event fired. -/
def sawFired : Instr → Bool
  | .setv _ => true
  | .loop _ .fired => true
  | _ => false

def isBegin : Ev → Option Id
  | .begin i => some i
  | _ => none

def isDone : Ev → Option Id
  | .done i => some i
  | _ => none

def begun (log : List Ev) : List Id := log.filterMap isBegin
def dones (log : List Ev) : List Id := log.filterMap isDone

structure Inv (s : St) (acts : List (List Instr)) (l : List Id) : Prop where
  place : ∀ q : Id → Bool, ws (cw ops q) acts + l.countP q + (dones s.log).countP q = (begun s.log).countP q
  once : ∀ i, (begun s.log).count i = if s.started i then 1 else 0
  gone : ∀ i, (dones s.log).count i = if s.gone i then 1 else 0
  calls : ws isRaise acts + s.log.count .raise = if s.called then 1 else 0
  raised : s.log.count .raise = if s.head = .fired then 1 else 0
  walks : ws isWalk acts + s.log.count .ret = s.log.count .raise
  chain : s.head ≠ .fired → Chain s.next s.head l
  wchain : ∀ x p, Pending acts x → rest x = some p → Chain s.next p l
  wend : s.head = .fired → ws isWalk acts = 0 → l = []
  saw : ∀ x, Pending acts x → sawFired x = true → s.head = .fired
  pushed : ∀ i, .push i ∈ s.log → i ∈ l ∨ i ∈ dones s.log ∨ ∃ p, Pending acts (.complete i p)
  hist : Hist (fun before v => ∀ i, v = .done i → .raise ∈ before) s.log

theorem init_inv : Inv init [] [] where
  place := by intro q; rfl
  once := by intro q; rfl
  gone := by intro q; rfl
  calls := by rfl
  raised := by rfl
  walks := by rfl
  chain := by intro _; rfl
  wchain := by rintro x p ⟨_, h, _⟩; simp at h
  wend := by intro _ _; rfl
  saw := by rintro x ⟨_, h, _⟩; simp at h
  pushed := by intro i h; simp [init] at h
  hist := Hist.nil

theorem env_inv {s : St} {acts : List (List Instr)} {l : List Id} (h : Inv s acts l) {a : Act} {s' : St}
    {p : List Instr} (he : env s acts a = some (s', p)) : Inv s' (acts ++ [p]) l := by
  cases a with
  | start i =>
    simp only [env] at he
    split at he
    · simp at he
    rename_i hs
    simp at he; obtain ⟨rfl, rfl⟩ := he
    constructor
    case place =>
      intro q; have := h.place q
      rw [cw_app]; simp [begun, dones, List.filterMap_append, List.filterMap_cons, isBegin, isDone, ops] at this ⊢; omega
    case once =>
      intro j; have := h.once j
      simp [begun, List.filterMap_append, List.filterMap_cons, isBegin, upd_apply] at this ⊢
      grind
    case gone => intro j; have := h.gone j; simpa [dones, List.filterMap_append, List.filterMap_cons, isDone] using this
    case calls => have := h.calls; simpa [isRaise] using this
    case raised => have := h.raised; simpa using this
    case walks => have := h.walks; simpa [isWalk] using this
    case chain => exact h.chain
    case wchain =>
      intro x p hx hp
      rcases pending_append hx with hx | hx
      · simp at hx; subst hx; simp [rest] at hp
      · exact h.wchain x p hx hp
    case wend => intro h1 h2; exact h.wend h1 (by simpa [isWalk] using h2)
    case saw =>
      intro x hx hp
      rcases pending_append hx with hx | hx
      · simp at hx; subst hx; simp [sawFired] at hp
      · exact h.saw x hx hp
    case pushed =>
      intro j hj
      simp at hj
      rcases h.pushed j hj with h1 | h1 | ⟨p, a, h1, h2⟩
      · exact .inl h1
      · right; left; simpa [dones, List.filterMap_append, List.filterMap_cons, isDone] using h1
      · exact .inr (.inr ⟨p, a, by simp [h1], h2⟩)
    case hist => simp [h.hist]
  | raise =>
    simp only [env] at he
    split at he
    · simp at he
    rename_i hs
    simp at he; obtain ⟨rfl, rfl⟩ := he
    constructor
    case place =>
      intro q; have := h.place q
      rw [cw_app]; simp [begun, dones, List.filterMap_append, List.filterMap_cons, isBegin, isDone, ops] at this ⊢; omega
    case once => intro j; have := h.once j; simpa [begun, List.filterMap_append, List.filterMap_cons, isBegin] using this
    case gone => intro j; have := h.gone j; simpa [dones, List.filterMap_append, List.filterMap_cons, isDone] using this
    case calls => have := h.calls; simp [isRaise, hs] at this ⊢; omega
    case raised => have := h.raised; simpa using this
    case walks => have := h.walks; simpa [isWalk] using this
    case chain => exact h.chain
    case wchain =>
      intro x p hx hp
      rcases pending_append hx with hx | hx
      · simp at hx; subst hx; simp [rest] at hp
      · exact h.wchain x p hx hp
    case wend => intro h1 h2; exact h.wend h1 (by simpa [isWalk] using h2)
    case saw =>
      intro x hx hp
      rcases pending_append hx with hx | hx
      · simp at hx; subst hx; simp [sawFired] at hp
      · exact h.saw x hx hp
    case pushed =>
      intro j hj
      simp at hj
      rcases h.pushed j hj with h1 | h1 | ⟨p, a, h1, h2⟩
      · exact .inl h1
      · right; left; simpa [dones, List.filterMap_append, List.filterMap_cons, isDone] using h1
      · exact .inr (.inr ⟨p, a, by simp [h1], h2⟩)
    case hist => simp [h.hist]

/-- A pending instruction stays pending unless it is the one that is executed. -/
theorem pending_keep {acts : List (List Instr)} {k : Nat} {x y : Instr} {r p : List Instr}
    (hk : acts[k]? = some (x :: r)) (hy : Pending acts y) (hne : y ≠ x) :
    Pending (acts.set k (p ++ r)) y := by
  obtain ⟨a, ha, hya⟩ := hy
  obtain ⟨n, hn, e⟩ := List.getElem_of_mem ha
  by_cases hnk : n = k
  · subst hnk
    rw [List.getElem?_eq_getElem hn, e] at hk
    simp at hk; subst hk
    have : y ∈ r := by simpa [hne] using hya
    exact ⟨p ++ r, List.mem_set hn _, by simp [this]⟩
  · refine ⟨a, ?_, hya⟩
    rw [← e]
    exact List.mem_iff_getElem.2 ⟨n, by simpa using hn, by simp [Ne.symm hnk]⟩

theorem pend_count {acts : List (List Instr)} {x : Instr} (h : Pending acts x) {i : Id} (hi : i ∈ ops x) :
    0 < ws (cw ops (· == i)) acts := by
  obtain ⟨a, ha, hx⟩ := h
  have := ws_pos_of_mem (w := cw ops (· == i)) ha hx
  have : 0 < cw ops (· == i) x := by
    unfold cw; exact List.countP_pos_iff.2 ⟨i, hi, by simp⟩
  omega

/-- An operation that some instruction serves is not in the list and not completed. -/
theorem Inv.served {s : St} {acts : List (List Instr)} {l : List Id} (h : Inv s acts l) {x : Instr}
    (hx : Pending acts x) {i : Id} (hi : i ∈ ops x) :
    l.count i = 0 ∧ (dones s.log).count i = 0 ∧ s.gone i = false := by
  have h1 := pend_count hx hi
  have h2 := h.place (· == i)
  have h3 := h.once i
  have h4 := h.gone i
  simp only [List.count] at h3 h4 ⊢
  have : (begun s.log).countP (· == i) ≤ 1 := by rw [h3]; split <;> omega
  refine ⟨by omega, by omega, ?_⟩
  cases hg : s.gone i with
  | false => rfl
  | true => simp [hg] at h4; omega

/-- Instructions that change neither the list nor the history. -/
theorem Inv.quiet {s s' : St} {acts : List (List Instr)} {l : List Id} (h : Inv s acts l) {k : Nat}
    {x : Instr} {r p : List Instr} (hk : acts[k]? = some (x :: r))
    (e1 : s'.log = s.log) (e2 : s'.started = s.started) (e3 : s'.gone = s.gone) (e4 : s'.called = s.called)
    (e5 : s'.head = s.head)
    (hops : p.flatMap ops = ops x) (hr : wl isRaise p = isRaise x) (hw : wl isWalk p = isWalk x)
    (hc : ∀ q, Chain s.next q l → Chain s'.next q l)
    (hrest : ∀ y ∈ p, ∀ q, rest y = some q → Chain s'.next q l)
    (hsaw : ∀ y ∈ p, sawFired y = true → s.head = .fired)
    (hx : ∀ i q, x ≠ .complete i q) : Inv s' (acts.set k (p ++ r)) l := by
  constructor
  case place =>
    intro q; have := h.place q; have e := cw_set ops q p hk
    rw [hops] at e; rw [e1]; omega
  case once => rw [e1, e2]; exact h.once
  case gone => rw [e1, e3]; exact h.gone
  case calls => rw [e1, e4]; have := h.calls; have e := ws_set isRaise p hk; omega
  case raised => rw [e1, e5]; exact h.raised
  case walks => rw [e1]; have := h.walks; have e := ws_set isWalk p hk; omega
  case chain => rw [e5]; intro h1; exact hc _ (h.chain h1)
  case wchain =>
    intro y q hy hq
    rcases pending_set hk hy with h1 | h1
    · exact hrest y h1 q hq
    · exact hc _ (h.wchain y q h1 hq)
  case wend =>
    rw [e5]; intro h1 h2; have e := ws_set isWalk p hk; exact h.wend h1 (by omega)
  case saw =>
    rw [e5]; intro y hy hq
    rcases pending_set hk hy with h1 | h1
    · exact hsaw y h1 hq
    · exact h.saw y h1 hq
  case pushed =>
    rw [e1]; intro i hi
    rcases h.pushed i hi with h1 | h1 | ⟨q, h1⟩
    · exact .inl h1
    · exact .inr (.inl h1)
    · exact .inr (.inr ⟨q, pending_keep hk h1 (fun e => hx i q e.symm)⟩)
  case hist => rw [e1]; exact h.hist

/-- Completion of an operation. -/
theorem Inv.finish {s : St} {acts : List (List Instr)} {l : List Id} (h : Inv s acts l) {k : Nat}
    {x : Instr} {r p : List Instr} (hk : acts[k]? = some (x :: r)) {i : Id}
    (hops : ops x = [i]) (hp : p.flatMap ops = []) (hr : wl isRaise p = isRaise x) (hw : wl isWalk p = isWalk x)
    (hrest : ∀ y ∈ p, ∀ q, rest y = some q → rest x = some q)
    (hsaw : ∀ y ∈ p, sawFired y = false)
    (hx : ∀ j q, x = .complete j q → j = i)
    (hf : .raise ∈ s.log) :
    Inv { s with gone := upd s.gone i true, log := s.log ++ [.done i] } (acts.set k (p ++ r)) l := by
  have hs := h.served (pending_top hk) (i := i) (by simp [hops])
  have hd : dones (s.log ++ [.done i]) = dones s.log ++ [i] := by simp [dones, List.filterMap_append, List.filterMap_cons, isDone]
  have hb : begun (s.log ++ [.done i]) = begun s.log := by simp [begun, List.filterMap_append, List.filterMap_cons, isBegin]
  constructor
  case place =>
    intro q; have := h.place q; have e := cw_set ops q p hk
    rw [hp, hops] at e
    simp only [hd, hb, List.countP_append]; simp only [List.countP_nil] at e; omega
  case once => simp only [hb]; exact h.once
  case gone =>
    intro j; have := h.gone j
    simp only [hd, List.count_append, upd_apply]
    by_cases hj : j = i
    · subst hj; simp [hs.2.1]
    · rw [this]; simp [hj, Ne.symm hj]
  case calls => have := h.calls; have e := ws_set isRaise p hk; simp; omega
  case raised => have := h.raised; simpa using this
  case walks => have := h.walks; have e := ws_set isWalk p hk; simp; omega
  case chain => exact h.chain
  case wchain =>
    intro y q hy hq
    rcases pending_set hk hy with h1 | h1
    · exact h.wchain x q (pending_top hk) (hrest y h1 q hq)
    · exact h.wchain y q h1 hq
  case wend =>
    intro h1 h2; have e := ws_set isWalk p hk; exact h.wend h1 (by omega)
  case saw =>
    intro y hy hq
    rcases pending_set hk hy with h1 | h1
    · rw [hsaw y h1] at hq; simp at hq
    · exact h.saw y h1 hq
  case pushed =>
    intro j hj
    simp only [hd]
    simp at hj
    rcases h.pushed j hj with h1 | h1 | ⟨q, h1⟩
    · exact .inl h1
    · right; left; simp [h1]
    · by_cases hc : .complete j q = x
      · have := hx j q hc.symm; subst this; right; left; simp
      · exact .inr (.inr ⟨q, pending_keep hk h1 hc⟩)
  case hist => simp only [Hist.snoc]; exact ⟨h.hist, fun _ _ => hf⟩

theorem Inv.mem_raise {s : St} {acts : List (List Instr)} {l : List Id} (h : Inv s acts l)
    (hf : s.head = .fired) : .raise ∈ s.log := by
  have := h.raised; rw [if_pos hf] at this
  exact List.count_pos_iff.1 (by omega)

theorem Inv.walk_fired {s : St} {acts : List (List Instr)} {l : List Id} (h : Inv s acts l)
    (hw : 0 < ws isWalk acts) : s.head = .fired := by
  have h1 := h.raised; have h2 := h.walks
  by_cases hf : s.head = .fired
  · exact hf
  · rw [if_neg hf] at h1; omega

/-- The list after an instruction. -/
def listAfter (s : St) (b : Bool) (l : List Id) : Instr → List Id
  | .loop i cur => if cur ≠ .fired ∧ s.head = cur ∧ b then i :: l else l
  | .walk _ => l.tail
  | _ => l

theorem run_list {s : St} {acts : List (List Instr)} {l : List Id} (h : Inv s acts l) {k : Nat} {x : Instr}
    {r p : List Instr} (hk : acts[k]? = some (x :: r)) {b : Bool} {s' : St}
    (he : exec s x b = .ok s' p) : Inv s' (acts.set k (p ++ r)) (listAfter s b l x) := by
  have hpend := pending_top hk
  cases x with
  | start i =>
    simp [exec] at he; obtain ⟨rfl, rfl⟩ := he
    refine h.quiet hk rfl rfl rfl rfl rfl rfl rfl rfl (fun _ hq => hq) (by simp [rest]) ?_ (by simp)
    intro y hy; simp at hy; subst hy
    cases hh : s.head <;> simp [sawFired]
  | loop i cur =>
    simp only [exec] at he
    have hs := h.served hpend (i := i) (by simp [ops])
    split at he
    · rename_i hcur; subst hcur
      simp at he; obtain ⟨rfl, rfl⟩ := he
      rw [show listAfter s b l (.loop i .fired) = l by simp [listAfter]]
      refine h.quiet hk rfl rfl rfl rfl rfl rfl rfl rfl (fun _ hq => hq) (by simp [rest]) ?_ (by simp)
      intro y hy _; exact h.saw _ hpend rfl
    split at he
    · simp at he
    split at he
    · rename_i hcur _ hb
      simp at he; obtain ⟨rfl, rfl⟩ := he
      have hnf : s.head ≠ .fired := by rw [hb.1]; exact hcur
      have hnw : ws isWalk acts = 0 := by
        have := h.raised; have := h.walks; simp [hnf] at *; omega
      have hd : dones (s.log ++ [.push i]) = dones s.log := by simp [dones, List.filterMap_append, List.filterMap_cons, isDone]
      have hbg : begun (s.log ++ [.push i]) = begun s.log := by simp [begun, List.filterMap_append, List.filterMap_cons, isBegin]
      have hws : ∀ y p, Pending acts y → rest y = some p → False := by
        rintro y p ⟨a, ha, hy⟩ hp
        have := ws_pos_of_mem (w := isWalk) ha hy
        cases y <;> simp [rest] at hp <;> simp [isWalk] at this <;> omega
      have e0 := ws_set isWalk [] hk
      simp only [wl_nil, isWalk] at e0
      rw [show listAfter s b l (.loop i cur) = i :: l by simp [listAfter, hb, hcur]]
      constructor
      case place =>
        intro q; have := h.place q; have e := cw_set ops q [] hk
        simp [ops] at e
        simp only [hd, hbg, List.countP_cons, List.nil_append]; omega
      case once => simp only [hbg]; exact h.once
      case gone => simp only [hd]; exact h.gone
      case calls =>
        have := h.calls; have e := ws_set isRaise [] hk; simp [isRaise] at e ⊢; simp [e, this]
      case raised => have := h.raised; simp [hnf] at this; simp [this]
      case walks => have := h.walks; simp; simp at e0; omega
      case chain => intro _; exact ⟨rfl, by show Chain _ (upd s.next i cur i) l; rw [upd_same, ← hb.1]; exact chain_upd hs.1 (h.chain hnf)⟩
      case wchain =>
        intro y q hy hq
        rcases pending_set hk hy with h1 | h1
        · simp at h1
        · exact absurd hq (fun hq => hws y q h1 hq)
      case wend => intro h1; simp at h1
      case saw =>
        intro y hy hq
        rcases pending_set hk hy with h1 | h1
        · simp at h1
        · exact absurd (h.saw y h1 hq) hnf
      case pushed =>
        intro j hj
        simp only [hd]
        simp at hj
        rcases hj with hj | hj
        · rcases h.pushed j hj with h1 | h1 | ⟨q, h1⟩
          · left; simp [h1]
          · exact .inr (.inl h1)
          · exact (hws _ _ h1 rfl).elim
        · left; simp [hj]
      case hist => simp [h.hist]
    · rename_i hb
      simp at he; obtain ⟨rfl, rfl⟩ := he
      rw [show listAfter s b l (.loop i cur) = l from if_neg fun h => hb h.2]
      refine h.quiet hk rfl rfl rfl rfl rfl rfl rfl rfl (fun _ hq => chain_upd hs.1 hq) (by simp [rest]) ?_ (by simp)
      intro y hy; simp at hy; subst hy
      cases hh : s.head <;> simp [sawFired]
  | setv i =>
    simp only [exec, St.finish] at he
    split at he
    · simp at he
    simp at he; obtain ⟨rfl, rfl⟩ := he
    exact h.finish hk rfl rfl rfl rfl (by simp) (by simp) (by simp) (h.mem_raise (h.saw _ hpend rfl))
  | raise =>
    simp only [exec] at he
    split at he
    · simp at he
    rename_i hnf
    simp at he; obtain ⟨rfl, rfl⟩ := he
    have hd : dones (s.log ++ [.raise]) = dones s.log := by simp [dones, List.filterMap_append, List.filterMap_cons, isDone]
    have hbg : begun (s.log ++ [.raise]) = begun s.log := by simp [begun, List.filterMap_append, List.filterMap_cons, isBegin]
    have e0 := ws_set isWalk [.walk s.head] hk
    simp [isWalk] at e0
    have hr0 : s.log.count .raise = 0 := by have := h.raised; simp [hnf] at this; simpa using this
    have hws : ∀ y p, Pending acts y → rest y = some p → False := by
      rintro y p ⟨a, ha, hy⟩ hp
      have := ws_pos_of_mem (w := isWalk) ha hy
      have := h.walks
      cases y <;> simp [rest] at hp <;> simp [isWalk] at * <;> omega
    show Inv _ _ l
    constructor
    case place =>
      intro q; have := h.place q; have e := cw_set ops q [.walk s.head] hk
      simp [ops] at e
      simp only [hd, hbg, List.cons_append, List.nil_append]; omega
    case once => simp only [hbg]; exact h.once
    case gone => simp only [hd]; exact h.gone
    case calls =>
      have := h.calls; have e := ws_set isRaise [.walk s.head] hk; simp [isRaise] at e ⊢; omega
    case raised => simp [hr0]
    case walks => have := h.walks; simp; omega
    case chain => intro h1; simp at h1
    case wchain =>
      intro y q hy hq
      rcases pending_set hk hy with h1 | h1
      · simp at h1; subst h1; simp [rest] at hq; subst hq; exact h.chain hnf
      · exact absurd hq (fun hq => hws y q h1 hq)
    case wend => intro _ h2; simp at h2; omega
    case saw => intro _ _ _; rfl
    case pushed =>
      intro j hj
      simp only [hd]
      simp at hj
      rcases h.pushed j hj with h1 | h1 | ⟨q, h1⟩
      · exact .inl h1
      · exact .inr (.inl h1)
      · exact (hws _ _ h1 rfl).elim
    case hist => simp [h.hist]
  | walk q =>
    have hq := h.wchain _ q hpend rfl
    have hfired : s.head = .fired := h.walk_fired (by have := ws_pos (w := isWalk) hk; simp [isWalk] at this; omega)
    cases q with
    | fired => simp [exec] at he
    | null =>
      simp [exec] at he; obtain ⟨rfl, rfl⟩ := he
      have hl : l = [] := by cases l with
        | nil => rfl
        | cons j l => simp [Chain] at hq
      subst hl
      have hd : dones (s.log ++ [.ret]) = dones s.log := by simp [dones, List.filterMap_append, List.filterMap_cons, isDone]
      have hbg : begun (s.log ++ [.ret]) = begun s.log := by simp [begun, List.filterMap_append, List.filterMap_cons, isBegin]
      have e0 := ws_set isWalk [] hk
      simp [isWalk] at e0
      show Inv _ _ []
      constructor
      case place =>
        intro q; have := h.place q; have e := cw_set ops q [] hk
        simp [ops] at e
        simp only [hd, hbg, List.nil_append]; omega
      case once => simp only [hbg]; exact h.once
      case gone => simp only [hd]; exact h.gone
      case calls =>
        have := h.calls; have e := ws_set isRaise [] hk; simp [isRaise] at e ⊢; simp [e, this]
      case raised => have := h.raised; simpa using this
      case walks => have := h.walks; simp; omega
      case chain => intro h1; exact absurd hfired h1
      case wchain =>
        intro y q hy hq
        rcases pending_set hk hy with h1 | h1
        · simp at h1
        · exact h.wchain y q h1 hq
      case wend => intro _ _; rfl
      case saw => intro _ _ _; exact hfired
      case pushed =>
        intro j hj
        simp only [hd]
        simp at hj
        rcases h.pushed j hj with h1 | h1 | ⟨q, h1⟩
        · exact .inl h1
        · exact .inr (.inl h1)
        · exact .inr (.inr ⟨q, pending_keep hk h1 (by simp)⟩)
      case hist => simp [h.hist]
    | node i =>
      simp only [exec] at he
      split at he
      · simp at he
      simp at he; obtain ⟨rfl, rfl⟩ := he
      cases l with
      | nil => simp [Chain] at hq
      | cons j l =>
        obtain ⟨hj, hq⟩ := hq
        simp at hj; subst hj
        have e0 := ws_set isWalk [.complete i (s.next i)] hk
        simp [isWalk] at e0
        have hone : ws isWalk acts ≤ 1 := by
          have := h.walks; have := h.raised; rw [if_pos hfired] at this; omega
        have hother : ∀ y q, Pending (acts.set k ([.complete i (s.next i)] ++ r)) y → rest y = some q →
            q = s.next i := by
          intro y q hy hq
          obtain ⟨a, ha, hya⟩ := hy
          have h5 : Pending (acts.set k ([.complete i (s.next i)] ++ r)) y := ⟨a, ha, hya⟩
          -- the only walking instruction is the new one
          by_cases hyx : y = .complete i (s.next i)
          · subst hyx; simp [rest] at hq; exact hq.symm
          · exfalso
            let w : Instr → Nat := fun z => if z = y then 1 else 0
            let v : Instr → Nat := fun z => if z = .complete i (s.next i) then 1 else 0
            have hle : ∀ z, w z + v z ≤ isWalk z := by
              intro z
              simp only [w, v]
              by_cases hz : z = y
              · subst hz
                rw [if_pos rfl, if_neg hyx]
                cases z <;> simp [rest] at hq <;> simp [isWalk]
              · rw [if_neg hz]
                by_cases hz2 : z = .complete i (s.next i)
                · subst hz2; simp [isWalk]
                · rw [if_neg hz2]; omega
            have g1 := ws_mono hle (acts.set k ([.complete i (s.next i)] ++ r))
            have g2 := ws_add (w := fun z => w z + v z) (w' := w) (w'' := v) (fun _ => rfl)
              (acts.set k ([.complete i (s.next i)] ++ r))
            have g3 := ws_pos_of_mem (w := w) ha hya
            have hmem : [Instr.complete i (s.next i)] ++ r ∈ acts.set k ([.complete i (s.next i)] ++ r) := by
              have hlt : k < acts.length := by
                rw [List.getElem?_eq_some_iff] at hk; exact hk.1
              exact List.mem_set hlt _
            have g4 := ws_pos_of_mem (w := v) (x := .complete i (s.next i)) hmem (by simp)
            simp only [w, v, if_true] at g3 g4
            simp only [w, v] at g1 g2
            simp only [List.cons_append, List.nil_append] at *
            omega
        show Inv _ _ l
        constructor
        case place =>
          intro q; have := h.place q; have e := cw_set ops q [.complete i (s.next i)] hk
          simp [ops, List.countP_cons] at e this ⊢
          omega
        case once => exact h.once
        case gone => exact h.gone
        case calls =>
          have := h.calls; have e := ws_set isRaise [.complete i (s.next i)] hk; simp [isRaise] at e ⊢; simp [e, this]
        case raised => exact h.raised
        case walks => have := h.walks; simp; omega
        case chain => intro h1; exact absurd hfired h1
        case wchain =>
          intro y q hy hq'
          rw [hother y q hy hq']; exact hq
        case wend => intro _ h2; have := ws_pos (w := isWalk) hk; simp [isWalk] at this h2; omega
        case saw => intro _ _ _; exact hfired
        case pushed =>
          intro j hj
          rcases h.pushed j hj with h1 | h1 | ⟨q, h1⟩
          · rcases List.mem_cons.1 h1 with rfl | h1
            · right; right
              have hlt : k < acts.length := by
                rw [List.getElem?_eq_some_iff] at hk; exact hk.1
              exact ⟨s.next j, _, List.mem_set hlt _, by simp⟩
            · exact .inl h1
          · exact .inr (.inl h1)
          · exact .inr (.inr ⟨q, pending_keep hk h1 (by simp)⟩)
        case hist => exact h.hist
  | complete i q =>
    simp only [exec, St.finish] at he
    split at he
    · simp at he
    simp at he; obtain ⟨rfl, rfl⟩ := he
    have hfired : s.head = .fired := h.walk_fired (by have := ws_pos (w := isWalk) hk; simp [isWalk] at this; omega)
    exact h.finish hk rfl rfl rfl rfl (by simp [rest]) (by simp [sawFired]) (by simp) (h.mem_raise hfired)

theorem run_inv {s : St} {acts : List (List Instr)} {l : List Id} (h : Inv s acts l) {k : Nat} {x : Instr}
    {r p : List Instr} (hk : acts[k]? = some (x :: r)) {b : Bool} {s' : St}
    (he : exec s x b = .ok s' p) : ∃ l', Inv s' (acts.set k (p ++ r)) l' := ⟨_, run_list h hk he⟩

theorem reach_inv {c : Conf mach} (h : Reach mach init c) : ∃ l, Inv c.sh c.acts l :=
  Reach.inv (M := mach) (P := fun s acts => ∃ l, Inv s acts l) ⟨[], init_inv⟩
    (fun _ _ _ _ _ ⟨l, h⟩ he => ⟨l, env_inv h he⟩)
    (fun _ _ _ _ _ _ _ _ ⟨_, h⟩ hk he => run_inv h hk he) h

theorem step_ok {s : St} {acts : List (List Instr)} {l : List Id} (h : Inv s acts l) {k : Nat} {x : Instr}
    {r : List Instr} (hk : acts[k]? = some (x :: r)) (b : Bool) : ∃ s' p, exec s x b = .ok s' p := by
  have hpend := pending_top hk
  cases x with
  | start i => exact ⟨_, _, rfl⟩
  | loop i cur =>
    have hs := h.served hpend (i := i) (by simp [ops])
    simp only [exec, hs.2.2]
    split
    · exact ⟨_, _, rfl⟩
    · split
      · rename_i h1; simp at h1
      · split <;> exact ⟨_, _, rfl⟩
  | setv i =>
    have hs := h.served hpend (i := i) (by simp [ops])
    simp [exec, St.finish, hs.2.2]
  | raise =>
    have h1 := h.calls; have h2 := h.raised
    have h3 := ws_pos (w := isRaise) hk
    have hnf : s.head ≠ .fired := by
      intro hf; simp [hf] at h2
      simp [isRaise] at h3
      split at h1 <;> omega
    simp [exec, hnf]
  | walk q =>
    have hq := h.wchain _ q hpend rfl
    cases q with
    | null => simp [exec]
    | fired => cases l <;> simp [Chain] at hq
    | node i =>
      cases l with
      | nil => simp [Chain] at hq
      | cons j l =>
        obtain ⟨hj, hq⟩ := hq
        simp at hj; subst hj
        have h1 := h.place (· == i)
        have h2 := h.once i
        have h3 := h.gone i
        simp only [List.count] at h2 h3
        have hg : s.gone i = false := by
          cases hg : s.gone i with
          | false => rfl
          | true =>
            rw [hg] at h3
            simp at h1 h3
            have : (begun s.log).countP (· == i) ≤ 1 := by rw [h2]; split <;> omega
            omega
        simp [exec, hg]
  | complete i q =>
    have hs := h.served hpend (i := i) (by simp [ops])
    simp [exec, St.finish, hs.2.2]

/-! ## Termination -/

def base : Instr → Nat
  | .start _ => 5
  | .loop _ _ => 4
  | .setv _ => 1
  | .raise => 2
  | .walk _ => 1
  | .complete _ _ => 2

def isL : Instr → Nat
  | .start _ | .loop _ _ => 1
  | _ => 0

/-- The compare-exchange will fail although not spuriously. -/
def mis (hd : Ptr) : Instr → Nat
  | .loop _ cur => if cur = hd then 0 else 1
  | _ => 0

theorem mis_le (hd : Ptr) (acts : List (List Instr)) : ws (mis hd) acts ≤ ws isL acts :=
  ws_mono (fun x => by cases x <;> simp [mis, isL]; split <;> omega) acts

/-- Operations in the list (computed from the history). -/
def inList (s : St) (acts : List (List Instr)) : Nat :=
  (begun s.log).length - (dones s.log).length - ws (cw ops (fun _ => true)) acts

theorem Inv.inList {s : St} {acts : List (List Instr)} {l : List Id} (h : Inv s acts l) :
    inList s acts = l.length := by
  have := h.place (fun _ => true)
  simp only [List.countP_true] at this
  unfold OneshotPrim.inList; omega

def pot (s : St) (acts : List (List Instr)) : Nat :=
  (ws base acts + 2 * inList s acts) * (1 + ws isL acts) + ws (mis s.head) acts

theorem pot_arith {B B' N N' M M' b : Nat} (hb : b ≤ 1) (hB : B' + 1 ≤ B) (hN : N' ≤ N) (hM : M' ≤ N') :
    B' * (1 + N') + M' + b ≤ B * (1 + N) + M := by
  have h1 : B' * (1 + N') ≤ B' * (1 + N) := Nat.mul_le_mul (Nat.le_refl _) (by omega)
  have h2 : (B' + 1) * (1 + N) ≤ B * (1 + N) := Nat.mul_le_mul hB (Nat.le_refl _)
  rw [Nat.add_mul] at h2
  omega

theorem decreases {s : St} {acts : List (List Instr)} {l : List Id} (h : Inv s acts l) {k : Nat} {x : Instr}
    {r p : List Instr} (hk : acts[k]? = some (x :: r)) {b : Bool} {s' : St}
    (he : exec s x b = .ok s' p) :
    pot s' (acts.set k (p ++ r)) + (if b then 1 else 0) ≤ pot s acts := by
  obtain ⟨l', h'⟩ := run_inv h hk he
  have i1 := h.inList
  have i2 := h'.inList
  have i3 := h.place (fun _ => true)
  have i4 := h'.place (fun _ => true)
  have i5 := cw_set ops (fun _ => true) p hk
  simp only [List.countP_true] at i3 i4 i5
  have e1 := ws_set base p hk
  have e2 := ws_set isL p hk
  have e4 := mis_le s'.head (acts.set k (p ++ r))
  have hb : (if b then 1 else 0) ≤ 1 := by split <;> omega
  unfold pot
  rw [i1, i2]
  clear i1 i2
  cases x with
  | start i =>
    simp [exec] at he; obtain ⟨rfl, rfl⟩ := he
    simp [base, isL, ops] at e1 e2 i5
    exact pot_arith hb (by simp at *; omega) (by simp at *; omega) e4
  | loop i cur =>
    simp only [exec] at he
    split at he
    · simp at he; obtain ⟨rfl, rfl⟩ := he
      simp [base, isL, ops] at e1 e2 i5
      exact pot_arith hb (by simp at *; omega) (by simp at *; omega) e4
    split at he
    · simp at he
    split at he
    · simp at he; obtain ⟨rfl, rfl⟩ := he
      simp [base, isL, ops] at e1 e2 i5
      simp [begun, dones, List.filterMap_append, List.filterMap_cons, isBegin, isDone] at i3 i4
      exact pot_arith hb (by simp at *; omega) (by simp at *; omega) e4
    · rename_i _ _ hcas
      simp at he; obtain ⟨rfl, rfl⟩ := he
      have e3 := ws_set (mis s.head) [.loop i s.head] hk
      simp [base, isL, ops, mis] at e1 e2 i5 e3
      simp at i4 ⊢
      have hl : l'.length = l.length := by omega
      rw [hl, e1, e2]
      have : (if b = true then 1 else 0) ≤ (if cur = s.head then 0 else 1) := by
        cases b
        · simp
        · by_cases hc : cur = s.head
          · exact absurd ⟨hc.symm, rfl⟩ hcas
          · simp [hc]
      omega
  | setv i =>
    simp only [exec, St.finish] at he
    split at he
    · simp at he
    simp at he; obtain ⟨rfl, rfl⟩ := he
    simp [base, isL, ops] at e1 e2 i5
    simp [begun, dones, List.filterMap_append, List.filterMap_cons, isBegin, isDone] at i3 i4
    exact pot_arith hb (by simp at *; omega) (by simp at *; omega) e4
  | raise =>
    simp only [exec] at he
    split at he
    · simp at he
    simp at he; obtain ⟨rfl, rfl⟩ := he
    simp [base, isL, ops] at e1 e2 i5
    simp [begun, dones, List.filterMap_append, List.filterMap_cons, isBegin, isDone] at i3 i4
    exact pot_arith hb (by simp at *; omega) (by simp at *; omega) e4
  | walk q =>
    cases q with
    | fired => simp [exec] at he
    | null =>
      simp [exec] at he; obtain ⟨rfl, rfl⟩ := he
      simp [base, isL, ops] at e1 e2 i5
      simp [begun, dones, List.filterMap_append, List.filterMap_cons, isBegin, isDone] at i3 i4
      exact pot_arith hb (by simp at *; omega) (by simp at *; omega) e4
    | node i =>
      simp only [exec] at he
      split at he
      · simp at he
      simp at he; obtain ⟨rfl, rfl⟩ := he
      simp [base, isL, ops] at e1 e2 i5
      exact pot_arith hb (by simp at *; omega) (by simp at *; omega) e4
  | complete i q =>
    simp only [exec, St.finish] at he
    split at he
    · simp at he
    simp at he; obtain ⟨rfl, rfl⟩ := he
    simp [base, isL, ops] at e1 e2 i5
    simp [begun, dones, List.filterMap_append, List.filterMap_cons, isBegin, isDone] at i3 i4
    exact pot_arith hb (by simp at *; omega) (by simp at *; omega) e4

end Verif.OneshotPrim
