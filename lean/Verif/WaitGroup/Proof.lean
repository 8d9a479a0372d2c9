import Verif.WaitGroup.Model

namespace Verif.WaitGroup

open Resolver

variable {T : Type} {c : Cfg}

@[simp] theorem waiters_nil : waiters ([] : List (Event T c)) = [] := rfl
@[simp] theorem waiters_append (l : List (Event T c)) (v : Event T c) :
    waiters (l ++ [v]) = waitStep (waiters l) v := by simp [waiters]
@[simp] theorem count_nil (n : Nat) : count n ([] : List (Event T c)) = n := rfl
@[simp] theorem count_append (n : Nat) (l : List (Event T c)) (v : Event T c) :
    count n (l ++ [v]) = countStep (count n l) v := by simp [count]
@[simp] theorem wsteps_nil (j : Nat) : wsteps j ([] : List (Event T c)) = [] := rfl
@[simp] theorem wsteps_append (j : Nat) (l : List (Event T c)) (v : Event T c) :
    wsteps j (l ++ [v]) = wsteps j l ++ (wstep j v).toList := by
  simp only [wsteps, List.filterMap_append, List.filterMap_cons, List.filterMap_nil]
  cases wstep j v <;> rfl

theorem ZeroSince.mono {n : Nat} {i : OpId} {l : List (Event T c)} (h : ZeroSince n i l)
    (v : Event T c) : ZeroSince n i (l ++ [v]) := by
  obtain ⟨a, b, rfl, h1, h2⟩ := h
  exact ⟨a, b ++ [v], by simp, h1, h2⟩

theorem ZeroSince.now {n : Nat} {i : OpId} {l : List (Event T c)} {ct p}
    (hb : Ev.begin i ct p ∈ l) (h : count n l = 0) : ZeroSince n i l :=
  ⟨l, [], by simp, ⟨ct, p, hb⟩, h⟩

/-! ## Pending instructions -/

/-- The `wait_in_group` operation an instruction belongs to. -/
def owner : I T → Option Nat
  | .add _ w => w
  | .ld w | .cas _ w | .lock w => w.map (·.1)
  | .cstart j | .cdone j _ | .wset j _ => some j

/-- A call of `done()` that has not decremented yet. -/
def isDone : I T → Bool
  | .ld _ | .cas _ _ | .lock _ | .cdone _ _ => true
  | _ => false

/-- A call of `add()` that has not incremented yet. -/
def isAdd : I T → Bool
  | .add _ _ => true
  | _ => false

/-- The compare-exchange is used for values larger than 1. -/
def casOk : I T → Prop
  | .cas k _ => 1 < k
  | _ => True

/-- Pending instructions of a `wait_in_group` operation. -/
def js (j : Nat) (pi : List (I T)) : List (I T) := pi.filter (fun x => owner x == some j)

theorem js_cons_self {j : Nat} {x : I T} {pi : List (I T)} (h : owner x = some j) :
    js j (x :: pi) = x :: js j pi := by simp [js, h]

theorem js_cons_ne {j : Nat} {x : I T} {pi : List (I T)} (h : owner x ≠ some j) :
    js j (x :: pi) = js j pi := by simp [js, h]

/-- The pending instructions of a `wait_in_group` operation in a given status. -/
def jsOk (j : Nat) : WSt T → List (I T) → Prop
  | .none, l | .running, l | .fin _, l => l = []
  | .called, l => l = [.add 1 (some j)]
  | .added, l => l = [.cstart j]
  | .told v, l => l = [.cdone j v]
  | .decing v, l => l = [.ld (some (j, v))] ∨ (∃ k, l = [.cas k (some (j, v))]) ∨
      l = [.lock (some (j, v))]
  | .dropped v, l => l = [.wset j v]

/-- The steps of a `wait_in_group` operation in a given status. -/
def trOf : WSt T → List (WStep T)
  | .none | .called => []
  | .added => [.add 1]
  | .running | .told _ => [.add 1, .start]
  | .decing v => [.add 1, .start, .done v]
  | .dropped v => [.add 1, .start, .done v, .dec]
  | .fin v => [.add 1, .start, .done v, .dec, .forward v]

theorem jsOk_add {j n : Nat} {s : WSt T} {l : List (I T)} (h : jsOk j s (.add n (some j) :: l)) :
    n = 1 ∧ s = .called ∧ l = [] := by cases s <;> simp_all [jsOk]
theorem jsOk_cstart {j : Nat} {s : WSt T} {l : List (I T)} (h : jsOk j s (.cstart j :: l)) :
    s = .added ∧ l = [] := by cases s <;> simp_all [jsOk]
theorem jsOk_cdone {j : Nat} {v : T} {s : WSt T} {l : List (I T)}
    (h : jsOk j s (.cdone j v :: l)) : s = .told v ∧ l = [] := by
  cases s <;> simp_all [jsOk]
theorem jsOk_wset {j : Nat} {v : T} {s : WSt T} {l : List (I T)}
    (h : jsOk j s (.wset j v :: l)) : s = .dropped v ∧ l = [] := by
  cases s <;> simp_all [jsOk]
theorem jsOk_ld {j : Nat} {v : T} {s : WSt T} {l : List (I T)}
    (h : jsOk j s (.ld (some (j, v)) :: l)) : s = .decing v ∧ l = [] := by
  cases s <;> simp_all [jsOk]
theorem jsOk_cas {j k : Nat} {v : T} {s : WSt T} {l : List (I T)}
    (h : jsOk j s (.cas k (some (j, v)) :: l)) : s = .decing v ∧ l = [] := by
  cases s <;> simp_all [jsOk]
theorem jsOk_lock {j : Nat} {v : T} {s : WSt T} {l : List (I T)}
    (h : jsOk j s (.lock (some (j, v)) :: l)) : s = .decing v ∧ l = [] := by
  cases s <;> simp_all [jsOk]

/-! ## Invariants -/

/-- What an event says given the events before it. -/
def hist (n : Nat) (before : List (Event T c)) : Event T c → Prop
  | .ds (.zero _ l) => l = waiters before ∧ count n before = 1
  | .ds (.dec _) => 1 < count n before
  | .ds (.enq _) => 0 < count n before
  | .ds (.skip _) => count n before = 0
  | .done i true => ZeroSince n i before
  | .done i false => (.ds (.unq i) : Event T c) ∈ before ∧
      ∃ e p, Ev.begin i (some e) p ∈ before ∧ Ev.cancel e ∈ before
  | _ => True

/-- Invariant of the wait operations. -/
structure IA (n : Nat) (d : D T) (ph : OpId → Phase Bool) (log : List (Event T c)) : Prop where
  nodup : d.queue.Nodup
  mem : ∀ i, i ∈ d.queue ↔ ph i = .waiting
  fnodup : d.fly.Nodup
  fmem : ∀ i, i ∈ d.fly ↔ ph i = .taken
  cancN : ∀ i, (ph i = .new ∨ ph i = .waiting ∨ ph i = .taken) → d.canc i = false
  cancG : ∀ i, ph i = .gone → d.canc i = true ∧ (.ds (.unq i) : Event T c) ∈ log ∧
      ∃ e p, Ev.begin i (some e) p ∈ log ∧ Ev.cancel e ∈ log
  fast : ∀ i v, ph i = .fast v → v = true ∧ ZeroSince n i log
  taken : ∀ i, ph i = .taken → ZeroSince n i log
  mark : ∀ i w l, (.ds (.zero w l) : Event T c) ∈ log → i ∈ l →
    ph i = .taken ∨ (ph i = .fin ∧ Ev.done i true ∈ log)
  bgn : ∀ i, ph i = .waiting → ∃ ct p, Ev.begin i ct p ∈ log
  qz : d.queue ≠ [] → 0 < d.ctr
  fz : d.fly ≠ [] → d.ctr = 0
  cnt : count n log = d.ctr
  wait : waiters log = d.queue
  hist : Hist (hist n) log

/-- No wrapped sender is running when the count reaches zero. -/
def histB (before : List (Event T c)) : Event T c → Prop
  | .ds (.zero _ _) => ∀ j, (.ds (.cstart j) : Event T c) ∈ before →
      ∃ v, (.ds (.cdone j v) : Event T c) ∈ before
  | _ => True

/-- Invariant of the count and the `wait_in_group` operations. -/
structure IB (d : D T) (log : List (Event T c)) (pi : List (I T)) : Prop where
  units : d.pendD + d.held.length ≤ d.ctr
  pd : d.pendD = pi.countP isDone
  pa : d.pendA = pi.countP isAdd
  add : 0 < d.pendA → d.pendD < d.ctr ∨ (d.ctr = 0 ∧ d.fly = [])
  hnodup : d.held.Nodup
  hmem : ∀ j, j ∈ d.held ↔ (d.wst j = .added ∨ d.wst j = .running)
  js : ∀ j, jsOk j (d.wst j) (js j pi)
  tr : ∀ j, wsteps j log = trOf (d.wst j)
  histB : Hist histB log
  cas : ∀ x ∈ pi, casOk x

theorem IB.perm {d : D T} {log : List (Event T c)} {pi pi' : List (I T)} (h : IB d log pi)
    (hp : pi.Perm pi') : IB d log pi' := by
  obtain ⟨h1, h2, h3, h4, h5, h6, h7, h8, h9, hcas⟩ := h
  refine ⟨h1, by rw [← hp.countP_eq]; exact h2, by rw [← hp.countP_eq]; exact h3, h4, h5, h6, ?_, h8, h9,
    fun x hx => hcas x (hp.mem_iff.2 hx)⟩
  intro j
  have hj : (WaitGroup.js j pi).Perm (WaitGroup.js j pi') := hp.filter _
  have := h7 j
  have e : WaitGroup.js j pi' = WaitGroup.js j pi := by
    cases hs : d.wst j <;> rw [hs] at this <;> simp only [jsOk] at this
    all_goals first
      | (rw [this] at hj ⊢; simpa using hj.symm)
      | skip
    rcases this with h | ⟨k, h⟩ | h <;> rw [h] at hj ⊢ <;> simpa using hj.symm
  rw [e]; exact this

/-- Events of wait operations. -/
theorem IB.ext_ {d d' : D T} {log : List (Event T c)} {pi : List (I T)} (h : IB d log pi)
    (v : Event T c) (hd : d'.pendD = d.pendD ∧ d'.pendA = d.pendA ∧ d'.wst = d.wst ∧
      d'.held = d.held ∧ d'.ctr = d.ctr ∧ (d.fly = [] → d'.fly = []))
    (hv : ∀ j, wstep j v = none) (hz : ∀ w l, v ≠ .ds (.zero w l)) : IB d' (log ++ [v]) pi := by
  obtain ⟨h1, h2, h3, h4, h5, h6, h7, h8, h9, hcas⟩ := h
  obtain ⟨e1, e2, e3, e4, e5, e6⟩ := hd
  refine ⟨?_, ?_, ?_, ?_, ?_, ?_, ?_, ?_, ?_, hcas⟩
  · rw [e1, e4, e5]; exact h1
  · rw [e1]; exact h2
  · rw [e2]; exact h3
  · rw [e1, e2, e5]; intro hp; rcases h4 hp with h | ⟨h, h'⟩
    · exact .inl h
    · exact .inr ⟨h, e6 h'⟩
  · rw [e4]; exact h5
  · rw [e3, e4]; exact h6
  · rw [e3]; exact h7
  · intro j; rw [e3, wsteps_append, hv]; simpa using h8 j
  · rw [Hist.snoc]; refine ⟨h9, ?_⟩
    cases v with
    | ds x => cases x <;> first | trivial | exact absurd rfl (hz _ _)
    | _ => trivial

/-- Same for a step without event. -/
theorem IB.same {d d' : D T} {log : List (Event T c)} {pi : List (I T)} (h : IB d log pi)
    (hd : d'.pendD = d.pendD ∧ d'.pendA = d.pendA ∧ d'.wst = d.wst ∧
      d'.held = d.held ∧ d'.ctr = d.ctr ∧ (d.fly = [] → d'.fly = [])) : IB d' log pi := by
  obtain ⟨h1, h2, h3, h4, h5, h6, h7, h8, h9, hcas⟩ := h
  obtain ⟨e1, e2, e3, e4, e5, e6⟩ := hd
  refine ⟨?_, ?_, ?_, ?_, ?_, ?_, ?_, ?_, h9, hcas⟩
  · rw [e1, e4, e5]; exact h1
  · rw [e1]; exact h2
  · rw [e2]; exact h3
  · rw [e1, e2, e5]; intro hp; rcases h4 hp with h | ⟨h, h'⟩
    · exact .inl h
    · exact .inr ⟨h, e6 h'⟩
  · rw [e4]; exact h5
  · rw [e3, e4]; exact h6
  · rw [e3]; exact h7
  · rw [e3]; exact h8

/-- Instructions of a `done()` that has not decremented yet, with continuation `w`. -/
def isDoneOf (w : Option (Nat × T)) : I T → Prop
  | .ld w' | .lock w' => w' = w
  | .cas k w' => w' = w ∧ 1 < k
  | _ => False

theorem isDoneOf_facts {w : Option (Nat × T)} {x : I T} (h : isDoneOf w x) :
    isDone x = true ∧ isAdd x = false ∧ owner x = w.map (·.1) := by
  cases x <;> simp_all [isDoneOf, isDone, isAdd, owner]

theorem jsOk_doneOf {j : Nat} {v : T} {x : I T} (hx : isDoneOf (some (j, v)) x) {s : WSt T}
    {l : List (I T)} (h : jsOk j s (x :: l)) : s = .decing v ∧ l = [] := by
  cases x <;> simp only [isDoneOf] at hx
  · subst hx; exact jsOk_ld h
  · obtain ⟨rfl, _⟩ := hx; exact jsOk_cas h
  · subst hx; exact jsOk_lock h

/-- `done()` goes on to another instruction without decrementing. -/
theorem IB.goes {d : D T} {log : List (Event T c)} {pi : List (I T)} {x y : I T}
    {w : Option (Nat × T)} (h : IB d log (x :: pi)) (hx : isDoneOf w x) (hy : isDoneOf w y) :
    IB d log (y :: pi) := by
  obtain ⟨h1, h2, h3, h4, h5, h6, h7, h8, h9, hcas⟩ := h
  have fx := isDoneOf_facts hx
  have fy := isDoneOf_facts hy
  refine ⟨h1, ?_, ?_, h4, h5, h6, ?_, h8, h9, ?_⟩
  · simpa [List.countP_cons, fx, fy] using h2
  · simpa [List.countP_cons, fx, fy] using h3
  rotate_right
  · intro z hz
    rcases List.mem_cons.1 hz with rfl | hz
    · cases z <;> simp_all [isDoneOf, casOk]
    · exact hcas z (by simp [hz])
  · intro j
    by_cases ho : w.map (·.1) = some j
    · have := h7 j
      cases w with
      | none => simp at ho
      | some jv =>
        obtain ⟨j', v⟩ := jv
        simp at ho; subst ho
        rw [js_cons_self (by rw [fx.2.2]; rfl)] at this
        rw [js_cons_self (by rw [fy.2.2]; rfl)]
        obtain ⟨hs, hl⟩ := jsOk_doneOf hx this
        rw [hs, hl]
        cases y <;> simp_all [isDoneOf, jsOk]
    · rw [js_cons_ne (by rw [fy.2.2]; exact ho)]
      rw [← js_cons_ne (x := x) (by rw [fx.2.2]; exact ho)]; exact h7 j

theorem insts_inl_append {l : List OpId} {m : List (OpId ⊕ I T)} :
    insts (l.map .inl ++ m) = insts m := by
  induction l with
  | nil => rfl
  | cons a l ih => simp [insts, ih]

theorem ops_inl_append {l : List OpId} {m : List (OpId ⊕ I T)} :
    ops (l.map .inl ++ m) = l ++ ops m := by
  induction l with
  | nil => rfl
  | cons a l ih => simp [ops, ih]

@[simp] theorem ops_cont (w : Option (Nat × T)) : ops (cont w) = [] := by
  rcases w with _ | ⟨j, v⟩ <;> rfl

/-- `done()` decrements. -/
theorem IB.dec {d d' : D T} {log : List (Event T c)} {pi : List (I T)} {x : I T}
    {w : Option (Nat × T)} (h : IB d log (x :: pi)) (hx : isDoneOf w x) (v : Event T c)
    (hd : d'.pendD = d.pendD - 1 ∧ d'.pendA = d.pendA ∧ d'.wst = dropped d.wst w ∧
      d'.held = d.held ∧ d'.ctr = d.ctr - 1)
    (hv : (v = .ds (.dec (w.map (·.1))) ∧ 1 < d.ctr) ∨
      (∃ l, v = .ds (.zero (w.map (·.1)) l) ∧ d.ctr = 1)) :
    IB d' (log ++ [v]) (insts (cont w) ++ pi) := by
  obtain ⟨h1, h2, h3, h4, h5, h6, h7, h8, h9, hcas⟩ := h
  obtain ⟨e1, e2, e3, e4, e5⟩ := hd
  have fx := isDoneOf_facts hx
  simp only [List.countP_cons, fx, if_true] at h2
  simp only [List.countP_cons, fx, if_false, Bool.false_eq_true] at h3
  have hkey : ∀ j val, w = some (j, val) → d.wst j = .decing val ∧ WaitGroup.js j pi = [] := by
    rintro j val rfl
    have := h7 j
    rw [js_cons_self (by rw [fx.2.2]; rfl)] at this
    exact jsOk_doneOf hx this
  have hother : ∀ j, w.map (·.1) ≠ some j → dropped d.wst w j = d.wst j ∧
      WaitGroup.js j (x :: pi) = WaitGroup.js j pi ∧ wstep j v = none ∧
      WaitGroup.js j (insts (cont w) ++ pi) = WaitGroup.js j pi := by
    intro j hj
    refine ⟨?_, js_cons_ne (by rw [fx.2.2]; exact hj), ?_, ?_⟩
    · rcases w with _ | ⟨j', val⟩
      · rfl
      · simp at hj; simp [dropped, upd, Ne.symm hj]
    · rcases hv with ⟨rfl, _⟩ | ⟨l, rfl, _⟩ <;> rcases w with _ | ⟨j', val⟩ <;> simp_all [wstep]
    · rcases w with _ | ⟨j', val⟩
      · rfl
      · exact js_cons_ne (by simpa [owner] using hj)
  refine ⟨?_, ?_, ?_, ?_, ?_, ?_, ?_, ?_, ?_, ?_⟩
  rotate_right
  · intro z hz
    rcases List.mem_append.1 hz with hz | hz
    · rcases w with _ | ⟨j, val⟩ <;> simp [cont, insts] at hz
      subst hz; trivial
    · exact hcas z (by simp [hz])
  · rw [e1, e4, e5]; omega
  · rw [e1]
    rcases w with _ | ⟨j, val⟩ <;> simp [cont, insts, List.countP_cons, isDone] <;> omega
  · rw [e2, h3]
    rcases w with _ | ⟨j, val⟩ <;> simp [cont, insts, isAdd]
  · rw [e1, e2, e5]; intro hp; left; rcases h4 hp with h | h <;> omega
  · rw [e4]; exact h5
  · intro j; rw [e3, e4]
    by_cases hj : w.map (·.1) = some j
    · rcases w with _ | ⟨j', val⟩
      · simp at hj
      · simp at hj; subst hj
        have := (hkey j' val rfl).1
        simp [dropped, h6, this]
    · rw [(hother j hj).1]; exact h6 j
  · intro j; rw [e3]
    by_cases hj : w.map (·.1) = some j
    · rcases w with _ | ⟨j', val⟩
      · simp at hj
      · simp at hj; subst hj
        simp only [cont, insts, List.cons_append, List.nil_append]
        rw [js_cons_self rfl, (hkey j' val rfl).2]
        simp [dropped, jsOk]
    · rw [(hother j hj).1, (hother j hj).2.2.2, ← (hother j hj).2.1]; exact h7 j
  · intro j; rw [e3, wsteps_append]
    by_cases hj : w.map (·.1) = some j
    · rcases w with _ | ⟨j', val⟩
      · simp at hj
      · simp at hj; subst hj
        rw [h8, (hkey j' val rfl).1]
        rcases hv with ⟨rfl, _⟩ | ⟨l, rfl, _⟩ <;> simp [dropped, wstep, trOf]
    · rw [(hother j hj).1, (hother j hj).2.2.1]; simpa using h8 j
  · rw [Hist.snoc]; refine ⟨h9, ?_⟩
    rcases hv with ⟨rfl, _⟩ | ⟨l, rfl, hc1⟩
    · trivial
    · intro j hj
      have hheld : d.held = [] := List.length_eq_zero_iff.1 (by omega)
      have hm : WStep.start ∈ trOf (d.wst j) := by
        rw [← h8]
        exact List.mem_filterMap.2 ⟨_, hj, by simp [wstep]⟩
      have hnr : d.wst j ≠ .running := by
        intro hr; have := (h6 j).2 (.inr hr); rw [hheld] at this; simp at this
      have hnt : ∀ val, d.wst j ≠ .told val := by
        intro val ht
        have hj := h7 j
        rw [ht] at hj
        simp only [jsOk] at hj
        have hmem : I.cdone j val ∈ WaitGroup.js j (x :: pi) := by rw [hj]; simp
        have hmem : I.cdone j val ∈ x :: pi := (List.mem_filter.1 hmem).1
        have hne : I.cdone j val ≠ x := by rintro rfl; exact hx
        have : I.cdone j val ∈ pi := by
          rcases List.mem_cons.1 hmem with h | h
          · exact absurd h hne
          · exact h
        have : 0 < pi.countP isDone := List.countP_pos_iff.2 ⟨_, this, rfl⟩
        omega
      have hd : ∃ val, WStep.done val ∈ trOf (d.wst j) := by
        cases hs : d.wst j with
        | none => rw [hs] at hm; simp [trOf] at hm
        | called => rw [hs] at hm; simp [trOf] at hm
        | added => rw [hs] at hm; simp [trOf] at hm
        | running => exact absurd hs hnr
        | told val => exact absurd hs (hnt val)
        | decing val => exact ⟨val, by simp [trOf]⟩
        | dropped val => exact ⟨val, by simp [trOf]⟩
        | fin val => exact ⟨val, by simp [trOf]⟩
      obtain ⟨val, hd⟩ := hd
      rw [← h8] at hd
      obtain ⟨ev, hev, he⟩ := List.mem_filterMap.1 hd
      cases ev with
      | ds y =>
        cases y with
        | cdone k val' =>
          simp only [wstep] at he
          split at he
          · rename_i hk; subst hk; exact ⟨val', hev⟩
          · simp at he
        | add n w => cases w <;> simp [wstep] at he
        | dec w => cases w <;> simp [wstep] at he
        | zero w l => cases w <;> simp [wstep] at he
        | cstart k => simp [wstep] at he
        | wdone k v => simp [wstep] at he
        | _ => simp [wstep] at he
      | _ => simp [wstep] at he

theorem IA.ext_ {n : Nat} {d : D T} {ph : OpId → Phase Bool} {log : List (Event T c)}
    (h : IA n d ph log) (v : Event T c)
    (hv : (∃ i ct p, v = .begin i ct p) ∨ (∃ e, v = .cancel e) ∨ (∃ e, v = .reset e) ∨
      (∃ j, v = .ds (.cstart j)) ∨ (∃ j x, v = .ds (.cdone j x)) ∨ (∃ j x, v = .ds (.wdone j x))) :
    IA n d ph (log ++ [v]) := by
  obtain ⟨h1, h2, h3, h4, h5, h6, h7, h8, h9, h10, h11, h12, h13, h14, h15⟩ := h
  have c1 : count n (log ++ [v]) = count n log := by
    rcases hv with ⟨i, ct, p, rfl⟩ | ⟨e, rfl⟩ | ⟨e, rfl⟩ | ⟨j, rfl⟩ | ⟨j, x, rfl⟩ | ⟨j, x, rfl⟩ <;>
      simp [countStep]
  have c2 : waiters (log ++ [v]) = waiters log := by
    rcases hv with ⟨i, ct, p, rfl⟩ | ⟨e, rfl⟩ | ⟨e, rfl⟩ | ⟨j, rfl⟩ | ⟨j, x, rfl⟩ | ⟨j, x, rfl⟩ <;>
      simp [waitStep]
  have c3 : WaitGroup.hist n log v := by
    rcases hv with ⟨i, ct, p, rfl⟩ | ⟨e, rfl⟩ | ⟨e, rfl⟩ | ⟨j, rfl⟩ | ⟨j, x, rfl⟩ | ⟨j, x, rfl⟩ <;>
      trivial
  have c4 : ∀ w l, v ≠ .ds (.zero w l) := by
    rcases hv with ⟨i, ct, p, rfl⟩ | ⟨e, rfl⟩ | ⟨e, rfl⟩ | ⟨j, rfl⟩ | ⟨j, x, rfl⟩ | ⟨j, x, rfl⟩ <;>
      simp
  refine ⟨h1, h2, h3, h4, h5, ?_, ?_, ?_, ?_, ?_, h11, h12, by rw [c1]; exact h13,
    by rw [c2]; exact h14, by rw [Hist.snoc]; exact ⟨h15, c3⟩⟩
  · intro i hi; obtain ⟨a, b, e, p, x, y⟩ := h6 i hi
    exact ⟨a, by simp [b], e, p, by simp [x], by simp [y]⟩
  · intro i v hi; exact ⟨(h7 i v hi).1, (h7 i v hi).2.mono _⟩
  · intro i hi; exact (h8 i hi).mono _
  · intro i w l hm hi
    rcases List.mem_append.1 hm with hm | hm
    · rcases h9 i w l hm hi with h | ⟨h, h'⟩
      · exact .inl h
      · exact .inr ⟨h, by simp [h']⟩
    · simp at hm; exact absurd hm.symm (c4 w l)
  · intro i hi; obtain ⟨ct, p, h⟩ := h10 i hi; exact ⟨ct, p, by simp [h]⟩

theorem IA.same {n : Nat} {d d' : D T} {ph : OpId → Phase Bool} {log : List (Event T c)}
    (h : IA n d ph log)
    (hd : d'.queue = d.queue ∧ d'.canc = d.canc ∧ d'.fly = d.fly ∧ d'.ctr = d.ctr) :
    IA n d' ph log := by
  obtain ⟨e1, e2, e3, e4⟩ := hd
  obtain ⟨h1, h2, h3, h4, h5, h6, h7, h8, h9, h10, h11, h12, h13, h14, h15⟩ := h
  refine ⟨?_, ?_, ?_, ?_, ?_, ?_, h7, h8, h9, h10, ?_, ?_, ?_, ?_, h15⟩ <;>
    simp only [e1, e2, e3, e4] <;> assumption

/-- A change of the count that leaves it positive. -/
theorem IA.change {n : Nat} {d d' : D T} {ph : OpId → Phase Bool} {log : List (Event T c)}
    (h : IA n d ph log) (v : Event T c)
    (hv : (∃ w, v = .ds (.dec w) ∧ 1 < d.ctr ∧ d'.ctr = d.ctr - 1) ∨
      (∃ k w, v = .ds (.add k w) ∧ (0 < d.ctr ∨ d.fly = []) ∧ d'.ctr = d.ctr + k))
    (hd : d'.queue = d.queue ∧ d'.canc = d.canc ∧ d'.fly = d.fly) :
    IA n d' ph (log ++ [v]) := by
  obtain ⟨h1, h2, h3, h4, h5, h6, h7, h8, h9, h10, h11, h12, h13, h14, h15⟩ := h
  obtain ⟨e1, e2, e3⟩ := hd
  have c4 : ∀ w l, v ≠ .ds (.zero w l) := by
    rcases hv with ⟨w, rfl, _⟩ | ⟨k, w, rfl, _⟩ <;> simp
  refine ⟨by rw [e1]; exact h1, by rw [e1]; exact h2, by rw [e3]; exact h3, by rw [e3]; exact h4,
    by rw [e2]; exact h5, ?_, ?_, ?_, ?_, ?_, ?_, ?_, ?_, ?_, ?_⟩
  · intro i hi; obtain ⟨a, b, e, p, x, y⟩ := h6 i hi
    exact ⟨by rw [e2]; exact a, by simp [b], e, p, by simp [x], by simp [y]⟩
  · intro i v hi; exact ⟨(h7 i v hi).1, (h7 i v hi).2.mono _⟩
  · intro i hi; exact (h8 i hi).mono _
  · intro i w l hm hi
    rcases List.mem_append.1 hm with hm | hm
    · rcases h9 i w l hm hi with h | ⟨h, h'⟩
      · exact .inl h
      · exact .inr ⟨h, by simp [h']⟩
    · simp at hm; exact absurd hm.symm (c4 w l)
  · intro i hi; obtain ⟨ct, p, h⟩ := h10 i hi; exact ⟨ct, p, by simp [h]⟩
  · rw [e1]; intro hq; have := h11 hq
    rcases hv with ⟨w, rfl, a, b⟩ | ⟨k, w, rfl, a, b⟩ <;> omega
  · rw [e3]; intro hf; have := h12 hf
    rcases hv with ⟨w, rfl, a, b⟩ | ⟨k, w, rfl, a, b⟩
    · omega
    · rcases a with a | a
      · omega
      · exact absurd a hf
  · rcases hv with ⟨w, rfl, a, b⟩ | ⟨k, w, rfl, a, b⟩ <;> simp [countStep, h13, b]
  · rw [e1]
    rcases hv with ⟨w, rfl, a, b⟩ | ⟨k, w, rfl, a, b⟩ <;> simpa [waitStep] using h14
  · rw [Hist.snoc]; refine ⟨h15, ?_⟩
    rcases hv with ⟨w, rfl, a, b⟩ | ⟨k, w, rfl, a, b⟩
    · simpa [WaitGroup.hist, h13] using a
    · trivial

/-- Invariant. -/
def Inv (n : Nat) (d : D T) (ph : OpId → Phase Bool) (log : List (Event T c))
    (pi : List (I T)) : Prop := IA n d ph log ∧ IB d log pi

theorem decide_ok {d : D T} {log : List (Event T c)} {pi : List (I T)} {x : I T}
    {w : Option (Nat × T)} (h : IB d log (x :: pi)) (hx : isDoneOf w x) :
    0 < d.ctr ∧ ∃ y, isDoneOf w y ∧ decide_ d.ctr w = some [.inr y] := by
  have h1 := h.units
  have h2 := h.pd
  simp only [List.countP_cons, (isDoneOf_facts hx).1, if_true] at h2
  refine ⟨by omega, ?_⟩
  simp only [decide_]
  by_cases h3 : 1 < d.ctr
  · exact ⟨.cas d.ctr w, ⟨rfl, h3⟩, by simp [h3]⟩
  · exact ⟨.lock w, rfl, by simp [h3]; omega⟩

theorem noop {ph : OpId → Phase Bool} :
    (fun i => if i ∈ ([] : List OpId) then Phase.taken else ph i) = ph := by
  funext i; simp

def lawful (n : Nat) (h1 : c.safeAdd = true) (h2 : c.safeDone = true) :
    Lawful (ds T c) (init n) where
  Inv := Inv n
  init := by
    refine ⟨?_, ?_⟩ <;> constructor <;> simp [init, Hist.nil, jsOk, js, trOf]
  perm := by
    intro d ph log pi pi' h hp
    exact ⟨h.1, h.2.perm hp⟩
  begin := by
    intro d ph log pi i ct p d' h hph hb ha
    simp at ha; subst ha
    exact ⟨h.1.ext_ _ (.inl ⟨_, _, _, rfl⟩), h.2.ext_ _ (by simp) (by simp [wstep]) (by simp)⟩
  cancel := by
    intro d ph log pi e h
    exact ⟨h.1.ext_ _ (.inr (.inl ⟨_, rfl⟩)), h.2.ext_ _ (by simp) (by simp [wstep]) (by simp)⟩
  reset := by
    intro d ph log pi e h
    exact ⟨h.1.ext_ _ (.inr (.inr (.inl ⟨_, rfl⟩))),
      h.2.ext_ _ (by simp) (by simp [wstep]) (by simp)⟩
  call := by
    intro d ph log pi x d' h hc
    obtain ⟨hA, hB⟩ := h
    obtain ⟨b1, b2, b3, b4, b5, b6, b7, b8, b9, hcas⟩ := hB
    have hcas' : ∀ y ∈ x :: pi, casOk y := by
      intro y hy
      rcases List.mem_cons.1 hy with rfl | hy
      · cases y <;> first | trivial | simp [call] at hc
      · exact hcas y hy
    cases x with
    | add k w =>
      cases w with
      | none =>
        simp only [call, h1] at hc
        split at hc
        · rename_i hok
          simp [okAdd] at hok
          simp at hc; subst hc
          refine ⟨hA.same ⟨rfl, rfl, rfl, rfl⟩, b1, ?_, ?_, ?_, b5, b6, ?_, b8, b9, hcas'⟩
          · simpa [List.countP_cons, isDone] using b2
          · simp [List.countP_cons, isAdd, b3]
          · intro _; exact hok.2
          · intro j; rw [js_cons_ne (by simp [owner])]; exact b7 j
        · simp at hc
      | some j =>
        simp only [call, h1] at hc
        split at hc
        · rename_i hw
          split at hc
          · rename_i hok
            simp [okAdd] at hok
            obtain ⟨⟨rfl, _⟩, hok⟩ := hok
            simp at hc; subst hc
            refine ⟨hA.same ⟨rfl, rfl, rfl, rfl⟩, b1, ?_, ?_, ?_, b5, ?_, ?_, ?_, b9, hcas'⟩
            · simpa [List.countP_cons, isDone] using b2
            · simp [List.countP_cons, isAdd, b3]
            · intro _; exact hok
            · intro k
              have := b6 k
              by_cases hk : k = j
              · subst hk; simp [this, hw]
              · simpa [upd, hk] using this
            · intro k
              by_cases hk : k = j
              · subst hk
                have := b7 k
                rw [hw] at this
                simp only [jsOk] at this
                rw [js_cons_self rfl, this]
                simp [jsOk]
              · rw [js_cons_ne (by simpa [owner] using Ne.symm hk)]
                simpa [upd, hk] using b7 k
            · intro k
              by_cases hk : k = j
              · subst hk; simp [b8, hw, trOf]
              · simpa [upd, hk] using b8 k
          · simp at hc
        · simp at hc
    | ld w =>
      cases w with
      | some jv => simp [call] at hc
      | none =>
        simp only [call, h1, h2] at hc
        split at hc
        · rename_i hok
          simp [okDone] at hok
          simp at hc; subst hc
          refine ⟨hA.same ⟨rfl, rfl, rfl, rfl⟩, ?_, ?_, ?_, ?_, b5, b6, ?_, b8, b9, hcas'⟩
          · show d.pendD + 1 + d.held.length ≤ d.ctr; omega
          · simp [List.countP_cons, isDone, b2]
          · simpa [List.countP_cons, isAdd] using b3
          · intro hp; left; show d.pendD + 1 < d.ctr
            have hp : 0 < d.pendA := hp
            omega
          · intro j; rw [js_cons_ne (by simp [owner])]; exact b7 j
        · simp at hc
    | cdone j v =>
      simp only [call, h1] at hc
      split at hc
      · rename_i hw
        split at hc
        · rename_i hok
          simp [okDone] at hok
          simp at hc; subst hc
          have hm : j ∈ d.held := (b6 j).2 (.inr hw)
          have hlen := List.length_erase_of_mem hm
          have hpos := List.length_pos_of_mem hm
          refine ⟨hA.same ⟨rfl, rfl, rfl, rfl⟩, ?_, ?_, ?_, ?_, ?_, ?_, ?_, ?_, b9, hcas'⟩
          · show d.pendD + 1 + (d.held.erase j).length ≤ d.ctr; omega
          · simp [List.countP_cons, isDone, b2]
          · simpa [List.countP_cons, isAdd] using b3
          · intro hp; left; show d.pendD + 1 < d.ctr
            have hp : 0 < d.pendA := hp
            omega
          · exact b5.erase j
          · intro k
            have := b6 k
            by_cases hk : k = j
            · subst hk; simp [b5.mem_erase_iff]
            · simp [b5.mem_erase_iff, hk, upd]; exact this
          · intro k
            by_cases hk : k = j
            · subst hk
              have := b7 k
              rw [hw] at this
              simp only [jsOk] at this
              rw [js_cons_self rfl, this]
              simp [jsOk]
            · rw [js_cons_ne (by simpa [owner] using Ne.symm hk)]
              simpa [upd, hk] using b7 k
          · intro k
            by_cases hk : k = j
            · subst hk; simp [b8, hw, trOf]
            · simpa [upd, hk] using b8 k
        · simp at hc
      · simp at hc
    | _ => simp [call] at hc
  start := by
    intro d ph log pi i ct p b h hph hb
    obtain ⟨hA, hB⟩ := h
    by_cases hz : 0 < d.ctr
    · refine ⟨_, _, _, by simp only [start, hz, if_true]; rfl, ?_, ?_⟩
      · obtain ⟨h1, h2, h3, h4, h5, h6, h7, h8, h9, h10, h11, h12, h13, h14, h15⟩ := hA
        simp only [List.map_cons, List.map_nil]
        have hni : i ∉ d.queue := by rw [h2]; simp [hph]
        have zm := fun j (h : ZeroSince n j log) => h.mono (.ds (.enq i) : Event T c)
        refine ⟨?_, ?_, h3, ?_, ?_, ?_, ?_, ?_, ?_, ?_, ?_, ?_, ?_, ?_, ?_⟩
        · rw [List.nodup_append]; grind
        · grind
        · grind
        · grind
        · grind
        · grind
        · grind
        · grind
        · grind
        · grind
        · grind
        · simpa [countStep] using h13
        · simp [waitStep, h14]
        · rw [Hist.snoc]; exact ⟨h15, by simpa [hist, h13] using hz⟩
      · exact hB.ext_ _ (by simp) (by simp [wstep]) (by simp)
    · refine ⟨_, _, _, by simp only [start, hz, if_false]; rfl, ?_, ?_⟩
      · obtain ⟨h1, h2, h3, h4, h5, h6, h7, h8, h9, h10, h11, h12, h13, h14, h15⟩ := hA
        simp only [List.map_cons, List.map_nil]
        have zm := fun j (h : ZeroSince n j log) => h.mono (.ds (.skip i) : Event T c)
        have zi : ZeroSince n i log := .now hb (by omega)
        refine ⟨h1, ?_, h3, ?_, ?_, ?_, ?_, ?_, ?_, ?_, ?_, ?_, ?_, ?_, ?_⟩
        · grind
        · grind
        · grind
        · grind
        · grind
        · grind
        · grind
        · grind
        · grind
        · grind
        · simpa [countStep] using h13
        · simpa [waitStep] using h14
        · rw [Hist.snoc]; exact ⟨h15, by simp [hist, h13]; omega⟩
      · exact hB.ext_ _ (by simp) (by simp [wstep]) (by simp)
  fast := by
    intro d ph log pi i v h hph
    obtain ⟨hA, hB⟩ := h
    have hfd : (ds T c).fin d i = d := by
      have : i ∉ d.fly := by rw [hA.fmem, hph]; simp
      simp only [List.erase_of_not_mem this]
    rw [hfd]
    refine ⟨?_, hB.ext_ _ (by simp) (by simp [wstep]) (by simp)⟩
    obtain ⟨h1, h2, h3, h4, h5, h6, h7, h8, h9, h10, h11, h12, h13, h14, h15⟩ := hA
    obtain ⟨rfl, zi⟩ := h7 i v hph
    have zm := fun j (h : ZeroSince n j log) => h.mono (.done i true : Event T c)
    refine ⟨h1, ?_, h3, ?_, ?_, ?_, ?_, ?_, ?_, ?_, ?_, ?_, ?_, ?_, ?_⟩
    · grind
    · grind
    · grind
    · grind
    · grind
    · grind
    · grind
    · grind
    · grind
    · grind
    · simpa [countStep] using h13
    · simpa [waitStep] using h14
    · rw [Hist.snoc]; exact ⟨h15, zi⟩
  tryWaiting := by
    intro d ph log pi i e p h hph hb hc
    obtain ⟨hA, hB⟩ := h
    have hm := (hA.mem i).2 hph
    have hz := hA.qz (List.ne_nil_of_mem hm)
    refine ⟨_, _, by simp only [tryCancel, hz, hm, if_true]; rfl, ?_, ?_⟩
    · obtain ⟨h1, h2, h3, h4, h5, h6, h7, h8, h9, h10, h11, h12, h13, h14, h15⟩ := hA
      simp only [List.map_cons, List.map_nil]
      have zm := fun j (h : ZeroSince n j log) => h.mono (.ds (.unq i) : Event T c)
      refine ⟨?_, ?_, h3, ?_, ?_, ?_, ?_, ?_, ?_, ?_, ?_, ?_, ?_, ?_, ?_⟩
      · grind
      · grind
      · grind
      · grind
      · intro j hj
        by_cases hij : j = i
        · subst hij; exact ⟨by simp, by simp, e, p, by simp [hb], by simp [hc]⟩
        · simp only [upd, hij, if_false] at hj ⊢
          obtain ⟨a, b, e', p', c, d⟩ := h6 j hj
          exact ⟨a, by simp [b], e', p', by simp [c], by simp [d]⟩
      · grind
      · grind
      · grind
      · grind
      · grind
      · grind
      · simpa [countStep] using h13
      · simp [waitStep, h14]
      · rw [Hist.snoc]; exact ⟨h15, trivial⟩
    · exact hB.ext_ _ (by simp) (by simp [wstep]) (by simp)
  tryTaken := by
    intro d ph log pi i e p h hph hb hc
    have hm := (h.1.fmem i).2 hph
    have hz := h.1.fz (List.ne_nil_of_mem hm)
    refine ⟨_, _, by simp [tryCancel, hz]; exact ⟨rfl, rfl⟩, ?_⟩
    simpa using h
  resume := by
    intro d ph log pi i h hph
    obtain ⟨hA, hB⟩ := h
    refine ⟨?_, hB.ext_ _ (by simp; intro h; simp [h]) (by simp [wstep]) (by simp)⟩
    obtain ⟨h1, h2, h3, h4, h5, h6, h7, h8, h9, h10, h11, h12, h13, h14, h15⟩ := hA
    have zm := fun j v (h : ZeroSince n j log) => h.mono (.done i v : Event T c)
    refine ⟨h1, ?_, ?_, ?_, ?_, ?_, ?_, ?_, ?_, ?_, ?_, ?_, ?_, ?_, ?_⟩
    · grind
    · exact h3.erase i
    · intro j; have := h4 j; show j ∈ d.fly.erase i ↔ _; rw [h3.mem_erase_iff]; grind
    · grind
    · grind
    · grind
    · grind
    · grind
    · grind
    · grind
    · show d.fly.erase i ≠ [] → _; intro hf; apply h12; intro h; simp [h] at hf
    · simpa [countStep] using h13
    · simpa [waitStep] using h14
    · rw [Hist.snoc]
      refine ⟨h15, ?_⟩
      rcases hph with hph | hph
      · have a := h5 i (.inr (.inr hph))
        simp only [a, Bool.not_false]
        exact h8 i hph
      · obtain ⟨a, b, c⟩ := h6 i hph
        simp only [a, Bool.not_true]
        exact ⟨b, c⟩
  exec := by
    intro d ph log pi x b h
    obtain ⟨hA, hB⟩ := h
    cases x with
    | add k w =>
      have hpa := hB.pa
      simp only [List.countP_cons, isAdd, if_true] at hpa
      have hok := hB.add (by omega)
      have hun := hB.units
      have hokA : 0 < d.ctr ∨ d.fly = [] := by rcases hok with h | h; exact .inl (by omega); exact .inr h.2
      cases w with
      | none =>
        refine ⟨_, _, _, rfl, by simp [ops], by simp [ops], ?_⟩
        simp only [ops, noop, insts, List.map_cons, List.map_nil, List.nil_append]
        refine ⟨hA.change _ (.inr ⟨k, none, rfl, hokA, rfl⟩) ⟨rfl, rfl, rfl⟩, ?_⟩
        obtain ⟨b1, b2, b3, b4, b5, b6, b7, b8, b9, hcas⟩ := hB
        refine ⟨?_, ?_, ?_, ?_, b5, b6, ?_, ?_, ?_, fun y hy => hcas y (by simp [hy])⟩
        · show d.pendD + d.held.length ≤ d.ctr + k; omega
        · simpa [List.countP_cons, isDone] using b2
        · show d.pendA - 1 = _; omega
        · intro _; show d.pendD < d.ctr + k ∨ (d.ctr + k = 0 ∧ _)
          rcases hok with h | ⟨h, h'⟩
          · left; omega
          · by_cases hk : k = 0
            · right; exact ⟨by omega, h'⟩
            · left; omega
        · intro j; rw [← js_cons_ne (x := I.add k none) (by simp [owner])]; exact b7 j
        · intro j; simpa [wstep] using b8 j
        · rw [Hist.snoc]; exact ⟨b9, trivial⟩
      | some j =>
        refine ⟨_, _, _, rfl, by simp [ops], by simp [ops], ?_⟩
        simp only [ops, noop, insts, List.map_cons, List.map_nil, List.nil_append, List.cons_append]
        refine ⟨hA.change _ (.inr ⟨k, some j, rfl, hokA, rfl⟩) ⟨rfl, rfl, rfl⟩, ?_⟩
        obtain ⟨b1, b2, b3, b4, b5, b6, b7, b8, b9, hcas⟩ := hB
        have hj := b7 j
        rw [js_cons_self rfl] at hj
        obtain ⟨rfl, hs, hl⟩ := jsOk_add hj
        have hnh : j ∉ d.held := by rw [b6, hs]; simp
        refine ⟨?_, ?_, ?_, ?_, ?_, ?_, ?_, ?_, ?_, ?_⟩
        rotate_right
        · intro y hy; rcases List.mem_cons.1 hy with rfl | hy
          · trivial
          · exact hcas y (by simp [hy])
        · show d.pendD + (d.held.length + 1) ≤ d.ctr + 1; omega
        · simpa [List.countP_cons, isDone] using b2
        · show d.pendA - 1 = _; simp [List.countP_cons, isAdd]; omega
        · intro _; show d.pendD < d.ctr + 1 ∨ _
          left; omega
        · exact List.nodup_cons.2 ⟨hnh, b5⟩
        · intro k'
          have := b6 k'
          by_cases hk : k' = j
          · subst hk; simp
          · simp [upd, hk, this]
        · intro k'
          by_cases hk : k' = j
          · subst hk; rw [js_cons_self rfl, hl]; simp [jsOk]
          · rw [js_cons_ne (by simpa [owner] using Ne.symm hk),
              ← js_cons_ne (x := I.add 1 (some j)) (by simpa [owner] using Ne.symm hk)]
            simpa [upd, hk] using b7 k'
        · intro k'
          by_cases hk : k' = j
          · subst hk; simp [wstep, b8, hs, trOf]
          · simp [wstep, upd, hk, Ne.symm hk, b8]
        · rw [Hist.snoc]; exact ⟨b9, trivial⟩
    | ld w =>
      obtain ⟨h0, y, hy, he⟩ := decide_ok hB (show isDoneOf w (.ld w) from rfl)
      refine ⟨_, _, _, by simp only [exec, he, Option.map_some]; rfl, by simp [ops], by simp [ops], ?_⟩
      simp only [ops, noop, insts, List.map_nil, List.append_nil, List.cons_append, List.nil_append]
      exact ⟨hA, hB.goes (w := w) rfl hy⟩
    | cas v w =>
      have hv : 1 < v := hB.cas (.cas v w) (by simp)
      have hx : isDoneOf w (.cas v w) := ⟨rfl, hv⟩
      obtain ⟨h0, y, hy, he⟩ := decide_ok hB hx
      by_cases hc : d.ctr = v
      · refine ⟨_, _, _, by simp only [exec, hc, if_true]; rfl, by simp, by simp, ?_⟩
        simp only [ops_cont, noop, List.map_cons, List.map_nil]
        refine ⟨hA.change _ (.inl ⟨_, rfl, by omega, by simp [hc]⟩) ⟨rfl, rfl, rfl⟩, ?_⟩
        exact hB.dec hx _ ⟨rfl, rfl, rfl, rfl, by simp [hc]⟩ (.inl ⟨rfl, by omega⟩)
      · refine ⟨_, _, _, by simp only [exec, hc, if_false, he, Option.map_some]; rfl,
          by simp [ops], by simp [ops], ?_⟩
        simp only [ops, noop, insts, List.map_nil, List.append_nil, List.cons_append, List.nil_append]
        exact ⟨hA, hB.goes hx hy⟩
    | lock w =>
      have hx : isDoneOf w (.lock w) := rfl
      obtain ⟨h0, -⟩ := decide_ok hB hx
      have hne : d.ctr ≠ 0 := by omega
      by_cases hc : 1 < d.ctr
      · refine ⟨_, _, _, by simp only [exec, hne, hc, if_true, if_false]; rfl, by simp, by simp, ?_⟩
        simp only [ops_cont, noop, List.map_cons, List.map_nil]
        refine ⟨hA.change _ (.inl ⟨_, rfl, by omega, rfl⟩) ⟨rfl, rfl, rfl⟩, ?_⟩
        exact hB.dec hx _ ⟨rfl, rfl, rfl, rfl, rfl⟩ (.inl ⟨rfl, by omega⟩)
      · have hc1 : d.ctr = 1 := by omega
        refine ⟨_, _, _, by simp only [exec, hne, hc, if_false]; rfl, ?_, ?_, ?_⟩
        · rw [ops_inl_append]; simpa using hA.nodup
        · rw [ops_inl_append]; simp; intro i hi; exact (hA.mem i).1 hi
        rw [ops_inl_append, insts_inl_append]
        simp only [ops_cont, List.append_nil, List.map_cons, List.map_nil]
        refine ⟨?_, hB.dec hx _ ⟨rfl, rfl, rfl, rfl, by simp [hc1]⟩ (.inr ⟨_, rfl, by omega⟩)⟩
        obtain ⟨h1, h2, h3, h4, h5, h6, h7, h8, h9, h10, h11, h12, h13, h14, h15⟩ := hA
        have hf : d.fly = [] := by
          by_cases hf : d.fly = []
          · exact hf
          · have := h12 hf; omega
        have zm := fun j (h : ZeroSince n j log) =>
          h.mono (.ds (.zero (w.map (·.1)) d.queue) : Event T c)
        have c0 : count n (log ++ [(.ds (.zero (w.map (·.1)) d.queue) : Event T c)]) = 0 := by
          simp [countStep, h13, hc1]
        refine ⟨by simp, ?_, ?_, ?_, ?_, ?_, ?_, ?_, ?_, ?_, by simp, by simp, c0, by simp [waitStep], ?_⟩
        · grind
        · simpa [hf] using h1
        · intro i; show i ∈ d.fly ++ d.queue ↔ _; rw [hf]; grind
        · grind
        · grind
        · grind
        · intro i hi
          by_cases hq : i ∈ d.queue
          · obtain ⟨ct, p, hb⟩ := h10 i ((h2 i).1 hq)
            exact .now (ct := ct) (p := p) (by simp [hb]) c0
          · simp only [hq, if_false] at hi; exact zm i (h8 i hi)
        · grind
        · grind
        · rw [Hist.snoc]; exact ⟨h15, h14.symm, by omega⟩
    | cstart j =>
      refine ⟨_, _, _, rfl, by simp [ops], by simp [ops], ?_⟩
      simp only [ops, noop, insts, List.map_cons, List.map_nil, List.nil_append]
      refine ⟨(hA.ext_ _ (.inr (.inr (.inr (.inl ⟨j, rfl⟩))))).same ⟨rfl, rfl, rfl, rfl⟩, ?_⟩
      obtain ⟨b1, b2, b3, b4, b5, b6, b7, b8, b9, hcas⟩ := hB
      have hj := b7 j
      rw [js_cons_self rfl] at hj
      obtain ⟨hs, hl⟩ := jsOk_cstart hj
      refine ⟨b1, ?_, ?_, b4, b5, ?_, ?_, ?_, ?_, fun y hy => hcas y (by simp [hy])⟩
      · simpa [List.countP_cons, isDone] using b2
      · simpa [List.countP_cons, isAdd] using b3
      · intro k
        have := b6 k
        by_cases hk : k = j
        · subst hk; simp [this, hs]
        · simpa [upd, hk] using this
      · intro k
        by_cases hk : k = j
        · subst hk; rw [hl]; simp [jsOk]
        · rw [← js_cons_ne (x := I.cstart j) (by simpa [owner] using Ne.symm hk)]
          simpa [upd, hk] using b7 k
      · intro k
        by_cases hk : k = j
        · subst hk; simp [wstep, b8, hs, trOf]
        · simp [wstep, upd, hk, Ne.symm hk, b8]
      · rw [Hist.snoc]; exact ⟨b9, trivial⟩
    | cdone j v =>
      refine ⟨_, _, _, rfl, by simp [ops], by simp [ops], ?_⟩
      simp only [ops, noop, insts, List.map_cons, List.map_nil, List.nil_append, List.cons_append]
      refine ⟨(hA.ext_ _ (.inr (.inr (.inr (.inr (.inl ⟨j, v, rfl⟩)))))).same ⟨rfl, rfl, rfl, rfl⟩, ?_⟩
      obtain ⟨b1, b2, b3, b4, b5, b6, b7, b8, b9, hcas⟩ := hB
      have hj := b7 j
      rw [js_cons_self rfl] at hj
      obtain ⟨hs, hl⟩ := jsOk_cdone hj
      refine ⟨b1, ?_, ?_, b4, b5, ?_, ?_, ?_, ?_, ?_⟩
      · simpa [List.countP_cons, isDone] using b2
      · simpa [List.countP_cons, isAdd] using b3
      · intro k
        have := b6 k
        by_cases hk : k = j
        · subst hk; simp [this, hs]
        · simpa [upd, hk] using this
      · intro k
        by_cases hk : k = j
        · subst hk; rw [js_cons_self rfl, hl]; simp [jsOk]
        · rw [js_cons_ne (by simpa [owner] using Ne.symm hk),
            ← js_cons_ne (x := I.cdone j v) (by simpa [owner] using Ne.symm hk)]
          simpa [upd, hk] using b7 k
      · intro k
        by_cases hk : k = j
        · subst hk; simp [wstep, b8, hs, trOf]
        · simp [wstep, upd, hk, Ne.symm hk, b8]
      · rw [Hist.snoc]; exact ⟨b9, trivial⟩
      · intro y hy; rcases List.mem_cons.1 hy with rfl | hy
        · trivial
        · exact hcas y (by simp [hy])
    | wset j v =>
      refine ⟨_, _, _, rfl, by simp [ops], by simp [ops], ?_⟩
      simp only [ops, noop, insts, List.map_cons, List.map_nil, List.nil_append]
      refine ⟨(hA.ext_ _ (.inr (.inr (.inr (.inr (.inr ⟨j, v, rfl⟩)))))).same ⟨rfl, rfl, rfl, rfl⟩, ?_⟩
      obtain ⟨b1, b2, b3, b4, b5, b6, b7, b8, b9, hcas⟩ := hB
      have hj := b7 j
      rw [js_cons_self rfl] at hj
      obtain ⟨hs, hl⟩ := jsOk_wset hj
      refine ⟨b1, ?_, ?_, b4, b5, ?_, ?_, ?_, ?_, fun y hy => hcas y (by simp [hy])⟩
      · simpa [List.countP_cons, isDone] using b2
      · simpa [List.countP_cons, isAdd] using b3
      · intro k
        have := b6 k
        by_cases hk : k = j
        · subst hk; simp [this, hs]
        · simpa [upd, hk] using this
      · intro k
        by_cases hk : k = j
        · subst hk; rw [hl]; simp [jsOk]
        · rw [← js_cons_ne (x := I.wset j v) (by simpa [owner] using Ne.symm hk)]
          simpa [upd, hk] using b7 k
      · intro k
        by_cases hk : k = j
        · subst hk; simp [wstep, b8, hs, trOf]
        · simp [wstep, upd, hk, Ne.symm hk, b8]
      · rw [Hist.snoc]; exact ⟨b9, trivial⟩

end Verif.WaitGroup
