import Verif.PostAck.Model

namespace Verif.PostAck

open Resolver

variable {T : Type}

/-! ## Counters over the pending instructions -/

def isAck (a n : Nat) : I T → Bool | .ack a' n' => a' == a && n' == n | _ => false
def isDetO (p a n : Nat) : I T → Bool | .det a' r => a' == a && decide (p < n) && decide (n < r) | _ => false
def isDet (a : Nat) : I T → Bool | .det a' _ => a' == a | _ => false
def isDetach (a : Nat) : I T → Bool | .detach a' => a' == a | _ => false
def isAttach (a : Nat) : I T → Bool | .attach a' => a' == a | _ => false
def isErase (n : Nat) : I T → Bool | .erase n' => n' == n | _ => false
def isPdone (n : Nat) : I T → Bool | .pdone n' => n' == n | _ => false
def evPdone (n : Nat) : Event T → Bool | .ds (.pdone n') => n' == n | _ => false

/-- What an event says given the events before it. -/
def hist (before : List (Event T)) : Event T → Prop
  | .done i (a, some n) => (∃ ct, Ev.begin i ct a ∈ before) ∧ a ∈ (spec before).att ∧
      n = (spec before).cur a ∧ n < (spec before).posts
  | .done i (a, none) => (.ds (.unq i) : Event T) ∈ before ∧
      ∃ e, Ev.begin i (some e) a ∈ before ∧ Ev.cancel e ∈ before
  | .ds (.posted n _) => n = (spec before).posts
  | .ds (.pdone n) => n < (spec before).posts ∧ (spec before).owe n = [] ∧
      (.ds (.pdone n) : Event T) ∉ before
  | .ds (.attached a) => a ∉ (spec before).att
  | .ds (.detaching a) => a ∈ (spec before).att
  | .ds (.acked a n) => a ∈ (spec before).owe n ∧ ∃ i, Ev.done i (a, some n) ∈ before
  | .ds (.released a n) => a ∈ (spec before).owe n ∧ a ∉ (spec before).att
  | .ds (.enq i) => ∃ ct a, Ev.begin i ct a ∈ before ∧ (spec before).cur a = (spec before).posts
  | _ => True

/-- Invariant of agents and polls. -/
structure IA (d : D) (ph : OpId → Phase (Agent × Option Nat)) (log : List (Event T))
    (pi : List (I T)) : Prop where
  posts : d.posts = (spec log).posts
  active : d.active = (spec log).att.length
  attN : (spec log).att.Nodup
  cur : ∀ a ∈ (spec log).att, d.pollSeq a = (spec log).cur a ∧ d.pollSeq a ≤ d.posts
  nAtt : ∀ a, pi.countP (isAttach a) = if d.st a = .attaching then 1 else 0
  nDet : ∀ a, pi.countP (isDetach a) + pi.countP (isDet a) = if d.st a = .detaching then 1 else 0
  att : ∀ a, a ∈ (spec log).att ↔
    d.st a = .on ∨ (∃ i, d.st a = .polling i) ∨ 0 < pi.countP (isDetach a)
  mech : ∀ a, d.mech a = true ↔ d.st a ≠ .off ∧ d.st a ≠ .attaching
  polling : ∀ a i, d.st a = .polling i → d.agOf i = a ∧ (∃ ct, Ev.begin i ct a ∈ log) ∧
    ph i ≠ .finFast ∧ ph i ≠ .fin
  run : ∀ i ct a, Ev.begin i ct a ∈ log → d.agOf i = a ∧
    (ph i = .finFast ∨ ph i = .fin ∨ d.st a = .polling i)
  begun : ∀ i, ph i ≠ .new → ∃ ct, Ev.begin i ct (d.agOf i) ∈ log
  new : ∀ i, ph i = .new → d.nd i = none ∧ d.pend i = false
  mem : ∀ i, ph i = .waiting ↔ i ∈ d.polls
  pollsN : d.polls.Nodup
  waiting : ∀ i, ph i = .waiting → d.nd i = none ∧ d.pend i = false ∧ d.pollSeq (d.agOf i) = d.posts
  taken : ∀ i, ph i = .taken → d.nd i = some (d.pollSeq (d.agOf i)) ∧
    d.pollSeq (d.agOf i) < d.posts ∧ d.pend i = true
  gone : ∀ i, ph i = .gone → d.nd i = none ∧ d.pend i = true ∧ (.ds (.unq i) : Event T) ∈ log ∧
    ∃ e, Ev.begin i (some e) (d.agOf i) ∈ log ∧ Ev.cancel e ∈ log
  fast : ∀ i v, ph i = .fast v → v = (d.agOf i, d.nd i) ∧ d.nd i = some (d.pollSeq (d.agOf i)) ∧
    d.pollSeq (d.agOf i) < d.posts

/-- Invariant of posts. -/
structure IB (d : D) (log : List (Event T)) (pi : List (I T)) : Prop where
  acks : ∀ n, d.acks n = ((spec log).owe n).length
  oweN : ∀ n, ((spec log).owe n).Nodup
  oweF : ∀ n, (spec log).posts ≤ n → (spec log).owe n = []
  owe : ∀ a n, ((spec log).owe n).count a =
    (if a ∈ (spec log).att ∧ d.pollSeq a ≤ n ∧ n < (spec log).posts then 1 else 0) +
    d.handles.count (a, n) + pi.countP (isAck a n) + pi.countP (isDetO (d.pollSeq a) a n)
  det : ∀ a r, .det a r ∈ pi → d.pollSeq a < r ∧ r ≤ (spec log).posts
  queue : ∀ n, d.queue.count n =
    (if (spec log).owe n = [] then 0 else 1) + pi.countP (isErase n)
  post : ∀ n, pi.countP (isErase n) + pi.countP (isPdone n) + log.countP (evPdone n) =
    if n < (spec log).posts ∧ (spec log).owe n = [] then 1 else 0
  deliv : ∀ a n, ((a, n) ∈ d.handles ∨ .ack a n ∈ pi) → ∃ i, Ev.done i (a, some n) ∈ log

/-- Invariant. -/
structure Inv (d : D) (ph : OpId → Phase (Agent × Option Nat)) (log : List (Event T))
    (pi : List (I T)) : Prop where
  A : IA d ph log pi
  B : IB d log pi
  hist : Hist hist log

/-! ## Helper lemmas -/

theorem IA.congr {d : D} {ph : OpId → Phase (Agent × Option Nat)} {log : List (Event T)}
    {pi pi' : List (I T)} (h : IA d ph log pi)
    (h1 : ∀ a, pi'.countP (isAttach a) = pi.countP (isAttach a))
    (h2 : ∀ a, pi'.countP (isDetach a) = pi.countP (isDetach a))
    (h3 : ∀ a, pi'.countP (isDet a) = pi.countP (isDet a)) : IA d ph log pi' := by
  obtain ⟨a1, a2, a3, a4, a5, a6, a7, a8, a9, a10, a11, a12, a13, a14, a15, a16, a17, a18⟩ := h
  refine ⟨a1, a2, a3, a4, ?_, ?_, ?_, a8, a9, a10, a11, a12, a13, a14, a15, a16, a17, a18⟩
  · intro a; rw [h1]; exact a5 a
  · intro a; rw [h2, h3]; exact a6 a
  · intro a; rw [h2]; exact a7 a

/-- Events that do not change the specification state, nor what `IA` says about the history. -/
theorem IA.ext_ {d : D} {ph : OpId → Phase (Agent × Option Nat)} {log : List (Event T)}
    {pi : List (I T)} (h : IA d ph log pi) (v : Event T) (hs : (spec log).step v = spec log)
    (hv : ∀ i ct a, v ≠ .begin i ct a) : IA d ph (log ++ [v]) pi := by
  obtain ⟨a1, a2, a3, a4, a5, a6, a7, a8, a9, a10, a11, a12, a13, a14, a15, a16, a17, a18⟩ := h
  have hb : ∀ i ct a, (Ev.begin i ct a ∈ log ++ [v]) ↔ Ev.begin i ct a ∈ log := by
    intro i ct a; simp only [List.mem_append, List.mem_singleton]
    exact ⟨fun h => h.resolve_right (fun h => hv i ct a h.symm), .inl⟩
  refine ⟨?_, ?_, ?_, ?_, a5, a6, ?_, a8, ?_, ?_, ?_, a12, a13, a14, a15, a16, ?_, a18⟩
  · rw [spec_append, hs]; exact a1
  · rw [spec_append, hs]; exact a2
  · rw [spec_append, hs]; exact a3
  · rw [spec_append, hs]; exact a4
  · rw [spec_append, hs]; exact a7
  · intro a i; simp only [hb]; exact a9 a i
  · intro i ct a; simp only [hb]; exact a10 i ct a
  · intro i; simp only [hb]; exact a11 i
  · intro i hi
    obtain ⟨x, y, z, e, u, w⟩ := a17 i hi
    exact ⟨x, y, by simp [z], e, by simp [u], by simp [w]⟩

theorem IB.ext_ {d : D} {log : List (Event T)}
    {pi : List (I T)} (h : IB d log pi) (v : Event T) (hs : (spec log).step v = spec log)
    (hv : ∀ n, evPdone n v = false) : IB d (log ++ [v]) pi := by
  obtain ⟨b1, b2, b3, b4, b5, b6, b7, b8⟩ := h
  refine ⟨?_, ?_, ?_, ?_, ?_, ?_, ?_, ?_⟩
  all_goals try simp only [spec_append, hs]
  · exact b1
  · exact b2
  · exact b3
  · exact b4
  · exact b5
  · exact b6
  · intro n; rw [List.countP_append]; simpa [List.countP_cons, hv] using b7 n
  · intro a n h; obtain ⟨i, hi⟩ := b8 a n h; exact ⟨i, by simp [hi]⟩

/-- `take` when no assertion fails. -/
theorem take_eq {n : Nat} {l : List OpId} (hn : l.Nodup) {d : D}
    (h : ∀ i ∈ l, d.nd i = none ∧ d.pend i = false) :
    take d n l = some { d with pend := fun j => if j ∈ l then true else d.pend j,
                               nd := fun j => if j ∈ l then some n else d.nd j } := by
  induction l generalizing d with
  | nil => simp [take]
  | cons i l ih =>
    obtain ⟨h1, h2⟩ := h i (by simp)
    rw [List.nodup_cons] at hn
    rw [take, h1, h2]
    simp only [Bool.false_or, Option.isSome_none, Bool.false_eq_true, if_false]
    rw [ih hn.2]
    · congr 1
      simp only [List.mem_cons]
      congr 1
      · funext j
        by_cases hj : j ∈ l
        · simp [hj]
        · by_cases hji : j = i <;> simp [hj, hji, upd]
      · funext j
        by_cases hj : j ∈ l
        · simp [hj]
        · by_cases hji : j = i <;> simp [hj, hji, upd]
    · intro j hj
      have hji : j ≠ i := by rintro rfl; exact hn.1 hj
      simp only [upd_ne _ _ hji]
      exact h j (by simp [hj])

theorem ops_inl (l : List OpId) : ops (I := I T) (l.map .inl) = l := by
  induction l with
  | nil => rfl
  | cons a l ih => simp [ops, ih]

theorem insts_inl (l : List OpId) : insts (I := I T) (l.map .inl) = [] := by
  induction l with
  | nil => rfl
  | cons a l ih => simp [insts, ih]

/-- The agent of a running poll. -/
theorem IA.agent {d : D} {ph : OpId → Phase (Agent × Option Nat)} {log : List (Event T)}
    {pi : List (I T)} (h : IA d ph log pi) {i : OpId} {ct : Option EvId} {a : Agent}
    (hb : Ev.begin i ct a ∈ log) (h1 : ph i ≠ .finFast) (h2 : ph i ≠ .fin) :
    d.agOf i = a ∧ d.st a = .polling i ∧ a ∈ (spec log).att ∧ d.mech a = true := by
  obtain ⟨h3, h4⟩ := h.run i ct a hb
  have h5 : d.st a = .polling i := by
    rcases h4 with h | h | h
    · exact absurd h h1
    · exact absurd h h2
    · exact h
  exact ⟨h3, h5, (h.att a).2 (.inr (.inl ⟨i, h5⟩)), (h.mech a).2 (by simp [h5])⟩

theorem IB.owes {d : D} {log : List (Event T)}
    {pi : List (I T)} (h : IB d log pi) {a n : Nat} (ha : a ∈ (spec log).att)
    (h1 : d.pollSeq a ≤ n) (h2 : n < (spec log).posts) :
    a ∈ (spec log).owe n ∧ n ∈ d.queue := by
  have h3 := h.owe a n
  rw [if_pos ⟨ha, h1, h2⟩] at h3
  have h4 : a ∈ (spec log).owe n := List.count_pos_iff.1 (by omega)
  refine ⟨h4, List.count_pos_iff.1 ?_⟩
  rw [h.queue n, if_neg (List.ne_nil_of_mem h4)]; omega

/-! ## The laws that do not execute member functions -/

theorem inv_begin {d : D} {ph : OpId → Phase (Agent × Option Nat)} {log : List (Event T)}
    {pi : List (I T)} {i : OpId} {ct : Option EvId} {a : Agent} {d' : D} (h : Inv d ph log pi)
    (hph : ph i = .new) (hb : ∀ ct p, (Ev.begin i ct p : Event T) ∉ log) (ha : admit d i a = some d') :
    Inv d' ph (log ++ [.begin i ct a]) pi := by
  simp only [admit] at ha
  split at ha
  · rename_i hst
    simp only [Option.some.injEq] at ha; subst ha
    obtain ⟨hA, hB, hH⟩ := h
    refine ⟨?_, ?_, ?_⟩
    · obtain ⟨a1, a2, a3, a4, a5, a6, a7, a8, a9, a10, a11, a12, a13, a14, a15, a16, a17, a18⟩ := hA
      have hne : ∀ j, ph j ≠ .new → j ≠ i := by rintro j h rfl; exact h hph
      refine ⟨?_, ?_, ?_, ?_, ?_, ?_, ?_, ?_, ?_, ?_, ?_, a12, a13, a14, ?_, ?_, ?_, ?_⟩
      all_goals try simp only [spec_append, Spec.step]
      · exact a1
      · exact a2
      · exact a3
      · exact a4
      · intro b; rw [a5 b]; grind
      · intro b; rw [a6 b]; grind
      · intro b; rw [a7 b]; simp only [upd]
        by_cases hba : b = a
        · subst hba; simp [hst]
        · simp [hba]
      · intro b; rw [a8 b]; grind
      · intro b j hj
        by_cases hba : b = a
        · subst hba; simp at hj; subst hj; simp [hph]
        · rw [upd_ne _ _ hba] at hj
          obtain ⟨x, ⟨ct', y⟩, z⟩ := a9 b j hj
          have : j ≠ i := by rintro rfl; exact hb _ _ y
          rw [upd_ne _ _ this]
          exact ⟨x, ⟨ct', by simp [y]⟩, z⟩
      · intro j ct' b hj
        simp only [List.mem_append, List.mem_singleton] at hj
        rcases hj with hj | hj
        · have : j ≠ i := by rintro rfl; exact hb _ _ hj
          obtain ⟨x, y⟩ := a10 j ct' b hj
          rw [upd_ne _ _ this]
          refine ⟨x, ?_⟩
          rcases y with y | y | y
          · exact .inl y
          · exact .inr (.inl y)
          · right; right
            have : b ≠ a := by rintro rfl; rw [hst] at y; cases y
            rw [upd_ne _ _ this]; exact y
        · injection hj with e1 e2 e3; subst e1; subst e3; simp
      · intro j hj
        rw [upd_ne _ _ (hne j hj)]
        obtain ⟨ct', h⟩ := a11 j hj
        exact ⟨ct', by simp [h]⟩
      · intro j hj; rw [upd_ne _ _ (hne j (by simp [hj]))]; exact a15 j hj
      · intro j hj; rw [upd_ne _ _ (hne j (by simp [hj]))]; exact a16 j hj
      · intro j hj; rw [upd_ne _ _ (hne j (by simp [hj]))]
        obtain ⟨x, y, z, e, u, w⟩ := a17 j hj
        exact ⟨x, y, by simp [z], e, by simp [u], by simp [w]⟩
      · intro j v hj; rw [upd_ne _ _ (hne j (by simp [hj]))]; exact a18 j v hj
    · have := hB.ext_ (.begin i ct a) rfl (fun _ => rfl)
      obtain ⟨b1, b2, b3, b4, b5, b6, b7, b8⟩ := this
      exact ⟨b1, b2, b3, b4, b5, b6, b7, b8⟩
    · rw [Hist.snoc]; exact ⟨hH, trivial⟩
  · simp at ha

theorem inv_start {d : D} {ph : OpId → Phase (Agent × Option Nat)} {log : List (Event T)}
    {pi : List (I T)} {i : OpId} {ct : Option EvId} {a : Agent} (h : Inv d ph log pi)
    (hph : ph i = .new) (hb : (Ev.begin i ct a : Event T) ∈ log) :
    ∃ d' r, ∃ es : List (E T), start d i = some (d', r, es) ∧
      Inv d' (upd ph i (match r with | some v => .fast v | none => .waiting))
        (log ++ es.map (Ev.ds (S := ds T))) pi := by
  obtain ⟨hA, hB, hH⟩ := h
  obtain ⟨g1, g2, g3, g4⟩ := hA.agent hb (by simp [hph]) (by simp [hph])
  have hnd := (hA.new i hph).1
  by_cases hlt : d.pollSeq a < d.posts
  · have hq := (IB.owes hB g3 (Nat.le_refl _) (by rw [← hA.posts]; exact hlt)).2
    refine ⟨_, _, _, by simp only [start, g1, g4, hnd, hlt, hq]; rfl, ?_⟩
    simp only [List.map_cons, List.map_nil]
    refine ⟨?_, ?_, ?_⟩
    · obtain ⟨a1, a2, a3, a4, a5, a6, a7, a8, a9, a10, a11, a12, a13, a14, a15, a16, a17, a18⟩ := hA.ext_ (.ds (.skip i)) rfl (by simp)
      refine ⟨a1, a2, a3, a4, a5, a6, a7, a8, ?_, ?_, ?_, ?_, ?_, a14, ?_, ?_, ?_, ?_⟩
      · grind
      · grind
      · grind
      · grind
      · grind
      · grind
      · grind
      · grind
      · grind
    · obtain ⟨b1, b2, b3, b4, b5, b6, b7, b8⟩ := hB.ext_ (.ds (.skip i)) rfl (fun _ => rfl)
      exact ⟨b1, b2, b3, b4, b5, b6, b7, b8⟩
    · rw [Hist.snoc]; exact ⟨hH, trivial⟩
  · have hle := (hA.cur a g3)
    refine ⟨_, _, _, by simp only [start, g1, g4, hnd, hlt]; rfl, ?_⟩
    simp only [List.map_cons, List.map_nil]
    have hni : i ∉ d.polls := by intro hm; have := (hA.mem i).2 hm; simp [hph] at this
    refine ⟨?_, ?_, ?_⟩
    · obtain ⟨a1, a2, a3, a4, a5, a6, a7, a8, a9, a10, a11, a12, a13, a14, a15, a16, a17, a18⟩ := hA.ext_ (.ds (.enq i)) rfl (by simp)
      refine ⟨a1, a2, a3, a4, a5, a6, a7, a8, ?_, ?_, ?_, ?_, ?_, ?_, ?_, ?_, ?_, ?_⟩
      · grind
      · grind
      · grind
      · grind
      · grind
      · rw [List.nodup_append]; grind
      · have : d.pollSeq a = d.posts := by omega
        grind
      · grind
      · grind
      · grind
    · obtain ⟨b1, b2, b3, b4, b5, b6, b7, b8⟩ := hB.ext_ (.ds (.enq i)) rfl (fun _ => rfl)
      exact ⟨b1, b2, b3, b4, b5, b6, b7, b8⟩
    · rw [Hist.snoc]
      exact ⟨hH, ct, a, hb, by have := hA.posts; omega⟩

theorem inv_fin {d : D} {ph : OpId → Phase (Agent × Option Nat)} {log : List (Event T)}
    {pi : List (I T)} {i : OpId} {f : Phase (Agent × Option Nat)} (h : Inv d ph log pi)
    (hph : ph i = .taken ∨ ph i = .gone ∨ ph i = .fast (d.agOf i, d.nd i))
    (hf : f = .finFast ∨ f = .fin) :
    Inv (fin d i) (upd ph i f) (log ++ [.done i (d.agOf i, d.nd i)]) pi := by
  obtain ⟨hA, hB, hH⟩ := h
  have hp1 : ph i ≠ .finFast := by rcases hph with h | h | h <;> simp [h]
  have hp2 : ph i ≠ .fin := by rcases hph with h | h | h <;> simp [h]
  have hp3 : ph i ≠ .new := by rcases hph with h | h | h <;> simp [h]
  have hp4 : ph i ≠ .waiting := by rcases hph with h | h | h <;> simp [h]
  obtain ⟨ct, hb⟩ := hA.begun i hp3
  obtain ⟨_, g2, g3, g4⟩ := hA.agent hb hp1 hp2
  generalize hag : d.agOf i = a at *
  -- other running polls belong to other agents
  have hoth : ∀ j, j ≠ i → ph j ≠ .new → ph j ≠ .finFast → ph j ≠ .fin → d.agOf j ≠ a := by
    intro j hji h1 h2 h3 e
    obtain ⟨ct', hb'⟩ := hA.begun j h1
    obtain ⟨_, x, _⟩ := hA.agent hb' h2 h3
    rw [e, g2] at x; injection x with x; exact hji x.symm
  by_cases hnd : d.nd i = none
  · rw [hnd]
    have hfin : fin d i = { d with st := upd d.st a .on } := by simp only [fin, hnd, hag]
    rw [hfin]
    have hgone : ph i = .gone := by
      rcases hph with h | h | h
      · have := (hA.taken i h).1; simp [hnd] at this
      · exact h
      · have := (hA.fast i _ h).2.1; simp [hnd] at this
    refine ⟨?_, ?_, ?_⟩
    · obtain ⟨a1, a2, a3, a4, a5, a6, a7, a8, a9, a10, a11, a12, a13, a14, a15, a16, a17, a18⟩ := hA.ext_ (.done i (a, none)) rfl (by simp)
      refine ⟨a1, a2, a3, a4, ?_, ?_, ?_, ?_, ?_, ?_, ?_, ?_, ?_, a14, ?_, ?_, ?_, ?_⟩
      · intro b; rw [a5 b]; grind
      · intro b; rw [a6 b]; grind
      · intro b; rw [a7 b]; simp only [upd]
        by_cases hba : b = a
        · subst hba; simp [g2]
        · simp [hba]
      · intro b; rw [a8 b]; grind
      · grind
      · grind
      · grind
      · grind
      · grind
      · grind
      · grind
      · grind
      · grind
    · obtain ⟨b1, b2, b3, b4, b5, b6, b7, b8⟩ := hB.ext_ (.done i (a, none)) rfl (fun _ => rfl)
      exact ⟨b1, b2, b3, b4, b5, b6, b7, b8⟩
    · rw [Hist.snoc]
      obtain ⟨x, y, z, w⟩ := hA.gone i hgone
      rw [hag] at w
      exact ⟨hH, z, w⟩
  · have hval : d.nd i = some (d.pollSeq a) ∧ d.pollSeq a < d.posts := by
      rcases hph with h | h | h
      · have := (hA.taken i h); rw [hag] at this; exact ⟨this.1, this.2.1⟩
      · have := (hA.gone i h).1; exact absurd this hnd
      · have := (hA.fast i _ h).2; rw [hag] at this; exact this
    obtain ⟨hval, hlt⟩ := hval
    rw [hval]
    have hfin : fin d i = { d with
        pollSeq := upd d.pollSeq a (d.pollSeq a + 1),
        st := upd d.st a .on, handles := (a, d.pollSeq a) :: d.handles } := by
      simp only [fin, hval, hag]
    rw [hfin]
    have hcur := hA.cur a g3
    have hposts := hA.posts
    have hbm : ∀ j ct' b, (Ev.begin j ct' b : Event T) ∈ log ++ [Ev.done i (a, some (d.pollSeq a))] ↔
        Ev.begin j ct' b ∈ log := by simp
    refine ⟨?_, ?_, ?_⟩
    · obtain ⟨a1, a2, a3, a4, a5, a6, a7, a8, a9, a10, a11, a12, a13, a14, a15, a16, a17, a18⟩ := hA
      refine ⟨?_, ?_, ?_, ?_, ?_, ?_, ?_, ?_, ?_, ?_, ?_, ?_, ?_, a14, ?_, ?_, ?_, ?_⟩
      · simpa [Spec.step] using a1
      · simpa [Spec.step] using a2
      · simpa [Spec.step] using a3
      · simp only [spec_append, Spec.step]
        intro b hb
        have := a4 b hb
        by_cases hba : b = a
        · subst hba; simp only [upd_same]; omega
        · simpa only [upd_ne _ _ hba] using this
      · intro b; rw [a5 b]; grind
      · intro b; rw [a6 b]; grind
      · intro b; simp only [spec_append, Spec.step]; rw [a7 b]; simp only [upd]
        by_cases hba : b = a
        · subst hba; simp [g2]
        · simp [hba]
      · intro b; rw [a8 b]; grind
      · simp only [hbm]; grind
      · simp only [hbm]; grind
      · simp only [hbm]; grind
      · grind
      · grind
      · grind
      · grind
      · simp only [hbm]; grind
      · grind
    · obtain ⟨b1, b2, b3, b4, b5, b6, b7, b8⟩ := hB
      refine ⟨?_, ?_, ?_, ?_, ?_, ?_, ?_, ?_⟩
      all_goals try simp only [spec_append, Spec.step]
      · exact b1
      · exact b2
      · exact b3
      · intro b n
        have := b4 b n
        by_cases hba : b = a
        · subst hba
          rw [upd_same, List.count_cons]
          have hz : pi.countP (isDetO (d.pollSeq b + 1) b n) = pi.countP (isDetO (d.pollSeq b) b n) := by
            have h6 := hA.nDet b
            rw [g2] at h6
            have h7 : pi.countP (isDet b) = 0 := by simp at h6; rw [List.countP_eq_zero]; simpa using h6.2
            have h8 : ∀ p, pi.countP (isDetO p b n) = 0 := by
              intro p; rw [List.countP_eq_zero] at h7 ⊢
              intro x hx h; apply h7 x hx
              cases x <;> simp_all [isDetO, isDet]
            rw [h8, h8]
          rw [hz]
          by_cases hn : n = d.pollSeq b
          · subst hn
            have e1 : d.pollSeq b < (spec log).posts := by omega
            simp only [g3, Nat.le_refl, e1, and_self, if_true] at this
            simp only [g3, e1, and_true, true_and, beq_self_eq_true, if_true]
            rw [if_neg (by omega)]; omega
          · have e2 : ¬ ((b, d.pollSeq b) = (b, n)) := by
              intro h; injection h with _ h; exact hn h.symm
            have e3 : (d.pollSeq b + 1 ≤ n) ↔ (d.pollSeq b ≤ n) := by omega
            simp only [e3, beq_iff_eq, e2, if_false, Nat.add_zero]
            exact this
        · rw [upd_ne _ _ hba, List.count_cons]
          have e2 : ¬ ((a, d.pollSeq a) = (b, n)) := by
            intro h; injection h with h _; exact hba h.symm
          simp only [beq_iff_eq, e2, if_false, Nat.add_zero]
          exact this
      · intro b r hr
        have hba : b ≠ a := by
          rintro rfl
          have h6 := hA.nDet b
          rw [g2] at h6
          have : 0 < pi.countP (isDet b) := List.countP_pos_iff.2 ⟨_, hr, by simp [isDet]⟩
          simp at h6
          have := h6.2 _ hr; simp [isDet] at this
        rw [upd_ne _ _ hba]; exact b5 b r hr
      · exact b6
      · intro n; rw [List.countP_append]; simpa [List.countP_cons, evPdone] using b7 n
      · intro b n h
        rcases h with h | h
        · rw [List.mem_cons] at h
          rcases h with h | h
          · injection h with h1 h2; subst h1; subst h2; exact ⟨i, by simp⟩
          · obtain ⟨j, hj⟩ := b8 b n (.inl h); exact ⟨j, by simp [hj]⟩
        · obtain ⟨j, hj⟩ := b8 b n (.inr h); exact ⟨j, by simp [hj]⟩
    · rw [Hist.snoc]
      exact ⟨hH, ⟨ct, hb⟩, g3, hcur.1, by omega⟩

theorem inv_try {d : D} {ph : OpId → Phase (Agent × Option Nat)} {log : List (Event T)}
    {pi : List (I T)} {i : OpId} {e : EvId} {a : Agent} (h : Inv d ph log pi)
    (hph : ph i = .waiting) (hb : (Ev.begin i (some e) a : Event T) ∈ log)
    (hc : (Ev.cancel e : Event T) ∈ log) :
    ∃ d', ∃ es : List (E T), tryCancel d i = some (d', true, es) ∧
      Inv d' (upd ph i .gone) (log ++ es.map (Ev.ds (S := ds T))) pi := by
  obtain ⟨hA, hB, hH⟩ := h
  obtain ⟨w1, w2, w3⟩ := hA.waiting i hph
  have hm := (hA.mem i).1 hph
  obtain ⟨g1, g2, g3, g4⟩ := hA.agent hb (by simp [hph]) (by simp [hph])
  refine ⟨_, _, by simp only [tryCancel, w1, w2, hm]; rfl, ?_⟩
  simp only [List.map_cons, List.map_nil]
  refine ⟨?_, ?_, ?_⟩
  · have hm' : (Ev.ds (.unq i) : Event T) ∈ log ++ [.ds (.unq i)] := by simp
    have hb' : (Ev.begin i (some e) a : Event T) ∈ log ++ [.ds (.unq i)] := by simp [hb]
    have hc' : (Ev.cancel e : Event T) ∈ log ++ [.ds (.unq i)] := by simp [hc]
    obtain ⟨a1, a2, a3, a4, a5, a6, a7, a8, a9, a10, a11, a12, a13, a14, a15, a16, a17, a18⟩ := hA.ext_ (.ds (.unq i)) rfl (by simp)
    refine ⟨a1, a2, a3, a4, a5, a6, a7, a8, ?_, ?_, ?_, ?_, ?_, ?_, ?_, ?_, ?_, ?_⟩
    · grind
    · grind
    · grind
    · grind
    · grind
    · grind
    · grind
    · grind
    · intro j hj
      by_cases hji : j = i
      · subst hji; rw [g1]; exact ⟨w1, by simp, hm', e, hb', hc'⟩
      · simp only [upd_ne _ _ hji] at hj ⊢; exact a17 j hj
    · grind
  · obtain ⟨b1, b2, b3, b4, b5, b6, b7, b8⟩ := hB.ext_ (.ds (.unq i)) rfl (fun _ => rfl)
    exact ⟨b1, b2, b3, b4, b5, b6, b7, b8⟩
  · rw [Hist.snoc]; exact ⟨hH, trivial⟩

theorem inv_call {d : D} {ph : OpId → Phase (Agent × Option Nat)} {log : List (Event T)}
    {pi : List (I T)} {x : I T} {d' : D} (h : Inv d ph log pi) (hc : call d x = some d') :
    Inv d' ph log (x :: pi) := by
  obtain ⟨hA, hB, hH⟩ := h
  cases x with
  | post x =>
    simp only [call, Option.some.injEq] at hc; subst hc
    refine ⟨hA.congr ?_ ?_ ?_, ?_, hH⟩
    · intro a; simp [isAttach]
    · intro a; simp [isDetach]
    · intro a; simp [isDet]
    · obtain ⟨b1, b2, b3, b4, b5, b6, b7, b8⟩ := hB
      refine ⟨b1, b2, b3, ?_, ?_, ?_, ?_, ?_⟩
      · simpa [List.countP_cons, isAck, isDetO] using b4
      · simpa using b5
      · simpa [isErase] using b6
      · simpa [isErase, isPdone] using b7
      · simpa using b8
  | attach a =>
    simp only [call] at hc
    split at hc
    · rename_i hst
      simp only [Option.some.injEq] at hc; subst hc
      refine ⟨?_, ?_, hH⟩
      · obtain ⟨a1, a2, a3, a4, a5, a6, a7, a8, a9, a10, a11, a12, a13, a14, a15, a16, a17, a18⟩ := hA
        refine ⟨a1, a2, a3, a4, ?_, ?_, ?_, ?_, ?_, ?_, a11, a12, a13, a14, a15, a16, a17, a18⟩
        · intro b; rw [List.countP_cons, a5 b]; simp only [isAttach, beq_iff_eq]; grind
        · intro b; rw [List.countP_cons, List.countP_cons]; have := a6 b; simp only [isDetach, isDet]; grind
        · intro b; rw [List.countP_cons, a7 b]; simp only [isDetach]; grind
        · grind
        · grind
        · grind
      · obtain ⟨b1, b2, b3, b4, b5, b6, b7, b8⟩ := hB
        refine ⟨b1, b2, b3, ?_, ?_, ?_, ?_, ?_⟩
        · simpa [List.countP_cons, isAck, isDetO] using b4
        · simpa using b5
        · simpa [isErase] using b6
        · simpa [isErase, isPdone] using b7
        · simpa using b8
    · simp at hc
  | detach a =>
    simp only [call] at hc
    split at hc
    · rename_i hst
      simp only [Option.some.injEq] at hc; subst hc
      refine ⟨?_, ?_, hH⟩
      · obtain ⟨a1, a2, a3, a4, a5, a6, a7, a8, a9, a10, a11, a12, a13, a14, a15, a16, a17, a18⟩ := hA
        refine ⟨a1, a2, a3, a4, ?_, ?_, ?_, ?_, ?_, ?_, a11, a12, a13, a14, a15, a16, a17, a18⟩
        · intro b; rw [List.countP_cons, a5 b]; simp only [isAttach]; grind
        · intro b; rw [List.countP_cons, List.countP_cons]; have := a6 b; simp only [isDetach, isDet, beq_iff_eq]; grind
        · intro b; rw [List.countP_cons, a7 b]; simp only [isDetach, beq_iff_eq]; grind
        · grind
        · grind
        · grind
      · obtain ⟨b1, b2, b3, b4, b5, b6, b7, b8⟩ := hB
        refine ⟨b1, b2, b3, ?_, ?_, ?_, ?_, ?_⟩
        · simpa [List.countP_cons, isAck, isDetO] using b4
        · simpa using b5
        · simpa [isErase] using b6
        · simpa [isErase, isPdone] using b7
        · simpa using b8
    · simp at hc
  | ack a n =>
    simp only [call] at hc
    split at hc
    · rename_i hm
      simp only [Option.some.injEq] at hc; subst hc
      refine ⟨?_, ?_, hH⟩
      · have := hA.congr (pi' := .ack a n :: pi) (by intro b; simp [isAttach])
          (by intro b; simp [isDetach]) (by intro b; simp [isDet])
        obtain ⟨a1, a2, a3, a4, a5, a6, a7, a8, a9, a10, a11, a12, a13, a14, a15, a16, a17, a18⟩ := this
        exact ⟨a1, a2, a3, a4, a5, a6, a7, a8, a9, a10, a11, a12, a13, a14, a15, a16, a17, a18⟩
      · obtain ⟨b1, b2, b3, b4, b5, b6, b7, b8⟩ := hB
        refine ⟨b1, b2, b3, ?_, ?_, ?_, ?_, ?_⟩
        · intro b m
          have := b4 b m
          rw [List.countP_cons, List.countP_cons, List.count_erase]
          have hp := List.count_pos_iff.2 hm
          simp only [isAck, isDetO, beq_iff_eq, Bool.and_eq_true]
          by_cases e : (a, n) = (b, m)
          · injection e with e1 e2; subst e1; subst e2
            simp; omega
          · have e' : ¬ (a = b ∧ n = m) := by rintro ⟨rfl, rfl⟩; exact e rfl
            simp only [e, e', if_false]; simpa using this
        · simpa using b5
        · simpa [isErase] using b6
        · simpa [isErase, isPdone] using b7
        · intro b m h
          rcases h with h | h
          · exact b8 b m (.inl (List.mem_of_mem_erase h))
          · rw [List.mem_cons] at h
            rcases h with h | h
            · injection h with h1 h2; subst h1; subst h2; exact b8 _ _ (.inl hm)
            · exact b8 b m (.inr h)
    · simp at hc
  | pdone n => simp [call] at hc
  | det a r => simp [call] at hc
  | erase n => simp [call] at hc

/-! ## Execution of member functions -/

/-- The statement of the law for one instruction. -/
def Law (d : D) (ph : OpId → Phase (Agent × Option Nat)) (log : List (Event T)) (pi : List (I T))
    (x : I T) : Prop :=
  ∃ d' ps, ∃ es : List (E T), exec d x = some (d', ps, es) ∧ (ops ps).Nodup ∧
    (∀ i ∈ ops ps, ph i = .waiting) ∧
    Inv d' (fun i => if i ∈ ops ps then .taken else ph i) (log ++ es.map (Ev.ds (S := ds T)))
      (insts ps ++ pi)

theorem law_post {d : D} {ph : OpId → Phase (Agent × Option Nat)} {log : List (Event T)}
    {pi : List (I T)} {x : T} (h : Inv d ph log (.post x :: pi)) : Law d ph log pi (.post x) := by
  obtain ⟨hA, hB, hH⟩ := h
  have hA := hA.congr (pi' := pi) (by intro b; simp [isAttach])
    (by intro b; simp [isDetach]) (by intro b; simp [isDet])
  have hposts := hA.posts
  have hof := hB.oweF
  have hB : IB d log pi := by
    obtain ⟨b1, b2, b3, b4, b5, b6, b7, b8⟩ := hB
    refine ⟨b1, b2, b3, ?_, ?_, ?_, ?_, ?_⟩
    · simpa [List.countP_cons, isAck, isDetO] using b4
    · simpa using b5
    · simpa [isErase] using b6
    · simpa [isErase, isPdone] using b7
    · simpa using b8
  by_cases hz : d.active = 0
  · have hatt : (spec log).att = [] := by
      have := hA.active; rw [hz] at this; exact List.length_eq_zero_iff.1 this.symm
    have hpl : d.polls = [] := by
      rw [List.eq_nil_iff_forall_not_mem]
      intro i hi
      have hw := (hA.mem i).2 hi
      obtain ⟨ct, hb⟩ := hA.begun i (by simp [hw])
      have := (hA.agent hb (by simp [hw]) (by simp [hw])).2.2.1
      rw [hatt] at this; simp at this
    refine ⟨{ d with posts := d.posts + 1 }, [.inr (.pdone d.posts)], [.posted d.posts x],
      by simp [exec, hz, hpl], by simp [ops], by simp [ops], ?_⟩
    simp only [ops, insts, List.map_cons, List.map_nil, List.not_mem_nil, if_false, List.cons_append,
      List.nil_append]
    have howe : upd (spec log).owe d.posts [] = (spec log).owe := by
      funext m; simp only [upd]; split
      · rename_i e; rw [e, hof]; omega
      · rfl
    refine ⟨?_, ?_, ?_⟩
    · obtain ⟨a1, a2, a3, a4, a5, a6, a7, a8, a9, a10, a11, a12, a13, a14, a15, a16, a17, a18⟩ := hA
      have hbm : ∀ j ct' b, (Ev.begin j ct' b : Event T) ∈ log ++ [Ev.ds (S := ds T) (.posted d.posts x)] ↔
        Ev.begin j ct' b ∈ log := by simp
      refine ⟨?_, ?_, ?_, ?_, ?_, ?_, ?_, a8, ?_, ?_, ?_, a12, a13, a14, ?_, ?_, ?_, ?_⟩
      · simp [Spec.step, a1]
      · simpa [Spec.step] using a2
      · simpa [Spec.step] using a3
      · simp [Spec.step, hatt]
      · simpa [isAttach] using a5
      · simpa [isDetach, isDet] using a6
      · simpa [isDetach, Spec.step] using a7
      · simpa only [hbm] using a9
      · simpa only [hbm] using a10
      · simpa only [hbm] using a11
      · intro i hi; have := (a13 i).1 hi; rw [hpl] at this; simp at this
      · intro i hi; have := a16 i hi; grind
      · intro i hi; have := a17 i hi; grind
      · intro i v hi; have := a18 i v hi; grind
    · obtain ⟨b1, b2, b3, b4, b5, b6, b7, b8⟩ := hB
      refine ⟨?_, ?_, ?_, ?_, ?_, ?_, ?_, ?_⟩
      all_goals try simp only [spec_append, Spec.step, hatt, howe]
      · exact b1
      · exact b2
      · intro n hn; exact b3 n (by omega)
      · intro a n; have := b4 a n; rw [hatt] at this
        simpa [List.countP_cons, isAck, isDetO] using this
      · intro a r hr; have := b5 a r (by simpa using hr); omega
      · simpa [isErase] using b6
      · intro n
        have := b7 n
        rw [List.countP_append, List.countP_cons, List.countP_cons]
        simp only [isErase, isPdone, evPdone, List.countP_cons, List.countP_nil, beq_iff_eq]
        by_cases hn : n = d.posts
        · subst hn
          rw [if_neg (by omega)] at this
          have e := b3 d.posts (by omega)
          rw [if_pos (c := d.posts < _ ∧ _) ⟨by omega, e⟩]
          simp only [if_true, Bool.false_eq_true, if_false]; omega
        · have hn' : ¬ d.posts = n := fun h => hn h.symm
          have e : (n < (spec log).posts + 1) ↔ n < (spec log).posts := by omega
          simp only [hn', if_false, e]; simpa using this
      · intro a n h
        have h' : (a, n) ∈ d.handles ∨ .ack a n ∈ pi := by simpa using h
        obtain ⟨j, hj⟩ := b8 a n h'; exact ⟨j, by simp [hj]⟩
    · rw [Hist.snoc]; exact ⟨hH, hposts⟩
  · have hw : ∀ i ∈ d.polls, d.nd i = none ∧ d.pend i = false := by
      intro i hi; have := hA.waiting i ((hA.mem i).2 hi); exact ⟨this.1, this.2.1⟩
    have ht := take_eq (n := d.posts) hA.pollsN (d := { d with
      posts := d.posts + 1, acks := upd d.acks d.posts d.active, queue := d.queue ++ [d.posts],
      polls := [] }) hw
    refine ⟨_, _, _, by simp only [exec, hz, if_false, ht]; rfl, ?_, ?_, ?_⟩
    · rw [ops_inl]; exact hA.pollsN
    · rw [ops_inl]; intro i hi; exact (hA.mem i).2 hi
    simp only [ops_inl, insts_inl, List.map_cons, List.map_nil, List.nil_append]
    have hcnt0 : (spec log).owe d.posts = [] := hof _ (by omega)
    refine ⟨?_, ?_, ?_⟩
    · obtain ⟨a1, a2, a3, a4, a5, a6, a7, a8, a9, a10, a11, a12, a13, a14, a15, a16, a17, a18⟩ := hA
      have hbm : ∀ j ct' b, (Ev.begin j ct' b : Event T) ∈ log ++ [Ev.ds (S := ds T) (.posted d.posts x)] ↔
        Ev.begin j ct' b ∈ log := by simp
      refine ⟨?_, ?_, ?_, ?_, a5, a6, ?_, a8, ?_, ?_, ?_, ?_, ?_, ?_, ?_, ?_, ?_, ?_⟩
      · simp [Spec.step, a1]
      · simpa [Spec.step] using a2
      · simpa [Spec.step] using a3
      · intro a ha; have := a4 a (by simpa [Spec.step] using ha)
        simp only [spec_append, Spec.step]; omega
      · simpa [Spec.step] using a7
      · simp only [hbm]; intro a i hi; have := a9 a i hi; grind
      · simp only [hbm]; intro i ct a hi; have := a10 i ct a hi; grind
      · simp only [hbm]; intro i hi; have := a11 i; grind
      · grind
      · intro i; have := a13 i; by_cases hi : i ∈ d.polls <;> simp [hi, this]
      · simp
      · intro i hi; have := a13 i; grind
      · intro i hi
        by_cases hp : i ∈ d.polls
        · have := a15 i ((a13 i).2 hp); simp [hp, this.2.2]
        · simp only [hp, if_false] at hi ⊢; have := a16 i hi
          exact ⟨this.1, by omega, this.2.2⟩
      · intro i hi; have := a17 i; grind
      · intro i v hi
        by_cases hp : i ∈ d.polls
        · simp [hp] at hi
        · simp only [hp, if_false] at hi ⊢; have := a18 i v hi
          exact ⟨this.1, this.2.1, by omega⟩
    · have hact := hA.active
      have hattN := hA.attN
      have hcur := hA.cur
      obtain ⟨b1, b2, b3, b4, b5, b6, b7, b8⟩ := hB
      refine ⟨?_, ?_, ?_, ?_, ?_, ?_, ?_, ?_⟩
      all_goals try simp only [spec_append, Spec.step]
      · intro n
        by_cases hn : n = d.posts
        · subst hn; simp [hact]
        · simp only [upd_ne _ _ hn]; exact b1 n
      · intro n
        by_cases hn : n = d.posts
        · subst hn; simp [hattN]
        · simp only [upd_ne _ _ hn]; exact b2 n
      · intro n hn
        rw [upd_ne _ _ (by omega)]; exact b3 n (by omega)
      · intro a n
        have h4 := b4 a n
        by_cases hn : n = d.posts
        · subst hn
          rw [upd_same]
          rw [hcnt0] at h4
          rw [if_neg (by omega)] at h4
          simp only [List.count_nil] at h4
          by_cases ha : a ∈ (spec log).att
          · have e1 := hcur a ha
            rw [if_pos ⟨ha, by omega, by omega⟩, hattN.count, if_pos ha]; omega
          · rw [if_neg (fun h => ha h.1), List.count_eq_zero_of_not_mem ha]; omega
        · rw [upd_ne _ _ hn]
          have e : (n < (spec log).posts + 1) ↔ n < (spec log).posts := by omega
          simp only [e]; exact h4
      · intro a r hr; have := b5 a r hr; omega
      · intro n
        have h6 := b6 n
        rw [List.count_append]
        by_cases hn : n = d.posts
        · subst hn
          have hne : (spec log).att ≠ [] := by intro h; rw [h] at hact; exact hz hact
          rw [upd_same, if_neg hne]; simp [hcnt0] at h6 ⊢; omega
        · have hn' : ¬ d.posts = n := fun h => hn h.symm
          rw [upd_ne _ _ hn]; simp [List.count_cons, hn']; simpa using h6
      · intro n
        have := b7 n
        rw [List.countP_append]
        simp only [evPdone, List.countP_cons, List.countP_nil]
        by_cases hn : n = d.posts
        · subst hn
          have hne : (spec log).att ≠ [] := by intro h; rw [h] at hact; exact hz hact
          rw [if_neg (by omega)] at this
          simp [hne]; simpa using this
        · rw [upd_ne _ _ hn]
          have e : (n < (spec log).posts + 1) ↔ n < (spec log).posts := by omega
          simp only [e]; simpa using this
      · intro a n h
        obtain ⟨j, hj⟩ := b8 a n h; exact ⟨j, by simp [hj]⟩
    · rw [Hist.snoc]; exact ⟨hH, hposts⟩

/-- One iteration of the loop in `detach`, given that the running call still has to acknowledge the
posts from `pollSeq a` to `r`. -/
theorem release_ok {d : D} {log : List (Event T)} {pi : List (I T)} {a r : Nat}
    (b1 : ∀ n, d.acks n = ((spec log).owe n).length)
    (b2 : ∀ n, ((spec log).owe n).Nodup)
    (b3 : ∀ n, (spec log).posts ≤ n → (spec log).owe n = [])
    (b4 : ∀ b n, ((spec log).owe n).count b =
      (if b ∈ (spec log).att ∧ d.pollSeq b ≤ n ∧ n < (spec log).posts then 1 else 0) +
      d.handles.count (b, n) + pi.countP (isAck b n) + pi.countP (isDetO (d.pollSeq b) b n) +
      (if b = a ∧ d.pollSeq a ≤ n ∧ n < r then 1 else 0))
    (b5 : ∀ b q, .det b q ∈ pi → d.pollSeq b < q ∧ q ≤ (spec log).posts)
    (b6 : ∀ n, d.queue.count n =
      (if (spec log).owe n = [] then 0 else 1) + pi.countP (isErase n))
    (b7 : ∀ n, pi.countP (isErase n) + pi.countP (isPdone n) + log.countP (evPdone n) =
      if n < (spec log).posts ∧ (spec log).owe n = [] then 1 else 0)
    (b8 : ∀ b n, ((b, n) ∈ d.handles ∨ .ack b n ∈ pi) → ∃ i, Ev.done i (b, some n) ∈ log)
    (h0 : a ∉ (spec log).att) (h1 : d.pollSeq a < r) (h2 : r ≤ (spec log).posts) :
    a ∈ (spec log).owe (d.pollSeq a) ∧
    ∃ q k ps, release d a r = some ({ d with queue := q, acks := k }, ps.map .inr,
        [.released a (d.pollSeq a)]) ∧
      (∀ x, x ∈ ps → x = .det a r ∨ ∃ n, x = .pdone n) ∧ ps.countP (isDet a) = 1 ∧
      IB { d with queue := q, acks := k }
        (log ++ [Ev.ds (S := ds T) (.released a (d.pollSeq a))]) (ps ++ pi) := by
  have hm : a ∈ (spec log).owe (d.pollSeq a) := by
    apply List.count_pos_iff.1
    rw [b4 a (d.pollSeq a), if_pos (c := a = a ∧ _) ⟨rfl, by omega, h1⟩]; omega
  have hne := List.ne_nil_of_mem hm
  have hq : d.pollSeq a ∈ d.queue := by
    apply List.count_pos_iff.1; rw [b6, if_neg hne]; omega
  have hlen := List.length_pos_of_mem hm
  have hak := b1 (d.pollSeq a)
  have herase : ∀ b n, (upd (spec log).owe (d.pollSeq a) (((spec log).owe (d.pollSeq a)).erase a) n).count b
      + (if b = a ∧ n = d.pollSeq a then 1 else 0) = ((spec log).owe n).count b := by
    intro b n
    by_cases hn : n = d.pollSeq a
    · subst hn
      rw [upd_same, List.count_erase]
      by_cases hb : b = a
      · subst hb; have := List.count_pos_iff.2 hm; simp; omega
      · have hb' : ¬ a = b := fun h => hb h.symm
        simp [hb, hb']
    · rw [upd_ne _ _ hn]; simp [hn]
  have hps0 : ((spec log).owe (d.pollSeq a)).length = 1 →
      ((spec log).owe (d.pollSeq a)).erase a = [] := by
    intro h; rw [← List.length_eq_zero_iff, List.length_erase_of_mem hm]; omega
  have hps1 : ((spec log).owe (d.pollSeq a)).length ≠ 1 →
      ((spec log).owe (d.pollSeq a)).erase a ≠ [] := by
    intro h h'; rw [← List.length_eq_zero_iff, List.length_erase_of_mem hm] at h'; omega
  have hlt : d.pollSeq a < (spec log).posts := by omega
  have hna := h0
  clear h0
  refine ⟨hm, ?_⟩
  by_cases h0 : d.acks (d.pollSeq a) = 1
  · have hnil := hps0 (by omega)
    refine ⟨_, _, [.pdone (d.pollSeq a), .det a r], by
      simp only [release, hq, if_true, h0, if_false, Nat.one_ne_zero]; rfl, by simp, by simp [isDet], ?_⟩
    refine ⟨?_, ?_, ?_, ?_, ?_, ?_, ?_, ?_⟩
    all_goals try simp only [spec_append, Spec.step]
    · intro n
      by_cases hn : n = d.pollSeq a
      · subst hn; simp [hnil]
      · simp only [upd_ne _ _ hn]; exact b1 n
    · intro n
      by_cases hn : n = d.pollSeq a
      · subst hn; simp [hnil]
      · simp only [upd_ne _ _ hn]; exact b2 n
    · intro n hn; rw [upd_ne _ _ (by omega)]; exact b3 n hn
    · intro b n
      have h4 := b4 b n
      have h5 := herase b n
      simp only [List.cons_append, List.nil_append, List.countP_cons, isAck, isDetO, Bool.false_eq_true, if_false,
        Bool.and_eq_true, beq_iff_eq, decide_eq_true_eq]
      by_cases hb : b = a
      · subst hb
        simp only [true_and] at h4 h5 ⊢
        by_cases hn : n = d.pollSeq b
        · subst hn
          simp only [if_true, Nat.le_refl, true_and, h1, hna, false_and, if_false] at h4 h5
          simp only [Nat.lt_irrefl, false_and, if_false, hna]; omega
        · have e : (d.pollSeq b < n ∧ n < r) ↔ (d.pollSeq b ≤ n ∧ n < r) := by omega
          simp only [hn, if_false, e] at h5 ⊢; omega
      · have hb' : ¬ a = b := fun h => hb h.symm
        simp only [hb, hb', false_and, if_false] at h4 h5 ⊢; omega
    · intro b q hbq
      simp only [List.cons_append, List.nil_append, List.mem_cons] at hbq
      rcases hbq with h | h | h
      · cases h
      · injection h with e1 e2; subst e1; subst e2; exact ⟨h1, h2⟩
      · exact b5 b q h
    · intro n
      have := b6 n
      rw [List.count_erase]
      simp only [List.cons_append, List.nil_append, List.countP_cons, isErase, Bool.false_eq_true, if_false]
      by_cases hn : n = d.pollSeq a
      · subst hn; rw [upd_same, if_pos hnil]; rw [if_neg hne] at this; simp; omega
      · have hn' : ¬ d.pollSeq a = n := fun h => hn h.symm
        rw [upd_ne _ _ hn]; simp [hn']; simpa using this
    · intro n
      have := b7 n
      simp only [List.countP_append (p := evPdone n), List.cons_append, List.nil_append, List.countP_cons, List.countP_nil, isErase, isPdone, evPdone,
        Bool.false_eq_true, if_false, beq_iff_eq]
      by_cases hn : n = d.pollSeq a
      · subst hn; rw [upd_same, if_pos (c := _ < _ ∧ _) ⟨hlt, hnil⟩]; rw [if_neg (fun h => hne h.2)] at this
        simp only [if_true]; omega
      · have hn' : ¬ d.pollSeq a = n := fun h => hn h.symm
        rw [upd_ne _ _ hn]; simp only [hn', if_false]; omega
    · intro b n h
      have h' : (b, n) ∈ d.handles ∨ .ack b n ∈ pi := by simpa using h
      obtain ⟨j, hj⟩ := b8 b n h'; exact ⟨j, by simp [hj]⟩
  · have hnil := hps1 (by omega)
    refine ⟨_, _, [.det a r], by
      simp only [release, hq, if_true, h0, if_false, show d.acks (d.pollSeq a) ≠ 0 by omega]; rfl, by simp, by simp [isDet], ?_⟩
    refine ⟨?_, ?_, ?_, ?_, ?_, ?_, ?_, ?_⟩
    all_goals try simp only [spec_append, Spec.step]
    · intro n
      by_cases hn : n = d.pollSeq a
      · subst hn; simp [List.length_erase_of_mem hm, hak]
      · simp only [upd_ne _ _ hn]; exact b1 n
    · intro n
      by_cases hn : n = d.pollSeq a
      · subst hn; simp only [upd_same]; exact (b2 _).erase _
      · simp only [upd_ne _ _ hn]; exact b2 n
    · intro n hn; rw [upd_ne _ _ (by omega)]; exact b3 n hn
    · intro b n
      have h4 := b4 b n
      have h5 := herase b n
      simp only [List.cons_append, List.nil_append, List.countP_cons, isAck, isDetO, Bool.false_eq_true, if_false,
        Bool.and_eq_true, beq_iff_eq, decide_eq_true_eq]
      by_cases hb : b = a
      · subst hb
        simp only [true_and] at h4 h5 ⊢
        by_cases hn : n = d.pollSeq b
        · subst hn
          simp only [if_true, Nat.le_refl, true_and, h1, hna, false_and, if_false] at h4 h5
          simp only [Nat.lt_irrefl, false_and, if_false, hna]; omega
        · have e : (d.pollSeq b < n ∧ n < r) ↔ (d.pollSeq b ≤ n ∧ n < r) := by omega
          simp only [hn, if_false, e] at h5 ⊢; omega
      · have hb' : ¬ a = b := fun h => hb h.symm
        simp only [hb, hb', false_and, if_false] at h4 h5 ⊢; omega
    · intro b q hbq
      simp only [List.cons_append, List.nil_append, List.mem_cons] at hbq
      rcases hbq with h | h
      · injection h with e1 e2; subst e1; subst e2; exact ⟨h1, h2⟩
      · exact b5 b q h
    · intro n
      have := b6 n
      simp only [List.cons_append, List.nil_append, List.countP_cons, isErase, Bool.false_eq_true, if_false]
      by_cases hn : n = d.pollSeq a
      · subst hn; rw [upd_same, if_neg hnil]; rw [if_neg hne] at this; omega
      · rw [upd_ne _ _ hn]; omega
    · intro n
      have := b7 n
      simp only [List.countP_append (p := evPdone n), List.cons_append, List.nil_append, List.countP_cons, List.countP_nil, isErase, isPdone, evPdone,
        Bool.false_eq_true, if_false]
      by_cases hn : n = d.pollSeq a
      · subst hn; rw [upd_same, if_neg (fun h => hnil h.2)]; rw [if_neg (fun h => hne h.2)] at this
        omega
      · rw [upd_ne _ _ hn]; omega
    · intro b n h
      have h' : (b, n) ∈ d.handles ∨ .ack b n ∈ pi := by simpa using h
      obtain ⟨j, hj⟩ := b8 b n h'; exact ⟨j, by simp [hj]⟩

theorem ops_inr (l : List (I T)) : ops (l.map .inr) = [] := by
  induction l with
  | nil => rfl
  | cons a l ih => simp [ops, ih]

theorem insts_inr (l : List (I T)) : insts (l.map .inr) = l := by
  induction l with
  | nil => rfl
  | cons a l ih => simp [insts, ih]

theorem law_pdone {d : D} {ph : OpId → Phase (Agent × Option Nat)} {log : List (Event T)}
    {pi : List (I T)} {n : Nat} (h : Inv d ph log (.pdone n :: pi)) : Law d ph log pi (.pdone n) := by
  obtain ⟨hA, hB, hH⟩ := h
  refine ⟨_, _, _, rfl, by simp [ops], by simp [ops], ?_⟩
  simp only [ops, insts, List.map_cons, List.map_nil, List.not_mem_nil, if_false, List.nil_append]
  have h7 := hB.post n
  refine ⟨?_, ?_, ?_⟩
  · exact (hA.congr (pi' := pi) (by intro b; simp [isAttach])
      (by intro b; simp [isDetach]) (by intro b; simp [isDet])).ext_ _ rfl (by simp)
  · obtain ⟨b1, b2, b3, b4, b5, b6, b7, b8⟩ := hB
    refine ⟨?_, ?_, ?_, ?_, ?_, ?_, ?_, ?_⟩
    all_goals try simp only [spec_append, Spec.step]
    · exact b1
    · exact b2
    · exact b3
    · simpa [List.countP_cons, isAck, isDetO] using b4
    · simpa using b5
    · simpa [isErase] using b6
    · intro m
      have := b7 m
      rw [List.countP_append]
      simp only [List.countP_cons, List.countP_nil, isErase, isPdone, evPdone,
        Bool.false_eq_true, if_false, beq_iff_eq] at this ⊢
      by_cases hn : n = m <;> simp only [hn, if_true, if_false] at this ⊢ <;> omega
    · intro b m h
      obtain ⟨j, hj⟩ := b8 b m (by simpa using h); exact ⟨j, by simp [hj]⟩
  · rw [Hist.snoc]
    refine ⟨hH, ?_⟩
    simp only [List.countP_cons, isErase, isPdone, beq_self_eq_true, if_true] at h7
    have hc : n < (spec log).posts ∧ (spec log).owe n = [] := by
      by_cases hc : n < (spec log).posts ∧ (spec log).owe n = []
      · exact hc
      · rw [if_neg hc] at h7; omega
    refine ⟨hc.1, hc.2, ?_⟩
    intro hm
    have : 0 < log.countP (evPdone n) := List.countP_pos_iff.2 ⟨_, hm, by simp [evPdone]⟩
    rw [if_pos hc] at h7; omega

theorem law_erase {d : D} {ph : OpId → Phase (Agent × Option Nat)} {log : List (Event T)}
    {pi : List (I T)} {n : Nat} (h : Inv d ph log (.erase n :: pi)) : Law d ph log pi (.erase n) := by
  obtain ⟨hA, hB, hH⟩ := h
  have h6 := hB.queue n
  have h7 := hB.post n
  simp only [List.countP_cons, isErase, isPdone, beq_self_eq_true, if_true, Bool.false_eq_true, if_false] at h6 h7
  have hc : n < (spec log).posts ∧ (spec log).owe n = [] := by
    by_cases hc : n < (spec log).posts ∧ (spec log).owe n = []
    · exact hc
    · rw [if_neg hc] at h7; omega
  have hm : n ∈ d.queue := List.count_pos_iff.1 (by omega)
  refine ⟨_, _, _, by simp only [exec, hm, if_true]; rfl, by simp [ops], by simp [ops], ?_⟩
  simp only [ops, insts, List.map_nil, List.not_mem_nil, if_false, List.cons_append, List.nil_append,
    List.append_nil]
  refine ⟨?_, ?_, hH⟩
  · have := (hA.congr (pi' := .pdone n :: pi) (by intro b; simp [isAttach])
      (by intro b; simp [isDetach]) (by intro b; simp [isDet]))
    obtain ⟨a1, a2, a3, a4, a5, a6, a7, a8, a9, a10, a11, a12, a13, a14, a15, a16, a17, a18⟩ := this
    exact ⟨a1, a2, a3, a4, a5, a6, a7, a8, a9, a10, a11, a12, a13, a14, a15, a16, a17, a18⟩
  · obtain ⟨b1, b2, b3, b4, b5, b6, b7, b8⟩ := hB
    refine ⟨b1, b2, b3, ?_, ?_, ?_, ?_, ?_⟩
    · simpa [List.countP_cons, isAck, isDetO] using b4
    · simpa using b5
    · intro m
      have := b6 m
      rw [List.count_erase]
      simp only [List.countP_cons, isErase, Bool.false_eq_true, if_false, beq_iff_eq] at this ⊢
      by_cases hn : n = m <;> simp only [hn, if_true, if_false] at this ⊢ <;> omega
    · intro m
      have := b7 m
      simp only [List.countP_cons, isErase, isPdone, Bool.false_eq_true, if_false, beq_iff_eq] at this ⊢
      by_cases hn : n = m <;> simp only [hn, if_true, if_false] at this ⊢ <;> omega
    · simpa using b8

theorem law_ack {d : D} {ph : OpId → Phase (Agent × Option Nat)} {log : List (Event T)}
    {pi : List (I T)} {a n : Nat} (h : Inv d ph log (.ack a n :: pi)) : Law d ph log pi (.ack a n) := by
  obtain ⟨hA, hB, hH⟩ := h
  have h4 := hB.owe a n
  simp only [List.countP_cons, isAck, beq_self_eq_true, Bool.and_self, if_true] at h4
  have hm : a ∈ (spec log).owe n := List.count_pos_iff.1 (by omega)
  have hne := List.ne_nil_of_mem hm
  have hlen := List.length_pos_of_mem hm
  have hak := hB.acks n
  have hdel := hB.deliv a n (.inr (by simp))
  have hlt : n < (spec log).posts := by
    rcases Nat.lt_or_ge n (spec log).posts with h | h
    · exact h
    · exact absurd (hB.oweF n h) hne
  refine ⟨_, _, _, by simp only [exec, show d.acks n ≠ 0 by omega, if_false]; rfl, ?_⟩
  have hlist : ∃ l : List (I T), (if d.acks n = 1 then [Sum.inr (I.erase n)] else [] : List (OpId ⊕ I T)) =
      l.map .inr ∧ l = if d.acks n = 1 then [.erase n] else [] := by
    by_cases h1 : d.acks n = 1
    · exact ⟨[.erase n], by simp [h1], by simp [h1]⟩
    · exact ⟨[], by simp [h1], by simp [h1]⟩
  obtain ⟨l, e1, e2⟩ := hlist
  rw [e1, ops_inr, insts_inr]
  refine ⟨by simp, by simp, ?_⟩
  simp only [List.map_cons, List.map_nil, List.not_mem_nil, if_false]
  have hl : ∀ x ∈ l, x = .erase n := by rw [e2]; split <;> simp
  have hc : ∀ f : I T → Bool, f (.erase n) = false → l.countP f = 0 := by
    intro f hf; rw [List.countP_eq_zero]; intro x hx; rw [hl x hx, hf]; simp
  have hce : ∀ m, l.countP (isErase m) =
      if n = m ∧ ((spec log).owe n).length = 1 then 1 else 0 := by
    intro m; rw [e2, hak]; split <;> simp_all [isErase, List.countP_cons]
  refine ⟨?_, ?_, ?_⟩
  · have := (hA.congr (pi' := l ++ pi) (by intro b; simp [List.countP_append, hc (isAttach b) rfl, isAttach])
      (by intro b; simp [List.countP_append, hc (isDetach b) rfl, isDetach])
      (by intro b; simp [List.countP_append, hc (isDet b) rfl, isDet]))
    obtain ⟨a1, a2, a3, a4, a5, a6, a7, a8, a9, a10, a11, a12, a13, a14, a15, a16, a17, a18⟩ := this
    have hbm : ∀ j ct' b, (Ev.begin j ct' b : Event T) ∈ log ++ [Ev.ds (S := ds T) (.acked a n)] ↔
        Ev.begin j ct' b ∈ log := by simp
    refine ⟨?_, ?_, ?_, ?_, a5, a6, ?_, a8, ?_, ?_, ?_, a12, a13, a14, a15, a16, ?_, a18⟩
    · simpa [Spec.step] using a1
    · simpa [Spec.step] using a2
    · simpa [Spec.step] using a3
    · simpa only [spec_append, Spec.step] using a4
    · simpa only [spec_append, Spec.step] using a7
    · simpa only [hbm] using a9
    · simpa only [hbm] using a10
    · simpa only [hbm] using a11
    · intro i hi
      obtain ⟨x, y, z, e, u, w⟩ := a17 i hi
      exact ⟨x, y, by simp [z], e, by simp [u], by simp [w]⟩
  · obtain ⟨b1, b2, b3, b4, b5, b6, b7, b8⟩ := hB
    have hlen' := List.length_erase_of_mem hm
    have hnil : ((spec log).owe n).erase a = [] ↔ ((spec log).owe n).length = 1 := by
      rw [← List.length_eq_zero_iff, hlen']; omega
    refine ⟨?_, ?_, ?_, ?_, ?_, ?_, ?_, ?_⟩
    all_goals try simp only [spec_append, Spec.step]
    · intro m
      by_cases hn : m = n
      · subst hn; simp [hlen', hak]
      · simp only [upd_ne _ _ hn]; exact b1 m
    · intro m
      by_cases hn : m = n
      · subst hn; simp only [upd_same]; exact (b2 _).erase _
      · simp only [upd_ne _ _ hn]; exact b2 m
    · intro m hm'; rw [upd_ne _ _ (by omega)]; exact b3 m hm'
    · intro b m
      have h4 := b4 b m
      rw [List.countP_append, List.countP_append, hc _ rfl, hc _ rfl]
      simp only [List.countP_cons, isAck, isDetO, Bool.false_eq_true, if_false,
        Bool.and_eq_true, beq_iff_eq] at h4
      by_cases hn : m = n
      · subst hn
        rw [upd_same, List.count_erase]
        by_cases hb : a = b
        · subst hb; simp at h4 ⊢; omega
        · simp only [hb, false_and, if_false] at h4
          simp only [beq_iff_eq, hb, if_false]; omega
      · have hn' : ¬ n = m := fun h => hn h.symm
        rw [upd_ne _ _ hn]; simp only [hn', and_false, if_false] at h4; omega
    · intro b q hbq
      rw [List.mem_append] at hbq
      rcases hbq with h | h
      · have := hl _ h; cases this
      · exact b5 b q (by simp [h])
    · intro m
      have := b6 m
      rw [List.countP_append, hce]
      simp only [List.countP_cons, isErase, Bool.false_eq_true, if_false] at this
      by_cases hn : m = n
      · subst hn
        rw [upd_same]
        rw [if_neg hne] at this
        by_cases h1 : ((spec log).owe m).length = 1
        · rw [if_pos (hnil.2 h1), if_pos ⟨rfl, h1⟩]; omega
        · rw [if_neg (fun h => h1 (hnil.1 h)), if_neg (fun h => h1 h.2)]; omega
      · have hn' : ¬ n = m := fun h => hn h.symm
        rw [upd_ne _ _ hn, if_neg (c := n = m ∧ _) (fun h => hn' h.1)]; omega
    · intro m
      have := b7 m
      rw [List.countP_append, List.countP_append, List.countP_append, hce, hc (isPdone m) rfl]
      simp only [List.countP_cons, List.countP_nil, isErase, isPdone, evPdone, Bool.false_eq_true, if_false] at this ⊢
      by_cases hn : m = n
      · subst hn
        rw [upd_same]
        rw [if_neg (c := m < _ ∧ _) (fun h => hne h.2)] at this
        by_cases h1 : ((spec log).owe m).length = 1
        · rw [if_pos (c := m < _ ∧ _) ⟨hlt, hnil.2 h1⟩, if_pos ⟨rfl, h1⟩]; omega
        · rw [if_neg (c := m < _ ∧ _) (fun h => h1 (hnil.1 h.2)), if_neg (fun h => h1 h.2)]; omega
      · have hn' : ¬ n = m := fun h => hn h.symm
        rw [upd_ne _ _ hn, if_neg (c := n = m ∧ _) (fun h => hn' h.1)]; omega
    · intro b m h
      have h' : (b, m) ∈ d.handles ∨ .ack b m ∈ I.ack a n :: pi := by
        rcases h with h | h
        · exact .inl h
        · rw [List.mem_append] at h
          rcases h with h | h
          · have := hl _ h; cases this
          · exact .inr (by simp [h])
      obtain ⟨j, hj⟩ := b8 b m h'; exact ⟨j, by simp [hj]⟩
  · rw [Hist.snoc]; exact ⟨hH, hm, hdel⟩

theorem law_attach {d : D} {ph : OpId → Phase (Agent × Option Nat)} {log : List (Event T)}
    {pi : List (I T)} {a : Nat} (h : Inv d ph log (.attach a :: pi)) : Law d ph log pi (.attach a) := by
  obtain ⟨hA, hB, hH⟩ := h
  have h5 := hA.nAtt a
  simp only [List.countP_cons, isAttach, beq_self_eq_true, if_true] at h5
  have hst : d.st a = .attaching := by
    by_cases hc : d.st a = .attaching
    · exact hc
    · rw [if_neg hc] at h5; omega
  rw [if_pos hst] at h5
  have hmech : d.mech a = false := by
    rw [Bool.eq_false_iff]; intro h; exact ((hA.mech a).1 h).2 hst
  have h6 := hA.nDet a
  rw [hst] at h6
  simp only [List.countP_cons, isDetach, isDet, Bool.false_eq_true, if_false, reduceCtorEq] at h6
  have hna : a ∉ (spec log).att := by
    rw [hA.att, hst]
    simp only [List.countP_cons, isDetach, Bool.false_eq_true, if_false]
    rintro (h | ⟨i, h⟩ | h)
    · cases h
    · cases h
    · omega
  refine ⟨_, _, _, by simp only [exec, hmech, Bool.false_eq_true, if_false]; rfl, by simp [ops], by simp [ops], ?_⟩
  simp only [ops, insts, List.map_cons, List.map_nil, List.not_mem_nil, if_false, List.nil_append]
  have hbm : ∀ j ct' b, (Ev.begin j ct' b : Event T) ∈ log ++ [Ev.ds (S := ds T) (.attached a)] ↔
      Ev.begin j ct' b ∈ log := by simp
  -- no running poll belongs to `a`
  have hoth : ∀ j, ph j ≠ .new → ph j ≠ .finFast → ph j ≠ .fin → d.agOf j ≠ a := by
    intro j h1 h2 h3 e
    obtain ⟨ct', hb'⟩ := hA.begun j h1
    obtain ⟨_, x, _⟩ := hA.agent hb' h2 h3
    rw [e, hst] at x; cases x
  refine ⟨?_, ?_, ?_⟩
  · obtain ⟨a1, a2, a3, a4, a5, a6, a7, a8, a9, a10, a11, a12, a13, a14, a15, a16, a17, a18⟩ := hA
    refine ⟨?_, ?_, ?_, ?_, ?_, ?_, ?_, ?_, ?_, ?_, ?_, a12, a13, a14, ?_, ?_, ?_, ?_⟩
    · simpa [Spec.step] using a1
    · simp [Spec.step, a2]
    · simp only [spec_append, Spec.step]; rw [List.nodup_append]; grind
    · simp only [spec_append, Spec.step]
      intro b hb
      by_cases hba : b = a
      · subst hba; simp [a1]
      · simp only [upd_ne _ _ hba]; exact a4 b (by simpa [hba] using hb)
    · intro b
      have := a5 b
      simp only [List.countP_cons, isAttach, beq_iff_eq] at this
      by_cases hba : b = a
      · subst hba; simp at this; simp; rw [hst] at this; simpa using this
      · have hba' : ¬ a = b := fun h => hba h.symm
        simp only [hba', if_false] at this; simp only [upd_ne _ _ hba]; exact this
    · intro b
      have := a6 b
      simp only [List.countP_cons, isDetach, isDet, Bool.false_eq_true, if_false] at this
      by_cases hba : b = a
      · subst hba; rw [hst] at this; simp only [upd_same]; simpa using this
      · simp only [upd_ne _ _ hba]; exact this
    · intro b
      have := a7 b
      simp only [List.countP_cons, isDetach, Bool.false_eq_true, if_false] at this
      simp only [spec_append, Spec.step]
      by_cases hba : b = a
      · subst hba; simp
      · simp only [upd_ne _ _ hba]; rw [List.mem_append, this]; simp [hba]
    · intro b; have := a8 b; grind
    · simp only [hbm]; intro b i hi; have := a9 b i; grind
    · simp only [hbm]; intro i ct b hi; have := a10 i ct b hi; grind
    · simpa only [hbm] using a11
    · intro i hi; have e := hoth i (by simp [hi]) (by simp [hi]) (by simp [hi])
      simp only [upd_ne _ _ e]; exact a15 i hi
    · intro i hi; have e := hoth i (by simp [hi]) (by simp [hi]) (by simp [hi])
      simp only [upd_ne _ _ e]; exact a16 i hi
    · intro i hi
      obtain ⟨x, y, z, e, u, w⟩ := a17 i hi
      exact ⟨x, y, by simp [z], e, by simp [u], by simp [w]⟩
    · intro i v hi; have e := hoth i (by simp [hi]) (by simp [hi]) (by simp [hi])
      simp only [upd_ne _ _ e]; exact a18 i v hi
  · have hposts := hA.posts
    obtain ⟨b1, b2, b3, b4, b5, b6, b7, b8⟩ := hB
    refine ⟨?_, ?_, ?_, ?_, ?_, ?_, ?_, ?_⟩
    all_goals try simp only [spec_append, Spec.step]
    · exact b1
    · exact b2
    · exact b3
    · intro b n
      have := b4 b n
      simp only [List.countP_cons, isAck, isDetO, Bool.false_eq_true, if_false] at this
      by_cases hba : b = a
      · subst hba
        rw [if_neg (fun h => hna h.1)] at this
        rw [upd_same, if_neg (by omega)]
        have hz : ∀ p, pi.countP (isDetO p b n) = 0 := by
          intro p
          have h7 : pi.countP (isDet b) = 0 := by omega
          rw [List.countP_eq_zero] at h7 ⊢
          intro x hx h; apply h7 x hx
          cases x <;> simp_all [isDetO, isDet]
        rw [hz] at this ⊢
        exact this
      · rw [upd_ne _ _ hba]
        have e : (b ∈ (spec log).att ++ [a]) ↔ b ∈ (spec log).att := by simp [hba]
        simp only [e]; exact this
    · intro b q hbq
      have hba : b ≠ a := by
        rintro rfl
        have : 0 < pi.countP (isDet b) := List.countP_pos_iff.2 ⟨_, hbq, by simp [isDet]⟩
        omega
      rw [upd_ne _ _ hba]; exact b5 b q (by simp [hbq])
    · simpa [isErase] using b6
    · intro n; have := b7 n
      rw [List.countP_append]; simpa [isErase, isPdone, evPdone, List.countP_cons] using this
    · intro b n h
      obtain ⟨j, hj⟩ := b8 b n (by simpa using h); exact ⟨j, by simp [hj]⟩
  · rw [Hist.snoc]; exact ⟨hH, hna⟩

/-- `IA` only depends on part of the specification state, and not on acknowledgements. -/
theorem IA.ext3 {d : D} {ph : OpId → Phase (Agent × Option Nat)} {log : List (Event T)}
    {pi : List (I T)} (h : IA d ph log pi) (q : List Nat) (k : Nat → Nat) (v : Event T)
    (h1 : ((spec log).step v).posts = (spec log).posts) (h2 : ((spec log).step v).att = (spec log).att)
    (h3 : ((spec log).step v).cur = (spec log).cur)
    (hv : ∀ i ct a, v ≠ .begin i ct a) : IA { d with queue := q, acks := k } ph (log ++ [v]) pi := by
  obtain ⟨a1, a2, a3, a4, a5, a6, a7, a8, a9, a10, a11, a12, a13, a14, a15, a16, a17, a18⟩ := h
  have hb : ∀ i ct a, (Ev.begin i ct a ∈ log ++ [v]) ↔ Ev.begin i ct a ∈ log := by
    intro i ct a; simp only [List.mem_append, List.mem_singleton]
    exact ⟨fun h => h.resolve_right (fun h => hv i ct a h.symm), .inl⟩
  refine ⟨?_, ?_, ?_, ?_, a5, a6, ?_, a8, ?_, ?_, ?_, a12, a13, a14, a15, a16, ?_, a18⟩
  · rw [spec_append, h1]; exact a1
  · rw [spec_append, h2]; exact a2
  · rw [spec_append, h2]; exact a3
  · rw [spec_append, h2, h3]; exact a4
  · rw [spec_append, h2]; exact a7
  · intro a i; simp only [hb]; exact a9 a i
  · intro i ct a; simp only [hb]; exact a10 i ct a
  · intro i; simp only [hb]; exact a11 i
  · intro i hi
    obtain ⟨x, y, z, e, u, w⟩ := a17 i hi
    exact ⟨x, y, by simp [z], e, by simp [u], by simp [w]⟩

theorem IA.det_facts {d : D} {ph : OpId → Phase (Agent × Option Nat)} {log : List (Event T)}
    {pi : List (I T)} {a r : Nat} (h : IA d ph log (.det a r :: pi)) :
    d.st a = .detaching ∧ pi.countP (isDetach a) = 0 ∧ pi.countP (isDet a) = 0 ∧
    a ∉ (spec log).att ∧
    ∀ j, ph j ≠ .new → ph j ≠ .finFast → ph j ≠ .fin → d.agOf j ≠ a := by
  have h6 := h.nDet a
  simp only [List.countP_cons, isDetach, isDet, beq_self_eq_true, if_true, Bool.false_eq_true, if_false] at h6
  have hst : d.st a = .detaching := by
    by_cases hc : d.st a = .detaching
    · exact hc
    · rw [if_neg hc] at h6; omega
  rw [if_pos hst] at h6
  refine ⟨hst, by omega, by omega, ?_, ?_⟩
  · rw [h.att, hst]
    simp only [List.countP_cons, isDetach, Bool.false_eq_true, if_false]
    rintro (h | ⟨i, h⟩ | h)
    · cases h
    · cases h
    · omega
  · intro j h1 h2 h3 e
    obtain ⟨ct', hb'⟩ := h.begun j h1
    obtain ⟨_, x, _⟩ := h.agent hb' h2 h3
    rw [e, hst] at x; cases x

/-- The increment of `poll_seq_` in `detach`. -/
theorem IA.bump {d : D} {ph : OpId → Phase (Agent × Option Nat)} {log : List (Event T)}
    {pi : List (I T)} {a r : Nat} (h : IA d ph log (.det a r :: pi)) (p : Nat) :
    IA { d with pollSeq := upd d.pollSeq a p } ph log (.det a r :: pi) := by
  obtain ⟨_, _, _, h4, h5⟩ := h.det_facts
  obtain ⟨a1, a2, a3, a4, a5, a6, a7, a8, a9, a10, a11, a12, a13, a14, a15, a16, a17, a18⟩ := h
  refine ⟨a1, a2, a3, ?_, a5, a6, a7, a8, a9, a10, a11, a12, a13, a14, ?_, ?_, a17, ?_⟩
  · intro b hb
    have : b ≠ a := by rintro rfl; exact h4 hb
    simp only [upd_ne _ _ this]; exact a4 b hb
  · intro i hi; have e := h5 i (by simp [hi]) (by simp [hi]) (by simp [hi])
    simp only [upd_ne _ _ e]; exact a15 i hi
  · intro i hi; have e := h5 i (by simp [hi]) (by simp [hi]) (by simp [hi])
    simp only [upd_ne _ _ e]; exact a16 i hi
  · intro i v hi; have e := h5 i (by simp [hi]) (by simp [hi]) (by simp [hi])
    simp only [upd_ne _ _ e]; exact a18 i v hi

/-- `detach` takes effect. -/
theorem IA.detaching {d : D} {ph : OpId → Phase (Agent × Option Nat)} {log : List (Event T)}
    {pi : List (I T)} {a : Nat} (h : IA d ph log (.detach a :: pi)) (r : Nat) :
    IA { d with active := d.active - 1 } ph (log ++ [Ev.ds (S := ds T) (.detaching a)])
      (.det a r :: pi) := by
  have h6 := h.nDet a
  simp only [List.countP_cons, isDetach, isDet, beq_self_eq_true, if_true, Bool.false_eq_true, if_false] at h6
  have hst : d.st a = .detaching := by
    by_cases hc : d.st a = .detaching
    · exact hc
    · rw [if_neg hc] at h6; omega
  rw [if_pos hst] at h6
  have hm : a ∈ (spec log).att := by rw [h.att]; simp [isDetach]
  obtain ⟨a1, a2, a3, a4, a5, a6, a7, a8, a9, a10, a11, a12, a13, a14, a15, a16, a17, a18⟩ := h
  have hbm : ∀ j ct' b, (Ev.begin j ct' b : Event T) ∈ log ++ [Ev.ds (S := ds T) (.detaching a)] ↔
      Ev.begin j ct' b ∈ log := by simp
  refine ⟨?_, ?_, ?_, ?_, ?_, ?_, ?_, a8, ?_, ?_, ?_, a12, a13, a14, a15, a16, ?_, a18⟩
  · simpa [Spec.step] using a1
  · simp [Spec.step, a2, List.length_erase_of_mem hm]
  · simp only [spec_append, Spec.step]; exact a3.erase _
  · simp only [spec_append, Spec.step]; intro b hb; exact a4 b (List.mem_of_mem_erase hb)
  · intro b; rw [← a5 b]; simp [isAttach]
  · intro b; rw [← a6 b]; simp only [List.countP_cons, isDetach, isDet, Bool.false_eq_true, if_false, beq_iff_eq]
    by_cases hba : a = b <;> simp only [hba, if_true, if_false] <;> omega
  · intro b
    have := a7 b
    simp only [spec_append, Spec.step, List.Nodup.mem_erase_iff a3]
    simp only [List.countP_cons, isDetach, beq_iff_eq, Bool.false_eq_true, if_false] at this ⊢
    by_cases hba : b = a
    · subst hba; simp only [hst, ne_eq, not_true_eq_false, false_and, reduceCtorEq, exists_false, false_or]
      simp only [false_iff]; omega
    · have hba' : ¬ a = b := fun h => hba h.symm
      simp only [hba', if_false] at this; rw [this]; simp [hba]
  · simpa only [hbm] using a9
  · simpa only [hbm] using a10
  · simpa only [hbm] using a11
  · intro i hi
    obtain ⟨x, y, z, e, u, w⟩ := a17 i hi
    exact ⟨x, y, by simp [z], e, by simp [u], by simp [w]⟩

/-- `detach` is finished. -/
theorem IA.off {d : D} {ph : OpId → Phase (Agent × Option Nat)} {log : List (Event T)}
    {pi : List (I T)} {a r : Nat} (h : IA d ph log (.det a r :: pi)) :
    IA (off d a) ph (log ++ [Ev.ds (S := ds T) (.detached a)]) pi := by
  obtain ⟨h1, h2, h3, h4, h5⟩ := h.det_facts
  obtain ⟨a1, a2, a3, a4, a5, a6, a7, a8, a9, a10, a11, a12, a13, a14, a15, a16, a17, a18⟩ :=
    h.ext_ (Ev.ds (S := ds T) (.detached a)) rfl (by simp)
  have h4' : a ∉ (spec (log ++ [Ev.ds (S := ds T) (.detached a)])).att := by
    simpa [Spec.step] using h4
  refine ⟨a1, a2, a3, a4, ?_, ?_, ?_, ?_, ?_, ?_, a11, a12, a13, a14, a15, a16, a17, a18⟩
  all_goals simp only [PostAck.off]
  · intro b
    have := a5 b
    simp only [List.countP_cons, isAttach, Bool.false_eq_true, if_false] at this
    by_cases hba : b = a
    · subst hba; rw [h1] at this; simpa using this
    · simp only [upd_ne _ _ hba]; exact this
  · intro b
    have := a6 b
    simp only [List.countP_cons, isDetach, isDet, Bool.false_eq_true, if_false, beq_iff_eq] at this
    by_cases hba : b = a
    · subst hba; rw [h2, h3]; simp
    · have hba' : ¬ a = b := fun h => hba h.symm
      simp only [hba', if_false] at this
      simp only [upd_ne _ _ hba]; exact this
  · intro b
    have := a7 b
    simp only [List.countP_cons, isDetach, Bool.false_eq_true, if_false] at this
    by_cases hba : b = a
    · subst hba; rw [h2]; simp; simpa [Spec.step] using h4
    · rw [upd_ne _ _ hba]; exact this
  · intro b; have := a8 b; grind
  · intro b i hi; have := a9 b i; grind
  · intro i ct b hi; have := a10 i ct b hi; grind

theorem law_detach {d : D} {ph : OpId → Phase (Agent × Option Nat)} {log : List (Event T)}
    {pi : List (I T)} {a : Nat} (h : Inv d ph log (.detach a :: pi)) : Law d ph log pi (.detach a) := by
  obtain ⟨hA, hB, hH⟩ := h
  have hm : a ∈ (spec log).att := by rw [hA.att]; simp [isDetach]
  have hmech : d.mech a = true := by
    rw [hA.mech]
    have h6 := hA.nDet a
    simp only [List.countP_cons, isDetach, isDet, beq_self_eq_true, if_true] at h6
    constructor
    · intro h; rw [h] at h6; simp at h6
    · intro h; rw [h] at h6; simp at h6
  have hA1 := hA.detaching d.posts
  have hcur := hA.cur a hm
  have hposts := hA.posts
  obtain ⟨g1, g2, g3, g4, g5⟩ := hA1.det_facts
  obtain ⟨b1, b2, b3, b4, b5, b6, b7, b8⟩ := hB
  have hb4 : ∀ b n, ((spec log).owe n).count b =
      (if b ∈ (spec log).att.erase a ∧ d.pollSeq b ≤ n ∧ n < (spec log).posts then 1 else 0) +
      d.handles.count (b, n) + pi.countP (isAck b n) + pi.countP (isDetO (d.pollSeq b) b n) +
      (if b = a ∧ d.pollSeq a ≤ n ∧ n < d.posts then 1 else 0) := by
    intro b n
    have := b4 b n
    simp only [List.countP_cons, isAck, isDetO, Bool.false_eq_true, if_false, Nat.add_zero] at this
    rw [this]; simp only [List.Nodup.mem_erase_iff hA.attN]
    by_cases hba : b = a
    · subst hba; rw [hposts]
      simp only [hm, true_and, ne_eq, not_true_eq_false, false_and, if_false]; omega
    · simp only [ne_eq, hba, not_false_eq_true, true_and, false_and, if_false]; omega
  have hb7 : ∀ n, pi.countP (isErase n) + pi.countP (isPdone n) +
      (log ++ [Ev.ds (S := ds T) (.detaching a)]).countP (evPdone n) =
      if n < (spec log).posts ∧ (spec log).owe n = [] then 1 else 0 := by
    intro n; rw [← b7 n]; simp [List.countP_append, List.countP_cons, isErase, isPdone, evPdone]
  have hH1 : Hist PostAck.hist (log ++ [Ev.ds (S := ds T) (.detaching a)]) := by
    rw [Hist.snoc]; exact ⟨hH, hm⟩
  by_cases hlt : d.pollSeq a < d.posts
  · obtain ⟨k1, q, k, ps, e, k2, k3, k4⟩ := release_ok (T := T)
      (d := { d with active := d.active - 1 }) (log := log ++ [Ev.ds (S := ds T) (.detaching a)])
      (pi := pi) (a := a) (r := d.posts)
      (by simpa [Spec.step] using b1) (by simpa [Spec.step] using b2)
      (by simpa [Spec.step] using b3) (by simpa only [spec_append, Spec.step] using hb4)
      (by
        intro b q hq; simp only [spec_append, Spec.step]; exact b5 b q (by simp [hq]))
      (by simpa [Spec.step, isErase] using b6) (by simpa only [spec_append, Spec.step] using hb7)
      (by
        intro b n h
        obtain ⟨j, hj⟩ := b8 b n (by simpa using h)
        exact ⟨j, by simp [hj]⟩)
      g4 hlt (by simp only [spec_append, Spec.step]; omega)
    refine ⟨_, _, _, by
      simp only [exec, hmech, Bool.not_true, Bool.false_eq_true, if_false, hlt, if_true, e]; rfl, ?_⟩
    rw [ops_inr, insts_inr]
    refine ⟨by simp, by simp, ?_⟩
    simp only [List.map_cons, List.map_nil, List.not_mem_nil, if_false]
    rw [show log ++ [Ev.ds (S := ds T) (E.detaching a), Ev.ds (S := ds T) (E.released a (d.pollSeq a))] =
      (log ++ [Ev.ds (S := ds T) (.detaching a)]) ++ [Ev.ds (S := ds T) (.released a (d.pollSeq a))] by simp]
    refine ⟨?_, k4, ?_⟩
    · have := hA1.ext3 q k (Ev.ds (S := ds T) (.released a (d.pollSeq a))) rfl rfl rfl (by simp)
      refine this.congr ?_ ?_ ?_
      · intro b; rw [List.countP_append, List.countP_eq_zero.2]
        · simp [isAttach]
        · intro x hx; rcases k2 x hx with rfl | ⟨n, rfl⟩ <;> simp [isAttach]
      · intro b; rw [List.countP_append, List.countP_eq_zero.2]
        · simp [isDetach]
        · intro x hx; rcases k2 x hx with rfl | ⟨n, rfl⟩ <;> simp [isDetach]
      · intro b; rw [List.countP_append, List.countP_cons]
        by_cases hba : a = b
        · subst hba; rw [k3]; simp [isDet]; omega
        · rw [List.countP_eq_zero.2]
          · simp [isDet, hba]
          · intro x hx; rcases k2 x hx with rfl | ⟨n, rfl⟩ <;> simp [isDet, hba]
    · rw [Hist.snoc]; exact ⟨hH1, k1, g4⟩
  · have heq : d.pollSeq a = d.posts := by omega
    refine ⟨_, _, _, by
      simp only [exec, hmech, Bool.not_true, Bool.false_eq_true, if_false, hlt]; rfl, by simp [ops], by simp [ops], ?_⟩
    simp only [ops, insts, List.map_cons, List.map_nil, List.not_mem_nil, if_false, List.nil_append]
    rw [show log ++ [Ev.ds (S := ds T) (E.detaching a), Ev.ds (S := ds T) (E.detached a)] =
      (log ++ [Ev.ds (S := ds T) (.detaching a)]) ++ [Ev.ds (S := ds T) (.detached a)] by simp]
    refine ⟨hA1.off, ?_, ?_⟩
    · have : IB { d with active := d.active - 1 } (log ++ [Ev.ds (S := ds T) (.detaching a)]) pi := by
        refine ⟨?_, ?_, ?_, ?_, ?_, ?_, ?_, ?_⟩
        all_goals try simp only [spec_append, Spec.step]
        · exact b1
        · exact b2
        · exact b3
        · intro b n; have := hb4 b n
          rw [if_neg (c := b = a ∧ _) (by omega)] at this; exact this
        · intro b q hq; exact b5 b q (by simp [hq])
        · simpa [isErase] using b6
        · exact hb7
        · intro b n h
          obtain ⟨j, hj⟩ := b8 b n (by simpa using h)
          exact ⟨j, by simp [hj]⟩
      obtain ⟨c1, c2, c3, c4, c5, c6, c7, c8⟩ := this.ext_ (Ev.ds (S := ds T) (.detached a)) rfl (fun _ => rfl)
      exact ⟨c1, c2, c3, c4, c5, c6, c7, c8⟩
    · rw [Hist.snoc]; exact ⟨hH1, trivial⟩

theorem law_det {d : D} {ph : OpId → Phase (Agent × Option Nat)} {log : List (Event T)}
    {pi : List (I T)} {a r : Nat} (h : Inv d ph log (.det a r :: pi)) : Law d ph log pi (.det a r) := by
  obtain ⟨hA, hB, hH⟩ := h
  have hA1 := hA.bump (d.pollSeq a + 1)
  obtain ⟨g1, g2, g3, g4, g5⟩ := hA.det_facts
  obtain ⟨b1, b2, b3, b4, b5, b6, b7, b8⟩ := hB
  obtain ⟨hr1, hr2⟩ := b5 a r (by simp)
  have hnd : ∀ q, .det a q ∉ pi := by
    intro q hq
    have := List.countP_eq_zero.1 g3 _ hq
    simp [isDet] at this
  have hb4 : ∀ b n, ((spec log).owe n).count b =
      (if b ∈ (spec log).att ∧ upd d.pollSeq a (d.pollSeq a + 1) b ≤ n ∧ n < (spec log).posts
        then 1 else 0) +
      d.handles.count (b, n) + pi.countP (isAck b n) +
      pi.countP (isDetO (upd d.pollSeq a (d.pollSeq a + 1) b) b n) +
      (if b = a ∧ upd d.pollSeq a (d.pollSeq a + 1) a ≤ n ∧ n < r then 1 else 0) := by
    intro b n
    have := b4 b n
    simp only [List.countP_cons, isAck, isDetO, Bool.false_eq_true, if_false, Nat.add_zero,
      Bool.and_eq_true, beq_iff_eq, decide_eq_true_eq] at this
    rw [this]
    by_cases hba : b = a
    · subst hba
      have hz : ∀ p, pi.countP (isDetO p b n) = 0 := by
        intro p
        rw [List.countP_eq_zero] at g3 ⊢
        intro x hx h; apply g3 x hx
        cases x <;> simp_all [isDetO, isDet]
      simp only [hz, g4, false_and, if_false, upd_same, true_and]
      have e : (d.pollSeq b + 1 ≤ n ∧ n < r) ↔ (d.pollSeq b < n ∧ n < r) := by omega
      simp only [e]; omega
    · have hba' : ¬ a = b := fun h => hba h.symm
      simp only [hba, hba', false_and, if_false, upd_ne _ _ hba]; omega
  by_cases hlt : r = d.pollSeq a + 1
  · refine ⟨_, _, _, by
      simp only [exec, upd_same, hlt, if_true]; rfl, by simp [ops], by simp [ops], ?_⟩
    simp only [ops, insts, List.map_cons, List.map_nil, List.not_mem_nil, if_false, List.nil_append]
    refine ⟨hA1.off, ?_, ?_⟩
    · have : IB { d with pollSeq := upd d.pollSeq a (d.pollSeq a + 1) } log pi := by
        refine ⟨b1, b2, b3, ?_, ?_, ?_, ?_, ?_⟩
        · intro b n; have := hb4 b n
          rw [if_neg (c := b = a ∧ _) (by rw [upd_same]; omega)] at this; exact this
        · intro b q hq
          have hba : b ≠ a := by rintro rfl; exact hnd q hq
          simp only [upd_ne _ _ hba]; exact b5 b q (by simp [hq])
        · simpa [isErase] using b6
        · simpa [isErase, isPdone, List.countP_cons] using b7
        · simpa using b8
      obtain ⟨c1, c2, c3, c4, c5, c6, c7, c8⟩ := this.ext_ (Ev.ds (S := ds T) (.detached a)) rfl (fun _ => rfl)
      exact ⟨c1, c2, c3, c4, c5, c6, c7, c8⟩
    · rw [Hist.snoc]; exact ⟨hH, trivial⟩
  · obtain ⟨k1, q, k, ps, e, k2, k3, k4⟩ := release_ok (T := T)
      (d := { d with pollSeq := upd d.pollSeq a (d.pollSeq a + 1) }) (log := log)
      (pi := pi) (a := a) (r := r) b1 b2 b3 hb4
      (by
        intro b q hq
        have hba : b ≠ a := by rintro rfl; exact hnd q hq
        simp only [upd_ne _ _ hba]; exact b5 b q (by simp [hq]))
      (by simpa [isErase] using b6) (by simpa [isErase, isPdone, List.countP_cons] using b7)
      (by simpa using b8) g4 (by simp only [upd_same]; omega) hr2
    simp only [upd_same] at k1 e k4
    refine ⟨_, _, _, by
      simp only [exec, upd_same, hlt, if_false, e]; rfl, ?_⟩
    rw [ops_inr, insts_inr]
    refine ⟨by simp, by simp, ?_⟩
    simp only [List.map_cons, List.map_nil, List.not_mem_nil, if_false]
    refine ⟨?_, k4, ?_⟩
    · have := hA1.ext3 q k (Ev.ds (S := ds T) (.released a (d.pollSeq a + 1))) rfl rfl rfl (by simp)
      refine this.congr ?_ ?_ ?_
      · intro b; rw [List.countP_append, List.countP_eq_zero.2]
        · simp [isAttach]
        · intro x hx; rcases k2 x hx with rfl | ⟨n, rfl⟩ <;> simp [isAttach]
      · intro b; rw [List.countP_append, List.countP_eq_zero.2]
        · simp [isDetach]
        · intro x hx; rcases k2 x hx with rfl | ⟨n, rfl⟩ <;> simp [isDetach]
      · intro b; rw [List.countP_append, List.countP_cons]
        by_cases hba : a = b
        · subst hba; rw [k3]; simp [isDet]; omega
        · rw [List.countP_eq_zero.2]
          · simp [isDet, hba]
          · intro x hx; rcases k2 x hx with rfl | ⟨n, rfl⟩ <;> simp [isDet, hba]
    · rw [Hist.snoc]; exact ⟨hH, k1, g4⟩

/-! ## The mechanism keeps its side of the contract -/

def lawful (T : Type) : Lawful (ds T) init where
  Inv := Inv
  init := by
    refine ⟨?_, ?_, Hist.nil⟩
    · constructor <;> simp [init, spec]
    · constructor <;> simp [init, spec]
  perm := by
    intro d ph log pi pi' h hp
    have hc : ∀ f : I T → Bool, pi'.countP f = pi.countP f := fun f => (hp.countP_eq f).symm
    obtain ⟨hA, ⟨b1, b2, b3, b4, b5, b6, b7, b8⟩, hH⟩ := h
    refine ⟨hA.congr (fun _ => hc _) (fun _ => hc _) (fun _ => hc _), ?_, hH⟩
    refine ⟨b1, b2, b3, ?_, ?_, ?_, ?_, ?_⟩
    · intro a n; rw [hc, hc]; exact b4 a n
    · intro a r h; exact b5 a r (hp.mem_iff.2 h)
    · intro n; rw [hc]; exact b6 n
    · intro n; rw [hc, hc]; exact b7 n
    · intro a n h; exact b8 a n (h.imp id hp.mem_iff.2)
  begin := by intro d ph log pi i ct p d' h hph hb ha; exact inv_begin h hph hb ha
  start := by
    intro d ph log pi i ct p b h hph hb
    obtain ⟨d', r, es, h1, h2⟩ := inv_start h hph hb
    refine ⟨d', r, es, h1, ?_⟩
    cases r <;> exact h2
  fast := by
    intro d ph log pi i v h hph
    have hv := (h.A.fast i v hph).1
    subst hv
    exact inv_fin h (.inr (.inr hph)) (.inl rfl)
  tryWaiting := by intro d ph log pi i e p h hph hb hc; exact inv_try h hph hb hc
  tryTaken := by
    intro d ph log pi i e p h hph hb hc
    have hp := (h.A.taken i hph).2.2
    exact ⟨d, [], by simp [tryCancel, hp], by simpa using h⟩
  resume := by intro d ph log pi i h hph; exact inv_fin h (hph.imp id .inl) (.inr rfl)
  cancel := by
    intro d ph log pi e h
    refine ⟨h.A.ext_ _ rfl (by simp), h.B.ext_ _ rfl (fun _ => rfl), ?_⟩
    rw [Hist.snoc]; exact ⟨h.hist, trivial⟩
  reset := by
    intro d ph log pi e h
    refine ⟨h.A.ext_ _ rfl (by simp), h.B.ext_ _ rfl (fun _ => rfl), ?_⟩
    rw [Hist.snoc]; exact ⟨h.hist, trivial⟩
  call := by intro d ph log pi x d' h hc; exact inv_call h hc
  exec := by
    intro d ph log pi x b h
    cases x with
    | post x => exact law_post h
    | pdone n => exact law_pdone h
    | attach a => exact law_attach h
    | detach a => exact law_detach h
    | det a r => exact law_det h
    | ack a n => exact law_ack h
    | erase n => exact law_erase h

end Verif.PostAck
