import Verif.Resolver.Proof

/-!
# Consequences of the invariant, for every lawful data structure
-/

namespace Verif.Resolver

variable {S : DS} {d0 : S.D}

/-- How often operation `i` is completed in a history. -/
abbrev completions (i : OpId) (log : List (Ev S)) : Nat := doneCnt i log

/-- Whether event `e` is in the cancelled state after a history. -/
def cancelled (e : EvId) (log : List (Ev S)) : Bool :=
  log.foldl (fun r v => match v with
    | .cancel e' => r || e' == e
    | .reset e' => r && e' != e
    | _ => r) false

theorem cancelled_append (e : EvId) (l : List (Ev S)) (v : Ev S) :
    cancelled e (l ++ [v]) = match v with
      | .cancel e' => cancelled e l || e' == e
      | .reset e' => cancelled e l && e' != e
      | _ => cancelled e l := by
  simp only [cancelled, List.foldl_append, List.foldl_cons, List.foldl_nil]

theorem cancelled_append_ds (e : EvId) (l : List (Ev S)) (es : List S.E) :
    cancelled e (l ++ es.map .ds) = cancelled e l := by
  induction es generalizing l with
  | nil => simp
  | cons x es ih =>
    have : l ++ (x :: es).map Ev.ds = (l ++ [Ev.ds x]) ++ es.map Ev.ds := by simp
    rw [this, ih, cancelled_append]

theorem req_eq_env {s : RSt S} {acts : List (List (Instr S))} {a : Act S} {s' : RSt S}
    {p : List (Instr S)} (h : ∀ e, s.req e = cancelled e s.log)
    (he : env s acts a = some (s', p)) : ∀ e, s'.req e = cancelled e s'.log := by
  intro e
  cases a <;> simp only [env] at he
  · split at he
    · simp at he
    · split at he
      · simp at he; obtain ⟨rfl, _⟩ := he
        simp only [cancelled_append]; exact h e
      · simp at he
  · simp at he; obtain ⟨rfl, _⟩ := he; exact h e
  · split at he
    · simp at he; obtain ⟨rfl, _⟩ := he; exact h e
    · simp at he
  · rename_i e'
    split at he
    · simp at he; obtain ⟨rfl, _⟩ := he
      simp only [cancelled_append, upd]
      by_cases hee : e = e'
      · subst hee; simp
      · simp [hee, Ne.symm hee, h e]
    · simp at he

theorem req_eq_run {s : RSt S} {x : Instr S} {b : Bool} {s' : RSt S}
    {p : List (Instr S)} (h : ∀ e, s.req e = cancelled e s.log)
    (he : exec s x b = .ok s' p) : ∀ e, s'.req e = cancelled e s'.log := by
  intro e
  cases x <;> simp only [exec] at he
  case cancel e' =>
    simp at he; obtain ⟨rfl, _⟩ := he
    simp only [cancelled_append, upd]
    by_cases hee : e = e'
    · subst hee; simp
    · simp [hee, Ne.symm hee, h e]
  case setFast => simp at he; obtain ⟨rfl, _⟩ := he; simp only [cancelled_append]; exact h e
  case resume => simp at he; obtain ⟨rfl, _⟩ := he; simp only [cancelled_append]; exact h e
  all_goals
    repeat' split at he
    all_goals simp at he
    all_goals try (obtain ⟨rfl, _⟩ := he)
    all_goals first
      | exact h e
      | (simp only [cancelled_append_ds]; exact h e)

/-- `_was_requested` is what the history says. -/
theorem req_eq {c : Conf (mach S)} (h : Reach (mach S) (RSt.init d0) c) (e : EvId) :
    c.sh.req e = cancelled e c.sh.log := by
  have := Reach.inv (M := mach S) (P := fun s _ => ∀ e, s.req e = cancelled e s.log)
    (fun _ => rfl) (fun _ _ _ _ _ hP he => req_eq_env hP he)
    (fun _ _ _ _ _ _ _ _ hP _ he => req_eq_run hP he) h
  exact this e

variable {s : RSt S} {acts : List (List (Instr S))} {ph : OpId → Phase S.V}

theorem Core.done_le (hC : Core s acts ph) (i : OpId) : completions i s.log ≤ 1 := by
  have := (hC.op i).d1
  have h : (view s acts ph i).done = completions i s.log := rfl
  clear * - this h; omega

theorem Core.done_iff (hC : Core s acts ph) (i : OpId) :
    completions i s.log = 1 ↔ (ph i).code = 2 ∨ (ph i).code = 6 := by
  have := (hC.op i).d1
  have h : (view s acts ph i).done = completions i s.log := rfl
  have h2 : (view s acts ph i).ph = (ph i).code := rfl
  clear * - this h h2; omega

/-- At rest, an operation is finished or waiting with an event that is not cancelled. -/
theorem OK.rest {v : View} (h : OK v) (hz : v.sta = 0 ∧ v.fas = 0 ∧ v.lis = 0 ∧ v.reg = 0 ∧
    v.tryL = 0 ∧ v.tryC = 0 ∧ v.trL = 0 ∧ v.trC = 0 ∧ v.trX = 0 ∧ v.un = 0 ∧ v.res = 0 ∧ v.co = 0)
    (hs : v.started = 1) : v.ph = 2 ∨ v.ph = 6 ∨ (v.ph = 3 ∧ v.reqd = 0 ∧ v.hasEv = v.inC) := by
  have b0 := h.b0; have a0 := h.a0; have a1 := h.a1; have e1 := h.e1; have e2 := h.e2
  have e3a := h.e3a; have e4 := h.e4; have e6 := h.e6; have e13 := h.e13; have e15 := h.e15
  have e14 := h.e14; have e3 := h.e3
  by_cases h4 : 4 ≤ v.ph
  · have f1 := e1 (by omega)
    have f2 := e2.2 h4
    by_cases hx : v.x = 0
    · clear * - f1 f2 hx e3a e6 e15 hz b0 h4; omega
    · clear * - f1 f2 hx e4 hz b0 h4; omega
  · by_cases h3 : v.ph = 3
    · right; right
      have f1 := e1 (by omega)
      have f2 := e2.1 h3
      have f3 := e3 (by omega)
      by_cases he : v.hasEv = 1
      · have f4 := e13 he h3
        have f5 := e3a (by omega) (by omega) (by omega)
        clear * - f4 f5 e15 hz b0 he h3; omega
      · have f4 := e14 (by clear * - b0 he; omega) (by omega) (by clear * - f1 hz; omega)
        clear * - f3 f4 e15 hz b0 he h3; omega
    · clear * - a0 a1 hz hs b0 h3 h4; omega

theorem Core.rest (hC : Core s acts ph) (hq : ∀ a ∈ acts, a = []) {i : OpId}
    (hs : s.started i = true) : completions i s.log = 1 ∨
      (ph i = .waiting ∧ (∀ e, s.ct i = some e → s.req e = false ∧ i ∈ s.cbs e)) := by
  have h := (hC.op i).rest (by simp only [view, ws_quiescent _ hq, and_self]) (by simp [view, hs])
  rw [hC.done_iff i]
  rcases h with h | h | ⟨h, h2, h3⟩
  · left; left; exact h
  · left; right; exact h
  · right
    constructor
    · rw [view_ph] at h
      cases h' : ph i <;> simp [h', Phase.code] at h ⊢
    · intro e he
      simp only [view, reqd, inC, he] at h2 h3
      constructor
      · cases hr : s.req e <;> simp_all
      · exact List.count_pos_iff.1 (by simp at h3; omega)

theorem dsPend_quiescent {acts : List (List (Instr S))} (hq : ∀ a ∈ acts, a = []) :
    dsPend acts = [] := by
  simp only [dsPend, List.flatten_eq_nil_iff, List.mem_map]
  rintro l ⟨a, ha, rfl⟩
  rw [hq a ha]; rfl

theorem Core.begin_started (hC : Core s acts ph) {i : OpId} {ct : Option EvId} {p : S.P}
    (h : Ev.begin i ct p ∈ s.log) : s.started i = true := by
  cases hs : s.started i with
  | true => rfl
  | false => exact absurd h (hC.gl.g5 i hs ct p)

/-- What still refers to a finished operation. -/
theorem OK.after {v : View} (h : OK v) (hp : v.ph = 2 ∨ v.ph = 6) :
    v.sta = 0 ∧ v.fas = 0 ∧ v.lis = 0 ∧ v.reg = 0 ∧
    v.tryL = 0 ∧ v.tryC = 0 ∧ v.trL = 0 ∧ v.trC = 0 ∧ v.trX = 0 ∧ v.res = 0 ∧ v.co = 0 ∧
    v.inC = 0 ∧ (v.un = 1 → v.reqd = 1 ∧ v.hasEv = 1) ∧ v.un ≤ 1 := by
  have b0 := h.b0; have a0 := h.a0; have a1 := h.a1; have e1 := h.e1; have e2 := h.e2
  have a2 := h.a2; have e3b := h.e3b; have e4a := h.e4a; have e4b := h.e4b; have e7 := h.e7
  have e7a := h.e7a; have e8 := h.e8
  rcases hp with hp | hp
  · clear * - a2 a0 a1 hp; omega
  · have f1 := e1 (by omega)
    have f2 := e2.2 (by omega)
    have f3 := e3b hp
    have f4 := e4a hp
    have f5 : v.un = 1 → v.reqd = 1 ∧ v.hasEv = 1 := by
      intro hu
      have g1 := e7a hu
      refine ⟨e8 g1 (.inr hu) ?_, g1⟩
      intro hx
      exact absurd hp (e7 hu (by omega)).1
    have f6 : v.l = 1 ∧ v.c = 1 := by clear * - e4b b0 hp; omega
    refine ⟨?_, ?_, ?_, ?_, ?_, ?_, ?_, ?_, ?_, ?_, ?_, ?_, f5, ?_⟩ <;>
      first | (clear * - f1 f2 f3 f4 f6 b0; omega) | (clear * - a0 hp; omega) | (clear * - a1 hp; omega)

theorem Core.after (hC : Core s acts ph) {i : OpId} (hd : completions i s.log = 1)
    {x : Instr S} (hx : Pending acts x) (ho : x.op = some i) :
    x = .unregister i ∧ ∃ e, s.ct i = some e ∧ s.req e = true := by
  have h := (hC.op i).after ((hC.done_iff i).1 hd)
  have hw : ∀ y : Instr S, Pending acts y → ∀ w : Instr S → Nat, w y ≤ ws w acts := by
    rintro y ⟨a, ha, hy⟩ w; exact ws_pos_of_mem ha hy
  have hQ := hw x hx
  have q1 := hQ (W.sta i); have q2 := hQ (W.fas i); have q3 := hQ (W.lis i)
  have q4 := hQ (W.reg i); have q5 := hQ (W.tryL i); have q6 := hQ (W.tryC i)
  have q7 := hQ (W.trL i); have q8 := hQ (W.trC i); have q9 := hQ (W.trX i)
  have q10 := hQ (W.un i); have q11 := hQ (W.res i); have q12 := hQ (W.co i)
  have hpos := op_weight ho (by rintro b rfl; exact (hC.gl.g7 _ _ hx).2)
  simp only [view] at h
  have hun : 0 < W.un i x := by clear * - h q1 q2 q3 q4 q5 q6 q7 q8 q9 q10 q11 q12 hpos; omega
  have hxe : x = .unregister i := by
    cases x <;> simp only [W.un, Nat.lt_irrefl] at hun
    split at hun
    · simp_all
    · simp at hun
  refine ⟨hxe, ?_⟩
  have hr := h.2.2.2.2.2.2.2.2.2.2.2.2.1 (by clear * - h q10 hun; omega)
  cases hct : s.ct i with
  | none => simp [hct] at hr
  | some e =>
    refine ⟨e, rfl, ?_⟩
    have := hr.1
    simp only [reqd, hct] at this
    cases hr : s.req e <;> simp [hr] at this ⊢

/-! ## Theorems about reachable configurations -/

theorem bad_false (L : Lawful S d0) {c : Conf (mach S)} (h : Reach (mach S) (RSt.init d0) c) :
    c.bad = false :=
  Reach.no_fault (M := mach S) (P := RInv L) (fun _ hc => reach_inv L hc)
    (fun s acts k x r b hP hk he => by
      obtain ⟨s', p, h1, _⟩ := good b hP hk
      have : exec s x b = .fault := he
      rw [this] at h1; simp at h1) h

/-- No call ever blocks forever or gets stuck: the top instruction of every call can run. -/
theorem can_run (L : Lawful S d0) {c : Conf (mach S)} (h : Reach (mach S) (RSt.init d0) c)
    {k : Nat} {x : Instr S} {r : List (Instr S)} (hk : c.acts[k]? = some (x :: r)) (b : Bool) :
    ∃ c', (mach S).step c (.run k b) = some c' ∧ c'.bad = false := by
  obtain ⟨s', p, h1, _⟩ := good b (reach_inv L h) hk
  refine ⟨⟨s', c.acts.set k (p ++ r), false⟩, ?_, rfl⟩
  simp [Mach.step, bad_false L h, hk, h1]

theorem completions_le_one (L : Lawful S d0) {c : Conf (mach S)}
    (h : Reach (mach S) (RSt.init d0) c) (i : OpId) : completions i c.sh.log ≤ 1 := by
  obtain ⟨ph, _, hC⟩ := reach_inv L h
  exact hC.done_le i

/-- Only operations that were started complete. -/
theorem begin_of_done (L : Lawful S d0) {c : Conf (mach S)}
    (h : Reach (mach S) (RSt.init d0) c) {i : OpId} (hd : 0 < completions i c.sh.log) :
    ∃ ct p, Ev.begin i ct p ∈ c.sh.log := by
  obtain ⟨ph, _, hC⟩ := reach_inv L h
  have h1 : completions i c.sh.log = 1 := by have := hC.done_le i; omega
  have h2 := (hC.done_iff i).1 h1
  have : c.sh.started i = true := by
    cases hs : c.sh.started i with
    | true => rfl
    | false =>
      have := ((hC.op i).a3 (by simp [view, hs])).1
      rw [view_ph] at this
      omega
  obtain ⟨p, hp⟩ := hC.gl.g4 i this
  exact ⟨_, p, hp⟩

/-- The token of an operation is the one it was created with. -/
theorem begin_ct {c : Conf (mach S)} (h : Reach (mach S) (RSt.init d0) c)
    {i : OpId} {ct : Option EvId} {p : S.P} (hb : Ev.begin i ct p ∈ c.sh.log) :
    c.sh.ct i = ct := by
  have := Reach.inv (M := mach S)
    (P := fun s _ => ∀ i ct p, Ev.begin i ct p ∈ s.log → s.started i = true ∧ s.ct i = ct)
    (by simp [RSt.init]) ?_ ?_ h
  · exact (this i ct p hb).2
  · intro s acts a s' q hP he
    have he' : env s acts a = some (s', q) := he
    cases a <;> simp only [env] at he'
    · rename_i j ct' p'
      split at he'
      · simp at he'
      · rename_i hns
        split at he'
        · simp at he'; obtain ⟨rfl, _⟩ := he'
          intro i ct p hm
          simp at hm
          rcases hm with hm | ⟨rfl, rfl, rfl⟩
          · have := hP i ct p hm
            by_cases hij : i = j
            · subst hij; exact absurd this.1 hns
            · simp [hij, this]
          · simp
        · simp at he'
    · simp at he'; obtain ⟨rfl, _⟩ := he'; exact hP
    · split at he'
      · simp at he'; obtain ⟨rfl, _⟩ := he'; exact hP
      · simp at he'
    · split at he'
      · simp at he'; obtain ⟨rfl, _⟩ := he'
        intro i ct p hm; simp at hm; exact hP i ct p hm
      · simp at he'
  · intro s acts k x r b s' q hP hk he
    have he' : exec s x b = .ok s' q := he
    cases x <;> simp only [exec] at he'
    all_goals
      repeat' split at he'
      all_goals simp at he'
      all_goals try (obtain ⟨rfl, _⟩ := he')
      all_goals
        intro i ct p hm
        try simp at hm
        exact hP i ct p hm

/-! ## Cooperative schedules -/

/-- Schedules in which a call is not interrupted between the `fetch_or` of `transition_` and the
access to the event that follows it. This holds if all calls are made on one thread, since no
user code runs in between. -/
inductive CoopReach (S : DS) (d0 : S.D) : Conf (mach S) → Prop where
  | init : CoopReach S d0 ((mach S).init (RSt.init d0))
  | step {c c' : Conf (mach S)} {l : Lbl (mach S)} : CoopReach S d0 c →
    (mach S).step c l = some c' →
    (∀ (k : Nat) (i : OpId) (r : List (Instr S)), c.acts[k]? = some (Instr.unregister i :: r) → ∃ b, l = .run k b) →
    CoopReach S d0 c'

theorem CoopReach.reach {c : Conf (mach S)} (h : CoopReach S d0 c) :
    Reach (mach S) (RSt.init d0) c := by
  induction h with
  | init => exact .init
  | step _ hs _ ih => exact .step ih hs

/-- `unregister` is only on top of a stack. -/
def unTop (acts : List (List (Instr S))) : Prop :=
  ∀ a ∈ acts, ∀ x r, a = x :: r → ∀ i, Instr.unregister i ∉ r

theorem push_un {s : RSt S} {x : Instr S} {b : Bool} {s' : RSt S} {p : List (Instr S)}
    (he : exec s x b = .ok s' p) : (∀ i, Instr.unregister i ∉ p) ∨
      (∃ i nb, x = .transition i nb ∧ p = [.unregister i]) := by
  cases x <;> simp only [exec] at he
  case transition i nb =>
    split at he
    · simp at he
    · split at he
      · simp at he; obtain ⟨_, rfl⟩ := he; left; simp
      · split at he
        · simp at he; obtain ⟨_, rfl⟩ := he; right; exact ⟨i, nb, rfl, rfl⟩
        · simp at he; obtain ⟨_, rfl⟩ := he; left; simp
  case cancel e =>
    simp at he; obtain ⟨_, rfl⟩ := he; left; simp
  case ds x =>
    left
    split at he
    · simp at he
    · simp at he; obtain ⟨_, rfl⟩ := he
      intro i hi
      rw [List.mem_map] at hi
      obtain ⟨y, _, hy⟩ := hi
      cases y <;> simp [follow] at hy
  all_goals
    left
    repeat' split at he
    all_goals simp at he
    all_goals (obtain ⟨_, rfl⟩ := he)
    all_goals simp

theorem unTop_reach {c : Conf (mach S)} (h : Reach (mach S) (RSt.init d0) c) : unTop c.acts := by
  refine Reach.inv (M := mach S) (P := fun _ acts => unTop acts) ?_ ?_ ?_ h
  · intro a ha; simp at ha
  · intro s acts a s' p hP he
    intro q hq x r hqr i
    rcases List.mem_append.1 hq with h1 | h1
    · exact hP q h1 x r hqr i
    · simp only [List.mem_singleton] at h1; subst h1
      have he' : env s acts a = some (s', q) := he
      cases a <;> simp only [env] at he'
      · split at he'
        · simp at he'
        · split at he'
          · simp at he'; obtain ⟨_, rfl⟩ := he'; cases hqr; simp
          · simp at he'
      · simp at he'; obtain ⟨_, rfl⟩ := he'; cases hqr; simp
      · split at he'
        · simp at he'; obtain ⟨_, rfl⟩ := he'; cases hqr; simp
        · simp at he'
      · split at he'
        · simp at he'; obtain ⟨_, rfl⟩ := he'; cases hqr
        · simp at he'
  · intro s acts k x r b s' p hP hk he
    intro q hq y r' hqr i
    have hr : ∀ i, Instr.unregister i ∉ r := hP (x :: r) (List.mem_of_getElem? hk) x r rfl
    rcases List.mem_or_eq_of_mem_set hq with h1 | h1
    · exact hP q h1 y r' hqr i
    · subst h1
      rcases push_un he with h2 | ⟨j, nb, rfl, rfl⟩
      · intro hi
        have : Instr.unregister i ∈ p ++ r := by rw [hqr]; simp [hi]
        rcases List.mem_append.1 this with h3 | h3
        · exact h2 i h3
        · exact hr i h3
      · simp at hqr; obtain ⟨_, rfl⟩ := hqr; exact hr i

theorem un_open (hC : Core s acts ph) {k : Nat} {j : OpId} {nb : Bits} {r : List (Instr S)}
    (hk : acts[k]? = some (.transition j nb :: r)) : completions j s.log = 0 := by
  have h1 := hC.done_le j
  by_cases h : completions j s.log = 1
  · have := hC.after h (pending_top hk) rfl
    simp at this
  · omega

theorem not_touched_aux (L : Lawful S d0) {c : Conf (mach S)} (h : CoopReach S d0 c) {i : OpId}
    (hp : Pending c.acts (Instr.unregister i)) : completions i c.sh.log = 0 := by
  induction h generalizing i with
  | init => obtain ⟨a, ha, _⟩ := hp; simp [Mach.init] at ha
  | @step c c' l hcr hs hco ih =>
    have hr := hcr.reach
    have hut := unTop_reach hr
    have hpos : ∀ j, Pending c.acts (Instr.unregister j) → ∃ k b r, l = .run k b ∧
        c.acts[k]? = some (Instr.unregister j :: r) := by
      rintro j ⟨a, ha, hj⟩
      cases a with
      | nil => simp at hj
      | cons x r =>
        rcases List.mem_cons.1 hj with h1 | h1
        · subst h1
          obtain ⟨k, hk, hk2⟩ := List.mem_iff_getElem.1 ha
          have hk3 : c.acts[k]? = some (Instr.unregister j :: r) := by
            rw [List.getElem?_eq_getElem hk, hk2]
          obtain ⟨b, hb⟩ := hco k j r hk3
          exact ⟨k, b, r, hb, hk3⟩
        · exact absurd h1 (hut _ ha x r rfl j)
    cases l with
    | env a =>
      simp only [Mach.step] at hs
      split at hs
      · simp at hs
      · split at hs
        · rename_i s' p he
          simp at hs; subst hs
          rcases pending_append hp with h1 | h1
          · have he' : env c.sh c.acts a = some (s', p) := he
            exfalso
            cases a <;> simp only [env] at he'
            · split at he'
              · simp at he'
              · split at he'
                · simp at he'; obtain ⟨_, rfl⟩ := he'; simp at h1
                · simp at he'
            · simp at he'; obtain ⟨_, rfl⟩ := he'; simp at h1
            · split at he'
              · simp at he'; obtain ⟨_, rfl⟩ := he'; simp at h1
              · simp at he'
            · split at he'
              · simp at he'; obtain ⟨_, rfl⟩ := he'; simp at h1
              · simp at he'
          · obtain ⟨k, b, r, h2, _⟩ := hpos i h1
            simp at h2
        · simp at hs
    | run k b =>
      simp only [Mach.step] at hs
      split at hs
      · simp at hs
      · split at hs
        · rename_i x r hk
          split at hs
          · rename_i s' p he
            simp at hs; subst hs
            have he' : exec c.sh x b = .ok s' p := he
            obtain ⟨ph, _, hC⟩ := reach_inv L hr
            rcases pending_set hk hp with h1 | h1
            · rcases push_un he' with h2 | ⟨j, nb, rfl, rfl⟩
              · exact absurd h1 (h2 i)
              · simp at h1; subst h1
                have := un_open hC hk
                simp only [exec] at he'
                split at he'
                · simp at he'
                · split at he'
                  · simp at he'
                  · split at he'
                    · simp at he'; obtain ⟨rfl, _⟩ := he'; exact this
                    · simp at he'
            · exfalso
              obtain ⟨k', b', r', h2, h3⟩ := hpos i h1
              simp at h2; obtain ⟨rfl, rfl⟩ := h2
              rw [hk] at h3
              simp at h3; obtain ⟨rfl, rfl⟩ := h3
              have hp2 : Instr.unregister i ∉ p := by
                rcases push_un he' with h2 | ⟨j, nb, h2, _⟩
                · exact h2 i
                · simp at h2
              -- the executed instruction was the only pending one
              have hw := ws_set (W.un i) p hk
              have hz : wl (W.un i) p = 0 := by
                apply wl_zero
                intro y hy
                cases y <;> simp [W.un]
                rintro rfl; exact hp2 hy
              have h1u := ((hC.op i).b0).2.2.2.1
              simp only [view] at h1u
              simp only [W.un, if_true] at hw
              obtain ⟨a, ha, hia⟩ := hp
              have h4 := ws_pos_of_mem (w := W.un i) ha hia
              simp only [W.un, if_true] at h4
              omega
          · simp at hs
          · simp at hs; subst hs
            exact ih hp
        · simp at hs

/-! ## Executable cooperative schedules, for examples -/

/-- The side condition of `CoopReach`. -/
def coopOk (acts : List (List (Instr S))) (l : Lbl (mach S)) (k : Nat) : Bool :=
  match acts with
  | [] => true
  | (.unregister _ :: _) :: acts => (match l with | .run k' _ => k' == k | _ => false) &&
      coopOk acts l (k + 1)
  | _ :: acts => coopOk acts l (k + 1)

theorem coopOk_spec {acts : List (List (Instr S))} {l : Lbl (mach S)} {n : Nat}
    (h : coopOk acts l n = true) (k : Nat) (i : OpId) (r : List (Instr S))
    (hk : acts[k]? = some (Instr.unregister i :: r)) : ∃ b, l = .run (n + k) b := by
  induction acts generalizing n k with
  | nil => simp at hk
  | cons a acts ih =>
    cases k with
    | zero =>
      simp at hk; subst hk
      simp only [coopOk, Bool.and_eq_true] at h
      cases l with
      | env a => simp at h
      | run k' b => simp at h; exact ⟨b, by simp [h.1]⟩
    | succ k =>
      simp at hk
      have h2 : coopOk acts l (n + 1) = true := by
        unfold coopOk at h
        split at h
        · simp_all
        · simp_all
        · simp_all
      obtain ⟨b, hb⟩ := ih h2 k hk
      exact ⟨b, by rw [hb]; congr 1; omega⟩

/-- Run while the labels are enabled and the side condition holds. -/
def coopRuns (c : Conf (mach S)) : List (Lbl (mach S)) → Conf (mach S)
  | [] => c
  | l :: ls => if coopOk c.acts l 0 then
      match (mach S).step c l with
      | some c' => coopRuns c' ls
      | none => c
    else c

def coopAfter (d0 : S.D) (ls : List (Lbl (mach S))) : Conf (mach S) :=
  coopRuns ((mach S).init (RSt.init d0)) ls

theorem coopAfter_reach (d0 : S.D) (ls : List (Lbl (mach S))) :
    CoopReach S d0 (coopAfter d0 ls) := by
  have : ∀ ls c, CoopReach S d0 c → CoopReach S d0 (coopRuns c ls) := by
    intro ls
    induction ls with
    | nil => intro c h; exact h
    | cons l ls ih =>
      intro c h
      simp only [coopRuns]
      split
      · rename_i hok
        split
        · rename_i c' hs
          refine ih c' (.step h hs ?_)
          intro k i r hk
          have := coopOk_spec hok k i r hk
          simpa using this
        · exact h
      · exact h
  exact this ls _ .init

end Verif.Resolver
