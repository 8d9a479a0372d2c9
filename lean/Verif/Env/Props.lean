import Verif.Env.Proof

/-!
# C86 and C87: environments of receivers

C86: every sender inside an expression sees the environment of the outermost receiver. C87: it may ask for it at any time from the call of
`connect` to its completion.
-/

namespace Verif.Env

/-- **C86**, **C87** (exact answer): in every execution, whenever a leaf calls `get_env`, the answer is the specified one. -/
theorem C86_exact {R : Nat → Root} {s : St} (h : Reach R s) {q : Query} (hq : q ∈ s.asked) (x : Res) :
    GetEnv q.heap q.rcv x ↔ x = expected R q.heap q.busy q.path := by
  have hg := ((glob h).asked q hq).1
  exact ⟨fun hx => hx.det hg, fun hx => by rw [hx]; exact hg⟩

theorem Above.cons {a q : Path} {i k : Nat} (h : Above a (i :: q)) : Above a (k :: i :: q) :=
  ⟨h.1.trans (List.suffix_cons _ _), fun e => by
    have := h.1
    rw [e] at this
    exact not_suffix_tail _ _ this⟩

theorem expected_clean {R : Nat → Root} {h : Heap} {B : List Path} {t : Nat} : ∀ {p : Path}, [t] <:+ p →
    (∀ a S dr ph, Above a p → h a ≠ some ⟨.erased S, dr, ph⟩) →
    (∀ a S dr ph, Above a p → h a = some ⟨.cancelCb S, dr, ph⟩ → a ∉ B) → expected R h B p = expected R h B [t]
  | [], ht, _, _ => by have := ht.length_le; simp at this
  | [u], ht, _, _ => by
    have := ht.eq_of_length (by simp)
    rw [this]
  | k :: i :: q, ht, he, hc => by
    have ht' : [t] <:+ i :: q := by
      rcases List.suffix_cons_iff.1 ht with h1 | h1
      · simp at h1
      · exact h1
    have ih := expected_clean (R := R) (h := h) (B := B) (p := i :: q) ht' (fun a S dr ph ha => he a S dr ph ha.cons)
      (fun a S dr ph ha => hc a S dr ph ha.cons)
    have ab : Above (i :: q) (k :: i :: q) := ⟨List.suffix_cons _ _, by simp⟩
    generalize expected R h B [t] = y at ih ⊢
    rw [expected]
    split
    · rename_i S dr ph ho; exact absurd ho (he _ S dr ph ab)
    · rename_i S dr ph ho
      rw [if_neg (hc _ S dr ph ab ho)]; exact ih
    · exact ih

theorem expected_def {R : Nat → Root} {h : Heap} {B : List Path} : ∀ {p : Path}, p ≠ [] →
    (∀ a S dr ph, Above a p → h a = some ⟨.cancelCb S, dr, ph⟩ → a ∉ B) → ∃ e, expected R h B p = .env e
  | [], hp, _ => absurd rfl hp
  | [u], _, _ => by
    simp only [expected]
    cases R u with
    | direct e => exact ⟨e, rfl⟩
    | spawn e => exact ⟨none, rfl⟩
  | k :: i :: q, _, hc => by
    have ih := expected_def (R := R) (h := h) (B := B) (p := i :: q) (by simp) (fun a S dr ph ha => hc a S dr ph ha.cons)
    have ab : Above (i :: q) (k :: i :: q) := ⟨List.suffix_cons _ _, by simp⟩
    rw [expected]
    split
    · exact ⟨none, rfl⟩
    · rename_i S dr ph ho
      rw [if_neg (hc _ S dr ph ab ho)]; exact ih
    · exact ih

theorem expected_spawn {R : Nat → Root} {h : Heap} {B : List Path} {t : Nat} {e : Option Nat} (hR : R t = .spawn e) : ∀ {p : Path},
    [t] <:+ p → (∀ a S dr ph, Above a p → h a = some ⟨.cancelCb S, dr, ph⟩ → a ∉ B) → expected R h B p = .env none
  | [], ht, _ => by have := ht.length_le; simp at this
  | [u], ht, _ => by
    have := ht.eq_of_length (by simp)
    simp only [List.cons.injEq, and_true] at this
    subst this
    simp only [expected, hR]
  | k :: i :: q, ht, hc => by
    have ht' : [t] <:+ i :: q := by
      rcases List.suffix_cons_iff.1 ht with h1 | h1
      · simp at h1
      · exact h1
    have ih := expected_spawn hR (h := h) (B := B) (p := i :: q) ht' (fun a S dr ph ha => hc a S dr ph ha.cons)
    have ab : Above (i :: q) (k :: i :: q) := ⟨List.suffix_cons _ _, by simp⟩
    rw [expected]
    split
    · rfl
    · rename_i S dr ph ho
      rw [if_neg (hc _ S dr ph ab ho)]; exact ih
    · exact ih

theorem expected_erased {R : Nat → Root} {h : Heap} {B : List Path} {b : Path} {S0 : Snd} {dr0 : Fld} {ph0 : Phase}
    (hb : h b = some ⟨.erased S0, dr0, ph0⟩) (hn : b ≠ []) : ∀ {p : Path}, Above b p →
    (∀ a S dr ph, Above a p → h a = some ⟨.cancelCb S, dr, ph⟩ → a ∉ B) → expected R h B p = .env none
  | [], ht, _ => by have := ht.1; rw [List.suffix_nil] at this; exact absurd this hn
  | [u], ht, _ => by
    rcases List.suffix_cons_iff.1 ht.1 with h1 | h1
    · exact absurd h1 ht.2
    · rw [List.suffix_nil] at h1; exact absurd h1 hn
  | k :: i :: q, ht, hc => by
    have ab : Above (i :: q) (k :: i :: q) := ⟨List.suffix_cons _ _, by simp⟩
    rw [expected]
    split
    · rfl
    · rename_i S dr ph ho
      rw [if_neg (hc _ S dr ph ab ho)]
      refine expected_erased hb hn ⟨(List.suffix_cons_iff.1 ht.1).resolve_left ht.2, ?_⟩ (fun a S dr ph ha => hc a S dr ph ha.cons)
      rintro rfl; rw [hb] at ho; cases ho
    · rename_i ho1 ho2
      refine expected_erased hb hn ⟨(List.suffix_cons_iff.1 ht.1).resolve_left ht.2, ?_⟩ (fun a S dr ph ha => hc a S dr ph ha.cons)
      rintro rfl; exact ho1 _ _ _ hb

theorem expected_ub {R : Nat → Root} {h : Heap} {B : List Path} {b : Path} {S0 : Snd} {dr0 : Fld} {ph0 : Phase}
    (hb : h b = some ⟨.cancelCb S0, dr0, ph0⟩) (hB : b ∈ B) (hn : b ≠ []) : ∀ {p : Path}, Above b p →
    (∀ a S dr ph, Above a p → h a ≠ some ⟨.erased S, dr, ph⟩) → expected R h B p = .ub
  | [], ht, _ => by have := ht.1; rw [List.suffix_nil] at this; exact absurd this hn
  | [u], ht, _ => by
    rcases List.suffix_cons_iff.1 ht.1 with h1 | h1
    · exact absurd h1 ht.2
    · rw [List.suffix_nil] at h1; exact absurd h1 hn
  | k :: i :: q, ht, hc => by
    have ab : Above (i :: q) (k :: i :: q) := ⟨List.suffix_cons _ _, by simp⟩
    rw [expected]
    split
    · rename_i S dr ph ho; exact absurd ho (hc _ S dr ph ab)
    · rename_i S dr ph ho
      by_cases hi : b = i :: q
      · subst hi; rw [if_pos hB]
      · split
        · rfl
        · exact expected_ub hb hB hn ⟨(List.suffix_cons_iff.1 ht.1).resolve_left ht.2, hi⟩ (fun a S dr ph ha => hc a S dr ph ha.cons)
    · rename_i ho1 ho2
      refine expected_ub hb hB hn ⟨(List.suffix_cons_iff.1 ht.1).resolve_left ht.2, ?_⟩ (fun a S dr ph ha => hc a S dr ph ha.cons)
      rintro rfl; exact ho2 _ _ _ hb

/-- **C86** (partial: only if the outermost receiver is passed to `connect`, there is no `any_receiver` on the way, and no `with_cancel_cb`
around the leaf is being connected): every leaf sees the environment of the outermost receiver. -/
theorem C86_reaches_partial {R : Nat → Root} {s : St} (h : Reach R s) {q : Query} (hq : q ∈ s.asked) {t : Nat} {e : Option Nat}
    (ht : [t] <:+ q.path) (hR : R t = .direct e) (he : ¬ Erased q) (hc : ¬ Connecting q) (x : Res) :
    GetEnv q.heap q.rcv x ↔ x = .env e := by
  rw [C86_exact h hq, expected_clean ht (fun a S dr ph ha ho => he ⟨a, S, dr, ph, ha, ho⟩)
    (fun a S dr ph ha ho hb => hc ⟨a, S, dr, ph, ha, ho, hb⟩)]
  simp only [expected, hR]

/-- **C86** (where it fails): leaves of an expression that was given to `spawn_with_allocator`, and those behind an `any_receiver`, see the empty
environment, whatever the environment of the outermost receiver. -/
theorem C86_lost {R : Nat → Root} {s : St} (h : Reach R s) {q : Query} (hq : q ∈ s.asked) {t : Nat} (ht : [t] <:+ q.path)
    (hl : (∃ e, R t = .spawn e) ∨ Erased q) (hc : ¬ Connecting q) (x : Res) : GetEnv q.heap q.rcv x ↔ x = .env none := by
  rw [C86_exact h hq]
  have hc' : ∀ a S dr ph, Above a q.path → q.heap a = some ⟨.cancelCb S, dr, ph⟩ → a ∉ q.busy :=
    fun a S dr ph ha ho hb => hc ⟨a, S, dr, ph, ha, ho, hb⟩
  rcases hl with ⟨e, hR⟩ | ⟨a, S, dr, ph, ha, ho⟩
  · rw [expected_spawn hR ht hc']
  · rw [expected_erased ho (fun e => by rw [e, ((glob h).asked q hq).2.1] at ho; cases ho) ha hc']

/-- **C86** (leaves can ask until they complete): a leaf that has not completed stays where it is, with its receiver, whatever else
happens. -/
theorem C86_stays {R : Nat → Root} {s s' : St} (h : Reach R s) {l : Lbl} (hs : Step R s l s') {p : Path} {r : Rcv} {ph : Phase}
    (hp : s.heap p = some ⟨.leaf, .val r, ph⟩) (hd : ph ≠ .done) (hl : l ≠ .finish p) :
    ∃ ph', s'.heap p = some ⟨.leaf, .val r, ph'⟩ ∧ ph' ≠ .done :=
  ((glob h).step hs).2 p r ph hp hd hl

/-- **C87** (partial: only if no `with_cancel_cb` around the leaf is being connected): `get_env` is defined. -/
theorem C87_defined_partial {R : Nat → Root} {s : St} (h : Reach R s) {q : Query} (hq : q ∈ s.asked) (hc : ¬ Connecting q) :
    (∃ e, GetEnv q.heap q.rcv (.env e)) ∧ ¬ GetEnv q.heap q.rcv .ub := by
  obtain ⟨e, he⟩ := expected_def (R := R) (h := q.heap) (B := q.busy) ((glob h).asked q hq).2.2 (fun a S dr ph ha ho hb => hc ⟨a, S, dr, ph, ha, ho, hb⟩)
  rw [C86_exact h hq, he]
  exact ⟨⟨e, by rw [C86_exact h hq, he]⟩, by simp⟩

/-- **C87** (after `connect`): every leaf that was connected and has not completed may call `get_env`. -/
theorem C87_connected {R : Nat → Root} {s : St} (h : Reach R s) {p : Path} {dr : Fld} {ph : Phase}
    (hp : s.heap p = some ⟨.leaf, dr, ph⟩) (hd : ph ≠ .done) :
    ∃ r, dr = .val r ∧ (∃ e, GetEnv s.heap r (.env e)) ∧ ¬ GetEnv s.heap r .ub := by
  have hf := (glob h).inv.fld p _ hp
  simp only [FldOK] at hf
  subst hf
  refine ⟨_, rfl, ?_⟩
  exact C87_defined_partial (h.step (.ask p _ ph hp hd)) (q := ⟨p, _, s.heap, []⟩) (by simp [St.ask])
    (fun ⟨_, _, _, _, _, _, hb⟩ => by simp at hb)

/-- **C86** (partial, as `C86_reaches_partial`, for all leaves that were connected and have not completed). -/
theorem C86_connected_partial {R : Nat → Root} {s : St} (h : Reach R s) {p : Path} {dr : Fld} {ph : Phase}
    (hp : s.heap p = some ⟨.leaf, dr, ph⟩) (hd : ph ≠ .done) {t : Nat} {e : Option Nat} (ht : [t] <:+ p) (hR : R t = .direct e)
    (he : ∀ a S dr ph, Above a p → s.heap a ≠ some ⟨.erased S, dr, ph⟩) :
    ∃ r, dr = .val r ∧ ∀ x, GetEnv s.heap r x ↔ x = .env e := by
  obtain ⟨r, rfl, _⟩ := C87_connected h hp hd
  refine ⟨r, rfl, C86_reaches_partial (h.step (.ask p _ ph hp hd)) (q := ⟨p, r, s.heap, []⟩) (by simp [St.ask]) ht hR
    (fun ⟨a, S, dr, ph, ha, ho⟩ => he a S dr ph ha ho) (fun ⟨_, _, _, _, _, _, hb⟩ => by simp at hb)⟩

/-- **C87** (where it fails): a leaf that asks while a `with_cancel_cb` around it is being connected reads a receiver that is not
constructed (unless an `any_receiver` answers). -/
theorem C87_connecting {R : Nat → Root} {s : St} (h : Reach R s) {q : Query} (hq : q ∈ s.asked) (he : ¬ Erased q) (hc : Connecting q) :
    GetEnv q.heap q.rcv .ub := by
  obtain ⟨a, S, dr, ph, ha, ho, hb⟩ := hc
  rw [C86_exact h hq, expected_ub ho hb (fun e => by rw [e, ((glob h).asked q hq).2.1] at ho; cases ho) ha
    (fun a S dr ph ha ho => he ⟨a, S, dr, ph, ha, ho⟩)]

/-- **C86** is false for `spawn_with_allocator`: its receiver has environment 7, the sender sees the empty environment. -/
theorem C86_spawn_false : ∃ R s q, Reach R s ∧ q ∈ s.asked ∧ [0] <:+ q.path ∧ R 0 = .spawn (some 7) ∧ ¬ Erased q ∧ ¬ Connecting q ∧
    GetEnv q.heap q.rcv (.env none) := by
  refine ⟨fun _ => .spawn (some 7), _, ⟨[0], .spawned, init.heap, [[0]]⟩, Reach.init.step (.connect 0 .leaf rfl), ?_, by simp, rfl, ?_, ?_, .spawned⟩
  · simp [connect, St.ask, St.put, init, Root.rcv]
  · rintro ⟨a, S, dr, ph, _, ho⟩; simp [init] at ho
  · rintro ⟨a, S, dr, ph, _, ho, _⟩; simp [init] at ho

/-- **C86** is false for `any_receiver`: the outermost receiver has environment 7, a sender behind an `any_receiver` sees the empty
environment. -/
theorem C86_any_false : ∃ R s q, Reach R s ∧ q ∈ s.asked ∧ [0] <:+ q.path ∧ R 0 = .direct (some 7) ∧ ¬ Connecting q ∧
    GetEnv q.heap q.rcv (.env none) := by
  refine ⟨fun _ => .direct (some 7), _, ⟨[0, 0], .any (.user (some 7)), (init.put [0] ⟨.erased .leaf, .absent, .conn⟩).heap, [[0, 0], [0]]⟩,
    Reach.init.step (.connect 0 (.erased .leaf) rfl), ?_, by exact ⟨[0], rfl⟩, rfl, ?_, .any _⟩
  · simp [connect, St.ask, St.put, init, Root.rcv]
  · rintro ⟨a, S, dr, ph, _, ho, _⟩
    simp only [St.put, init] at ho
    split at ho <;> simp at ho

/-- **C87** is false: a sender that calls `get_env` when it is connected, directly inside `with_cancel_cb`. -/
theorem C87_false : ∃ R s q, Reach R s ∧ q ∈ s.asked ∧ R 0 = .direct (some 7) ∧ [0] <:+ q.path ∧ ¬ Erased q ∧ GetEnv q.heap q.rcv .ub := by
  refine ⟨fun _ => .direct (some 7), _, ⟨[0, 0], .ptr [0], (init.put [0] ⟨.cancelCb .leaf, .unset, .conn⟩).heap, [[0, 0], [0]]⟩,
    Reach.init.step (.connect 0 (.cancelCb .leaf) rfl), ?_, rfl, by exact ⟨[0], rfl⟩, ?_, ?_⟩
  · simp [connect, St.ask, St.put, init]
  · rintro ⟨a, S, dr, ph, _, ho⟩
    simp only [St.put, init] at ho
    split at ho <;> simp at ho
  · exact .invalid (o := ⟨.cancelCb .leaf, .unset, .conn⟩) (by simp [St.put]) (by simp)

/-! ## Examples

The hypotheses are met: `when_all(transform(wait_in_group(leaf)), sequence(leaf, lambda(leaf)))`, connected to a receiver with environment 7, in
which the last leaf was connected after the first one of `sequence` has completed. -/

def exS : Snd := .all 1 (fun k => if k = 0 then .xform (.inGroup .leaf) else .seq 1 (fun j => if j = 0 then .leaf else .lam .leaf))
def exR : Nat → Root := fun _ => .direct (some 7)
def ex1 : St := connect [] exS [0] (exR 0).rcv init
def ex2 : St := begin ex1 [0] ⟨exS, .val (.user (some 7)), .conn⟩ 0
def exQ : Snd := .seq 1 (fun j => if j = 0 then .leaf else .lam .leaf)
def ex3 : St := begin ex2 [1, 0] ⟨exQ, .val (.ptr [0]), .conn⟩ 0
def ex4 : St := begin ex3 [0, 1, 0] ⟨.leaf, .val (.ptr [1, 0]), .conn⟩ 0
def ex5 : St := ex4.put [0, 1, 0] ⟨.leaf, .val (.ptr [1, 0]), .done⟩
def ex6 : St := connect [] (.lam .leaf) [1, 1, 0] (.ptr [1, 0]) (ex5.drop [0, 1, 0])
def ex7 : St := ex6.ask [0, 1, 1, 0] (.ptr [1, 0]) []

theorem ex_reach : Reach exR ex6 := by
  have h1 : Reach exR ex1 := Reach.init.step (.connect 0 exS rfl)
  have h2 : Reach exR ex2 := h1.step (.start [0] 0 _ rfl rfl (by intro k i q h; simp at h))
  have h3 : Reach exR ex3 := h2.step (.start [1, 0] 0 _ rfl rfl (by intro k i q h; simp at h; obtain ⟨rfl, rfl, rfl⟩ := h; exact ⟨_, rfl, rfl⟩))
  have h4 : Reach exR ex4 := h3.step (.start [0, 1, 0] 0 _ rfl rfl (by intro k i q h; simp at h; obtain ⟨rfl, rfl, rfl⟩ := h; exact ⟨_, rfl, rfl⟩))
  have h5 : Reach exR ex5 := h4.step (.finish [0, 1, 0] ⟨.leaf, .val (.ptr [1, 0]), .started⟩ rfl rfl trivial)
  exact h5.step (.nextSeq [1, 0] 0 0 1 (fun j => if j = 0 then .leaf else .lam .leaf) (.val (.ptr [0])) rfl (by decide) ⟨_, rfl, rfl⟩)

theorem ex6_leaf : ex6.heap [0, 1, 1, 0] = some ⟨.leaf, .val (.ptr [1, 0]), .conn⟩ := rfl

def exq : Query := ⟨[0, 1, 1, 0], .ptr [1, 0], ex6.heap, []⟩

theorem ex7_reach : Reach exR ex7 := ex_reach.step (.ask _ _ _ ex6_leaf (by simp))

theorem exq_mem : exq ∈ ex7.asked := by simp [ex7, exq, St.ask]

theorem exq_calm : ¬ Connecting exq := by
  rintro ⟨_, _, _, _, _, _, hb⟩; simp [exq] at hb

theorem exq_clean : ¬ Erased exq := by
  rintro ⟨a, S, dr, ph, ⟨ha, hne⟩, ho⟩
  simp only [exq, List.suffix_cons_iff, List.suffix_nil] at ha
  rcases ha with rfl | rfl | rfl | rfl | rfl <;> simp [exq, ex6, ex5, ex4, ex3, ex2, ex1, exS, exQ, exR, connect, begin, upto, St.put, St.ask,
    St.drop, init, List.suffix_cons_iff] at ho hne

example : GetEnv exq.heap exq.rcv (.env (some 7)) ↔ Res.env (some 7) = expected exR exq.heap exq.busy exq.path :=
  C86_exact ex7_reach exq_mem _

example : GetEnv exq.heap exq.rcv (.env (some 7)) :=
  (C86_reaches_partial ex7_reach exq_mem (t := 0) ⟨[0, 1, 1], rfl⟩ rfl exq_clean exq_calm _).2 rfl

example : ∃ r, Fld.val (.ptr [1, 0]) = .val r ∧ ∀ x, GetEnv ex6.heap r x ↔ x = .env (some 7) :=
  C86_connected_partial ex_reach ex6_leaf (by simp) (t := 0) ⟨[0, 1, 1], rfl⟩ rfl
    (fun a S dr ph ha ho => exq_clean ⟨a, S, dr, ph, ha, ho⟩)

example : ∃ ph', ex7.heap [0, 1, 1, 0] = some ⟨.leaf, .val (.ptr [1, 0]), ph'⟩ ∧ ph' ≠ .done :=
  C86_stays ex_reach (.ask _ _ _ ex6_leaf (by simp)) ex6_leaf (by simp) (by simp)

example : ¬ GetEnv exq.heap exq.rcv .ub := (C87_defined_partial ex7_reach exq_mem exq_calm).2

example : ∃ r, Fld.val (.ptr [1, 0]) = .val r ∧ (∃ e, GetEnv ex6.heap r (.env e)) ∧ ¬ GetEnv ex6.heap r .ub :=
  C87_connected ex_reach ex6_leaf (by simp)

example : ∃ s q, Reach (fun _ => .spawn (some 7)) s ∧ q ∈ s.asked ∧ ¬ GetEnv q.heap q.rcv (.env (some 7)) := by
  have h : Reach (fun _ => .spawn (some 7)) _ := Reach.init.step (.connect 0 .leaf rfl)
  have hq : (⟨[0], .spawned, init.heap, [[0]]⟩ : Query) ∈ (connect [] .leaf [0] .spawned init).asked := by
    simp [connect, St.ask, St.put, init]
  refine ⟨_, _, h, hq, ?_⟩
  rw [C86_lost h hq (t := 0) (by simp) (.inl ⟨_, rfl⟩) (by rintro ⟨a, S, dr, ph, _, ho, _⟩; simp [init] at ho)]
  simp

example : ∃ s q, Reach exR s ∧ q ∈ s.asked ∧ ¬ GetEnv q.heap q.rcv (.env (some 7)) := by
  have h : Reach exR _ := Reach.init.step (.connect 0 (.cancelCb .leaf) rfl)
  have hq : (⟨[0, 0], .ptr [0], (init.put [0] ⟨.cancelCb .leaf, .unset, .conn⟩).heap, [[0, 0], [0]]⟩ : Query) ∈
      (connect [] (.cancelCb .leaf) [0] (exR 0).rcv init).asked := by
    simp [connect, St.ask, St.put, init]
  refine ⟨_, _, h, hq, fun hx => ?_⟩
  have := C87_connecting h hq (by
    rintro ⟨a, S, dr, ph, _, ho⟩
    simp only [St.put, init] at ho
    split at ho <;> simp at ho) ⟨[0], .leaf, .unset, .conn, ⟨⟨[0], rfl⟩, by simp⟩, by simp [St.put], by simp⟩
  exact absurd (hx.det this) (by simp)

end Verif.Env
