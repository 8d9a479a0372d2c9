import Verif.Resolver.Facts
import Verif.Weights
import Verif.Finish

/-!
# Calls into the resolver machine come to an end

No instruction waits. Every operation takes a bounded number of steps from its `start()` to its
completion, and what remains of them is a function of its bits and its pending instructions. The
data structure contributes a measure of the work left in its own calls (`Costs`).
-/

namespace Verif.Resolver

variable {S : DS}

/-- Cost of the instructions of `start()` and `listen()` and of the completion of operation `i`. -/
def kA (i : OpId) : Instr S → Nat
  | .start j => if j = i then 30 else 0
  | .setFast j _ => if j = i then 1 else 0
  | .listen j => if j = i then 25 else 0
  | .register j => if j = i then 20 else 0
  | .tryCancel j b => if j = i then 15 * b.toNat else 0
  | .transition j b => if j = i then 10 * b.listen.toNat else 0
  | .unregister j => if j = i then 3 else 0
  | .resume j => if j = i then 1 else 0
  | _ => 0

/-- Progress of the regular completion of operation `i`. -/
def kC (i : OpId) : Instr S → Nat
  | .complete j => if j = i then 1 else 0
  | .transition j b => if j = i then 2 * b.compl.toNat else 0
  | _ => 0

/-- Progress of the cancellation of operation `i`. -/
def kX (i : OpId) : Instr S → Nat
  | .tryCancel j b => if j = i then (!b).toNat else 0
  | .transition j b => if j = i then 2 * b.canc.toNat else 0
  | _ => 0

/-- Calls of `cancel()`. -/
def kE : Instr S → Nat
  | .cancel _ => 1
  | _ => 0

/-- What is left to do for operation `i`. -/
def left (s : RSt S) (acts : List (List (Instr S))) (i : OpId) : Nat :=
  ws (kA i) acts + (12 - ws (kC i) acts - 12 * (s.bits i).compl.toNat) +
    (12 - ws (kX i) acts - 12 * (s.bits i).canc.toNat)

/-- The operations begun in a history. -/
def begun : List (Ev S) → List OpId
  | [] => []
  | .begin i _ _ :: l => i :: begun l
  | _ :: l => begun l

theorem begun_append (a b : List (Ev S)) : begun (a ++ b) = begun a ++ begun b := by
  induction a with
  | nil => rfl
  | cons v a ih => cases v <;> simp [begun, ih]

theorem begun_ds (es : List S.E) : begun (es.map (Ev.ds (S := S))) = [] := by
  induction es with
  | nil => rfl
  | cons v a ih => simpa [begun] using ih

theorem mem_begun {i : OpId} {ct : Option EvId} {p : S.P} {l : List (Ev S)}
    (h : Ev.begin i ct p ∈ l) : i ∈ begun l := by
  induction l with
  | nil => simp at h
  | cons v l ih =>
    rcases List.mem_cons.1 h with h | h
    · subst h; simp [begun]
    · have := ih h
      cases v <;> simp [begun, this]

theorem sum_le {l : List OpId} {f g : OpId → Nat} (h : ∀ i, g i ≤ f i) :
    (l.map g).sum ≤ (l.map f).sum := by
  induction l with
  | nil => simp
  | cons i l ih => simp only [List.map_cons, List.sum_cons]; have := h i; omega

theorem sum_lt {l : List OpId} {f g : OpId → Nat} (h : ∀ i, g i ≤ f i) {j : OpId} (hj : j ∈ l)
    (h' : g j < f j) : (l.map g).sum + 1 ≤ (l.map f).sum := by
  induction l with
  | nil => simp at hj
  | cons i l ih =>
    simp only [List.map_cons, List.sum_cons]
    rcases List.mem_cons.1 hj with e | e
    · subst e; have := sum_le (l := l) h; omega
    · have := ih e; have := h i; omega

/-- A measure of the work left in the calls of the data structure. `pi` are the pending
instructions. -/
structure Costs {d0 : S.D} (L : Lawful S d0) where
  μ : S.D → List S.I → Nat
  perm : ∀ {d pi pi'}, pi.Perm pi' → μ d pi = μ d pi'
  start : ∀ {d ph log pi i b d' r es}, L.Inv d ph log pi → S.start d i b = some (d', r, es) →
    μ d' pi ≤ μ d pi
  tryCancel : ∀ {d ph log pi i d' r es}, L.Inv d ph log pi → S.tryCancel d i = some (d', r, es) →
    μ d' pi ≤ μ d pi
  fin : ∀ {d ph log pi} (i), L.Inv d ph log pi → μ (S.fin d i) pi ≤ μ d pi
  exec : ∀ {d ph log pi x b d' ps es}, L.Inv d ph log (x :: pi) →
    S.exec d x b = some (d', ps, es) → μ d' (insts ps ++ pi) + 1 ≤ μ d (x :: pi)

/-- The measure of a configuration. -/
def Costs.total {d0 : S.D} {L : Lawful S d0} (C : Costs L) (s : RSt S)
    (acts : List (List (Instr S))) : Nat :=
  ((begun s.log).map (left s acts)).sum + ws kE acts + C.μ s.d (dsPend acts)

theorem kC_eq (i : OpId) (acts : List (List (Instr S))) :
    ws (kC i) acts = ws (W.co i) acts + 2 * ws (W.trC i) acts := by
  have h1 := ws_add (w := kC (S := S) i) (w' := fun x => W.co i x + W.trC i x) (w'' := W.trC i) (by
      intro x; cases x <;> simp only [kC, W.co, W.trC] <;> (try split) <;> omega) acts
  have h2 := ws_add (w := fun x : Instr S => W.co i x + W.trC i x) (w' := W.co i) (w'' := W.trC i)
    (fun _ => rfl) acts
  omega

theorem kX_eq (i : OpId) (acts : List (List (Instr S))) :
    ws (kX i) acts = ws (W.tryC i) acts + 2 * ws (W.trX i) acts := by
  have h1 := ws_add (w := kX (S := S) i) (w' := fun x => W.tryC i x + W.trX i x) (w'' := W.trX i) (by
      intro x; cases x <;> simp only [kX, W.tryC, W.trX] <;> (try split) <;> omega) acts
  have h2 := ws_add (w := fun x : Instr S => W.tryC i x + W.trX i x) (w' := W.tryC i)
    (w'' := W.trX i) (fun _ => rfl) acts
  omega

/-- The two paths have not run out of steps. -/
theorem paths {s : RSt S} {acts : List (List (Instr S))} {ph : OpId → Phase S.V} (hC : Core s acts ph)
    (i : OpId) :
    (ws (kC i) acts ≤ 2 ∧ ((s.bits i).compl = true → ws (kC i) acts = 0)) ∧
    (ws (kX i) acts ≤ 2 ∧ ((s.bits i).canc = true → ws (kX i) acts = 0)) := by
  have h := hC.op i
  have a2 := h.a2
  have e2 := h.e2
  have e3 := h.e3
  rw [kC_eq, kX_eq]
  simp only [view] at a2 e2 e3
  constructor
  · cases hh : (s.bits i).compl <;>
      simp only [hh, Bool.toNat_true, Bool.toNat_false] at a2 e2 e3 <;> simp <;> omega
  · cases hh : (s.bits i).canc <;>
      simp only [hh, Bool.toNat_true, Bool.toNat_false] at a2 e2 e3 <;> simp <;> omega

theorem k_off {i : OpId} {x : Instr S} (h : off i x) : kA i x = 0 ∧ kC i x = 0 ∧ kX i x = 0 := by
  cases x <;> simp_all [off, Instr.op, kA, kC, kX]

theorem left_frame {s s' : RSt S} {acts : List (List (Instr S))} {k : Nat} {x : Instr S}
    {r p : List (Instr S)} {i : OpId} (hk : acts[k]? = some (x :: r)) (hx : off i x)
    (hp : wl (kA i) p = 0) (hb : s'.bits i = s.bits i) :
    left s' (acts.set k (p ++ r)) i ≤ left s acts i := by
  have h1 := k_off hx
  have q1 := ws_set (kA i) p hk
  have q2 := ws_set (kC i) p hk
  have q3 := ws_set (kX i) p hk
  simp only [left, hb]
  omega

theorem left_step {d0 : S.D} {L : Lawful S d0} {s s' : RSt S} {acts : List (List (Instr S))} {k : Nat}
    {x : Instr S} {r p : List (Instr S)} {b : Bool} (h : RInv L s acts)
    (hk : acts[k]? = some (x :: r)) (he : exec s x b = .ok s' p) :
    (∀ i, left s' (acts.set k (p ++ r)) i ≤ left s acts i) ∧
    (∀ j, x.op = some j → left s' (acts.set k (p ++ r)) j < left s acts j) := by
  obtain ⟨ph, hI, hC⟩ := h
  -- it is enough to look at the operation of the instruction
  have go : (∀ i, x.op ≠ some i → wl (kA i) p = 0 ∧ s'.bits i = s.bits i) →
      (∀ j, x.op = some j → left s' (acts.set k (p ++ r)) j < left s acts j) →
      (∀ i, left s' (acts.set k (p ++ r)) i ≤ left s acts i) ∧
      (∀ j, x.op = some j → left s' (acts.set k (p ++ r)) j < left s acts j) := by
    intro h1 h2
    refine ⟨fun i => ?_, h2⟩
    by_cases hi : x.op = some i
    · exact Nat.le_of_lt (h2 i hi)
    · exact left_frame hk hi (h1 i hi).1 (h1 i hi).2
  have Q := fun (i : OpId) => And.intro (ws_set (kA i) p hk)
    (And.intro (ws_set (kC i) p hk) (ws_set (kX i) p hk))
  have P := paths hC
  have B : ∀ (i : OpId), kA i x ≤ ws (kA i) acts ∧ kC i x ≤ ws (kC i) acts ∧
      kX i x ≤ ws (kX i) acts := fun i => ⟨ws_pos hk, ws_pos hk, ws_pos hk⟩
  cases x with
  | start j =>
    simp only [exec] at he
    split at he
    · simp at he
    all_goals
      simp only [Out.ok.injEq] at he
      obtain ⟨rfl, rfl⟩ := he
      refine go (fun i hi => ?_) (fun i hi => ?_)
      · simp [Instr.op] at hi; simp [kA, hi]
      · simp only [Instr.op, Option.some.injEq] at hi; subst hi
        have q := Q j; have p := P j
        simp [kA, kC, kX] at q
        simp only [left]; simp; omega
  | setFast j v =>
    simp only [exec, Out.ok.injEq] at he
    obtain ⟨rfl, rfl⟩ := he
    refine go (fun i hi => ?_) (fun i hi => ?_)
    · simp
    · simp only [Instr.op, Option.some.injEq] at hi; subst hi
      have q := Q j; have p := P j
      simp [kA, kC, kX] at q
      simp only [left]; simp; omega
  | listen j =>
    simp only [exec] at he
    split at he
    all_goals
      simp only [Out.ok.injEq] at he
      obtain ⟨rfl, rfl⟩ := he
      refine go (fun i hi => ?_) (fun i hi => ?_)
      · simp [Instr.op] at hi; simp [kA, hi]
      · simp only [Instr.op, Option.some.injEq] at hi; subst hi
        have q := Q j; have p := P j
        simp [kA, kC, kX] at q
        simp only [left]; simp; omega
  | register j =>
    simp only [exec] at he
    split at he
    · simp at he
    split at he
    all_goals
      simp only [Out.ok.injEq] at he
      obtain ⟨rfl, rfl⟩ := he
      refine go (fun i hi => ?_) (fun i hi => ?_)
      · simp [Instr.op] at hi; simp [kA, hi]
      · simp only [Instr.op, Option.some.injEq] at hi; subst hi
        have q := Q j; have p := P j
        simp [kA, kC, kX] at q
        simp only [left]; simp; omega
  | tryCancel j l =>
    simp only [exec] at he
    split at he
    · simp at he
    rename_i d' rr es _
    simp only [Out.ok.injEq] at he
    obtain ⟨rfl, rfl⟩ := he
    refine go (fun i hi => ?_) (fun i hi => ?_)
    · simp [Instr.op] at hi; simp [kA, hi]
    · simp only [Instr.op, Option.some.injEq] at hi; subst hi
      have q := Q j; have p := P j; have bb := B j
      have c0 : (s.bits j).canc = false := by
        cases hh : (s.bits j).canc with
        | false => rfl
        | true =>
          exfalso
          have := (hC.op j).e3
          have a2 := (hC.op j).a2
          have t1 := ws_pos (w := W.tryL j) hk
          have t2 := ws_pos (w := W.tryC j) hk
          simp only [view, hh, W.tryL, W.tryC, if_true, Bool.toNat_true] at this a2 t1 t2
          cases l <;> simp at t1 t2 <;> omega
      simp [kA, kC, kX] at q bb
      simp only [left, c0]
      cases l <;> cases rr <;> simp at q bb ⊢ <;> omega
  | transition j nb =>
    simp only [exec] at he
    split at he
    · simp at he
    rename_i hm
    have hne := (hC.gl.g7 j nb (pending_top hk)).2
    have key : ∀ p', wl (kA j) p' ≤ 3 → wl (kC j) p' = 0 → wl (kX j) p' = 0 →
        (∀ i, i ≠ j → wl (kA i) p' = 0) → p = p' → s' = { s with bits := upd s.bits j ((s.bits j).or nb) } →
        (∀ i, left s' (acts.set k (p ++ r)) i ≤ left s acts i) ∧
        (∀ i, (Instr.transition (S := S) j nb).op = some i →
          left s' (acts.set k (p ++ r)) i < left s acts i) := by
      intro p' w1 w2 w3 w4 e1 e2
      subst e1; subst e2
      refine go (fun i hi => ?_) (fun i hi => ?_)
      · simp [Instr.op] at hi
        exact ⟨w4 i (fun e => hi e.symm), by simp [upd, Ne.symm hi]⟩
      · simp only [Instr.op, Option.some.injEq] at hi; subst hi
        have q := Q j; have p := P j; have bb := B j
        simp only [kA, kC, kX, if_true] at q bb
        have bs : ((upd s.bits j ((s.bits j).or nb)) j) = (s.bits j).or nb := by simp
        simp only [left, bs]
        revert hm hne q p bb
        rcases s.bits j with ⟨_ | _, _ | _, _ | _⟩ <;> rcases nb with ⟨_ | _, _ | _, _ | _⟩ <;>
          simp [Bits.or, Bits.meets] <;> omega
    split at he
    · simp only [Out.ok.injEq] at he
      exact key [] (by simp) rfl rfl (by simp) he.2.symm he.1.symm
    split at he
    · simp only [Out.ok.injEq] at he
      exact key [.unregister j] (by simp [kA]) rfl rfl (by intro i hi; simp [kA, Ne.symm hi])
        he.2.symm he.1.symm
    · simp only [Out.ok.injEq] at he
      exact key [.resume j] (by simp [kA]) rfl rfl (by intro i hi; simp [kA, Ne.symm hi])
        he.2.symm he.1.symm
  | unregister j =>
    simp only [exec] at he
    split at he
    · simp at he
    split at he
    · simp only [Out.ok.injEq] at he
      obtain ⟨rfl, rfl⟩ := he
      refine go (fun i hi => by simp) (fun i hi => ?_)
      simp only [Instr.op, Option.some.injEq] at hi; subst hi
      have q := Q j; have p := P j
      simp [kA, kC, kX] at q
      simp only [left]; simp; omega
    split at he
    · simp only [Out.ok.injEq] at he
      obtain ⟨rfl, rfl⟩ := he
      refine go (fun i hi => ?_) (fun i hi => ?_)
      · simp [Instr.op] at hi; simp [kA, hi]
      · simp only [Instr.op, Option.some.injEq] at hi; subst hi
        have q := Q j; have p := P j
        simp [kA, kC, kX] at q
        simp only [left]; simp; omega
    · simp at he
  | resume j =>
    simp only [exec, Out.ok.injEq] at he
    obtain ⟨rfl, rfl⟩ := he
    refine go (fun i hi => by simp) (fun i hi => ?_)
    simp only [Instr.op, Option.some.injEq] at hi; subst hi
    have q := Q j; have p := P j
    simp [kA, kC, kX] at q
    simp only [left]; simp; omega
  | complete j =>
    simp only [exec, Out.ok.injEq] at he
    obtain ⟨rfl, rfl⟩ := he
    refine go (fun i hi => ?_) (fun i hi => ?_)
    · simp [Instr.op] at hi; simp [kA, hi]
    · simp only [Instr.op, Option.some.injEq] at hi; subst hi
      have q := Q j; have p := P j; have bb := B j
      simp [kA, kC, kX] at q bb
      simp only [left]
      cases hh : (s.bits j).compl <;> simp [hh] at p ⊢ <;> omega
  | cancel e =>
    simp only [exec, Out.ok.injEq] at he
    obtain ⟨rfl, rfl⟩ := he
    refine go (fun i _ => ⟨?_, rfl⟩) (fun i hi => by simp [Instr.op] at hi)
    apply wl_zero
    intro x hx
    obtain ⟨j, _, rfl⟩ := List.mem_map.1 hx
    simp [kA]
  | ds x =>
    simp only [exec] at he
    split at he
    · simp at he
    simp only [Out.ok.injEq] at he
    obtain ⟨rfl, rfl⟩ := he
    refine go (fun i _ => ⟨?_, rfl⟩) (fun i hi => by simp [Instr.op] at hi)
    apply wl_zero
    intro x hx
    obtain ⟨j, _, rfl⟩ := List.mem_map.1 hx
    cases j <;> simp [kA, follow]

/-- The history after one instruction has no further beginnings. -/
theorem begun_step {s s' : RSt S} {x : Instr S} {p : List (Instr S)} {b : Bool}
    (he : exec s x b = .ok s' p) : begun s'.log = begun s.log := by
  have e1 : ∀ v, begun ([v] : List (Ev S)) = [] → begun (s.log ++ [v]) = begun s.log := by
    intro v hv; rw [begun_append, hv, List.append_nil]
  have e2 : ∀ es : List S.E, begun (s.log ++ es.map (Ev.ds (S := S))) = begun s.log := by
    intro es; rw [begun_append, begun_ds, List.append_nil]
  cases x <;> simp only [exec] at he
  case start => split at he <;> simp at he <;> rw [← he.1] <;> exact e2 _
  case setFast => simp at he; rw [← he.1]; exact e1 _ rfl
  case listen => split at he <;> simp at he <;> rw [← he.1]
  case register => split at he <;> try split at he
                   all_goals simp at he <;> rw [← he.1]
  case tryCancel => split at he <;> simp at he <;> rw [← he.1] <;> exact e2 _
  case transition =>
    split at he
    · simp at he
    split at he
    · simp at he; rw [← he.1]
    split at he <;> simp at he <;> rw [← he.1]
  case unregister =>
    split at he
    · simp at he
    split at he
    · simp at he; rw [← he.1]
    split at he <;> simp at he <;> rw [← he.1]
  case resume => simp at he; rw [← he.1]; exact e1 _ rfl
  case complete => simp at he; rw [← he.1]
  case cancel => simp at he; rw [← he.1]; exact e1 _ rfl
  case ds => split at he <;> simp at he <;> rw [← he.1] <;> exact e2 _

/-- The data structure does not get more work from the instructions of resolvers. -/
theorem others {d0 : S.D} {L : Lawful S d0} (C : Costs L) {s s' : RSt S} {x : Instr S}
    {p : List (Instr S)} {b : Bool} {ph : OpId → Phase S.V} {pi : List S.I}
    (hI : L.Inv s.d ph s.log pi) (hx : dsl [x] = []) (he : exec s x b = .ok s' p) :
    C.μ s'.d pi ≤ C.μ s.d pi ∧ dsl p = [] := by
  cases x <;> simp only [exec] at he
  case start =>
    split at he <;> simp at he <;> obtain ⟨rfl, rfl⟩ := he <;> rename_i h <;>
      exact ⟨C.start hI h, rfl⟩
  case setFast => simp at he; obtain ⟨rfl, rfl⟩ := he; exact ⟨C.fin _ hI, rfl⟩
  case listen => split at he <;> simp at he <;> obtain ⟨rfl, rfl⟩ := he <;> exact ⟨Nat.le_refl _, rfl⟩
  case register =>
    split at he
    · simp at he
    split at he <;> simp at he <;> obtain ⟨rfl, rfl⟩ := he <;> exact ⟨Nat.le_refl _, rfl⟩
  case tryCancel =>
    split at he <;> simp at he; obtain ⟨rfl, rfl⟩ := he; rename_i h; exact ⟨C.tryCancel hI h, rfl⟩
  case transition =>
    split at he
    · simp at he
    split at he
    · simp at he; obtain ⟨rfl, rfl⟩ := he; exact ⟨Nat.le_refl _, rfl⟩
    split at he <;> simp at he <;> obtain ⟨rfl, rfl⟩ := he <;> exact ⟨Nat.le_refl _, rfl⟩
  case unregister =>
    split at he
    · simp at he
    split at he
    · simp at he; obtain ⟨rfl, rfl⟩ := he; exact ⟨Nat.le_refl _, rfl⟩
    split at he <;> simp at he <;> obtain ⟨rfl, rfl⟩ := he <;> exact ⟨Nat.le_refl _, rfl⟩
  case resume => simp at he; obtain ⟨rfl, rfl⟩ := he; exact ⟨C.fin _ hI, rfl⟩
  case complete => simp at he; obtain ⟨rfl, rfl⟩ := he; exact ⟨Nat.le_refl _, rfl⟩
  case cancel e =>
    simp at he; obtain ⟨rfl, rfl⟩ := he
    refine ⟨Nat.le_refl _, ?_⟩
    induction s.cbs e with
    | nil => rfl
    | cons i l ih => simpa [dsl] using ih
  case ds => simp [dsl] at hx

theorem kE_push {s s' : RSt S} {x : Instr S} {p : List (Instr S)} {b : Bool}
    (he : exec s x b = .ok s' p) : wl kE p = 0 := by
  cases x <;> simp only [exec] at he
  case cancel e =>
    simp at he; obtain ⟨rfl, rfl⟩ := he
    apply wl_zero; intro x hx; obtain ⟨j, _, rfl⟩ := List.mem_map.1 hx; rfl
  case ds =>
    split at he <;> simp at he; obtain ⟨rfl, rfl⟩ := he
    apply wl_zero; intro x hx; obtain ⟨j, _, rfl⟩ := List.mem_map.1 hx; cases j <;> rfl
  case transition =>
    split at he
    · simp at he
    split at he
    · simp at he; obtain ⟨rfl, rfl⟩ := he; rfl
    split at he <;> simp at he <;> obtain ⟨rfl, rfl⟩ := he <;> rfl
  case unregister =>
    split at he
    · simp at he
    split at he
    · simp at he; obtain ⟨rfl, rfl⟩ := he; rfl
    split at he <;> simp at he <;> obtain ⟨rfl, rfl⟩ := he <;> rfl
  case register =>
    split at he
    · simp at he
    split at he <;> simp at he <;> obtain ⟨rfl, rfl⟩ := he <;> rfl
  all_goals first
    | (simp at he; obtain ⟨rfl, rfl⟩ := he; rfl)
    | (split at he <;> simp at he <;> obtain ⟨rfl, rfl⟩ := he <;> rfl)

/-- Every instruction makes the measure smaller. -/
theorem total_step {d0 : S.D} {L : Lawful S d0} (C : Costs L) {s s' : RSt S}
    {acts : List (List (Instr S))} {k : Nat} {x : Instr S} {r p : List (Instr S)} {b : Bool}
    (h : RInv L s acts) (hk : acts[k]? = some (x :: r)) (he : exec s x b = .ok s' p) :
    C.total s' (acts.set k (p ++ r)) + 1 ≤ C.total s acts := by
  have h1 := left_step h hk he
  have h2 := begun_step he
  have h3 := ws_set kE p hk
  have h4 := kE_push he
  obtain ⟨rest, r1, r2⟩ := dsPend_set p hk
  obtain ⟨ph, hI, hC⟩ := h
  simp only [Costs.total, h2]
  rw [C.perm r1, C.perm r2]
  have s0 := sum_le (l := begun s.log) h1.1
  by_cases hx : dsl [x] = []
  · rw [hx] at r1 ⊢
    have h5 := others C (L.perm hI r1) hx he
    rw [h5.2]
    cases ho : x.op with
    | some j =>
      have hs := hC.op_started (pending_top hk) ho
      obtain ⟨pp, hb⟩ := hC.gl.g4 j hs
      have s1 := sum_lt (l := begun s.log) h1.1 (mem_begun hb) (h1.2 j ho)
      have : kE x = 0 := by cases x <;> simp_all [Instr.op, kE]
      have h6 := h5.1
      simp only [List.nil_append] at h6 ⊢
      omega
    | none =>
      have : kE x = 1 := by cases x <;> simp_all [Instr.op, kE, dsl]
      have h6 := h5.1
      simp only [List.nil_append] at h6 ⊢
      omega
  · cases x <;> simp [dsl] at hx
    rename_i y
    have h6 : kE (S := S) (.ds y) = 0 := rfl
    simp only [exec] at he
    split at he
    · simp at he
    rename_i d' ps es hd
    simp only [Out.ok.injEq] at he
    obtain ⟨rfl, rfl⟩ := he
    have h5 := C.exec (pi := rest) (L.perm hI r1) hd
    rw [dsl_follow]
    simp only [dsl, List.singleton_append]
    omega

/-- The running calls execute at most as many instructions as the measure says, however they are
scheduled, and can be run until all have returned. -/
theorem terminates {d0 : S.D} {L : Lawful S d0} (C : Costs L) {c : Conf (mach S)}
    (hc : Reach (mach S) (RSt.init d0) c) :
    Steps c (C.total c.sh c.acts) ∧ CanFinish c := by
  have hf : ∀ c : Conf (mach S), Reach (mach S) (RSt.init d0) c → c.bad = false :=
    fun c h => bad_false L h
  have hb : ∀ c : Conf (mach S), Reach (mach S) (RSt.init d0) c →
      Steps c (C.total c.sh c.acts) := fun c h =>
    steps_of (M := mach S) (P := RInv L) C.total (fun _ h => (reach_inv L h)) hf
      (fun s acts k x r b s' p h hk he => total_step C h hk he) h
  refine ⟨hb c hc, canFinish_of hf ?_ (fun c h => ⟨_, (hb c h).bounded⟩) hc⟩
  intro c h hq
  obtain ⟨k, x, r, hk⟩ := exists_top hq
  refine ⟨k, fun b => ?_⟩
  obtain ⟨c', h1, _⟩ := can_run L h hk b
  exact ⟨c', h1⟩

/-! ## A bound that can be read off the configuration -/

/-- The event is the start of an operation. -/
def isBegin : Ev S → Bool
  | .begin _ _ _ => true
  | _ => false

/-- Number of operations started so far. -/
def starts (log : List (Ev S)) : Nat := log.countP isBegin

/-- Number of pending instructions. -/
def running (acts : List (List (Instr S))) : Nat := acts.flatten.length

theorem begun_length (log : List (Ev S)) : (begun log).length = starts log := by
  induction log with
  | nil => rfl
  | cons v l ih => cases v <;> simp_all [begun, starts, isBegin, List.countP_cons]

theorem kA_eq (i : OpId) (acts : List (List (Instr S))) :
    ws (kA i) acts = 30 * ws (W.sta i) acts + ws (W.fas i) acts + 25 * ws (W.lis i) acts +
      20 * ws (W.reg i) acts + 15 * ws (W.tryL i) acts + 10 * ws (W.trL i) acts +
      3 * ws (W.un i) acts + ws (W.res i) acts := by
  have h0 : ∀ x : Instr S, kA i x = 30 * W.sta i x + W.fas i x + 25 * W.lis i x +
      20 * W.reg i x + 15 * W.tryL i x + 10 * W.trL i x + 3 * W.un i x + W.res i x := by
    intro x
    cases x <;> simp only [kA, W.sta, W.fas, W.lis, W.reg, W.tryL, W.trL, W.un, W.res] <;>
      (try split) <;> omega
  have hl : ∀ l : List (Instr S), wl (kA i) l = 30 * wl (W.sta i) l + wl (W.fas i) l +
      25 * wl (W.lis i) l + 20 * wl (W.reg i) l + 15 * wl (W.tryL i) l + 10 * wl (W.trL i) l +
      3 * wl (W.un i) l + wl (W.res i) l := by
    intro l
    induction l with
    | nil => rfl
    | cons x l ih => simp only [wl_cons]; have := h0 x; omega
  induction acts with
  | nil => rfl
  | cons a acts ih => simp only [ws_cons]; have := hl a; omega

theorem left_le {s : RSt S} {acts : List (List (Instr S))} {ph : OpId → Phase S.V}
    (hC : Core s acts ph) (i : OpId) : left s acts i ≤ 54 := by
  obtain ⟨b0, a0, a1, a2, a3, e1, e2, e3, e3a, e3b, e4, e4a, e4b, e6, e7, e7a, e8, e9, e10, e11, e13, e14, e15, d1⟩ := hC.op i
  have := kA_eq i acts
  simp only [left]
  have r1 : (view s acts ph i).res ≤ 1 := by
    clear * - a2 e3a e3b e4a e4b e4 b0 e3 e1 e2 e7
    omega
  have key : ws (kA i) acts ≤ 30 := by
    rw [this]
    clear * - b0 a0 a1 a2 a3 e1 r1 e4b
    simp only [view] at *
    omega
  omega

theorem wl_le_length {w : Instr S → Nat} {m : Nat} (h : ∀ x, w x ≤ m) (l : List (Instr S)) :
    wl w l ≤ m * l.length := by
  induction l with
  | nil => simp
  | cons x l ih =>
    simp only [wl_cons, List.length_cons, Nat.mul_add]; have := h x; omega

theorem sum_bound {l : List OpId} {f : OpId → Nat} {m : Nat} (h : ∀ i, f i ≤ m) :
    (l.map f).sum ≤ m * l.length := by
  induction l with
  | nil => simp
  | cons i l ih =>
    simp only [List.map_cons, List.sum_cons, List.length_cons, Nat.mul_add]; have := h i; omega

/-- Pending calls of `cancel()` and pending instructions of the data structure. -/
theorem kinds (acts : List (List (Instr S))) : ws kE acts + (dsPend acts).length ≤ running acts := by
  have hl : ∀ l : List (Instr S), wl kE l + (dsl l).length ≤ l.length := by
    intro l
    induction l with
    | nil => simp [dsl]
    | cons x l ih => cases x <;> simp [dsl, kE] <;> omega
  induction acts with
  | nil => simp [dsPend, running]
  | cons a acts ih =>
    have := hl a
    simp [dsPend, running] at ih ⊢
    omega

/-- `terminates` with a bound in terms of the number of operations started so far. -/
theorem terminates_bound {d0 : S.D} {L : Lawful S d0} (C : Costs L) {c : Conf (mach S)}
    (hc : Reach (mach S) (RSt.init d0) c) {m : Nat}
    (hm : ws kE c.acts + C.μ c.sh.d (dsPend c.acts) ≤ m) :
    Steps c (54 * starts c.sh.log + m) ∧ CanFinish c := by
  obtain ⟨h1, h2⟩ := terminates C hc
  refine ⟨h1.mono ?_, h2⟩
  obtain ⟨ph, _, hC⟩ := reach_inv L hc
  have := sum_bound (l := begun c.sh.log) (left_le hC)
  rw [begun_length] at this
  simp only [Costs.total]
  omega

/-! ## Running calls do not take anything back -/

theorem exec_keeps {s s' : RSt S} {x : Instr S} {p : List (Instr S)} {b : Bool}
    (he : exec s x b = .ok s' p) :
    (∀ v, v ∈ s.log → v ∈ s'.log) ∧ ∀ e, s.req e = true → s'.req e = true := by
  cases x <;> simp only [exec] at he
  case transition =>
    split at he
    · simp at he
    split at he
    · simp at he; obtain ⟨rfl, rfl⟩ := he; exact ⟨fun _ h => h, fun _ h => h⟩
    split at he <;> simp at he <;> obtain ⟨rfl, rfl⟩ := he <;> exact ⟨fun _ h => h, fun _ h => h⟩
  case unregister =>
    split at he
    · simp at he
    split at he
    · simp at he; obtain ⟨rfl, rfl⟩ := he; exact ⟨fun _ h => h, fun _ h => h⟩
    split at he <;> simp at he <;> obtain ⟨rfl, rfl⟩ := he <;> exact ⟨fun _ h => h, fun _ h => h⟩
  case register =>
    split at he
    · simp at he
    split at he <;> simp at he <;> obtain ⟨rfl, rfl⟩ := he <;> exact ⟨fun _ h => h, fun _ h => h⟩
  case cancel e =>
    simp at he; obtain ⟨rfl, rfl⟩ := he
    refine ⟨fun v h => by simp [h], fun e' h => ?_⟩
    simp only [upd]; split
    · rfl
    · exact h
  all_goals first
    | (simp at he; obtain ⟨rfl, rfl⟩ := he
       exact ⟨fun v h => by simp [h], fun _ h => h⟩)
    | (split at he <;> simp at he <;> obtain ⟨rfl, rfl⟩ := he <;>
       exact ⟨fun v h => by simp [h], fun _ h => h⟩)

theorem runActs_keeps {c c' : Conf (mach S)} {ls : List (Nat × Bool)}
    (h : (mach S).runActs c ls = some c') :
    (∀ v, v ∈ c.sh.log → v ∈ c'.sh.log) ∧ ∀ e, c.sh.req e = true → c'.sh.req e = true := by
  induction ls generalizing c with
  | nil => simp [Mach.runActs, Mach.runs] at h; subst h; exact ⟨fun _ h => h, fun _ h => h⟩
  | cons l ls ih =>
    simp only [Mach.runActs, List.map_cons, Mach.runs] at h
    split at h
    · rename_i c1 hs
      obtain ⟨h1, h2⟩ := ih h
      have : (∀ v, v ∈ c.sh.log → v ∈ c1.sh.log) ∧ ∀ e, c.sh.req e = true → c1.sh.req e = true := by
        simp only [Mach.step] at hs
        split at hs
        · simp at hs
        split at hs
        · split at hs
          · rename_i s' p he
            simp at hs; subst hs
            exact exec_keeps he
          · simp at hs
          · simp at hs; subst hs; exact ⟨fun _ h => h, fun _ h => h⟩
        · simp at hs
      exact ⟨fun v hv => h1 v (this.1 v hv), fun e he => h2 e (this.2 e he)⟩
    · simp at h

theorem runActs_reach {M : Mach} {s0 : M.σ} {c c' : Conf M} {ls : List (Nat × Bool)}
    (hc : Reach M s0 c) (h : M.runActs c ls = some c') : Reach M s0 c' := by
  induction ls generalizing c with
  | nil => simp [Mach.runActs, Mach.runs] at h; subst h; exact hc
  | cons l ls ih =>
    simp only [Mach.runActs, List.map_cons, Mach.runs] at h
    split at h
    · rename_i c1 hs; exact ih (.step hc hs) h
    · simp at h

end Verif.Resolver
