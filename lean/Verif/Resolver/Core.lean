import Verif.Resolver.View

/-!
# Core invariant of the resolver machine
-/

namespace Verif.Resolver

variable {S : DS}

namespace W

def sta (i : OpId) : Instr S → Nat | .start j => if j = i then 1 else 0 | _ => 0
def fas (i : OpId) : Instr S → Nat | .setFast j _ => if j = i then 1 else 0 | _ => 0
def lis (i : OpId) : Instr S → Nat | .listen j => if j = i then 1 else 0 | _ => 0
def reg (i : OpId) : Instr S → Nat | .register j => if j = i then 1 else 0 | _ => 0
def tryL (i : OpId) : Instr S → Nat
  | .tryCancel j b => if j = i then b.toNat else 0 | _ => 0
def tryC (i : OpId) : Instr S → Nat
  | .tryCancel j b => if j = i then (!b).toNat else 0 | _ => 0
def trL (i : OpId) : Instr S → Nat
  | .transition j b => if j = i then b.listen.toNat else 0 | _ => 0
def trC (i : OpId) : Instr S → Nat
  | .transition j b => if j = i then b.compl.toNat else 0 | _ => 0
def trX (i : OpId) : Instr S → Nat
  | .transition j b => if j = i then b.canc.toNat else 0 | _ => 0
def un (i : OpId) : Instr S → Nat | .unregister j => if j = i then 1 else 0 | _ => 0
def res (i : OpId) : Instr S → Nat | .resume j => if j = i then 1 else 0 | _ => 0
def co (i : OpId) : Instr S → Nat | .complete j => if j = i then 1 else 0 | _ => 0

end W

/-- Numbering of the phases. -/
def Phase.code {V : Type} : Phase V → Nat
  | .new => 0 | .fast _ => 1 | .finFast => 2 | .waiting => 3 | .taken => 4 | .gone => 5 | .fin => 6

/-- Number of registrations with the event of the operation. -/
def inC (s : RSt S) (i : OpId) : Nat :=
  match s.ct i with
  | none => 0
  | some e => (s.cbs e).count i

/-- Whether the event of the operation is cancelled. -/
def reqd (s : RSt S) (i : OpId) : Nat :=
  match s.ct i with
  | none => 0
  | some e => (s.req e).toNat

/-- Number of completions in a history. -/
def doneCnt (i : OpId) (log : List (Ev S)) : Nat := log.countP (isDone i)

/-- The numbers of operation `i`. -/
def view (s : RSt S) (acts : List (List (Instr S))) (ph : OpId → Phase S.V) (i : OpId) : View where
  sta := ws (W.sta i) acts
  fas := ws (W.fas i) acts
  lis := ws (W.lis i) acts
  reg := ws (W.reg i) acts
  tryL := ws (W.tryL i) acts
  tryC := ws (W.tryC i) acts
  trL := ws (W.trL i) acts
  trC := ws (W.trC i) acts
  trX := ws (W.trX i) acts
  un := ws (W.un i) acts
  res := ws (W.res i) acts
  co := ws (W.co i) acts
  l := (s.bits i).listen.toNat
  c := (s.bits i).compl.toNat
  x := (s.bits i).canc.toNat
  inC := inC s i
  ph := (ph i).code
  started := (s.started i).toNat
  hasEv := (s.ct i).isSome.toNat
  reqd := reqd s i
  evtOk := (s.evt i == s.ct i).toNat
  done := doneCnt i s.log

/-- Facts that are not about a single operation. -/
structure Glob (s : RSt S) (acts : List (List (Instr S))) (ph : OpId → Phase S.V) : Prop where
  g2 : ∀ e, s.req e = true → Ev.cancel e ∈ s.log
  g3 : ∀ e i, i ∈ s.cbs e → s.ct i = some e
  g4 : ∀ i, s.started i = true → ∃ p, Ev.begin i (s.ct i) p ∈ s.log
  g5 : ∀ i, s.started i = false → ∀ ct p, Ev.begin i ct p ∉ s.log
  g6 : ∀ i v, Pending acts (.setFast i v) → ph i = .fast v
  g7 : ∀ i b, Pending acts (.transition i b) → (s.ct i = none → b.listen = b.canc) ∧ b ≠ {}
  g8 : ∀ i b, Pending acts (.tryCancel i b) → ∃ e, s.ct i = some e ∧ Ev.cancel e ∈ s.log

/-- Core invariant. -/
structure Core (s : RSt S) (acts : List (List (Instr S))) (ph : OpId → Phase S.V) : Prop where
  op : ∀ i, OK (view s acts ph i)
  gl : Glob s acts ph

/-- What pushed instructions have to satisfy. -/
def pushOk (s : RSt S) (ph : OpId → Phase S.V) : Instr S → Prop
  | .setFast i v => ph i = .fast v
  | .transition i b => (s.ct i = none → b.listen = b.canc) ∧ b ≠ {}
  | .tryCancel i _ => ∃ e, s.ct i = some e ∧ Ev.cancel e ∈ s.log
  | _ => True

theorem Glob.run {s s' : RSt S} {acts : List (List (Instr S))} {ph ph' : OpId → Phase S.V}
    {k : Nat} {x : Instr S} {r p : List (Instr S)} (h : Glob s acts ph)
    (hk : acts[k]? = some (x :: r))
    (hreq : ∀ e, s'.req e = true → s.req e = true ∨ Ev.cancel e ∈ s'.log)
    (hct : s'.ct = s.ct) (hst : s'.started = s.started)
    (hlog : ∀ v, v ∈ s.log → v ∈ s'.log)
    (hbeg : ∀ i ct p, Ev.begin i ct p ∈ s'.log → Ev.begin i ct p ∈ s.log)
    (hcbs : ∀ e i, i ∈ s'.cbs e → i ∈ s.cbs e ∨ s.ct i = some e)
    (hph : ∀ i v, Pending (acts.set k (p ++ r)) (.setFast i v) → ph i = .fast v → ph' i = .fast v)
    (hp : ∀ y ∈ p, pushOk s' ph' y) : Glob s' (acts.set k (p ++ r)) ph' where
  g2 e he := by
    rcases hreq e he with h1 | h1
    · exact hlog _ (h.g2 e h1)
    · exact h1
  g3 e i hi := by
    rw [hct]
    rcases hcbs e i hi with h1 | h1
    · exact h.g3 e i h1
    · exact h1
  g4 i hi := by
    rw [hst] at hi; rw [hct]
    obtain ⟨p, hp⟩ := h.g4 i hi
    exact ⟨p, hlog _ hp⟩
  g5 i hi ct p hm := by
    rw [hst] at hi
    exact h.g5 i hi ct p (hbeg _ _ _ hm)
  g6 i v hy := by
    rcases pending_set hk hy with h1 | h1
    · exact hp _ h1
    · exact hph i v hy (h.g6 i v h1)
  g7 i b hy := by
    rcases pending_set hk hy with h1 | h1
    · exact hp _ h1
    · rw [hct]; exact h.g7 i b h1
  g8 i b hy := by
    rcases pending_set hk hy with h1 | h1
    · exact hp _ h1
    · rw [hct]
      obtain ⟨e, h2, h3⟩ := h.g8 i b h1
      exact ⟨e, h2, hlog _ h3⟩

/-- Pending instructions of the data structure in a list. -/
def dsl : List (Instr S) → List S.I
  | [] => []
  | .ds y :: l => y :: dsl l
  | _ :: l => dsl l

/-- Pending instructions of the data structure. -/
def dsPend (acts : List (List (Instr S))) : List S.I := (acts.map dsl).flatten

/-- The full invariant. -/
def RInv {d0 : S.D} (L : Lawful S d0) (s : RSt S) (acts : List (List (Instr S))) : Prop :=
  ∃ ph, L.Inv s.d ph s.log (dsPend acts) ∧ Core s acts ph

/-! ## Frame lemmas -/

/-- `x` does not concern operation `i`. -/
def off (i : OpId) (x : Instr S) : Prop := x.op ≠ some i

theorem W.off {i : OpId} {x : Instr S} (h : off i x) :
    W.sta i x = 0 ∧ W.fas i x = 0 ∧ W.lis i x = 0 ∧ W.reg i x = 0 ∧ W.tryL i x = 0 ∧
    W.tryC i x = 0 ∧ W.trL i x = 0 ∧ W.trC i x = 0 ∧ W.trX i x = 0 ∧ W.un i x = 0 ∧
    W.res i x = 0 ∧ W.co i x = 0 := by
  cases x <;> simp_all [Resolver.off, Instr.op, W.sta, W.fas, W.lis, W.reg, W.tryL, W.tryC, W.trL,
    W.trC, W.trX, W.un, W.res, W.co]

theorem W.offl {i : OpId} {p : List (Instr S)} (h : ∀ x ∈ p, Resolver.off i x) :
    wl (W.sta i) p = 0 ∧ wl (W.fas i) p = 0 ∧ wl (W.lis i) p = 0 ∧ wl (W.reg i) p = 0 ∧
    wl (W.tryL i) p = 0 ∧ wl (W.tryC i) p = 0 ∧ wl (W.trL i) p = 0 ∧ wl (W.trC i) p = 0 ∧
    wl (W.trX i) p = 0 ∧ wl (W.un i) p = 0 ∧ wl (W.res i) p = 0 ∧ wl (W.co i) p = 0 := by
  refine ⟨?_, ?_, ?_, ?_, ?_, ?_, ?_, ?_, ?_, ?_, ?_, ?_⟩ <;> apply wl_zero <;> intro x hx <;>
    have := W.off (h x hx) <;> simp_all

/-- The part of the view that counts pending instructions is unchanged. -/
def samePool (i : OpId) (acts acts' : List (List (Instr S))) : Prop :=
  ws (W.sta i) acts' = ws (W.sta i) acts ∧ ws (W.fas i) acts' = ws (W.fas i) acts ∧
  ws (W.lis i) acts' = ws (W.lis i) acts ∧ ws (W.reg i) acts' = ws (W.reg i) acts ∧
  ws (W.tryL i) acts' = ws (W.tryL i) acts ∧ ws (W.tryC i) acts' = ws (W.tryC i) acts ∧
  ws (W.trL i) acts' = ws (W.trL i) acts ∧ ws (W.trC i) acts' = ws (W.trC i) acts ∧
  ws (W.trX i) acts' = ws (W.trX i) acts ∧ ws (W.un i) acts' = ws (W.un i) acts ∧
  ws (W.res i) acts' = ws (W.res i) acts ∧ ws (W.co i) acts' = ws (W.co i) acts

theorem samePool_set {acts : List (List (Instr S))} {k : Nat} {x : Instr S} {r p : List (Instr S)}
    {i : OpId} (hk : acts[k]? = some (x :: r)) (hx : off i x) (hp : ∀ y ∈ p, off i y) :
    samePool i acts (acts.set k (p ++ r)) := by
  have h1 := W.off hx
  have h2 := W.offl hp
  have Q := fun w => ws_set w p hk
  have q1 := Q (W.sta i); have q2 := Q (W.fas i); have q3 := Q (W.lis i); have q4 := Q (W.reg i)
  have q5 := Q (W.tryL i); have q6 := Q (W.tryC i); have q7 := Q (W.trL i); have q8 := Q (W.trC i)
  have q9 := Q (W.trX i); have q10 := Q (W.un i); have q11 := Q (W.res i); have q12 := Q (W.co i)
  unfold samePool
  omega

theorem samePool_append {acts : List (List (Instr S))} {p : List (Instr S)}
    {i : OpId} (hp : ∀ y ∈ p, off i y) : samePool i acts (acts ++ [p]) := by
  have h2 := W.offl hp
  unfold samePool
  simp only [ws_append, ws_cons, ws_nil]
  omega

/-- The view of an operation that is not involved in a step. -/
theorem view_frame {s s' : RSt S} {acts acts' : List (List (Instr S))} {ph ph' : OpId → Phase S.V}
    {i : OpId} (q : samePool i acts acts')
    (hb : s'.bits i = s.bits i) (he : s'.evt i = s.evt i) (hc : s'.ct i = s.ct i)
    (hs : s'.started i = s.started i) (hi : inC s' i = inC s i) (hr : reqd s' i = reqd s i)
    (hp : ph' i = ph i) (hd : doneCnt i s'.log = doneCnt i s.log) :
    view s' acts' ph' i = view s acts ph i := by
  obtain ⟨q1, q2, q3, q4, q5, q6, q7, q8, q9, q10, q11, q12⟩ := q
  simp only [view, q1, q2, q3, q4, q5, q6, q7, q8, q9, q10, q11, q12, hb, he, hc, hs, hi, hr, hp, hd]

theorem doneCnt_append (i : OpId) (l l' : List (Ev S)) :
    doneCnt i (l ++ l') = doneCnt i l + doneCnt i l' := by simp [doneCnt]

@[simp] theorem doneCnt_ds (i : OpId) (es : List S.E) :
    doneCnt i (es.map (Ev.ds (S := S))) = 0 := by
  simp [doneCnt, List.countP_map, Function.comp_def, isDone]

@[simp] theorem doneCnt_done (i j : OpId) (v : S.V) :
    doneCnt (S := S) i [.done j v] = if j = i then 1 else 0 := by
  simp [doneCnt, isDone, List.countP_cons]

@[simp] theorem doneCnt_cancel (i : OpId) (e : EvId) : doneCnt (S := S) i [.cancel e] = 0 := by
  simp [doneCnt, isDone]
@[simp] theorem doneCnt_reset (i : OpId) (e : EvId) : doneCnt (S := S) i [.reset e] = 0 := by
  simp [doneCnt, isDone]
@[simp] theorem doneCnt_begin (i j : OpId) (ct : Option EvId) (p : S.P) :
    doneCnt (S := S) i [.begin j ct p] = 0 := by simp [doneCnt, isDone]

/-! ## Pending instructions of the data structure -/

@[simp] theorem dsl_append (a b : List (Instr S)) : dsl (a ++ b) = dsl a ++ dsl b := by
  induction a with
  | nil => rfl
  | cons x a ih => cases x <;> simp [dsl, ih]

theorem dsPend_set {acts : List (List (Instr S))} {k : Nat} {x : Instr S} {r : List (Instr S)}
    (p : List (Instr S)) (hk : acts[k]? = some (x :: r)) :
    ∃ rest, (dsPend acts).Perm (dsl [x] ++ rest) ∧
      (dsPend (acts.set k (p ++ r))).Perm (dsl p ++ rest) := by
  induction acts generalizing k with
  | nil => simp at hk
  | cons a acts ih =>
    cases k with
    | zero =>
      simp at hk; subst hk
      refine ⟨dsl r ++ dsPend acts, ?_, ?_⟩
      · have : dsl (x :: r) = dsl [x] ++ dsl r := by
          rw [← dsl_append]; rfl
        simp [dsPend, this]
      · simp [dsPend]
    | succ k =>
      simp at hk
      obtain ⟨rest, h1, h2⟩ := ih hk
      refine ⟨dsl a ++ rest, ?_, ?_⟩
      · have : dsPend (a :: acts) = dsl a ++ dsPend acts := by simp [dsPend]
        rw [this]
        exact (List.Perm.append_left _ h1).trans (by
          rw [← List.append_assoc, ← List.append_assoc]
          exact List.Perm.append_right _ List.perm_append_comm)
      · have : dsPend ((a :: acts).set (k + 1) (p ++ r)) = dsl a ++ dsPend (acts.set k (p ++ r)) := by
          simp [dsPend]
        rw [this]
        exact (List.Perm.append_left _ h2).trans (by
          rw [← List.append_assoc, ← List.append_assoc]
          exact List.Perm.append_right _ List.perm_append_comm)

theorem dsPend_append (acts : List (List (Instr S))) (p : List (Instr S)) :
    (dsPend (acts ++ [p])).Perm (dsl p ++ dsPend acts) := by
  simp [dsPend]
  exact List.perm_append_comm

end Verif.Resolver
