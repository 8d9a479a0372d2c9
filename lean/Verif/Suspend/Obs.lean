import Verif.Suspend.Proof

/-! # Invariants of `suspend_indefinitely`: the observers -/

namespace Verif.Suspend

def madeF : Ev → List Obs
  | .start i t => mkObs i t
  | _ => []

/-- All observers of started operations. -/
def made (log : List Ev) : List Obs := log.flatMap madeF

def goneF : Ev → List Obs
  | .fire o | .reset o => [o]
  | _ => []

/-- Observers that were invoked or reset. -/
def goneL (log : List Ev) : List Obs := log.flatMap goneF

@[simp] theorem made_append (l : List Ev) (v : Ev) : made (l ++ [v]) = made l ++ madeF v := by simp [made]
@[simp] theorem goneL_append (l : List Ev) (v : Ev) : goneL (l ++ [v]) = goneL l ++ goneF v := by simp [goneL]

/-- Observers that an instruction is about to attach or to invoke. -/
def held : Instr → List Obs
  | .attach _ l | .drain l => l
  | _ => []

structure Inv2 (s : St) (acts : List (List Instr)) : Prop where
  place : ∀ q, ws (cw held q) acts + s.pool.countP q + (goneL s.log).countP q = (made s.log).countP q
  uniq : (made s.log).Nodup
  mop : ∀ o, o ∈ made s.log ↔ s.phase o.op ≠ .fresh ∧ o ∈ mkObs o.op (s.toks o.op)

theorem mem_held {acts : List (List Instr)} {x : Instr} {o : Obs} (h : Pending acts x) (ho : o ∈ held x)
    {q : Obs → Bool} (hq : q o = true) : 0 < ws (cw held q) acts :=
  Nat.lt_of_lt_of_le (List.countP_pos_iff.2 ⟨o, ho, hq⟩) (h.le (cw held q))

theorem run_inv2 {s : St} {acts : List (List Instr)} (h : Inv2 s acts) {k : Nat} {x : Instr}
    {r p : List Instr} (hk : acts[k]? = some (x :: r)) {b : Bool} {s' : St}
    (he : exec s x b = .ok s' p) : Inv2 s' (acts.set k (p ++ r)) := by
  constructor
  case place =>
    intro q
    have h1 := h.place q
    have e1 := cw_set held q p hk
    have h4 := fun e => filter_split q e s.pool
    have h5 := fun o (ho : o ∈ s.pool) => countP_erase_mem ho q
    clear h hk
    generalize acts.set k (p ++ r) = acts' at *
    exec_cases he <;> simp [held, madeF, goneF, List.countP_cons] at * <;> grind
  case uniq =>
    have h1 := h.uniq
    clear h hk
    exec_cases he <;> simpa [madeF] using h1
  case mop =>
    intro o
    have h1 := h.mop o
    clear h hk
    exec_cases he <;> simp [madeF, upd_apply] at * <;> grind

theorem init_inv2 : Inv2 init [] := by
  constructor <;> simp [init, made, goneL]

theorem env_inv2 {s : St} {acts : List (List Instr)} (h : Inv2 s acts) {a : Act} {s' : St} {p : List Instr}
    (he : env s acts a = some (s', p)) : Inv2 s' (acts ++ [p]) := by
  constructor
  case place =>
    intro q
    have h1 := h.place q
    rw [cw_app]
    clear h
    env_cases he <;> simp [held, madeF, goneF] at * <;> omega
  case uniq =>
    have h1 := h.uniq
    have h2 := h.mop
    clear h
    env_cases he
    · rename_i i t hf
      simp only [made_append, madeF]
      rw [List.nodup_append]
      refine ⟨h1, mkObs_nodup _ _, ?_⟩
      rintro a ha b hb rfl
      exact ((h2 a).1 ha).1 (mkObs_op hb ▸ hf.1)
    · exact h1
    · simpa [madeF] using h1
  case mop =>
    intro o
    have h1 := h.mop o
    have h2 := fun i t o => @mkObs_op i t o
    clear h
    env_cases he <;> (try simp [madeF, upd_apply] at *) <;> grind

theorem reach_inv2 {c : Conf mach} (h : Reach mach init c) : Inv2 c.sh c.acts :=
  Reach.inv (M := mach) (P := Inv2) init_inv2 (fun _ _ _ _ _ h he => env_inv2 h he)
    (fun _ _ _ _ _ _ _ _ h hk he => run_inv2 h hk he) h

theorem Inv2.made_of {s : St} {acts : List (List Instr)} (h : Inv2 s acts) {o : Obs}
    (ho : o ∈ s.pool ∨ o ∈ goneL s.log ∨ ∃ x, Pending acts x ∧ o ∈ held x) : o ∈ made s.log := by
  have key : ∀ q : Obs → Bool, q o = true → ∃ b ∈ made s.log, q b = true := by
    intro q hq
    have h1 := h.place q
    apply List.countP_pos_iff.1
    rcases ho with ho | ho | ⟨x, hx, ho⟩
    · have := List.countP_pos_iff (p := q) |>.2 ⟨o, ho, hq⟩; omega
    · have := List.countP_pos_iff (p := q) |>.2 ⟨o, ho, hq⟩; omega
    · have := mem_held hx ho hq; omega
  obtain ⟨b, hb, hba⟩ := key (fun p => decide (p = o)) (by simp)
  simp at hba; exact hba ▸ hb

/-- Where an observer is. -/
theorem Inv2.where_ {s : St} {acts : List (List Instr)} (h : Inv2 s acts) {o : Obs} (ho : o ∈ made s.log) :
    o ∈ s.pool ∨ o ∈ goneL s.log ∨ ∃ x, Pending acts x ∧ o ∈ held x := by
  have key : ∀ q : Obs → Bool, q o = true → ∃ b, q b = true ∧
      (b ∈ s.pool ∨ b ∈ goneL s.log ∨ ∃ x, Pending acts x ∧ b ∈ held x) := by
    intro q hq
    have h1 := h.place q
    have h2 := List.countP_pos_iff (p := q) |>.2 ⟨o, ho, hq⟩
    by_cases h3 : 0 < s.pool.countP q
    · obtain ⟨b, hb, hb2⟩ := List.countP_pos_iff.1 h3; exact ⟨b, hb2, .inl hb⟩
    by_cases h4 : 0 < (goneL s.log).countP q
    · obtain ⟨b, hb, hb2⟩ := List.countP_pos_iff.1 h4; exact ⟨b, hb2, .inr (.inl hb)⟩
    obtain ⟨a, ha, x, hx, hw⟩ := exists_of_ws_pos (w := cw held q) (acts := acts) (by omega)
    obtain ⟨b, hb, hb2⟩ := List.countP_pos_iff.1 hw
    exact ⟨b, hb2, .inr (.inr ⟨x, ⟨a, ha, hx⟩, hb⟩)⟩
  obtain ⟨b, hb, hw⟩ := key (fun p => decide (p = o)) (by simp)
  simp at hb; exact hb ▸ hw

/-- Each observer is in one place. -/
theorem Inv2.one {s : St} {acts : List (List Instr)} (h : Inv2 s acts) (o : Obs) :
    ws (cw held (fun p => decide (p = o))) acts + s.pool.countP (fun p => decide (p = o)) +
      (goneL s.log).countP (fun p => decide (p = o)) ≤ 1 := by
  have h1 := h.place (fun p => decide (p = o))
  have h2 : (made s.log).countP (fun p => decide (p = o)) ≤ 1 := by
    have := List.nodup_iff_count.1 h.uniq o
    have e : (made s.log).count o = (made s.log).countP (fun p => decide (p = o)) := by
      unfold List.count; congr 1
    omega
  omega

theorem Inv2.pool_nodup {s : St} {acts : List (List Instr)} (h : Inv2 s acts) : s.pool.Nodup := by
  rw [List.nodup_iff_count]
  intro o
  have h1 := h.one o
  have e : s.pool.count o = s.pool.countP (fun p => decide (p = o)) := by
    unfold List.count; congr 1
  omega

theorem Inv2.not_gone {s : St} {acts : List (List Instr)} (h : Inv2 s acts) {o : Obs}
    (ho : o ∈ s.pool ∨ ∃ x, Pending acts x ∧ o ∈ held x) : o ∉ goneL s.log := by
  intro hg
  have h1 := h.one o
  have h2 : 0 < (goneL s.log).countP (fun p => decide (p = o)) := List.countP_pos_iff.2 ⟨o, hg, by simp⟩
  rcases ho with ho | ⟨x, hx, ho⟩
  · have : 0 < s.pool.countP (fun p => decide (p = o)) := List.countP_pos_iff.2 ⟨o, ho, by simp⟩
    omega
  · have := mem_held hx ho (q := fun p => decide (p = o)) (by simp)
    omega

end Verif.Suspend
