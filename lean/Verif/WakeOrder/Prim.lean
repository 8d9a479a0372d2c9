import Verif.OneshotPrim.Proof

/-! # `oneshot_primitive`: the order in which suspended waits are completed -/

namespace Verif.OneshotPrim

def isPush : Ev → Option Id
  | .push i => some i
  | _ => none

/-- The operations that suspended, in the order in which they did. -/
def pushes (log : List Ev) : List Id := log.filterMap isPush

/-- The operations that suspended and were completed, in the order of the completions. -/
def served (log : List Ev) : List Id := (dones log).filter (· ∈ pushes log)

theorem mem_pushes {log : List Ev} {i : Id} : i ∈ pushes log ↔ .push i ∈ log := by
  simp only [pushes, List.mem_filterMap]
  constructor
  · rintro ⟨v, hv, h⟩; cases v <;> simp [isPush] at h; subst h; exact hv
  · intro h; exact ⟨_, h, rfl⟩

theorem mem_done {log : List Ev} {i : Id} : i ∈ dones log ↔ .done i ∈ log := by
  simp only [dones, List.mem_filterMap]
  constructor
  · rintro ⟨v, hv, h⟩; cases v <;> simp [isDone] at h; subst h; exact hv
  · intro h; exact ⟨_, h, rfl⟩

/-- The operation that `raise()` is about to complete. -/
def comp : Instr → List Id
  | .complete i _ => [i]
  | _ => []

def isLoop : Instr → Nat
  | .walk _ => 1
  | _ => 0

/-- `m` is what `raise()` has taken off the list and not completed. -/
structure Lifo (s : St) (acts : List (List Instr)) (l m : List Id) : Prop where
  inv : Inv s acts l
  held : ∀ q : Id → Bool, ws (cw comp q) acts = m.countP q
  line : served s.log ++ m ++ l = (pushes s.log).reverse

theorem Lifo.one {s : St} {acts : List (List Instr)} {l m : List Id} (h : Lifo s acts l m) :
    m.length + ws isLoop acts ≤ 1 := by
  have h1 := h.held (fun _ => true)
  have h2 := ws_add (w := isWalk) (w' := cw comp fun _ => true) (w'' := isLoop)
    (fun x => by cases x <;> simp [isWalk, cw, comp, isLoop]) acts
  have h3 := h.inv.walks
  have h4 := h.inv.raised
  simp only [List.countP_true] at h1
  split at h4 <;> omega

/-- Steps that leave the list and the completions alone. -/
theorem Lifo.same {s s' : St} {acts acts' : List (List Instr)} {l m : List Id} (h : Lifo s acts l m)
    (hi : Inv s' acts' l) (hp : pushes s'.log = pushes s.log) (hd : dones s'.log = dones s.log)
    (hc : ∀ q, ws (cw comp q) acts' = ws (cw comp q) acts) : Lifo s' acts' l m where
  inv := hi
  held q := by rw [hc, h.held]
  line := by simpa only [served, hp, hd] using h.line

theorem env_lifo {s : St} {acts : List (List Instr)} {l m : List Id} (h : Lifo s acts l m) {a : Act} {s' : St}
    {p : List Instr} (he : env s acts a = some (s', p)) : Lifo s' (acts ++ [p]) l m := by
  have hi := env_inv h.inv he
  cases a <;> simp only [env] at he <;> split at he <;> simp at he <;> obtain ⟨rfl, rfl⟩ := he <;>
    exact h.same hi (by simp [pushes, isPush]) (by simp [dones, isDone]) (fun q => by simp [cw, comp])

theorem served_push {log : List Ev} {i : Id} (h : dones log = []) : served (log ++ [.push i]) = [] := by
  have : dones (log ++ [.push i]) = dones log := by simp [dones, isDone]
  simp [served, this, h]

theorem run_lifo {s : St} {acts : List (List Instr)} {l m : List Id} (h : Lifo s acts l m) {k : Nat} {x : Instr}
    {r p : List Instr} (hk : acts[k]? = some (x :: r)) {b : Bool} {s' : St}
    (he : exec s x b = .ok s' p) : ∃ l' m', Lifo s' (acts.set k (p ++ r)) l' m' := by
  have hi := run_list h.inv hk he
  have hpend := pending_top hk
  have hone := h.one
  cases x with
  | start i =>
    simp [exec] at he; obtain ⟨rfl, rfl⟩ := he
    exact ⟨_, m, h.same hi rfl rfl fun q => by have := cw_set comp q [.loop i s.head] hk; simpa [comp] using this⟩
  | loop i cur =>
    have hs := h.inv.served hpend (i := i) (by simp [ops])
    simp only [exec] at he
    split at he
    · rename_i hc
      simp at he; obtain ⟨rfl, rfl⟩ := he
      subst hc
      rw [show listAfter s b l (.loop i .fired) = l by simp [listAfter]] at hi
      exact ⟨_, m, h.same hi rfl rfl fun q => by have := cw_set comp q [.setv i] hk; simpa [comp] using this⟩
    rename_i hcur
    split at he
    · simp at he
    split at he
    · rename_i hb
      simp at he; obtain ⟨rfl, rfl⟩ := he
      rw [show listAfter s b l (.loop i cur) = i :: l by simp [listAfter, hb, hcur]] at hi
      have hraise : .raise ∉ s.log := by
        have := h.inv.raised
        rw [if_neg (by rw [hb.1]; exact hcur)] at this
        exact List.count_eq_zero.1 this
      have hd : dones s.log = [] := by
        apply List.eq_nil_iff_forall_not_mem.2
        intro j hj
        obtain ⟨l1, l2, e⟩ := List.append_of_mem (mem_done.1 hj)
        have := h.inv.hist l1 (.done j) l2 e j rfl
        exact hraise (by rw [e]; simp [this])
      have hm : m = [] := by
        have h1 := h.held (fun _ => true)
        have h2 := ws_add (w := isWalk) (w' := cw comp fun _ => true) (w'' := isLoop)
          (fun x => by cases x <;> simp [isWalk, cw, comp, isLoop]) acts
        have h3 := h.inv.walks
        have h4 := List.count_eq_zero.2 hraise
        simp only [List.countP_true] at h1
        exact List.length_eq_zero_iff.1 (by omega)
      refine ⟨i :: l, [], hi, ?_, ?_⟩
      · intro q; have := cw_set comp q [] hk; have h1 := h.held q; simp [comp, hm] at this h1 ⊢; omega
      · have := h.line
        rw [hm, show served s.log = [] by simp [served, hd]] at this
        rw [served_push hd]
        simp [pushes, isPush] at this ⊢
        exact this
    · rename_i hb
      simp at he; obtain ⟨rfl, rfl⟩ := he
      rw [show listAfter s b l (.loop i cur) = l from if_neg fun h => hb h.2] at hi
      exact ⟨_, m, h.same hi rfl rfl fun q => by have := cw_set comp q [.loop i s.head] hk; simpa [comp] using this⟩
  | setv i =>
    have hs := h.inv.served hpend (i := i) (by simp [ops])
    simp only [exec, St.finish] at he
    split at he
    · simp at he
    simp at he; obtain ⟨rfl, rfl⟩ := he
    have hnp : i ∉ pushes s.log := by
      intro hp
      have h0 : i ∈ (pushes s.log).reverse := by simpa using hp
      rw [← h.line] at h0
      have h1 := h.inv.place (· == i)
      have h2 := h.inv.once i
      have h3 := h.held (· == i)
      have h4 := ws_mono (w := fun x => cw comp (· == i) x + (if x = .setv i then 1 else 0)) (w' := cw ops (· == i))
        (fun x => by cases x <;> simp [cw, comp, ops] <;> split <;> simp_all) acts
      have h5 := ws_add (w := fun x => cw comp (· == i) x + (if x = .setv i then 1 else 0))
        (w' := cw comp (· == i)) (w'' := fun x => if x = .setv i then 1 else 0) (fun _ => rfl) acts
      have h6 := ws_pos (w := fun x => if x = .setv i then 1 else 0) hk
      simp only [List.count] at h2
      have h7 : (begun s.log).countP (· == i) ≤ 1 := by rw [h2]; split <;> omega
      simp only [List.mem_append] at h0
      rcases h0 with (h0 | h0) | h0
      · have : i ∈ dones s.log := (List.mem_filter.1 h0).1
        have := List.countP_pos_iff (p := (· == i)).2 ⟨i, this, by simp⟩
        simp at h6; omega
      · have := List.countP_pos_iff (p := (· == i)).2 ⟨i, h0, by simp⟩
        simp at h6; omega
      · have := List.countP_pos_iff (p := (· == i)).2 ⟨i, h0, by simp⟩
        simp at h6; omega
    refine ⟨l, m, hi, ?_, ?_⟩
    · intro q; have := cw_set comp q [] hk; have h1 := h.held q; simp [comp] at this h1 ⊢; omega
    · have hp : pushes (s.log ++ [.done i]) = pushes s.log := by simp [pushes, isPush]
      have hd : dones (s.log ++ [.done i]) = dones s.log ++ [i] := by simp [dones, isDone]
      have := h.line
      simp only [served, hp, hd] at this ⊢
      simpa [List.filter_append, hnp] using this
  | raise =>
    simp only [exec] at he
    split at he
    · simp at he
    simp at he; obtain ⟨rfl, rfl⟩ := he
    exact ⟨_, m, h.same hi (by simp [pushes, isPush]) (by simp [dones, isDone])
      fun q => by have := cw_set comp q [.walk s.head] hk; simpa [comp] using this⟩
  | walk q =>
    have hq := h.inv.wchain _ q hpend rfl
    have hw := ws_pos (w := isLoop) hk
    simp only [isLoop] at hw
    have hm : m = [] := List.length_eq_zero_iff.1 (by omega)
    cases q with
    | fired => simp [exec] at he
    | null =>
      have hl : l = [] := by cases l with
        | nil => rfl
        | cons j l => simp [Chain] at hq
      simp [exec] at he; obtain ⟨rfl, rfl⟩ := he
      subst hl
      exact ⟨_, m, h.same hi (by simp [pushes, isPush]) (by simp [dones, isDone])
        fun q => by have := cw_set comp q [] hk; simpa [comp] using this⟩
    | node i =>
      cases l with
      | nil => simp [Chain] at hq
      | cons j l =>
        obtain ⟨hj, hq⟩ := hq
        simp at hj; subst hj
        simp only [exec] at he
        split at he
        · simp at he
        simp at he; obtain ⟨rfl, rfl⟩ := he
        refine ⟨l, [i], hi, ?_, ?_⟩
        · intro q; have := cw_set comp q [.complete i (s.next i)] hk; have h1 := h.held q
          simp [comp, hm] at this h1 ⊢; omega
        · have := h.line; simpa [hm] using this
  | complete i q =>
    simp only [exec, St.finish] at he
    split at he
    · simp at he
    simp at he; obtain ⟨rfl, rfl⟩ := he
    have hm : m = [i] := by
      have h1 := h.held (· == i)
      have h2 := cw_pos (f := comp) (q := (· == i)) hk
      simp [comp] at h2
      have h3 : 0 < m.countP (· == i) := by omega
      obtain ⟨j, hj, hji⟩ := List.countP_pos_iff.1 h3
      simp at hji; subst hji
      cases m with
      | nil => simp at hj
      | cons a m => cases m with
        | nil => simp at hj; rw [hj]
        | cons => simp at hone; omega
    have hmem : i ∈ pushes s.log := by
      have : i ∈ (pushes s.log).reverse := by rw [← h.line, hm]; simp
      simpa using this
    refine ⟨l, [], hi, ?_, ?_⟩
    · intro q'; have := cw_set comp q' [.walk q] hk; have h1 := h.held q'; simp [comp, hm] at this h1 ⊢; grind
    · have hp : pushes (s.log ++ [.done i]) = pushes s.log := by simp [pushes, isPush]
      have hd : dones (s.log ++ [.done i]) = dones s.log ++ [i] := by simp [dones, isDone]
      have := h.line
      rw [hm] at this
      simp only [served, hp, hd] at this ⊢
      simpa [List.filter_append, hmem] using this

theorem reach_lifo {c : Conf mach} (h : Reach mach init c) : ∃ l m, Lifo c.sh c.acts l m :=
  Reach.inv (M := mach) (P := fun s acts => ∃ l m, Lifo s acts l m)
    ⟨[], [], init_inv, by intro q; rfl, rfl⟩
    (fun _ _ _ _ _ ⟨l, m, h⟩ he => ⟨l, m, env_lifo h he⟩)
    (fun _ _ _ _ _ _ _ _ ⟨_, _, h⟩ hk he => run_lifo h hk he) h

theorem pushes_nodup {s : St} {acts : List (List Instr)} {l m : List Id} (h : Lifo s acts l m) :
    (pushes s.log).reverse.Nodup := by
  rw [List.nodup_iff_count]
  intro i
  rw [← h.line]
  have h1 := h.inv.place (· == i)
  have h2 := h.inv.once i
  have h3 := h.held (· == i)
  have h4 := ws_mono (w := cw comp (· == i)) (w' := cw ops (· == i))
    (fun x => by cases x <;> simp [cw, comp, ops]) acts
  have h5 : (served s.log).countP (· == i) ≤ (dones s.log).countP (· == i) :=
    List.filter_sublist.countP_le
  simp only [List.count] at h2
  have h7 : (begun s.log).countP (· == i) ≤ 1 := by rw [h2]; split <;> omega
  simp only [List.count, List.countP_append]
  omega

theorem cut_eq {α : Type} {i : α} {a b c d : List α} (ha : i ∉ a) (hc : i ∉ c) (h : a ++ i :: b = c ++ i :: d) :
    a = c := by
  induction a generalizing c with
  | nil =>
    cases c with
    | nil => rfl
    | cons y c => simp at h hc; exact (hc.1 h.1).elim
  | cons x a ih =>
    cases c with
    | nil => simp at h ha; exact (ha.1 h.1.symm).elim
    | cons y c =>
      simp at h ha hc
      rw [h.1, ih ha.2 hc.2 h.2]

/-- Before a wait that suspended is completed, the ones that suspended after it are. -/
theorem later_first {c : Conf mach} (h : Reach mach init c) {a b d l1 l2 : List Ev} {i j : Id}
    (hp : c.sh.log = a ++ .push i :: (b ++ .push j :: d)) (hd : c.sh.log = l1 ++ .done i :: l2) :
    .done j ∈ l1 := by
  obtain ⟨l, m, h⟩ := reach_lifo h
  have hn := pushes_nodup h
  have hl := h.line
  have e1 : (pushes c.sh.log).reverse = (pushes d).reverse ++ j :: (pushes b).reverse ++ i :: (pushes a).reverse := by
    simp [hp, pushes, isPush, List.filterMap_append]
  have hi : i ∈ pushes c.sh.log := mem_pushes.2 (by rw [hp]; simp)
  have e2 : served c.sh.log = (dones l1).filter (· ∈ pushes c.sh.log) ++ i :: (dones l2).filter (· ∈ pushes c.sh.log) := by
    have : dones c.sh.log = dones l1 ++ i :: dones l2 := by simp [hd, dones, isDone, List.filterMap_append]
    simp only [served, this, List.filter_append, List.filter_cons]
    simp [hi]
  rw [e2, e1] at hl
  rw [e1] at hn
  have key : (dones l1).filter (· ∈ pushes c.sh.log) = (pushes d).reverse ++ j :: (pushes b).reverse := by
    have n1 : i ∉ (pushes d).reverse ++ j :: (pushes b).reverse := by
      intro hm
      have := (List.nodup_append.1 hn).2.2 i hm i (by simp)
      exact this rfl
    have hn2 := hn
    rw [← hl] at hn2
    have n2 : i ∉ (dones l1).filter (· ∈ pushes c.sh.log) := by
      intro hm
      simp only [List.append_assoc, List.cons_append] at hn2
      have := (List.nodup_append.1 hn2).2.2 i hm i (by simp)
      exact this rfl
    simp only [List.append_assoc, List.cons_append] at hl
    have hl' : (dones l1).filter (· ∈ pushes c.sh.log) ++ i :: ((dones l2).filter (· ∈ pushes c.sh.log) ++ (m ++ l)) =
      ((pushes d).reverse ++ j :: (pushes b).reverse) ++ i :: (pushes a).reverse := by simpa using hl
    exact cut_eq n2 n1 hl'
  have : j ∈ (dones l1).filter (· ∈ pushes c.sh.log) := by rw [key]; simp
  exact mem_done.1 (List.mem_filter.1 this).1

end Verif.OneshotPrim
