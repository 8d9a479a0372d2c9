import Verif.Compose.FamilyModel
import Verif.Resolver.Props

/-! # Objects that share cancellation events behave as if alone: simulation -/

namespace Verif.Resolver

variable {own : OpId → Nat} {S : Nat → DS}

section
variable {F : Nat → Type}

@[simp] theorem part_same (n : Nat) (x : F n) : part n ⟨n, x⟩ = some x := by simp [part]

theorem part_ne {n : Nat} {x : Σ n, F n} (h : x.1 ≠ n) : part n x = none := by simp [part, h]

theorem part_ne' {n m : Nat} {x : F m} (h : m ≠ n) : part n (⟨m, x⟩ : Σ n, F n) = none := by simp [part, h]

theorem part_some {n : Nat} {x : Σ n, F n} {y : F n} (h : part n x = some y) : x = ⟨n, y⟩ := by
  obtain ⟨m, z⟩ := x
  by_cases e : m = n
  · subst e; simp at h; rw [h]
  · rw [part_ne' e] at h; cases h

end

/-- The state of object `n`. -/
def obj (d : (fam own S).D) (n : Nat) : (S n).D := (show ∀ n, (S n).D from d) n

def setObj (d : (fam own S).D) (n : Nat) (x : (S n).D) : (fam own S).D := updD (show ∀ n, (S n).D from d) n x

@[simp] theorem updD_same (d : (fam own S).D) (n : Nat) (x : (S n).D) : obj (setObj d n x) n = x := by
  simp [obj, setObj, updD]

theorem updD_ne (d : (fam own S).D) {n m : Nat} (x : (S n).D) (h : m ≠ n) : obj (setObj d n x) m = obj d m := by
  simp [obj, setObj, updD, h]


theorem erase_filter_ne {own : Nat → Nat} {n i : Nat} {l : List Nat} (h : own i ≠ n) :
    (l.erase i).filter (fun i => own i = n) = l.filter (fun i => own i = n) := by
  induction l with
  | nil => rfl
  | cons a l ih =>
    rw [List.erase_cons]
    split
    · rename_i e
      have : a = i := by simpa using e
      subst this
      simp [h]
    · simp only [List.filter_cons, ih]

theorem erase_filter_eq {own : Nat → Nat} {n i : Nat} {l : List Nat} (h : own i = n) :
    (l.erase i).filter (fun i => own i = n) = (l.filter (fun i => own i = n)).erase i := by
  induction l with
  | nil => rfl
  | cons a l ih =>
    rw [List.erase_cons]
    split
    · rename_i e
      have : a = i := by simpa using e
      subst this
      simp [h]
    · rename_i e
      simp only [List.filter_cons, ih]
      split
      · rw [List.erase_cons, if_neg e]
      · rfl

/-- State of the machine of all objects and state of the machine of object `n`. -/
structure StRel (n : Nat) (s : RSt (fam own S)) (t : RSt (S n)) : Prop where
  d : t.d = obj s.d n
  req : t.req = s.req
  cbs : ∀ e, t.cbs e = (s.cbs e).filter (fun i => own i = n)
  bits : ∀ i, own i = n → t.bits i = s.bits i
  evt : ∀ i, own i = n → t.evt i = s.evt i
  ct : ∀ i, own i = n → t.ct i = s.ct i
  started : ∀ i, own i = n → t.started i = s.started i
  log : t.log = history n s.log

/-- The objects mentioned by the history and by pending instructions are the right ones. -/
structure Typed (s : RSt (fam own S)) (acts : List (List (Instr (fam own S)))) : Prop where
  beg : ∀ i ct p, Ev.begin i ct p ∈ s.log → p.1 = own i
  don : ∀ i v, Ev.done i v ∈ s.log → v.1 = own i
  fas : ∀ i v, Pending acts (.setFast i v) → v.1 = own i

theorem pending_set {ι : Type} {acts : List (List ι)} {k : Nat} {x : ι} {r p : List ι} {y : ι}
    (hk : acts[k]? = some (x :: r)) (h : Pending (acts.set k (p ++ r)) y) : Pending acts y ∨ y ∈ p := by
  obtain ⟨a, ha, hy⟩ := h
  rcases List.mem_or_eq_of_mem_set ha with h1 | rfl
  · exact .inl ⟨a, h1, hy⟩
  · rcases List.mem_append.1 hy with h1 | h1
    · exact .inr h1
    · exact .inl ⟨_, List.mem_of_getElem? hk, by simp [h1]⟩

theorem typed {d0 : ∀ n, (S n).D} {c : Conf (mach (fam own S))} (h : Reach (mach (fam own S)) (RSt.init d0) c) :
    Typed c.sh c.acts := by
  refine Reach.inv (P := Typed) ?_ ?_ ?_ h
  · exact ⟨by simp [RSt.init], by simp [RSt.init], by rintro i v ⟨a, ha, _⟩; cases ha⟩
  · intro s acts a s' p h he
    have fas : ∀ {q : List (Instr (fam own S))}, (∀ i v, Instr.setFast i v ∉ q) →
        ∀ i v, Pending (acts ++ [q]) (.setFast i v) → v.1 = own i := by
      rintro q hq i v ⟨a, ha, hx⟩
      rcases List.mem_append.1 ha with h1 | h1
      · exact h.fas i v ⟨a, h1, hx⟩
      · simp at h1; subst h1; exact absurd hx (hq i v)
    cases a with
    | newOp i ct p =>
      simp only [env] at he
      split at he
      · cases he
      · split at he
        · rename_i d' hd
          cases he
          have hp : p.1 = own i := by
            simp only [fam] at hd
            split at hd
            · assumption
            · cases hd
          refine ⟨?_, ?_, fas (by simp)⟩
          · intro j ct' p' hm
            simp at hm
            rcases hm with hm | ⟨rfl, -, rfl⟩
            · exact h.beg _ _ _ hm
            · exact hp
          · intro j v hm; simp at hm; exact h.don _ _ hm
        · cases he
    | cancel e => cases he; exact ⟨h.beg, h.don, fas (by simp)⟩
    | call x =>
      simp only [env] at he
      split at he
      · cases he; exact ⟨h.beg, h.don, fas (by simp)⟩
      · cases he
    | reset e =>
      simp only [env] at he
      split at he
      · cases he
        refine ⟨?_, ?_, fas (by simp)⟩
        · intro j ct' p' hm; simp at hm; exact h.beg _ _ _ hm
        · intro j v hm; simp at hm; exact h.don _ _ hm
      · cases he
  · intro s acts k x r b s' p h hk he
    have mk : (∀ i ct p, Ev.begin i ct p ∈ s'.log → Ev.begin i ct p ∈ s.log) →
        (∀ i v, Ev.done i v ∈ s'.log → Ev.done i v ∈ s.log ∨ v.1 = own i) →
        (∀ i v, Instr.setFast i v ∈ p → v.1 = own i) → Typed s' (acts.set k (p ++ r)) := by
      intro h1 h2 h3
      refine ⟨fun i ct p hm => h.beg i ct p (h1 i ct p hm), ?_, ?_⟩
      · intro i v hm
        rcases h2 i v hm with h4 | h4
        · exact h.don i v h4
        · exact h4
      · intro i v hx
        rcases pending_set hk hx with h4 | h4
        · exact h.fas i v h4
        · exact h3 i v h4
    cases x with
    | start i =>
      simp only [exec] at he
      split at he
      · cases he
      · rename_i d' v es hs
        cases he
        refine mk (by simp) (by simp; intro _ _ h; exact .inl h) ?_
        intro j w hw
        simp at hw
        obtain ⟨rfl, rfl⟩ := hw
        simp only [fam] at hs
        split at hs
        · rename_i x r es' _
          have h2 := (Prod.mk.inj (Prod.mk.inj (Option.some.inj hs)).2).1
          cases r with
          | none => cases h2
          | some v => cases h2; rfl
        · cases hs
      · cases he
        exact mk (by simp) (by simp; intro _ _ h; exact .inl h) (by simp)
    | setFast i v =>
      cases he
      refine mk (by simp) ?_ (by simp)
      intro j w hm
      simp at hm
      rcases hm with hm | ⟨rfl, rfl⟩
      · exact .inl hm
      · exact .inr (h.fas _ _ (pending_top hk))
    | listen i => simp only [exec] at he; split at he <;> cases he <;> exact mk (by simp) (fun _ _ => .inl) (by simp)
    | register i =>
      simp only [exec] at he
      split at he
      · cases he
      · split at he <;> cases he <;> exact mk (by simp) (fun _ _ => .inl) (by simp)
    | tryCancel i l =>
      simp only [exec] at he
      split at he
      · cases he
      · cases he; exact mk (by simp) (by simp; intro _ _ h; exact .inl h) (by simp)
    | transition i nb =>
      simp only [exec] at he
      split at he
      · cases he
      · split at he
        · cases he; exact mk (by simp) (fun _ _ => .inl) (by simp)
        · split at he <;> cases he <;> exact mk (by simp) (fun _ _ => .inl) (by simp)
    | unregister i =>
      simp only [exec] at he
      split at he
      · cases he
      · split at he
        · cases he; exact mk (by simp) (fun _ _ => .inl) (by simp)
        · split at he <;> cases he
          exact mk (by simp) (fun _ _ => .inl) (by simp)
    | resume i =>
      cases he
      refine mk (by simp) ?_ (by simp)
      intro j w hm
      simp at hm
      rcases hm with hm | ⟨rfl, rfl⟩
      · exact .inl hm
      · exact .inr rfl
    | complete i => cases he; exact mk (by simp) (fun _ _ => .inl) (by simp)
    | cancel e => cases he; exact mk (by simp) (by simp; intro _ _ h; exact .inl h) (by simp)
    | ds x =>
      simp only [exec] at he
      split at he
      · cases he
      · rename_i d' ps es hs
        cases he
        refine mk (by simp) (by simp; intro _ _ h; exact .inl h) ?_
        intro j w hw
        obtain ⟨a, -, h⟩ := List.mem_map.1 hw
        cases a <;> cases h

/-- A value, event or instruction of object `m`. -/
def tV (m : Nat) (v : (S m).V) : (fam own S).V := (⟨m, v⟩ : Σ n, (S n).V)
def tE (m : Nat) (e : (S m).E) : (fam own S).E := (⟨m, e⟩ : Σ n, (S n).E)
def tI (m : Nat) (x : (S m).I) : (fam own S).I := (⟨m, x⟩ : Σ n, (S n).I)
def tO (m : Nat) : OpId ⊕ (S m).I → OpId ⊕ (fam own S).I := next m

theorem fam_start (d : (fam own S).D) (i : OpId) (b : Bool) : (fam own S).start d i b =
    ((S (own i)).start (obj d (own i)) i b).map
      (fun q => (setObj d (own i) q.1, q.2.1.map (tV (own i)), q.2.2.map (tE (own i)))) := by
  simp only [fam, obj]
  cases (S (own i)).start _ i b <;> rfl

theorem fam_tryCancel (d : (fam own S).D) (i : OpId) : (fam own S).tryCancel d i =
    ((S (own i)).tryCancel (obj d (own i)) i).map (fun q => (setObj d (own i) q.1, q.2.1, q.2.2.map (tE (own i)))) := by
  simp only [fam, obj]
  cases (S (own i)).tryCancel _ i <;> rfl

theorem fam_exec (d : (fam own S).D) (m : Nat) (z : (S m).I) (b : Bool) : (fam own S).exec d (tI m z) b =
    ((S m).exec (obj d m) z b).map (fun q => (setObj d m q.1, q.2.1.map (tO m), q.2.2.map (tE m))) := by
  simp only [fam, tI, obj]
  cases (S m).exec _ z b <;> rfl

theorem fam_fin (d : (fam own S).D) (i : OpId) :
    (fam own S).fin d i = setObj d (own i) ((S (own i)).fin (obj d (own i)) i) := rfl

theorem fam_val (d : (fam own S).D) (i : OpId) :
    (fam own S).val d i = tV (own i) ((S (own i)).val (obj d (own i)) i) := rfl

@[simp] theorem setFast_same (n : Nat) (i : OpId) (v : (S n).V) :
    instrPart (own := own) (S := S) n (.setFast i (tV n v)) = some (.setFast i v) := by simp [instrPart, tV]

theorem setFast_ne {n m : Nat} (h : m ≠ n) (i : OpId) (v : (S m).V) :
    instrPart (own := own) (S := S) n (.setFast i (tV m v)) = none := by simp [instrPart, tV, part_ne' h]

@[simp] theorem ds_same (n : Nat) (x : (S n).I) :
    instrPart (own := own) (S := S) n (.ds (tI n x)) = some (.ds x) := by simp [instrPart, tI]

theorem ds_ne {n m : Nat} (h : m ≠ n) (x : (S m).I) :
    instrPart (own := own) (S := S) n (.ds (tI m x)) = none := by simp [instrPart, tI, part_ne' h]

@[simp] theorem done_same (n : Nat) (i : OpId) (v : (S n).V) :
    evPart (own := own) (S := S) n (.done i (tV n v)) = some (.done i v) := by simp [evPart, tV]

theorem done_ne {n m : Nat} (h : m ≠ n) (i : OpId) (v : (S m).V) :
    evPart (own := own) (S := S) n (.done i (tV m v)) = none := by simp [evPart, tV, part_ne' h]

@[simp] theorem evds_same (n : Nat) (x : (S n).E) :
    evPart (own := own) (S := S) n (.ds (tE n x)) = some (.ds x) := by simp [evPart, tE]

theorem evds_ne {n m : Nat} (h : m ≠ n) (x : (S m).E) :
    evPart (own := own) (S := S) n (.ds (tE m x)) = none := by simp [evPart, tE, part_ne' h]

/-- What the instructions of an object call `complete()` on belongs to the object. -/
def Complete (own : OpId → Nat) (s : RSt (fam own S)) (x : Instr (fam own S)) (b : Bool) : Prop :=
  ∀ m z d' ps es, x = .ds (tI m z) → (S m).exec (obj s.d m) z b = some (d', ps, es) → ∀ i, .inl i ∈ ps → own i = m

theorem history_append (n : Nat) (a b : List (Ev (fam own S))) : history n (a ++ b) = history n a ++ history n b :=
  List.filterMap_append

theorem history_ds_same (n : Nat) (es : List (S n).E) :
    history (own := own) (S := S) n ((es.map (tE n)).map .ds) = es.map .ds := by
  induction es with
  | nil => rfl
  | cons e es ih => exact (List.filterMap_cons_some (evds_same n e)).trans (congrArg _ ih)

theorem history_ds_ne {n m : Nat} (h : m ≠ n) (es : List (S m).E) :
    history (own := own) (S := S) n ((es.map (tE m)).map .ds) = [] := by
  induction es with
  | nil => rfl
  | cons e es ih => exact (List.filterMap_cons_none (evds_ne h e)).trans ih

theorem history_done_same (n : Nat) (i : OpId) (v : (S n).V) :
    history (own := own) (S := S) n [.done i (tV n v)] = [.done i v] := by simp [history]

theorem history_done_ne {n m : Nat} (h : m ≠ n) (i : OpId) (v : (S m).V) :
    history (own := own) (S := S) n [.done i (tV m v)] = [] := by simp [history, done_ne h]

theorem follow_same (n : Nat) (ps : List (OpId ⊕ (S n).I)) (h : ∀ i, .inl i ∈ ps → own i = n) :
    ((ps.map (tO (own := own) n)).map follow).filterMap (instrPart n) = ps.map follow := by
  induction ps with
  | nil => rfl
  | cons a l ih =>
    have ih := ih (fun i hi => h i (List.mem_cons_of_mem _ hi))
    cases a with
    | inl i =>
      have hi := h i (List.mem_cons_self ..)
      refine (List.filterMap_cons_some (b := .complete i) ?_).trans (congrArg _ ih)
      simp [follow, tO, next, instrPart, hi]
    | inr w => exact (List.filterMap_cons_some (b := .ds w) (ds_same n w)).trans (congrArg _ ih)

theorem follow_ne {n m : Nat} (hm : m ≠ n) (ps : List (OpId ⊕ (S m).I)) (h : ∀ i, .inl i ∈ ps → own i = m) :
    ((ps.map (tO (own := own) m)).map follow).filterMap (instrPart n) = [] := by
  induction ps with
  | nil => rfl
  | cons a l ih =>
    have ih := ih (fun i hi => h i (List.mem_cons_of_mem _ hi))
    cases a with
    | inl i =>
      have hi := h i (List.mem_cons_self ..)
      refine (List.filterMap_cons_none ?_).trans ih
      simp [follow, tO, next, instrPart, hi, hm]
    | inr w => exact (List.filterMap_cons_none (ds_ne hm w)).trans ih

/-- An instruction that does not concern object `n` changes nothing for it. -/
theorem exec_other {n : Nat} {s s' : RSt (fam own S)} {t : RSt (S n)} {x : Instr (fam own S)} {b : Bool}
    {p : List (Instr (fam own S))} (R : StRel n s t) (hx : instrPart n x = none) (hf : ∀ i v, x = .setFast i v → v.1 = own i)
    (hc : Complete own s x b) (he : exec s x b = .ok s' p) : StRel n s' t ∧ p.filterMap (instrPart n) = [] := by
  cases x with
  | start i =>
    simp only [instrPart] at hx
    split at hx
    · cases hx
    · rename_i hn
      simp only [exec, fam_start] at he
      cases h : (S (own i)).start (obj s.d (own i)) i b with
      | none => rw [h] at he; cases he
      | some q =>
        obtain ⟨z, r, es⟩ := q
        rw [h] at he
        have h2 : StRel n { s with d := setObj s.d (own i) z, log := s.log ++ (es.map (tE (own i))).map Ev.ds } t :=
          { R with d := R.d.trans (updD_ne _ _ (Ne.symm hn)).symm
                   log := by simp only [history_append, R.log, history_ds_ne hn, List.append_nil] }
        cases r <;> cases he
        · exact ⟨h2, by simp [instrPart, hn]⟩
        · exact ⟨h2, by simp [setFast_ne hn]⟩
  | setFast i v =>
    obtain ⟨m, v⟩ := v
    have hv : m = own i := hf i _ rfl
    have hn : m ≠ n := by
      rintro rfl
      simp [instrPart] at hx
    cases he
    refine ⟨{ R with d := R.d.trans (updD_ne _ _ (by rw [← hv]; exact Ne.symm hn)).symm, log := ?_ }, rfl⟩
    simp only [history_append, R.log]
    exact (congrArg _ (history_done_ne hn i v)).trans (List.append_nil _) |>.symm
  | listen i =>
    simp only [instrPart] at hx
    split at hx
    · cases hx
    · rename_i hn
      have : ∀ w : Option EvId, StRel n { s with evt := upd s.evt i w } t := by
        intro w
        refine { R with evt := fun j hj => ?_ }
        show t.evt j = upd s.evt i w j
        rw [upd_ne]
        · exact R.evt j hj
        · rintro rfl; exact hn hj
      simp only [exec] at he
      split at he <;> cases he <;> exact ⟨this _, by simp [instrPart, hn]⟩
  | register i =>
    simp only [instrPart] at hx
    split at hx
    · cases hx
    · rename_i hn
      simp only [exec] at he
      split at he
      · cases he
      · split at he <;> cases he
        · exact ⟨R, by simp [instrPart, hn]⟩
        · refine ⟨{ R with cbs := fun e' => ?_ }, by simp [instrPart, hn]⟩
          rename_i e _ _
          by_cases h : e' = e
          · subst h; simp [R.cbs, hn]
          · simp [R.cbs, h]
  | tryCancel i l =>
    simp only [instrPart] at hx
    split at hx
    · cases hx
    · rename_i hn
      simp only [exec, fam_tryCancel] at he
      cases h : (S (own i)).tryCancel (obj s.d (own i)) i with
      | none => rw [h] at he; cases he
      | some q =>
        obtain ⟨z, r, es⟩ := q
        rw [h] at he
        cases he
        refine ⟨{ R with d := R.d.trans (updD_ne _ _ (Ne.symm hn)).symm, log := ?_ }, by simp [instrPart, hn]⟩
        simp only [history_append, R.log, history_ds_ne hn, List.append_nil]
  | transition i nb =>
    simp only [instrPart] at hx
    split at hx
    · cases hx
    · rename_i hn
      have : ∀ w, StRel n { s with bits := upd s.bits i w } t := by
        intro w
        refine { R with bits := fun j hj => ?_ }
        show t.bits j = upd s.bits i w j
        rw [upd_ne]
        · exact R.bits j hj
        · rintro rfl; exact hn hj
      simp only [exec] at he
      split at he
      · cases he
      · split at he
        · cases he; exact ⟨this _, rfl⟩
        · split at he <;> cases he <;> exact ⟨this _, by simp [instrPart, hn]⟩
  | unregister i =>
    simp only [instrPart] at hx
    split at hx
    · cases hx
    · rename_i hn
      simp only [exec] at he
      split at he
      · cases he
      · split at he
        · cases he; exact ⟨R, rfl⟩
        · split at he <;> cases he
          refine ⟨{ R with cbs := fun e' => ?_ }, by simp [instrPart, hn]⟩
          rename_i e _ _ _
          by_cases h : e' = e
          · subst h
            simp only [R.cbs, upd_same]
            rw [erase_filter_ne hn]
          · simp [R.cbs, h]
  | resume i =>
    simp only [instrPart] at hx
    split at hx
    · cases hx
    · rename_i hn
      cases he
      refine ⟨{ R with d := R.d.trans (updD_ne _ _ (Ne.symm hn)).symm, log := ?_ }, rfl⟩
      simp only [history_append, R.log, fam_val, history_done_ne hn, List.append_nil]
  | complete i =>
    simp only [instrPart] at hx
    split at hx
    · cases hx
    · rename_i hn
      cases he
      exact ⟨R, by simp [instrPart, hn]⟩
  | cancel e => cases hx
  | ds x =>
    obtain ⟨m, z, rfl⟩ : ∃ m z, x = tI m z := ⟨x.1, x.2, rfl⟩
    have hn : m ≠ n := by
      rintro rfl
      simp at hx
    simp only [exec, fam_exec] at he
    cases h : (S m).exec (obj s.d m) z b with
    | none => rw [h] at he; cases he
    | some q =>
      obtain ⟨y, ps, es⟩ := q
      rw [h] at he
      cases he
      refine ⟨{ R with d := R.d.trans (updD_ne _ _ (Ne.symm hn)).symm, log := ?_ },
        follow_ne hn ps (hc m z _ _ _ rfl h)⟩
      simp only [history_append, R.log, history_ds_ne hn, List.append_nil]

theorem fault_part {s : RSt (fam own S)} {x : Instr (fam own S)} {b : Bool} (he : exec s x b = .fault) :
    ∃ n y, instrPart n x = some y ∧ ∀ t : RSt (S n), StRel n s t → exec t y b = .fault := by
  cases x with
  | start i =>
    refine ⟨own i, .start i, by simp [instrPart], fun t R => ?_⟩
    simp only [exec, R.d]
    simp only [exec, fam_start] at he
    cases h : (S (own i)).start (obj s.d (own i)) i b with
    | none => rfl
    | some q =>
      obtain ⟨y, r, es⟩ := q
      rw [h] at he
      cases r <;> cases he
  | setFast i v => cases he
  | listen i => simp only [exec] at he; split at he <;> cases he
  | register i =>
    refine ⟨own i, .register i, by simp [instrPart], fun t R => ?_⟩
    simp only [exec, R.evt i rfl]
    simp only [exec] at he
    split at he
    · rfl
    · split at he <;> cases he
  | tryCancel i l =>
    refine ⟨own i, .tryCancel i l, by simp [instrPart], fun t R => ?_⟩
    simp only [exec, R.d]
    simp only [exec, fam_tryCancel] at he
    cases h : (S (own i)).tryCancel (obj s.d (own i)) i with
    | none => rfl
    | some q => rw [h] at he; cases he
  | transition i nb =>
    refine ⟨own i, .transition i nb, by simp [instrPart], fun t R => ?_⟩
    simp only [exec, R.bits i rfl]
    simp only [exec] at he
    split at he
    · rename_i h; rw [if_pos h]
    · split at he
      · cases he
      · split at he <;> cases he
  | unregister i =>
    refine ⟨own i, .unregister i, by simp [instrPart], fun t R => ?_⟩
    simp only [exec, R.evt i rfl, R.req, R.cbs]
    simp only [exec] at he
    split at he
    · rfl
    · split at he
      · cases he
      · rename_i h1
        rw [if_neg h1]
        split at he
        · cases he
        · rename_i h2
          rw [if_neg]
          simpa using h2
  | resume i => cases he
  | complete i => cases he
  | cancel e => cases he
  | ds x =>
    obtain ⟨m, z, rfl⟩ : ∃ m z, x = tI m z := ⟨x.1, x.2, rfl⟩
    refine ⟨m, .ds z, by simp, fun t R => ?_⟩
    simp only [exec, R.d]
    simp only [exec, fam_exec] at he
    cases h : (S m).exec (obj s.d m) z b with
    | none => rfl
    | some q => rw [h] at he; cases he

/-- An instruction that concerns object `n` is an instruction of the machine of object `n`. -/
theorem exec_own {n : Nat} {s s' : RSt (fam own S)} {t : RSt (S n)} {x : Instr (fam own S)} {y : Instr (S n)} {b : Bool}
    {p : List (Instr (fam own S))} (R : StRel n s t) (hx : instrPart n x = some y)
    (hf : ∀ i v, x = .setFast i v → v.1 = own i) (hc : Complete own s x b) (he : exec s x b = .ok s' p) :
    ∃ t', exec t y b = .ok t' (p.filterMap (instrPart n)) ∧ StRel n s' t' := by
  cases x with
  | start i =>
    simp only [instrPart] at hx
    split at hx
    · rename_i hn
      subst hn
      cases hx
      simp only [exec, R.d]
      simp only [exec, fam_start] at he
      cases h : (S (own i)).start (obj s.d (own i)) i b with
      | none => rw [h] at he; cases he
      | some q =>
        obtain ⟨z, r, es⟩ := q
        rw [h] at he
        have : ∀ w, StRel (own i) { s with d := setObj s.d (own i) z, log := s.log ++ w }
            { t with d := z, log := t.log ++ history (own i) w } := fun w =>
          { R with d := (updD_same _ _ _).symm, log := by simp only [history_append, R.log] }
        have h2 := this ((es.map (tE (own i))).map Ev.ds)
        rw [history_ds_same] at h2
        cases r <;> cases he
        · exact ⟨_, by simp [instrPart], h2⟩
        · exact ⟨_, by simp, h2⟩
    · cases hx
  | setFast i v =>
    obtain ⟨m, v⟩ := v
    have hv : m = own i := hf i _ rfl
    simp only [instrPart] at hx
    by_cases hm : m = n
    · subst hm
      rw [part_same] at hx
      cases hx
      cases he
      refine ⟨_, rfl, { R with d := ?_, log := ?_ }⟩
      · subst hv; simp [fam_fin, R.d]
      · simp only [history_append, R.log]
        exact congrArg _ (history_done_same m i v).symm
    · rw [part_ne' hm] at hx; cases hx
  | listen i =>
    simp only [instrPart] at hx
    split at hx
    · rename_i hn
      cases hx
      have : ∀ w : Option EvId, StRel n { s with evt := upd s.evt i w } { t with evt := upd t.evt i w } := by
        intro w
        refine { R with evt := fun j hj => ?_ }
        simp only [upd_apply, R.evt j hj]
      simp only [exec, R.ct i hn]
      simp only [exec] at he
      split at he <;> cases he <;> exact ⟨_, by simp [instrPart, hn], this _⟩
    · cases hx
  | register i =>
    simp only [instrPart] at hx
    split at hx
    · rename_i hn
      cases hx
      simp only [exec, R.evt i hn, R.req]
      simp only [exec] at he
      split at he
      · cases he
      · rename_i e h
        split at he <;> rename_i h1 <;> cases he
        · rw [if_pos h1]
          exact ⟨_, by simp [instrPart, hn], R⟩
        · rw [if_neg h1]
          have h2 : StRel n { s with cbs := upd s.cbs e (s.cbs e ++ [i]) }
              { t with req := s.req, cbs := upd t.cbs e ((s.cbs e).filter (fun i => own i = n) ++ [i]) } := by
            refine { R with req := rfl, cbs := fun e' => ?_ }
            by_cases h : e' = e
            · subst h; simp [hn]
            · simp [R.cbs, h]
          exact ⟨_, by simp [instrPart, hn, R.cbs], h2⟩
    · cases hx
  | tryCancel i l =>
    simp only [instrPart] at hx
    split at hx
    · rename_i hn
      subst hn
      cases hx
      simp only [exec, R.d]
      simp only [exec, fam_tryCancel] at he
      cases h : (S (own i)).tryCancel (obj s.d (own i)) i with
      | none => rw [h] at he; cases he
      | some q =>
        obtain ⟨z, r, es⟩ := q
        rw [h] at he
        cases he
        have h2 : StRel (own i) { s with d := setObj s.d (own i) z, log := s.log ++ (es.map (tE (own i))).map Ev.ds }
            { t with d := z, log := t.log ++ es.map Ev.ds } := by
          refine { R with d := (updD_same _ _ _).symm, log := ?_ }
          simp only [history_append, R.log, history_ds_same]
        exact ⟨_, by simp [instrPart], h2⟩
    · cases hx
  | transition i nb =>
    simp only [instrPart] at hx
    split at hx
    · rename_i hn
      cases hx
      have : ∀ w, StRel n { s with bits := upd s.bits i w } { t with bits := upd t.bits i w } := by
        intro w
        refine { R with bits := fun j hj => ?_ }
        simp only [upd_apply, R.bits j hj]
      simp only [exec, R.bits i hn]
      simp only [exec] at he
      split at he
      · cases he
      · rename_i h1
        rw [if_neg h1]
        split at he
        · rename_i h2
          rw [if_pos h2]
          cases he; exact ⟨_, rfl, this _⟩
        · rename_i h2
          rw [if_neg h2]
          split at he <;> rename_i h3 <;> cases he
          · rw [if_pos h3]; exact ⟨_, by simp [instrPart, hn], this _⟩
          · rw [if_neg h3]; exact ⟨_, by simp [instrPart, hn], this _⟩
    · cases hx
  | unregister i =>
    simp only [instrPart] at hx
    split at hx
    · rename_i hn
      cases hx
      simp only [exec, R.evt i hn, R.req, R.cbs]
      simp only [exec] at he
      split at he
      · cases he
      · rename_i e h
        split at he
        · rename_i h1
          rw [if_pos h1]
          cases he; exact ⟨_, rfl, R⟩
        · rename_i h1
          rw [if_neg h1]
          split at he <;> rename_i h2 <;> cases he
          rw [if_pos (by simpa [hn] using h2)]
          have h3 : StRel n { s with cbs := upd s.cbs e ((s.cbs e).erase i) }
              { t with req := s.req, cbs := upd t.cbs e (((s.cbs e).filter (fun i => own i = n)).erase i) } := by
            refine { R with req := rfl, cbs := fun e' => ?_ }
            by_cases h : e' = e
            · subst h
              simp only [upd_same]
              rw [erase_filter_eq hn]
            · simp [R.cbs, h]
          exact ⟨_, by simp [instrPart, hn], h3⟩
    · cases hx
  | resume i =>
    simp only [instrPart] at hx
    split at hx
    · rename_i hn
      subst hn
      cases hx
      cases he
      refine ⟨_, rfl, { R with d := ?_, log := ?_ }⟩
      · simp [fam_fin, R.d]
      · simp only [history_append, R.log, R.d, fam_val, history_done_same]
    · cases hx
  | complete i =>
    simp only [instrPart] at hx
    split at hx
    · rename_i hn
      cases hx
      cases he
      exact ⟨_, by simp [exec, instrPart, hn], R⟩
    · cases hx
  | cancel e =>
    cases hx
    cases he
    have h2 : StRel n { s with req := upd s.req e true, cbs := upd s.cbs e [], log := s.log ++ [.cancel e] }
        { t with req := upd t.req e true, cbs := upd t.cbs e [], log := t.log ++ [.cancel e] } := by
      refine { R with req := ?_, cbs := fun e' => ?_, log := ?_ }
      · simp only [R.req]
      · by_cases h : e' = e
        · subst h; simp
        · simp [R.cbs, h]
      · simp only [history_append, R.log]
        rfl
    refine ⟨_, ?_, h2⟩
    simp only [exec, R.cbs]
    congr 1
    induction s.cbs e with
    | nil => rfl
    | cons a l ih =>
      simp only [List.filter_cons, List.map_cons, List.filterMap_cons, instrPart] at ih ⊢
      by_cases ha : own a = n
      · simp [ha, ih]
      · simp [ha, ih]
  | ds x =>
    obtain ⟨m, z, rfl⟩ : ∃ m z, x = tI m z := ⟨x.1, x.2, rfl⟩
    by_cases hm : m = n
    · subst hm
      rw [ds_same] at hx
      cases hx
      simp only [exec, R.d]
      simp only [exec, fam_exec] at he
      cases h : (S m).exec (obj s.d m) z b with
      | none => rw [h] at he; cases he
      | some q =>
        obtain ⟨y, ps, es⟩ := q
        rw [h] at he
        cases he
        have h2 : StRel m { s with d := setObj s.d m y, log := s.log ++ (es.map (tE m)).map Ev.ds }
            { t with d := y, log := t.log ++ es.map Ev.ds } := by
          refine { R with d := (updD_same _ _ _).symm, log := ?_ }
          simp only [history_append, R.log, history_ds_same]
        exact ⟨_, congrArg _ (follow_same m ps (hc m z _ _ _ rfl h)).symm, h2⟩
    · rw [ds_ne hm] at hx; cases hx

def tP (m : Nat) (p : (S m).P) : (fam own S).P := (⟨m, p⟩ : Σ n, (S n).P)

theorem fam_admit {d d' : (fam own S).D} {i : OpId} {m : Nat} {p : (S m).P}
    (h : (fam own S).admit d i (tP m p) = some d') :
    m = own i ∧ ∃ x, (S m).admit (obj d m) i p = some x ∧ d' = setObj d m x := by
  simp only [fam, tP] at h
  split at h
  · rename_i hm
    split at h
    · rename_i x hx
      cases h
      exact ⟨hm, x, hx, rfl⟩
    · cases h
  · cases h

theorem fam_call {d d' : (fam own S).D} {m : Nat} {x : (S m).I} (h : (fam own S).call d (tI m x) = some d') :
    ∃ y, (S m).call (obj d m) x = some y ∧ d' = setObj d m y := by
  simp only [fam, tI] at h
  split at h
  · rename_i y hy
    cases h
    exact ⟨y, hy, rfl⟩
  · cases h

/-- Calls that have not returned. -/
def running' {ι : Type} (acts : List (List ι)) : List (List ι) := acts.filter (fun a => !a.isEmpty)

theorem running'_append {ι : Type} (a b : List (List ι)) : running' (a ++ b) = running' a ++ running' b := by
  simp [running']

/-- Two lists of calls that agree except for calls that have returned: a running call of one is a running call of the other. -/
theorem running'_run {ι : Type} {A B : List (List ι)} {a : List ι} {acts : List (List ι)} (ha : a ≠ [])
    (h : running' acts = running' (A ++ a :: B)) (q : List ι) :
    ∃ k, acts[k]? = some a ∧ running' (acts.set k q) = running' (A ++ q :: B) := by
  have h1 : running' (A ++ a :: B) = running' A ++ a :: running' B := by
    cases a with
    | nil => exact absurd rfl ha
    | cons x l => simp [running']
  rw [h1] at h
  obtain ⟨m1, m2, e, h2, h3⟩ := List.filter_eq_append_iff.1 h
  obtain ⟨m3, m4, e2, h4, _, h5⟩ := List.filter_eq_cons_iff.1 h3
  subst e e2
  refine ⟨(m1 ++ m3).length, ?_, ?_⟩
  · simp
  · have e3 : m1 ++ (m3 ++ a :: m4) = (m1 ++ m3) ++ a :: m4 := by simp
    rw [e3]
    have e4 : ((m1 ++ m3) ++ a :: m4).set (m1 ++ m3).length q = (m1 ++ m3) ++ q :: m4 := by simp
    rw [e4]
    have h6 : running' m3 = [] := by
      simp only [running', List.filter_eq_nil_iff]
      exact fun x hx => h4 x hx
    have h7 : ∀ l : List (List ι), running' (q :: l) = running' [q] ++ running' l := fun l => running'_append [q] l
    rw [running'_append, running'_append, running'_append, h7, h7 B, h6]
    rw [show running' m1 = running' A from h2, show running' m4 = running' B from h5]
    simp

theorem calls_set {n : Nat} {acts : List (List (Instr (fam own S)))} {k : Nat} {a : List (Instr (fam own S))}
    (hk : acts[k]? = some a) : ∃ A B, calls n acts = A ++ a.filterMap (instrPart n) :: B ∧
      ∀ q, calls n (acts.set k q) = A ++ q.filterMap (instrPart n) :: B := by
  obtain ⟨hlt, he⟩ := List.getElem?_eq_some_iff.1 hk
  refine ⟨calls n (acts.take k), calls n (acts.drop (k + 1)), ?_, fun q => ?_⟩
  · have : acts = acts.take k ++ a :: acts.drop (k + 1) := by
      rw [← he, ← List.drop_eq_getElem_cons hlt, List.take_append_drop]
    conv => lhs; rw [this]
    simp [calls]
  · have : acts.set k q = acts.take k ++ q :: acts.drop (k + 1) := by
      rw [List.set_eq_take_append_cons_drop, if_pos hlt]
    rw [this]
    simp [calls]

theorem StRel.init {d0 : ∀ n, (S n).D} (n : Nat) :
    StRel (own := own) n (RSt.init (S := fam own S) d0) (RSt.init (d0 n)) where
  d := rfl
  req := rfl
  cbs _ := rfl
  bits _ _ := rfl
  evt _ _ := rfl
  ct _ _ := rfl
  started _ _ := rfl
  log := rfl

theorem exec_started {T : DS} {s s' : RSt T} {x : Instr T} {b : Bool} {p : List (Instr T)} (h : exec s x b = .ok s' p) :
    s'.started = s.started := by
  cases x <;> simp only [exec] at h
  all_goals (repeat' (split at h)) <;> first | (cases h; done) | (cases h; rfl)

/-- Configuration of all objects and configuration of object `n`. -/
structure Rel (n : Nat) (c : Conf (mach (fam own S))) (k : Conf (mach (S n))) : Prop where
  st : StRel n c.sh k.sh
  acts : running' k.acts = running' (calls n c.acts)
  own : ∀ i, k.sh.started i = true → own i = n

theorem resetOk_part {n : Nat} {c : Conf (mach (fam own S))} {k : Conf (mach (S n))} (T : Typed c.sh c.acts) (R : Rel n c k)
    {e : EvId} (h : resetOk c.sh c.acts e = true) : resetOk k.sh k.acts e = true := by
  simp only [resetOk, Bool.and_eq_true, List.all_eq_true] at h ⊢
  obtain ⟨h1, h2⟩ := h
  constructor
  · intro v hv
    rw [R.st.log] at hv
    cases v with
    | begin i ct p =>
      obtain ⟨w, hw, hp⟩ := List.mem_filterMap.1 hv
      cases w with
      | begin j ct' p' =>
        simp only [evPart, Option.map_eq_some_iff] at hp
        obtain ⟨p2, hp2, hp3⟩ := hp
        cases hp3
        have h3 := h1 _ hw
        simp only [Bool.or_eq_true, List.any_eq_true] at h3 ⊢
        rcases h3 with h3 | ⟨u, hu, h3⟩
        · exact .inl h3
        · right
          cases u with
          | done j' v =>
            have hj : j' = i := by simpa [isDone] using h3
            subst hj
            have h4 := T.don _ _ hu
            have h5 := T.beg _ _ _ hw
            have h6 : p' = ⟨n, p⟩ := part_some hp2
            subst h6
            obtain ⟨m, v⟩ := v
            have h7 : m = n := by simp only at h4 h5; omega
            subst h7
            refine ⟨.done j' v, ?_, by simp [isDone]⟩
            rw [R.st.log]
            exact List.mem_filterMap.2 ⟨_, hu, done_same m j' v⟩
          | _ => simp [isDone] at h3
      | done j v => simp [evPart] at hp
      | cancel e => simp [evPart] at hp
      | reset e => simp [evPart] at hp
      | ds x => simp [evPart] at hp
    | _ => rfl
  · intro a ha x hx
    have ha' : a ∈ running' k.acts := by
      simp only [running', List.mem_filter]
      refine ⟨ha, ?_⟩
      cases a with
      | nil => cases hx
      | cons => rfl
    rw [R.acts] at ha'
    have ha2 := (List.mem_filter.1 ha').1
    obtain ⟨a', ha3, rfl⟩ := List.mem_map.1 ha2
    obtain ⟨y, hy, hyx⟩ := List.mem_filterMap.1 hx
    have h3 := h2 a' ha3 y hy
    have h4 : ∀ i, x.op = some i → y.op = some i ∧ own i = n := by
      intro i hi
      cases y <;> simp only [instrPart] at hyx
      case setFast j v =>
        obtain ⟨m, v⟩ := v
        have h5 := T.fas j _ ⟨a', ha3, hy⟩
        simp only [Option.map_eq_some_iff] at hyx
        obtain ⟨v', hv', rfl⟩ := hyx
        have h6 := part_some hv'
        have h7 : m = n := congrArg Sigma.fst h6
        simp only [Instr.op] at hi ⊢
        cases hi
        exact ⟨rfl, h5.symm.trans h7⟩
      case cancel => cases hyx; cases hi
      case ds =>
        simp only [Option.map_eq_some_iff] at hyx
        obtain ⟨v', hv', rfl⟩ := hyx
        cases hi
      all_goals
        split at hyx
        · cases hyx; simp only [Instr.op] at hi ⊢; cases hi; exact ⟨rfl, by assumption⟩
        · cases hyx
    cases ho : x.op with
    | none => rfl
    | some i =>
      obtain ⟨h5, h6⟩ := h4 i ho
      rw [h5] at h3
      simp only [R.st.ct i h6]
      exact h3

/-- A step of a running call is a step of the objects that it concerns. -/
theorem sim_run {d0 : ∀ n, (S n).D} (L : ∀ n, Lawful (S n) (d0 n)) {c c' : Conf (mach (fam own S))} (hb : c.bad = false)
    (T : Typed c.sh c.acts) (ih : ∀ n, ∃ k, Reach (mach (S n)) (RSt.init (d0 n)) k ∧ Rel n c k) {j : Nat} {b : Bool}
    (hs : (mach (fam own S)).step c (.run j b) = some c') :
    ∃ x r s' p, c.acts[j]? = some (x :: r) ∧ exec c.sh x b = .ok s' p ∧ c' = ⟨s', c.acts.set j (p ++ r), false⟩ ∧
      ∀ n k, Reach (mach (S n)) (RSt.init (d0 n)) k → Rel n c k →
        (instrPart n x = none ∧ Rel n c' k) ∨
        (instrPart n x ≠ none ∧ ∃ j' k', (mach (S n)).step k (.run j' b) = some k' ∧ Rel n c' k') := by
  simp only [Mach.step, hb] at hs
  simp only [Bool.false_eq_true, if_false] at hs
  cases hj : c.acts[j]? with
  | none => rw [hj] at hs; cases hs
  | some a =>
    cases a with
    | nil => rw [hj] at hs; cases hs
    | cons x r =>
      rw [hj] at hs
      simp only at hs
      -- the running call in the machine of object `n`
      have find : ∀ n k y, Rel n c k → instrPart n x = some y → ∀ q, ∃ j', k.acts[j']? = some (y :: r.filterMap (instrPart n)) ∧
          running' (k.acts.set j' (q.filterMap (instrPart n) ++ r.filterMap (instrPart n))) =
            running' (calls n (c.acts.set j (q ++ r))) := by
        intro n k y R hy q
        obtain ⟨A, B, h1, h2⟩ := calls_set (n := n) hj
        have h3 := R.acts
        rw [h1, List.filterMap_cons_some hy] at h3
        obtain ⟨j', h4, h5⟩ := running'_run (by simp) h3 (q.filterMap (instrPart n) ++ r.filterMap (instrPart n))
        refine ⟨j', h4, ?_⟩
        rw [h5, h2, List.filterMap_append]
      cases he : exec c.sh x b with
      | block => rw [he] at hs; cases hs
      | fault =>
        exfalso
        obtain ⟨n, y, hy, hf⟩ := fault_part he
        obtain ⟨k, hk, R⟩ := ih n
        obtain ⟨j', h1, -⟩ := find n k y R hy []
        obtain ⟨k', h2, h3⟩ := C06_calls_make_progress (L n) hk h1 b
        have h4 := hf _ R.st
        simp only [Mach.step, bad_false (L n) hk, h1] at h2
        simp [h4] at h2
        subst h2
        cases h3
      | ok s' p =>
        rw [he] at hs
        cases hs
        refine ⟨x, r, s', p, rfl, he, rfl, fun n k hk R => ?_⟩
        have hf : ∀ i v, x = .setFast i v → v.1 = own i := by
          rintro i v rfl
          exact T.fas i v (pending_top hj)
        have hc : Complete own c.sh x b := by
          rintro m z d' ps es rfl hx i hi
          obtain ⟨k, hk, R⟩ := ih m
          obtain ⟨j', h1, -⟩ := find m k (.ds z) R (ds_same m z) []
          have h2 : (mach (S m)).step k (.run j' b) = some ⟨{ k.sh with d := d', log := k.sh.log ++ es.map .ds },
              k.acts.set j' (ps.map follow ++ r.filterMap (instrPart m)), false⟩ := by
            simp only [Mach.step, bad_false (L m) hk, h1]
            simp [exec, R.st.d, hx]
          have h3 := Reach.step hk h2
          obtain ⟨ph, _, hC⟩ := reach_inv (L m) h3
          have h4 : Pending (k.acts.set j' (ps.map follow ++ r.filterMap (instrPart m))) (.complete i) := by
            obtain ⟨hlt, _⟩ := List.getElem?_eq_some_iff.1 h1
            refine ⟨ps.map follow ++ r.filterMap (instrPart m), List.mem_of_getElem? (i := j') ?_, ?_⟩
            · rw [List.getElem?_set_self hlt]
            · exact List.mem_append_left _ (List.mem_map.2 ⟨_, hi, rfl⟩)
          exact R.own i (hC.op_started h4 rfl)
        cases hx : instrPart n x with
        | none =>
          obtain ⟨h1, h2⟩ := exec_other R.st hx hf hc he
          refine .inl ⟨rfl, h1, ?_, R.own⟩
          obtain ⟨A, B, h3, h4⟩ := calls_set (n := n) hj
          show running' k.acts = running' (calls n (c.acts.set j (p ++ r)))
          rw [R.acts, h3, h4, List.filterMap_cons_none hx, List.filterMap_append, h2, List.nil_append]
        | some y =>
          obtain ⟨t', h1, h2⟩ := exec_own R.st hx hf hc he
          obtain ⟨j', h3, h4⟩ := find n k y R hx p
          refine .inr ⟨by simp, j', ⟨t', k.acts.set j' (p.filterMap (instrPart n) ++ r.filterMap (instrPart n)), false⟩, ?_,
            h2, h4, ?_⟩
          · simp only [Mach.step, bad_false (L n) hk, h3]
            simp [h1]
          · have h5 : t'.started = k.sh.started := exec_started h1
            intro i hi
            exact R.own i (by rw [← h5]; exact hi)

theorem simulate {d0 : ∀ n, (S n).D} (L : ∀ n, Lawful (S n) (d0 n)) {c : Conf (mach (fam own S))}
    (h : Reach (mach (fam own S)) (RSt.init d0) c) :
    c.bad = false ∧ ∀ n, ∃ k, Reach (mach (S n)) (RSt.init (d0 n)) k ∧ Rel n c k := by
  induction h with
  | init =>
    refine ⟨rfl, fun n => ⟨_, .init, StRel.init n, rfl, ?_⟩⟩
    intro i hi; cases hi
  | @step c c' l hr hs ih =>
    obtain ⟨hb, ih⟩ := ih
    have T := typed hr
    cases l with
    | env a =>
      simp only [Mach.step, hb] at hs
      simp only [Bool.false_eq_true, if_false] at hs
      cases he : env c.sh c.acts a with
      | none => rw [he] at hs; cases hs
      | some q =>
        obtain ⟨s', p⟩ := q
        rw [he] at hs
        cases hs
        refine ⟨rfl, fun n => ?_⟩
        obtain ⟨k, hk, R⟩ := ih n
        have hkb : k.bad = false := bad_false (L n) hk
        -- a step of the object
        have go : ∀ a' s2 p2, env k.sh k.acts a' = some (s2, p2) → p2 = p.filterMap (instrPart n) → StRel n s' s2 →
            (∀ i, s2.started i = true → own i = n) →
            ∃ k', Reach (mach (S n)) (RSt.init (d0 n)) k' ∧ Rel n ⟨s', c.acts ++ [p], false⟩ k' := by
          intro a' s2 p2 h1 h2 h3 h4
          refine ⟨⟨s2, k.acts ++ [p2], false⟩, .step (l := .env a') hk ?_, h3, ?_, h4⟩
          · simp only [Mach.step, hkb]; simp [h1]
          · simp only [running'_append, calls, List.map_append, h2]
            rw [R.acts]; simp [running', calls]
        have stay : StRel n s' k.sh → p.filterMap (instrPart n) = [] →
            ∃ k', Reach (mach (S n)) (RSt.init (d0 n)) k' ∧ Rel n ⟨s', c.acts ++ [p], false⟩ k' := by
          intro h1 h2
          refine ⟨k, hk, h1, ?_, R.own⟩
          simp only [running'_append, calls, List.map_append, List.map_cons, List.map_nil, h2]
          rw [R.acts]; simp [running', calls]
        cases a with
        | newOp i ct pp =>
          obtain ⟨m, pp, rfl⟩ : ∃ m q, pp = tP m q := ⟨pp.1, pp.2, rfl⟩
          simp only [env] at he
          split at he
          · cases he
          · rename_i hst
            split at he
            · rename_i d' hd
              cases he
              obtain ⟨rfl, x, hx, rfl⟩ := fam_admit hd
              by_cases hn : own i = n
              · subst hn
                have e1 : k.sh.started i = false := by rw [R.st.started i rfl]; simpa using hst
                refine go (.newOp i ct pp)
                  { k.sh with d := x, ct := upd k.sh.ct i ct, started := upd k.sh.started i true, log := k.sh.log ++ [.begin i ct pp] } _ (by simp only [env, e1, R.st.d, hx]; rfl) (by simp [instrPart]) ?_ ?_
                · refine { R.st with d := (updD_same _ _ _).symm, ct := fun j hj => ?_, started := fun j hj => ?_, log := ?_ }
                  · simp only [upd_apply, R.st.ct j hj]
                  · simp only [upd_apply, R.st.started j hj]
                  · simp only [history_append, R.st.log]
                    have : history (own := own) (S := S) (own i) [.begin i ct (tP (own i) pp)] = [.begin i ct pp] := by
                      simp [history, evPart, tP]
                    rw [this]
                · intro j hj
                  simp only [upd_apply] at hj
                  split at hj
                  · rename_i e; rw [e]
                  · exact R.own j hj
              · refine stay ?_ (by simp [instrPart, hn])
                refine { R.st with d := R.st.d.trans (updD_ne _ _ (Ne.symm hn)).symm, ct := fun j hj => ?_,
                                   started := fun j hj => ?_, log := ?_ }
                · have : j ≠ i := by rintro rfl; exact hn hj
                  simp only [upd_apply, this, if_false]
                  exact R.st.ct j hj
                · have : j ≠ i := by rintro rfl; exact hn hj
                  simp only [upd_apply, this, if_false]
                  exact R.st.started j hj
                · simp only [history_append, R.st.log]
                  have : history (own := own) (S := S) n [.begin i ct (tP (own i) pp)] = [] := by
                    simp [history, evPart, tP, part_ne' hn]
                  rw [this, List.append_nil]
            · cases he
        | cancel e =>
          cases he
          exact go (.cancel e) _ _ rfl (by simp [instrPart]) R.st R.own
        | call x =>
          obtain ⟨m, x, rfl⟩ : ∃ m z, x = tI m z := ⟨x.1, x.2, rfl⟩
          simp only [env] at he
          split at he
          · rename_i d' hd
            cases he
            obtain ⟨y, hy, rfl⟩ := fam_call hd
            by_cases hn : m = n
            · subst hn
              refine go (.call x) { k.sh with d := y } [.ds x] (by simp only [env, R.st.d, hy]) (by simp) ?_ R.own
              exact { R.st with d := (updD_same _ _ _).symm }
            · refine stay ?_ (by simp [ds_ne hn])
              exact { R.st with d := R.st.d.trans (updD_ne _ _ (Ne.symm hn)).symm }
          · cases he
        | reset e =>
          simp only [env] at he
          split at he
          · rename_i h1
            cases he
            refine go (.reset e) { k.sh with req := upd k.sh.req e false, log := k.sh.log ++ [.reset e] } []
              (by simp only [env, resetOk_part T R h1, if_true]) rfl ?_ R.own
            refine { R.st with req := ?_, log := ?_ }
            · simp only [R.st.req]
            · simp only [history_append, R.st.log]; rfl
          · cases he
    | run j b =>
      obtain ⟨x, r, s', p, _, _, rfl, h⟩ := sim_run L hb T ih hs
      refine ⟨rfl, fun n => ?_⟩
      obtain ⟨k, hk, R⟩ := ih n
      rcases h n k hk R with ⟨_, h1⟩ | ⟨_, j', k', h1, h2⟩
      · exact ⟨k, hk, h1⟩
      · exact ⟨k', .step hk h1, h2⟩

end Verif.Resolver
