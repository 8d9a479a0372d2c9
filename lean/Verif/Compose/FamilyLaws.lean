import Verif.Compose.Family

/-! # A collection of objects keeps the contract of `cancellation_resolver` if each of them does -/

namespace Verif.Resolver

variable {S : Nat → DS} {own : OpId → Nat} {d0 : ∀ n, (S n).D}

/-- The phase, as object `n` sees it. -/
def pv (n : Nat) : Phase (fam own S).V → Phase (S n).V
  | .new => .new
  | .fast v => match part n v with
    | some w => .fast w
    | none => .new
  | .finFast => .finFast
  | .waiting => .waiting
  | .taken => .taken
  | .gone => .gone
  | .fin => .fin

def phPart (n : Nat) (ph : OpId → Phase (fam own S).V) (i : OpId) : Phase (S n).V :=
  if own i = n then pv n (ph i) else .new

theorem phPart_upd (ph : OpId → Phase (fam own S).V) (i : OpId) (q : Phase (fam own S).V) :
    phPart (own i) (upd ph i q) = upd (phPart (own i) ph) i (pv (own i) q) := by
  funext j
  by_cases e : j = i
  · subst e; simp [phPart]
  · simp [phPart, e]

theorem phPart_upd_ne (ph : OpId → Phase (fam own S).V) {n : Nat} {i : OpId} (h : own i ≠ n) (q : Phase (fam own S).V) :
    phPart n (upd ph i q) = phPart n ph := by
  funext j
  by_cases e : j = i
  · subst e; simp [phPart, h]
  · simp [phPart, e]

theorem pv_fast (n : Nat) (v : (S n).V) : pv (own := own) (S := S) n (.fast (tV n v)) = .fast v := by
  have : part n (tV (own := own) n v) = some v := part_same (F := fun n => (S n).V) n v
  simp only [pv, this]

structure FInv (L : ∀ n, Lawful (S n) (d0 n)) (d : (fam own S).D) (ph : OpId → Phase (fam own S).V)
    (log : List (Ev (fam own S))) (pi : List (fam own S).I) : Prop where
  all : ∀ n, (L n).Inv (obj d n) (phPart n ph) (history n log) (pi.filterMap (part (F := fun n => (S n).I) n))
  fst : ∀ i v, ph i = .fast v → ∃ w, v = tV (own i) w
  beg : ∀ i ct p, .begin i ct p ∈ log → ∃ w, p = tP (own i) w

theorem history_mem_begin {log : List (Ev (fam own S))} {n : Nat} {i : OpId} {ct : Option EvId} {p : (S n).P}
    (h : .begin i ct (tP n p) ∈ log) : .begin i ct p ∈ history n log :=
  List.mem_filterMap.2 ⟨_, h, by simp [evPart, tP]⟩

theorem history_mem_cancel {log : List (Ev (fam own S))} (n : Nat) {e : EvId}
    (h : .cancel e ∈ log) : .cancel e ∈ history n log :=
  List.mem_filterMap.2 ⟨_, h, rfl⟩

theorem history_begin_mem {log : List (Ev (fam own S))} {n : Nat} {i : OpId} {ct : Option EvId} {p : (S n).P}
    (h : .begin i ct p ∈ history n log) : .begin i ct (tP n p) ∈ log := by
  obtain ⟨x, hx, he⟩ := List.mem_filterMap.1 h
  cases x <;> simp only [evPart, Option.map_eq_some_iff, reduceCtorEq, and_false, exists_false, Option.some.injEq] at he
  obtain ⟨q, hq, h2⟩ := he
  cases h2
  rw [part_some hq] at hx
  exact hx

theorem history_begin_same (n : Nat) (i : OpId) (ct : Option EvId) (p : (S n).P) :
    history (own := own) (S := S) n [.begin i ct (tP n p)] = [.begin i ct p] := by simp [history, evPart, tP]

theorem history_begin_ne {n m : Nat} (h : m ≠ n) (i : OpId) (ct : Option EvId) (p : (S m).P) :
    history (own := own) (S := S) n [.begin i ct (tP m p)] = [] := by
  simp [history, evPart, tP, part_ne' h]

theorem obj_same (d : (fam own S).D) (n : Nat) (x : (S n).D) : obj (setObj d n x) n = x := by
  simp [obj, setObj, updD]

theorem begin_ds {log : List (Ev (fam own S))} {es : List (fam own S).E} {i : OpId} {ct : Option EvId} {p : (fam own S).P}
    (h : .begin i ct p ∈ log ++ es.map .ds) : .begin i ct p ∈ log := by
  simpa using h

theorem ops_map (n : Nat) (ps : List (OpId ⊕ (S n).I)) : ops (ps.map (tO (own := own) n)) = ops ps := by
  induction ps with
  | nil => rfl
  | cons a l ih =>
    cases a with
    | inl i => exact congrArg (List.cons i) ih
    | inr w => exact ih

theorem insts_map (n : Nat) (ps : List (OpId ⊕ (S n).I)) : insts (ps.map (tO (own := own) n)) = (insts ps).map (tI n) := by
  induction ps with
  | nil => rfl
  | cons a l ih =>
    cases a with
    | inl i => exact ih
    | inr w => exact congrArg (List.cons (tI n w)) ih

theorem part_insts_same (n : Nat) (l : List (S n).I) :
    (l.map (tI (own := own) n)).filterMap (part (F := fun n => (S n).I) n) = l := by
  induction l with
  | nil => rfl
  | cons a l ih => exact (List.filterMap_cons_some (part_same (F := fun n => (S n).I) n a)).trans (congrArg _ ih)

theorem part_insts_ne {n m : Nat} (h : m ≠ n) (l : List (S m).I) :
    (l.map (tI (own := own) m)).filterMap (part (F := fun n => (S n).I) n) = [] := by
  induction l with
  | nil => rfl
  | cons a l ih => exact (List.filterMap_cons_none (part_ne' h)).trans ih

theorem fm_same (m : Nat) (x : (S m).I) (pi : List (fam own S).I) :
    (tI m x :: pi).filterMap (part (F := fun n => (S n).I) m) = x :: pi.filterMap (part (F := fun n => (S n).I) m) :=
  List.filterMap_cons_some (part_same (F := fun n => (S n).I) m x)

theorem fm_ne {n m : Nat} (h : m ≠ n) (x : (S m).I) (pi : List (fam own S).I) :
    (tI m x :: pi).filterMap (part (F := fun n => (S n).I) n) = pi.filterMap (part (F := fun n => (S n).I) n) :=
  List.filterMap_cons_none (part_ne' h)

theorem fa_same (m : Nat) (l : List (S m).I) (pi : List (fam own S).I) :
    (l.map (tI m) ++ pi).filterMap (part (F := fun n => (S n).I) m) = l ++ pi.filterMap (part (F := fun n => (S n).I) m) :=
  List.filterMap_append.trans (congrArg (· ++ _) (part_insts_same m l))

theorem fa_ne {n m : Nat} (h : m ≠ n) (l : List (S m).I) (pi : List (fam own S).I) :
    (l.map (tI m) ++ pi).filterMap (part (F := fun n => (S n).I) n) = pi.filterMap (part (F := fun n => (S n).I) n) :=
  List.filterMap_append.trans (congrArg (· ++ _) (part_insts_ne h l))

/-- Change of the state of one object, of the phase of one of its operations, and of the history. -/
theorem FInv.one {L : ∀ n, Lawful (S n) (d0 n)} {d : (fam own S).D} {ph : OpId → Phase (fam own S).V}
    {log : List (Ev (fam own S))} {pi : List (fam own S).I} (h : FInv L d ph log pi) (i : OpId) (x : (S (own i)).D)
    (q : Phase (fam own S).V) (l : List (Ev (fam own S))) (l' : List (Ev (S (own i))))
    (hl : history (own i) l = l') (hl' : ∀ n, own i ≠ n → history n l = [])
    (hx : (L (own i)).Inv x (upd (phPart (own i) ph) i (pv (own i) q)) (history (own i) log ++ l')
      (pi.filterMap (part (F := fun n => (S n).I) (own i))))
    (hq : ∀ v, q = .fast v → ∃ w, v = tV (own i) w) (hb : ∀ j ct p, .begin j ct p ∈ l → ∃ w, p = tP (own j) w) :
    FInv L (setObj d (own i) x) (upd ph i q) (log ++ l) pi := by
  refine ⟨fun n => ?_, fun j v hv => ?_, fun j ct p hm => ?_⟩
  · by_cases e : own i = n
    · subst e
      rw [obj_same, phPart_upd, history_append, hl]; exact hx
    · rw [updD_ne _ _ (Ne.symm e), phPart_upd_ne _ e, history_append, hl' n e, List.append_nil]; exact h.all n
  · by_cases e : j = i
    · subst e; rw [upd_same] at hv; exact hq v hv
    · rw [upd_ne _ _ e] at hv; exact h.fst j v hv
  · rcases List.mem_append.1 hm with hm | hm
    · exact h.beg j ct p hm
    · exact hb j ct p hm

theorem upd_self' {V : Type} (ph : OpId → V) (i : OpId) : upd ph i (ph i) = ph := by
  funext j; by_cases e : j = i
  · subst e; simp
  · simp [e]

def famLawful (own : OpId → Nat) (L : ∀ n, Lawful (S n) (d0 n)) : Lawful (fam own S) d0 where
  Inv := FInv L
  init := by
    refine ⟨fun n => ?_, (by intro i v h; cases h), (by intro i ct p h; cases h)⟩
    have : phPart (own := own) (S := S) n (fun _ => .new) = fun _ => .new := by funext i; simp [phPart, pv]
    rw [this]
    exact (L n).init
  perm h hp := ⟨fun n => (L n).perm (h.all n) (hp.filterMap _), h.fst, h.beg⟩
  begin := by
    intro d ph log pi i ct p d' h hph hlog ha
    obtain ⟨m, p⟩ := p
    obtain ⟨rfl, x, hx, rfl⟩ := fam_admit (p := p) ha
    have hn : phPart (own i) ph i = .new := by simp [phPart, hph, pv]
    have := FInv.one h i x .new [.begin i ct (tP (own i) p)] _ (history_begin_same _ _ _ _)
      (fun n hn => history_begin_ne hn _ _ _)
      (by
        have h1 := (L (own i)).begin (ct := ct) (h.all (own i)) hn
          (fun ct p hm => hlog ct _ (history_begin_mem hm)) hx
        have e : upd (phPart (own i) ph) i (pv (own := own) (own i) .new) = phPart (own i) ph := by
          have := upd_self' (phPart (own i) ph) i
          rw [hn] at this; exact this
        exact e.symm ▸ h1)
      (by intro v hv; cases hv) (by intro j ct' q hm; simp at hm; obtain ⟨rfl, _, rfl⟩ := hm; exact ⟨_, rfl⟩)
    have e : upd ph i .new = ph := by have := upd_self' ph i; rw [hph] at this; exact this
    rw [e] at this
    exact this
  start := by
    intro d ph log pi i ct p b h hph hb
    obtain ⟨w, rfl⟩ := h.beg _ _ _ hb
    obtain ⟨d', r, es, h1, h2⟩ := (L (own i)).start b (h.all (own i)) (by simp [phPart, hph, pv]) (history_mem_begin hb)
    have hs : (fam own S).start d i b = some (setObj d (own i) d', r.map (tV (own i)), es.map (tE (own i))) := by
      rw [fam_start, h1]; rfl
    refine ⟨_, _, _, hs, ?_⟩
    refine FInv.one h i d' _ _ _ (history_ds_same _ _) (fun n hn => history_ds_ne hn _) ?_ ?_ (by simp)
    · cases r with
      | none => exact h2
      | some v =>
        have := pv_fast (own := own) (own i) v
        simp only [Option.map_some]
        rw [this]; exact h2
    · cases r with
      | none => intro v hv; cases hv
      | some w => intro v hv; cases hv; exact ⟨w, rfl⟩
  fast := by
    intro d ph log pi i v h hph
    obtain ⟨w, rfl⟩ := h.fst _ _ hph
    rw [fam_fin]
    refine FInv.one h i _ _ _ _ (history_done_same _ _ _) (fun n hn => history_done_ne hn _ _) ?_ (by intro v hv; cases hv)
      (by simp)
    exact (L (own i)).fast (h.all (own i)) (by simp [phPart, hph, pv_fast])
  tryWaiting := by
    intro d ph log pi i e p h hph hb hc
    obtain ⟨w, rfl⟩ := h.beg _ _ _ hb
    obtain ⟨d', es, h1, h2⟩ := (L (own i)).tryWaiting (h.all (own i)) (by simp [phPart, hph, pv]) (history_mem_begin hb)
      (history_mem_cancel _ hc)
    have hs : (fam own S).tryCancel d i = some (setObj d (own i) d', true, es.map (tE (own i))) := by
      rw [fam_tryCancel, h1]; rfl
    exact ⟨_, _, hs, FInv.one h i d' _ _ _ (history_ds_same _ _) (fun n hn => history_ds_ne hn _) h2 (by intro v hv; cases hv)
      (by simp)⟩
  tryTaken := by
    intro d ph log pi i e p h hph hb hc
    obtain ⟨w, rfl⟩ := h.beg _ _ _ hb
    have ht : phPart (own i) ph i = .taken := by simp [phPart, hph, pv]
    obtain ⟨d', es, h1, h2⟩ := (L (own i)).tryTaken (h.all (own i)) ht (history_mem_begin hb)
      (history_mem_cancel _ hc)
    have hs : (fam own S).tryCancel d i = some (setObj d (own i) d', false, es.map (tE (own i))) := by
      rw [fam_tryCancel, h1]; rfl
    refine ⟨_, _, hs, ?_⟩
    have e1 : upd ph i .taken = ph := by have := upd_self' ph i; rw [hph] at this; exact this
    have e2 : upd (phPart (own i) ph) i (pv (own := own) (own i) .taken) = phPart (own i) ph := by
      have := upd_self' (phPart (own i) ph) i; rw [ht] at this; exact this
    have := FInv.one h i d' .taken _ _ (history_ds_same _ _) (fun n hn => history_ds_ne hn _) (e2.symm ▸ h2) (by intro v hv; cases hv)
      (by simp)
    rw [e1] at this
    exact this
  resume := by
    intro d ph log pi i h hph
    rw [fam_fin]
    refine FInv.one h i _ _ [.done i (tV (own i) _)] _ (history_done_same _ _ _) (fun n hn => history_done_ne hn _ _) ?_
      (by intro v hv; cases hv) (by simp)
    exact (L (own i)).resume (h.all (own i)) (by rcases hph with hph | hph <;> simp [phPart, hph, pv])
  cancel e h := ⟨fun n => by rw [history_append]; exact (L n).cancel e (h.all n), h.fst,
    fun i ct p hm => h.beg i ct p (by simpa using hm)⟩
  reset e h := ⟨fun n => by rw [history_append]; exact (L n).reset e (h.all n), h.fst,
    fun i ct p hm => h.beg i ct p (by simpa using hm)⟩
  call := by
    intro d ph log pi x d' h hc
    obtain ⟨m, x⟩ := x
    obtain ⟨y, h1, rfl⟩ := fam_call (x := x) hc
    refine ⟨fun n => ?_, h.fst, h.beg⟩
    by_cases e : m = n
    · subst e
      rw [obj_same]
      exact (congrArg ((L m).Inv y (phPart m ph) (history m log)) (fm_same m x pi)).mpr ((L m).call (h.all m) h1)
    · rw [updD_ne _ _ (Ne.symm e)]
      exact (congrArg ((L n).Inv (obj d n) (phPart n ph) (history n log)) (fm_ne e x pi)).mpr (h.all n)
  exec := by
    intro d ph log pi x b h
    obtain ⟨m, x⟩ := x
    have hm := (congrArg ((L m).Inv (obj d m) (phPart m ph) (history m log)) (fm_same m x pi)).mp (h.all m)
    obtain ⟨d', ps, es, h1, h2, h3, h4⟩ := (L m).exec b hm
    have hs : (fam own S).exec d (tI m x) b = some (setObj d m d', ps.map (tO m), es.map (tE m)) := by
      rw [fam_exec, h1]; rfl
    have hw : ∀ i ∈ ops ps, own i = m ∧ ph i = .waiting := by
      intro i hi
      have := h3 i hi
      simp only [phPart] at this
      split at this
      · refine ⟨by assumption, ?_⟩
        cases hp : ph i <;> rw [hp] at this <;> simp only [pv] at this <;> first | rfl | (cases this; done) | (split at this <;> cases this)
      · cases this
    refine ⟨_, _, _, hs, by rw [ops_map]; exact h2, fun i hi => ?_, ?_⟩
    · rw [ops_map] at hi; exact (hw i hi).2
    · rw [ops_map, insts_map]
      refine ⟨fun n => ?_, fun j v hv => ?_, fun j ct p hp => h.beg j ct p (begin_ds hp)⟩
      · by_cases e : m = n
        · subst e
          rw [obj_same, history_append, history_ds_same]
          have : phPart m (fun i => if i ∈ ops ps then .taken else ph i) =
              fun i => if i ∈ ops ps then .taken else phPart m ph i := by
            funext i
            by_cases hi : i ∈ ops ps
            · simp [phPart, hi, (hw i hi).1, pv]
            · simp [phPart, hi]
          rw [this]
          exact (congrArg ((L m).Inv d' _ (history m log ++ es.map .ds)) (fa_same m (insts ps) pi)).mpr h4
        · rw [updD_ne _ _ (Ne.symm e), history_append, history_ds_ne e, List.append_nil]
          have : phPart n (fun i => if i ∈ ops ps then .taken else ph i) = phPart n ph := by
            funext i
            by_cases hi : i ∈ ops ps
            · have : own i ≠ n := by rw [(hw i hi).1]; exact e
              simp [phPart, this]
            · simp [phPart, hi]
          rw [this]
          exact (congrArg ((L n).Inv (obj d n) (phPart n ph) (history n log)) ((fa_ne e (insts ps) pi).trans (fm_ne e x pi).symm)).mpr
            (h.all n)
      · split at hv
        · cases hv
        · exact h.fst j v hv

end Verif.Resolver
