import Verif.Resolver.Laws

/-! # Adding an invariant to the contract of a data structure -/

namespace Verif.Resolver

variable {S : DS} {d0 : S.D}

/-- `J d ph log` is preserved by all steps of a lawful data structure. -/
structure Also (L : Lawful S d0) (J : S.D → (OpId → Phase S.V) → List (Ev S) → Prop) : Prop where
  init : J d0 (fun _ => .new) []
  begin : ∀ {d ph log pi i ct p d'}, L.Inv d ph log pi → J d ph log → ph i = .new → S.admit d i p = some d' →
    J d' ph (log ++ [.begin i ct p])
  start : ∀ {d ph log pi i b d' r es}, L.Inv d ph log pi → J d ph log → ph i = .new →
    S.start d i b = some (d', r, es) →
    J d' (upd ph i (match r with | some v => .fast v | none => .waiting)) (log ++ es.map .ds)
  fin : ∀ {d ph log pi i v f}, L.Inv d ph log pi → J d ph log →
    ph i = .fast v ∨ ((ph i = .taken ∨ ph i = .gone) ∧ v = S.val d i) → f = .finFast ∨ f = .fin →
    J (S.fin d i) (upd ph i f) (log ++ [.done i v])
  try_ : ∀ {d ph log pi i d' r es ph'}, L.Inv d ph log pi → J d ph log → S.tryCancel d i = some (d', r, es) →
    (ph i = .waiting ∧ r = true ∧ ph' = upd ph i .gone) ∨ (ph i = .taken ∧ r = false ∧ ph' = ph) →
    J d' ph' (log ++ es.map .ds)
  other : ∀ {d ph log pi v}, L.Inv d ph log pi → J d ph log → (∃ e, v = .cancel e) ∨ (∃ e, v = .reset e) →
    J d ph (log ++ [v])
  call : ∀ {d ph log pi x d'}, L.Inv d ph log pi → J d ph log → S.call d x = some d' → J d' ph log
  exec : ∀ {d ph log pi x b d' ps es}, L.Inv d ph log (x :: pi) → J d ph log → S.exec d x b = some (d', ps, es) →
    (∀ i ∈ ops ps, ph i = .waiting) → J d' (fun i => if i ∈ ops ps then .taken else ph i) (log ++ es.map .ds)

/-- The contract with the additional invariant. -/
def Also.lawful {L : Lawful S d0} {J : S.D → (OpId → Phase S.V) → List (Ev S) → Prop} (A : Also L J) : Lawful S d0 where
  Inv d ph log pi := L.Inv d ph log pi ∧ J d ph log
  init := ⟨L.init, A.init⟩
  perm h hp := ⟨L.perm h.1 hp, h.2⟩
  begin h hp hb ha := ⟨L.begin h.1 hp hb ha, A.begin h.1 h.2 hp ha⟩
  start b h hp hb := by
    obtain ⟨d', r, es, h1, h2⟩ := L.start b h.1 hp hb
    exact ⟨d', r, es, h1, h2, A.start h.1 h.2 hp h1⟩
  fast h hp := ⟨L.fast h.1 hp, A.fin h.1 h.2 (.inl hp) (.inl rfl)⟩
  tryWaiting h hp hb hc := by
    obtain ⟨d', es, h1, h2⟩ := L.tryWaiting h.1 hp hb hc
    exact ⟨d', es, h1, h2, A.try_ h.1 h.2 h1 (.inl ⟨hp, rfl, rfl⟩)⟩
  tryTaken h hp hb hc := by
    obtain ⟨d', es, h1, h2⟩ := L.tryTaken h.1 hp hb hc
    exact ⟨d', es, h1, h2, A.try_ h.1 h.2 h1 (.inr ⟨hp, rfl, rfl⟩)⟩
  resume h hp := ⟨L.resume h.1 hp, A.fin h.1 h.2 (.inr ⟨hp, rfl⟩) (.inr rfl)⟩
  cancel e h := ⟨L.cancel e h.1, A.other h.1 h.2 (.inl ⟨e, rfl⟩)⟩
  reset e h := ⟨L.reset e h.1, A.other h.1 h.2 (.inr ⟨e, rfl⟩)⟩
  call h hc := ⟨L.call h.1 hc, A.call h.1 h.2 hc⟩
  exec b h := by
    obtain ⟨d', ps, es, h1, h2, h3, h4⟩ := L.exec b h.1
    exact ⟨d', ps, es, h1, h2, h3, h4, A.exec h.1 h.2 h1 h3⟩

end Verif.Resolver
