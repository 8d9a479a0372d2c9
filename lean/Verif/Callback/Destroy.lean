import Verif.Callback.Props

/-! # Destruction of a `cancellation_event` with callbacks and observers, see Verif/Destroy/Event.lean -/

namespace Verif.Callback

/-- The instruction accesses event `e`, lines 98-108, 113-121, 126-134, 160-172, 183-194, 336-340 and 85-90. -/
def accesses (e : EvId) : Instr → Prop
  | .ctor _ t | .unb _ t | .dtor _ t | .set _ t _ | .treset _ t | .query t => t = some e
  | .cret _ e' | .unlock _ e' | .cancelCS e' => e' = e
  | _ => False

/-- Every callback with a token of `e` is destroyed; every observer with a token of `e` was reset, or it was
refused or invoked and nobody has tried to reset it. -/
def Released (e : EvId) (log : List Ev) : Prop :=
  (∀ i, .ctor i (some e) ∈ log → .dead i ∈ log) ∧
  (∀ i f, .set i (some e) f ∈ log → (∃ b, .tret i b ∈ log) ∨
    ((.refuse i e ∈ log ∨ .call i e ∈ log) ∧ .treset i ∉ log))

/-- Where callbacks come from and how they end. -/
structure InvD (s : St) : Prop where
  dead : ∀ i, .dead i ∈ s.log → s.phase i = .gone
  src : ∀ i, s.cb i = true → s.phase i ≠ .fresh ∧ .ctor i (s.ev i) ∈ s.log

theorem env_invD {s : St} {acts : List (List Instr)} (h1 : Inv1 s acts) (h : InvD s) {a : Act} {s' : St}
    {p : List Instr} (he : env s acts a = some (s', p)) : InvD s' := by
  obtain ⟨hd, hs⟩ := h
  have hf := h1.fresh
  constructor <;> intro i <;> replace hd := hd i <;> replace hs := hs i <;> replace hf := hf i <;> clear h1 <;>
    env_cases he <;> (try simp [upd_apply] at *) <;> grind

theorem run_invD {s : St} {acts : List (List Instr)} (h1 : Inv1 s acts) (h : InvD s) {k : Nat} {x : Instr}
    {r p : List Instr} (hk : acts[k]? = some (x :: r)) {b : Bool} {s' : St}
    (he : exec s x b = .ok s' p) : InvD s' := by
  have hx := h1.wt x (pending_top hk)
  obtain ⟨hd, hs⟩ := h
  constructor <;> intro i <;> replace hd := hd i <;> replace hs := hs i <;> clear h1 hk <;>
    exec_cases he <;> (try simp [upd_apply, WT] at *) <;> grind

theorem reach_invD {b : Bool} {c : Conf mach} (h : CReach b c) : InvD c.sh :=
  Reach.inv_with (M := mach) (P := Inv1) (Q := fun s _ => InvD s) (fun _ hc => reach_inv1 hc)
    ⟨by simp [init], by simp [init]⟩ (fun _ _ _ _ _ h1 _ h he => env_invD h1 h he)
    (fun _ _ _ _ _ _ _ _ h1 _ h hk he => run_invD h1 h hk he) h

theorem gone_idle {s : St} {acts : List (List Instr)} (h : Inv1 s acts) {i : Id} (hg : s.phase i = .gone)
    {x : Instr} (hx : Pending acts x) : owner x ≠ some i := by
  intro ho
  have h1 := h.own i
  have h2 := hx.le (own i)
  simp [hg, own, ho] at h1 h2
  omega

/-- C78, callbacks and observers. -/
theorem C78_callbacks {b : Bool} {c : Conf mach} (h : CReach b c) {e : EvId} (hr : Released e c.sh.log)
    (hc : ¬ Pending c.acts (.cancelCS e)) (hq : ¬ Pending c.acts (.query (some e))) :
    c.sh.cbs e = [] ∧ ∀ x, Pending c.acts x → ¬ accesses e x := by
  have h1 := reach_inv1 h
  have h2 := reach_inv2 h
  have h3 := reach_inv3 h
  have h4 := reach_inv4 h
  have hD := reach_invD h
  have gone : ∀ i, c.sh.phase i ≠ .fresh → c.sh.ev i = some e → c.sh.phase i = .gone ∨
      (c.sh.cb i = false ∧ (.refuse i e ∈ c.sh.log ∨ .call i e ∈ c.sh.log) ∧ .treset i ∉ c.sh.log) := by
    intro i hf hev
    cases hcb : c.sh.cb i with
    | true =>
      have := (hD.src i hcb).2
      rw [hev] at this
      exact .inl (hD.dead i (hr.1 i this))
    | false =>
      obtain ⟨f, hf⟩ := h4.osrc i hcb hf
      rw [hev] at hf
      rcases hr.2 i f hf with ⟨b, hb⟩ | hb
      · left
        cases b
        · exact (h4.rf i hb).1
        · exact (h4.rt i hb).1
      · exact .inr ⟨rfl, hb⟩
  have nowait : ∀ i, (i, e) ∈ wait c.sh.log → (i, e) ∉ goneL c.sh.log := by
    intro i hw hg
    have e1 := h2.place (fun p => p.1 == i)
    have e2 := h2.uniq i
    have e4 := List.countP_pos_iff (p := fun p : Reg => p.1 == i) |>.2 ⟨_, hw, by simp⟩
    have e5 := List.countP_pos_iff (p := fun p : Reg => p.1 == i) |>.2 ⟨_, hg, by simp⟩
    split at e2 <;> omega
  constructor
  · cases hq : c.sh.req e with
    | true => exact h2.cb2 e hq
    | false =>
      rw [h2.cb e hq, List.eq_nil_iff_forall_not_mem]
      intro i hi
      rw [mem_bnd] at hi
      have hw := h3.wev i e hi
      rcases gone i hw.2.1 hw.1 with hg | ⟨_, hg, _⟩
      · have := h3.gone i e hi hg
        simp [hq] at this
      · refine nowait i hi (mem_goneL.2 ?_)
        rcases hg with hg | hg
        · exact .inr (.inr hg)
        · exact .inl hg
  · intro x hx ha
    have hw := h1.wt x hx
    have idle := fun i (hg : c.sh.phase i = .gone) => gone_idle h1 hg hx
    cases x with
    | ctor i t =>
      simp only [accesses] at ha; subst ha
      rcases gone i (by rw [hw.1]; simp) hw.2.1 with hg | hg
      · exact idle i hg rfl
      · exact absurd hw.2.2 (by simp [hg.1])
    | cret i e' =>
      simp only [accesses] at ha; subst ha
      rcases gone i (by rw [hw.1]; simp) hw.2.1 with hg | hg
      · exact idle i hg rfl
      · exact absurd hw.2.2.1 (by simp [hg.1])
    | unlock i e' =>
      simp only [accesses] at ha; subst ha
      rcases gone i (by rw [hw.1]; simp) hw.2.1 with hg | hg
      · exact idle i hg rfl
      · exact absurd hw.2.2.1 (by simp [hg.1])
    | unb i t =>
      simp only [accesses] at ha; subst ha
      rcases gone i (by rw [hw.1]; simp) hw.2.1 with hg | hg
      · exact absurd hw.1 (by simp [hg])
      · exact absurd hw.2.2.1 (by simp [hg.1])
    | dtor i t =>
      simp only [accesses] at ha; subst ha
      rcases gone i (by rw [hw.1]; simp) hw.2.1 with hg | hg
      · exact idle i hg rfl
      · exact absurd hw.2.2 (by simp [hg.1])
    | set i t f =>
      simp only [accesses] at ha; subst ha
      rcases gone i (by rw [hw.1]; simp) hw.2.1 with hg | hg
      · exact idle i hg rfl
      · have hu := (h2.undecided hx (i := i) (e := e) (e' := e) (by simp [tok])).2.1
        exact hu (mem_goneL.2 (by rcases hg.2.1 with h | h <;> simp [h]))
    | treset i t =>
      simp only [accesses] at ha; subst ha
      rcases gone i (by rw [hw.1]; simp) hw.2.1 with hg | hg
      · exact idle i hg rfl
      · exact hg.2.2 (h4.tsrc i _ hx)
    | query t => simp only [accesses] at ha; subst ha; exact hq hx
    | cancelCS e' => simp only [accesses] at ha; subst ha; exact hc hx
    | _ => exact ha

end Verif.Callback

