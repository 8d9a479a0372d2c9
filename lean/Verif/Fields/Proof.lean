import Verif.Fields.Spec

/-! # Absence of races on the fields of operations -/

namespace Verif.Resolver

variable {S : DS} {d0 : S.D}

theorem ws_pair {ι : Type} {w : ι → Nat} {acts : List (List ι)} {k k' : Nat} {p p' : List ι} (h : k < k')
    (hk : acts[k]? = some p) (hk' : acts[k']? = some p') : wl w p + wl w p' ≤ ws w acts := by
  induction acts generalizing k k' with
  | nil => simp at hk
  | cons a acts ih =>
    obtain ⟨m, rfl⟩ : ∃ m, k' = m + 1 := ⟨k' - 1, by omega⟩
    rw [ws_cons]
    cases k with
    | zero =>
      simp at hk hk'; subst hk
      have : wl w p' ≤ ws w acts := by
        clear ih
        induction acts generalizing m with
        | nil => simp at hk'
        | cons b acts ih =>
          rw [ws_cons]
          cases m with
          | zero => simp at hk'; subst hk'; omega
          | succ m => simp at hk'; have := ih m hk'; omega
      omega
    | succ k =>
      simp at hk hk'
      have := ih (by omega) hk hk'
      omega

theorem ws_two {ι : Type} {w : ι → Nat} {acts : List (List ι)} {k k' : Nat} {p p' : List ι} (h : k ≠ k')
    (hk : acts[k]? = some p) (hk' : acts[k']? = some p') : wl w p + wl w p' ≤ ws w acts := by
  rcases Nat.lt_or_gt_of_ne h with h | h
  · exact ws_pair h hk hk'
  · have := ws_pair (w := w) h hk' hk; omega

theorem mem_completing {i : OpId} {p : List (Instr S)} (h : i ∈ completing p) : 1 ≤ wl (W.co i) p := by
  induction p with
  | nil => simp [completing] at h
  | cons x p ih =>
    rw [wl_cons]
    by_cases hx : x = .complete i
    · subst hx; simp [W.co]
    · have : i ∈ completing p := by
        cases x <;> simp [completing, List.filterMap_cons] at h hx ⊢ <;> try exact h
        rcases h with h | h
        · exact absurd h.symm hx
        · exact h
      have := ih this; omega

theorem mem_calling {i : OpId} {p : List (Instr S)} (h : i ∈ calling p) : 1 ≤ wl (W.tryC i) p := by
  induction p with
  | nil => simp [calling] at h
  | cons x p ih =>
    rw [wl_cons]
    by_cases hx : x = .tryCancel i false
    · subst hx; simp [W.tryC]
    · have : i ∈ calling p := by
        cases x <;> simp [calling, List.filterMap_cons] at h hx ⊢ <;> try exact h
        rename_i j b
        cases b with
        | true => simpa using h
        | false =>
          simp at h hx
          rcases h with h | h
          · exact absurd h.symm hx
          · simpa using h
      have := ih this; omega

/-- Why a call accesses a field of operation `i`. -/
def Role (q : List OpId) (s : RSt S) (p : List (Instr S)) (i : OpId) : Field → Bool → Option Lock → Prop
  | .hook, w, k => w = true ∧
    (k = none ∧ 1 ≤ wl (W.co i) p ∨ k = some .object ∧ (1 ≤ wl (W.sta i) p ∨ i ∈ q))
  | .state, w, k => w = true ∧
    (k = none ∧ (1 ≤ wl (W.sta i) p ∨ 1 ≤ wl (W.fas i) p ∨ 1 ≤ wl (W.res i) p) ∨
      k = some .object ∧ (1 ≤ wl (W.tryL i) p ∨ 1 ≤ wl (W.tryC i) p ∨ i ∈ q))
  | .event, w, k => k = none ∧ (w = true ∧ 1 ≤ wl (W.lis i) p ∨
      w = false ∧ (1 ≤ wl (W.reg i) p ∨ 1 ≤ wl (W.un i) p))
  | .eventHook, w, k => w = true ∧
    (k = none ∧ 1 ≤ wl (W.tryC i) p ∨
      ∃ e, k = some (.event e) ∧ (1 ≤ wl (W.reg i) p ∧ s.evt i = some e ∨ i ∈ s.cbs e))

theorem mem_each {l : List OpId} {f : Field} {w : Bool} {k : Option Lock} {a : Access} (h : a ∈ each l f w k) :
    a.op ∈ l ∧ a.field = f ∧ a.write = w ∧ a.lock = k := by
  simp only [each, List.mem_map] at h
  obtain ⟨i, hi, rfl⟩ := h
  exact ⟨hi, rfl, rfl, rfl⟩

theorem role {q : List OpId} {s : RSt S} {p : List (Instr S)} {a : Access} (h : a ∈ fieldAccesses q s p) :
    Role q s p a.op a.field a.write a.lock := by
  cases p with
  | nil => simp [fieldAccesses] at h
  | cons x r =>
    have key : ∀ {l f w k}, a ∈ each l f w k → (a.op ∈ l → Role q s (x :: r) a.op f w k) →
        Role q s (x :: r) a.op a.field a.write a.lock := by
      intro l f w k h1 h2
      obtain ⟨h3, h4, h5, h6⟩ := mem_each h1
      rw [h4, h5, h6]; exact h2 h3
    cases x with
    | start i =>
      simp only [fieldAccesses, List.mem_cons] at h
      rcases h with rfl | h
      · exact ⟨rfl, .inl ⟨rfl, .inl (by simp [W.sta])⟩⟩
      · refine key h fun h => ⟨rfl, .inr ⟨rfl, ?_⟩⟩
        rcases List.mem_cons.1 h with h | h
        · left; rw [h]; simp [W.sta]
        · exact .inr h
    | setFast i v =>
      simp only [fieldAccesses, List.mem_cons, List.not_mem_nil, or_false] at h; subst h
      exact ⟨rfl, .inl ⟨rfl, .inr (.inl (by simp [W.fas]))⟩⟩
    | listen i =>
      simp only [fieldAccesses, List.mem_cons, List.not_mem_nil, or_false] at h; subst h
      exact ⟨rfl, .inl ⟨rfl, by simp [W.lis]⟩⟩
    | register i =>
      simp only [fieldAccesses, List.mem_cons] at h
      rcases h with rfl | h
      · exact ⟨rfl, .inr ⟨rfl, .inl (by simp [W.reg])⟩⟩
      · split at h
        · simp at h
        · rename_i e he
          refine key h fun h => ⟨rfl, .inr ⟨e, rfl, ?_⟩⟩
          rcases List.mem_cons.1 h with h | h
          · left; rw [h]; exact ⟨by simp [W.reg], he⟩
          · exact .inr h
    | tryCancel i l =>
      simp only [fieldAccesses, List.mem_append, List.mem_cons] at h
      rcases h with h | rfl | h
      · cases l with
        | true => simp at h
        | false =>
          simp at h
          refine key h fun h => ⟨rfl, .inl ⟨rfl, ?_⟩⟩
          rcases List.mem_cons.1 h with h | h
          · rw [h]; simp [W.tryC]
          · have := mem_calling h; rw [wl_cons]; omega
      · refine ⟨rfl, .inr ⟨rfl, ?_⟩⟩
        cases l with
        | true => left; simp [W.tryL]
        | false => right; left; simp [W.tryC]
      · split at h
        · exact key h fun h => ⟨rfl, .inr ⟨rfl, .inr h⟩⟩
        · simp at h
    | transition i b => simp [fieldAccesses] at h
    | unregister i =>
      simp only [fieldAccesses, List.mem_cons] at h
      rcases h with rfl | h
      · exact ⟨rfl, .inr ⟨rfl, .inr (by simp [W.un])⟩⟩
      · split at h
        · simp at h
        · exact key h fun h => ⟨rfl, .inr ⟨_, rfl, .inr h⟩⟩
    | resume i =>
      simp only [fieldAccesses, List.mem_cons, List.not_mem_nil, or_false] at h; subst h
      exact ⟨rfl, .inl ⟨rfl, .inr (.inr (by simp [W.res]))⟩⟩
    | complete i =>
      simp only [fieldAccesses] at h
      refine key h fun h => ⟨rfl, .inl ⟨rfl, ?_⟩⟩
      rcases List.mem_cons.1 h with h | h
      · rw [h]; simp [W.co]
      · have := mem_completing h; rw [wl_cons]; omega
    | cancel e =>
      simp only [fieldAccesses] at h
      exact key h fun h => ⟨rfl, .inr ⟨_, rfl, .inr h⟩⟩
    | ds x =>
      simp only [fieldAccesses, List.mem_append] at h
      rcases h with (h | h) | h
      · exact key h fun h => ⟨rfl, .inr ⟨rfl, .inr h⟩⟩
      · exact key h fun h => ⟨rfl, .inr ⟨rfl, .inr (.inr h)⟩⟩
      · refine key h fun h => ⟨rfl, .inl ⟨rfl, ?_⟩⟩
        have := mem_completing h; rw [wl_cons]; omega

/-- What the invariant of an operation says about simultaneous accesses. -/
theorem OK.fields {v : View} (h : OK v) :
    (v.co + v.sta ≤ 1 ∧ (v.ph = 3 → v.co = 0)) ∧
    (v.sta + v.fas + v.res ≤ 1 ∧ (1 ≤ v.sta + v.fas + v.res → v.tryL + v.tryC = 0 ∧ v.ph ≠ 3)) ∧
    (v.lis ≤ 1 ∧ (1 ≤ v.lis → v.reg + v.un = 0)) ∧
    v.tryC + v.reg + v.inC ≤ 1 := by
  obtain ⟨b0, a0, a1, a2, a3, e1, e2, e3, e3a, e3b, e4, e4a, e4b, e6, e7, e7a, e8, e9, e10, e11, e13, e14, e15, d1⟩ := h
  by_cases hp : v.ph < 3
  · have f2 := a2 hp
    clear * - f2 a0 a1 hp b0
    omega
  · have hp : 3 ≤ v.ph := by omega
    have f1 := e1 hp
    have f3 := e3 hp
    have s0 : v.sta = 0 := a0.2 (by omega)
    have s1 : v.fas = 0 := a1.2 (by omega)
    refine ⟨?_, ?_, ?_, ?_⟩
    · clear * - e2 hp s0; omega
    · have hr : v.res ≤ 1 ∧ (1 ≤ v.res → v.tryL + v.tryC = 0 ∧ v.ph ≠ 3) := by
        by_cases hr : v.res = 0
        · omega
        · have hlc : v.l ≠ 0 ∧ v.c ≠ 0 := by clear * - e4b hr; omega
          have h6 : v.ph ≠ 6 := fun h => hr (e4a h)
          have h3 : v.ph ≠ 3 := by clear * - e2 hlc; omega
          by_cases hx : v.x = 0
          · have := e3a hp hx h6
            clear * - this h3 hr
            omega
          · have := e4 (by clear * - b0 hlc; omega) (by clear * - b0 hlc; omega) (by clear * - b0 hx; omega) h6
            clear * - this h3 hx f3
            omega
      clear * - hr s0 s1; omega
    · clear * - f1 e4b; omega
    · clear * - f3; omega

theorem raceFree {L : Lawful S d0} (F : Line L) {c : Conf (mach S)} (h : Reach (mach S) (RSt.init d0) c) :
    RaceFree F.q c := by
  obtain ⟨ph, hI, hC⟩ := reach_inv L h
  intro k k' hne p p' hk hk' a ha b hb ⟨hop, hf, hw, hl⟩
  have ra := role ha
  have rb := role hb
  rw [← hop, ← hf] at rb
  generalize a.op = i at *
  have hv := hC.op i
  obtain ⟨h1, h2, h3, h4⟩ := hv.fields
  clear hv
  have two : ∀ w : Instr S → Nat, wl w p + wl w p' ≤ ws w c.acts := fun w => ws_two hne hk hk'
  have hq : i ∈ F.q c.sh.d → (view c.sh c.acts ph i).ph = 3 := by
    intro hi; have := (F.mem hI i).1 hi; simp [view, this, Phase.code]
  have hcb : ∀ e, i ∈ c.sh.cbs e → 1 ≤ (view c.sh c.acts ph i).inC := by
    intro e hi
    have := hC.gl.g3 e i hi
    simp only [view, inC, this]
    exact List.count_pos_iff.2 hi
  have tsta := two (W.sta i); have tfas := two (W.fas i); have tlis := two (W.lis i); have treg := two (W.reg i)
  have ttl := two (W.tryL i); have ttc := two (W.tryC i); have tun := two (W.un i); have tres := two (W.res i)
  have tco := two (W.co i)
  change _ ≤ (view c.sh c.acts ph i).sta at tsta
  change _ ≤ (view c.sh c.acts ph i).fas at tfas
  change _ ≤ (view c.sh c.acts ph i).lis at tlis
  change _ ≤ (view c.sh c.acts ph i).reg at treg
  change _ ≤ (view c.sh c.acts ph i).tryL at ttl
  change _ ≤ (view c.sh c.acts ph i).tryC at ttc
  change _ ≤ (view c.sh c.acts ph i).un at tun
  change _ ≤ (view c.sh c.acts ph i).res at tres
  change _ ≤ (view c.sh c.acts ph i).co at tco
  generalize view c.sh c.acts ph i = v at *
  cases hfield : a.field with
  | hook =>
    rw [hfield] at ra rb
    obtain ⟨_, ra⟩ := ra
    obtain ⟨_, rb⟩ := rb
    rcases ra with ⟨la, ra⟩ | ⟨la, ra⟩ <;> rcases rb with ⟨lb, rb⟩ | ⟨lb, rb⟩
    · omega
    · rcases rb with rb | rb
      · omega
      · have := hq rb; clear * - h1 h2 this ra tsta tfas tres tco; omega
    · rcases ra with ra | ra
      · omega
      · have := hq ra; clear * - h1 h2 this rb tsta tfas tres tco; omega
    · simp [la, lb] at hl
  | state =>
    rw [hfield] at ra rb
    obtain ⟨_, ra⟩ := ra
    obtain ⟨_, rb⟩ := rb
    rcases ra with ⟨la, ra⟩ | ⟨la, ra⟩ <;> rcases rb with ⟨lb, rb⟩ | ⟨lb, rb⟩
    · rcases ra with ra | ra | ra <;> rcases rb with rb | rb | rb <;> omega
    · rcases ra with ra | ra | ra <;> rcases rb with rb | rb | rb <;> first | omega | (have := hq rb; clear * - h1 h2 this ra tsta tfas tres tco; omega)
    · rcases ra with ra | ra | ra <;> rcases rb with rb | rb | rb <;> first | omega | (have := hq ra; clear * - h1 h2 this rb tsta tfas tres tco; omega)
    · simp [la, lb] at hl
  | event =>
    rw [hfield] at ra rb
    obtain ⟨_, ra⟩ := ra
    obtain ⟨_, rb⟩ := rb
    rcases ra with ⟨wa, ra⟩ | ⟨wa, ra⟩ <;> rcases rb with ⟨wb, rb⟩ | ⟨wb, rb⟩
    · omega
    · omega
    · omega
    · simp [wa, wb] at hw
  | eventHook =>
    rw [hfield] at ra rb
    obtain ⟨_, ra⟩ := ra
    obtain ⟨_, rb⟩ := rb
    rcases ra with ⟨la, ra⟩ | ⟨e, la, ra⟩ <;> rcases rb with ⟨lb, rb⟩ | ⟨e', lb, rb⟩
    · omega
    · rcases rb with ⟨rb, _⟩ | rb
      · omega
      · have := hcb _ rb; omega
    · rcases ra with ⟨ra, _⟩ | ra
      · omega
      · have := hcb _ ra; omega
    · have hee : e ≠ e' := by rintro rfl; simp [la, lb] at hl
      rcases ra with ⟨ra, ea⟩ | ra <;> rcases rb with ⟨rb, eb⟩ | rb
      · omega
      · have := hcb _ rb; omega
      · have := hcb _ ra; omega
      · have h1 := hC.gl.g3 e i ra
        have h2 := hC.gl.g3 e' i rb
        rw [h1] at h2; simp at h2; exact hee h2

end Verif.Resolver
