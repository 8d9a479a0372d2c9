import Verif.Hb.Marks

/-!
# Synchronisation through an atomic variable or a lock of the user

Events of one kind are appended by instructions that release location `l`, events of another kind by instructions that
acquire it, and nothing overwrites `l`. Then every event of the first kind happens before every later event of the second
kind.
-/

namespace Verif.Resolver

variable {S : DS} {d0 : S.D} {o : Ords S}

structure Sync (o : Ords S) (Src : S.E → Prop) (Tgt : Ev S → Prop) (l : o.A) : Prop where
  srcStart : ∀ {d i b d' r es v}, S.start d i b = some (d', r, es) → v ∈ es → Src v →
    ∃ a ∈ o.start d i b, a.releases l = true
  srcCancel : ∀ {d i d' r es v}, S.tryCancel d i = some (d', r, es) → v ∈ es → Src v →
    ∃ a ∈ o.tryCancel d i, a.releases l = true
  srcExec : ∀ {d x b d' ps es v}, S.exec d x b = some (d', ps, es) → v ∈ es → Src v →
    ∃ a ∈ o.exec d x b, a.releases l = true
  tgtStart : ∀ {d i b d' r es v}, S.start d i b = some (d', r, es) → v ∈ es → Tgt (.ds v) →
    ∃ a ∈ o.start d i b, a.acquires l = true
  tgtCancel : ∀ {d i d' r es v}, S.tryCancel d i = some (d', r, es) → v ∈ es → Tgt (.ds v) →
    ∃ a ∈ o.tryCancel d i, a.acquires l = true
  tgtExec : ∀ {d x b d' ps es v}, S.exec d x b = some (d', ps, es) → v ∈ es → Tgt (.ds v) →
    ∃ a ∈ o.exec d x b, a.acquires l = true
  tgtDone : ∀ d i x, Tgt (.done i x) → ∃ a ∈ o.val d i, a.acquires l = true
  other : ∀ v, Tgt v → (∃ w, v = .ds w) ∨ ∃ i x, v = .done i x
  noStart : ∀ d i b, ∀ a ∈ o.start d i b, a.stores l = false
  noCancel : ∀ d i, ∀ a ∈ o.tryCancel d i, a.stores l = false
  noExec : ∀ d x b, ∀ a ∈ o.exec d x b, a.stores l = false
  noVal : ∀ d i, ∀ a ∈ o.val d i, a.stores l = false

theorem map_acquires {A : Type} [DecidableEq A] {a : Acc A} {l : A} (h : a.acquires l = true) :
    (a.map Loc.at).acquires (.at l) = true := by
  cases a with
  | lock l' => simpa [Acc.map, Acc.acquires] using h
  | unlock l' => simp [Acc.acquires] at h
  | store o l' => simp [Acc.acquires] at h
  | load o l' => cases o <;> simp [Acc.map, Acc.acquires] at h ⊢ <;> exact h
  | rmw o l' => cases o <;> simp [Acc.map, Acc.acquires] at h ⊢ <;> exact h

theorem map_releases {A : Type} [DecidableEq A] {a : Acc A} {l : A} (h : a.releases l = true) :
    (a.map Loc.at).releases (.at l) = true := by
  cases a with
  | lock l' => simp [Acc.releases] at h
  | unlock l' => simpa [Acc.map, Acc.releases] using h
  | store o l' => simp [Acc.releases] at h
  | load o l' => simp [Acc.releases] at h
  | rmw o l' => cases o <;> simp [Acc.map, Acc.releases] at h ⊢ <;> exact h

variable {Src : S.E → Prop} {Tgt : Ev S → Prop} {l : o.A}

theorem Sync.stores (H : Sync o Src Tgt l) {s : RSt S} {x : Instr S} {b : Bool} {a : Acc (Loc o.A)}
    (h : a ∈ eff o s x b) : a.stores (.at l) = false := by
  cases x <;> simp only [eff] at h
  case start i => exact sect_stores_at (H.noStart _ _ _) h
  case tryCancel i l => exact sect_stores_at (H.noCancel _ _) h
  case ds x => exact sect_stores_at (H.noExec _ _ _) h
  case setFast i x => exact sect_stores_at (H.noVal _ _) h
  case resume i => exact sect_stores_at (H.noVal _ _) h
  all_goals first
    | exact evSect_stores h
    | (simp at h; done)
    | (simp at h; subst h; rfl)

theorem lift_acq {b : Bool} {as : List (Acc o.A)} (h : ∃ a ∈ as, a.acquires l = true) :
    ∃ a ∈ sect b as, a.acquires (.at l) = true := by
  obtain ⟨a, h1, h2⟩ := h
  exact ⟨_, sect_mem h1, map_acquires h2⟩

theorem lift_rel {b : Bool} {as : List (Acc o.A)} (h : ∃ a ∈ as, a.releases l = true) :
    ∃ a ∈ sect b as, a.releases (.at l) = true := by
  obtain ⟨a, h1, h2⟩ := h
  exact ⟨_, sect_mem h1, map_releases h2⟩

/-- The instructions that append the events. -/
theorem Sync.instr (H : Sync o Src Tgt l) {s s' : RSt S} {x : Instr S} {b : Bool} {p : List (Instr S)}
    {evs : List (Ev S)} (he : Resolver.exec s x b = .ok s' p) (hl : s'.log = s.log ++ evs) :
    ((∃ v, .ds v ∈ evs ∧ Src v) → ∃ a ∈ eff o s x b, a.releases (.at l) = true) ∧
    ((∃ v ∈ evs, Tgt v) → ∃ a ∈ eff o s x b, a.acquires (.at l) = true) := by
  have hm : evs = s'.log.drop s.log.length := by rw [hl]; simp
  cases x <;> simp only [Resolver.exec] at he
  case start j =>
    split at he <;> simp at he <;> obtain ⟨rfl, rfl⟩ := he <;> rename_i hs <;> simp at hm <;> subst hm <;> constructor
    · rintro ⟨v, hv, hS⟩; simp at hv; exact lift_rel (H.srcStart hs hv hS)
    · rintro ⟨v, hv, hS⟩; simp at hv; obtain ⟨w, hw, rfl⟩ := hv; exact lift_acq (H.tgtStart hs hw hS)
    · rintro ⟨v, hv, hS⟩; simp at hv; exact lift_rel (H.srcStart hs hv hS)
    · rintro ⟨v, hv, hS⟩; simp at hv; obtain ⟨w, hw, rfl⟩ := hv; exact lift_acq (H.tgtStart hs hw hS)
  case tryCancel j l =>
    split at he
    · simp at he
    · rename_i hs
      simp at he; obtain ⟨rfl, rfl⟩ := he
      simp at hm; subst hm
      constructor
      · rintro ⟨v, hv, hS⟩; simp at hv; exact lift_rel (H.srcCancel hs hv hS)
      · rintro ⟨v, hv, hS⟩; simp at hv; obtain ⟨w, hw, rfl⟩ := hv; exact lift_acq (H.tgtCancel hs hw hS)
  case ds x =>
    split at he
    · simp at he
    · rename_i hs
      simp at he; obtain ⟨rfl, rfl⟩ := he
      simp at hm; subst hm
      constructor
      · rintro ⟨v, hv, hS⟩; simp at hv; exact lift_rel (H.srcExec hs hv hS)
      · rintro ⟨v, hv, hS⟩; simp at hv; obtain ⟨w, hw, rfl⟩ := hv; exact lift_acq (H.tgtExec hs hw hS)
  case setFast j y =>
    simp at he; obtain ⟨rfl, rfl⟩ := he
    simp at hm; subst hm
    constructor
    · rintro ⟨v, hv, hS⟩; simp at hv
    · rintro ⟨v, hv, hS⟩; simp at hv; subst hv; exact lift_acq (H.tgtDone s.d j _ hS)
  case resume j =>
    simp at he; obtain ⟨rfl, rfl⟩ := he
    simp at hm; subst hm
    constructor
    · rintro ⟨v, hv, hS⟩; simp at hv
    · rintro ⟨v, hv, hS⟩; simp at hv; subst hv; exact lift_acq (H.tgtDone s.d j _ hS)
  all_goals
    have hne : ∀ v ∈ evs, (∀ w, v ≠ .ds w) ∧ ∀ i x, v ≠ .done i x := by
      repeat' split at he
      all_goals simp at he
      all_goals obtain ⟨rfl, rfl⟩ := he
      all_goals simp at hm
      all_goals subst hm
      all_goals simp
    constructor
    · rintro ⟨v, hv, _⟩; exact absurd rfl ((hne _ hv).1 v)
    · rintro ⟨v, hv, hT⟩
      rcases H.other v hT with ⟨w, rfl⟩ | ⟨i, x, rfl⟩
      · exact absurd rfl ((hne _ hv).1 w)
      · exact absurd rfl ((hne _ hv).2 i x)

/-- Releasing events happen before later acquiring events. -/
theorem Sync.ordered {entry : RSt S → Act S → Nat → Bool} (H : Sync o Src Tgt l) {c : Conf (mach S)}
    {m : Mem (Loc o.A)} (h : HReach (ann o entry) (RSt.init d0) c m) {a b : Nat} {v : S.E} {w : Ev S}
    (ha : c.sh.log[a]? = some (.ds v)) (hv : Src v) (hb : c.sh.log[b]? = some w) (hw : Tgt w) (hab : a < b) :
    m.hb a b := by
  have key : m.msg (.at l) a = true ∧ Done Tgt c.sh.log m a := by
    refine HReach.inv (A := ann o entry) (P := fun c => Reach (mach S) (RSt.init d0) c)
      (Q := fun s _ m => ∀ e v, s.log[e]? = some (.ds v) → Src v → m.msg (.at l) e = true ∧ Done Tgt s.log m e)
      (fun c hc => hc) ?_ ?_ ?_ h a v ha hv
    · intro e v hv; simp [RSt.init] at hv
    · intro c m a s' p _ _ hQ he e v hv hL
      obtain ⟨h1, h2, evs, h3, h4, h5⟩ := env_log (acts := c.acts) he
      have hlt : e < c.sh.log.length := by
        apply Classical.byContradiction
        intro hn
        rw [h3, List.getElem?_append_right (by omega)] at hv
        exact h5 v (List.mem_of_getElem? hv)
      rw [h3, List.getElem?_append_left hlt] at hv
      have hs := hQ e v hv hL
      refine ⟨Mem.keep (by simp) hs.1, hs.2.step h3 ?_⟩
      rintro ⟨w, hw, hT⟩
      rcases H.other w hT with ⟨w, rfl⟩ | ⟨i, x, rfl⟩
      · exact absurd hw (h5 w)
      · exact absurd hw (h4 i x)
    · intro c m k x r b s' p hr _ hQ hk he e v hv hL
      obtain ⟨evs, h3⟩ := exec_log he
      obtain ⟨g1, g2⟩ := H.instr he h3
      by_cases hlt : e < c.sh.log.length
      · rw [h3, List.getElem?_append_left hlt] at hv
        have hs := hQ e v hv hL
        refine ⟨Mem.keep (fun a ha => H.stores ha) hs.1, hs.2.step h3 ?_⟩
        rintro ⟨w, hw, hT⟩
        obtain ⟨a, h6, h7⟩ := g2 ⟨w, hw, hT⟩
        exact m.acquire_msg h6 h7 hs.1
      · have hlt' := (List.getElem?_eq_some_iff.1 hv).1
        have hge := Nat.le_of_not_lt hlt
        have hw : ∃ v, .ds v ∈ evs ∧ Src v := by
          rw [h3, List.getElem?_append_right (by omega)] at hv
          exact ⟨_, List.mem_of_getElem? hv, hL⟩
        refine ⟨?_, ?_⟩
        · obtain ⟨a, h6, h7⟩ := g1 hw
          exact Mem.publish (fun a ha => H.stores ha) h6 h7 (.inr ⟨hge, hlt'⟩)
        · intro n w hn _ hen
          have := (List.getElem?_eq_some_iff.1 hn).1
          rw [Mem.act_past_new _ _ _ _ _ _ (Nat.le_trans hge (Nat.le_of_lt hen)) this]
          simp [hge, hen]
  exact key.2 b _ hb hw hab

end Verif.Resolver
