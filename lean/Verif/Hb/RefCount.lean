import Verif.Hb.Resolver
import Verif.Promise.RefCountModel

/-!
# The shared state of `promise` and `future` is destroyed once, after everything else

`ref()` and `unref()` modify `ctr_` with acquire and release order (promise.hpp lines 29 and 33).
-/

namespace Verif.Promise.RefCount

/-- The only atomic variable is `ctr_`. `entry` is what the user knows when they begin to use, copy or destroy a
handle. -/
abbrev ann (entry : St → Act → Nat → Bool) : Ann mach where
  L := Unit
  dec := inferInstance
  len s := s.log.length
  entry := entry
  eff _ x _ := match x with
    | .ref _ _ => [.rmw .acqRel ()]  -- line 29
    | .unref _ => [.rmw .acqRel ()]  -- line 33
    | .use _ | .free => []

/-- The event is an access through handle `h`. -/
def Ev.through (h : Hd) : Ev → Prop
  | .use g | .ref g _ => g = h
  | _ => False

/-- The user destroys a handle after they have used it: whoever destroys the handle knows the accesses through it. -/
def Ordered (entry : St → Act → Nat → Bool) : Prop :=
  ∀ s h (e : Nat) v, s.log[e]? = some v → Ev.through h v → entry s (.drop h) e = true

/-! ## Invariant -/

def wU : Instr → Nat
  | .unref _ => 1
  | _ => 0

def wF : Instr → Nat
  | .free => 1
  | _ => 0

/-- Construction or destruction of handle `g`. -/
def wH (g : Hd) : Instr → Nat
  | .ref _ g' | .unref g' => if g' = g then 1 else 0
  | _ => 0

structure Inv (s : St) (acts : List (List Instr)) : Prop where
  ctr : s.ctr = s.own.length + ws wU acts
  fr : ws wF acts + s.freed.toNat = if s.ctr = 0 then 1 else 0
  needs : ∀ x, Pending acts x → ∀ h, x.needs h = true → h ∈ s.own
  log : s.log.count .free = s.freed.toNat
  one : ∀ g, s.own.count g + ws (wH g) acts ≤ if g ∈ s.used then 1 else 0

theorem Inv.run {s s' : St} {acts : List (List Instr)} (h : Inv s acts) {k : Nat} {x : Instr} {r p : List Instr} {b : Bool}
    (hk : acts[k]? = some (x :: r)) (he : exec s x b = .ok s' p) : Inv s' (acts.set k (p ++ r)) := by
  have hU := ws_set wU p hk
  have hF := ws_set wF p hk
  have hH := fun g => ws_set (wH g) p hk
  have h5 := h.one
  have h1 := h.ctr; have h2 := h.fr; have h4 := h.log
  have hx : ∀ g, x.needs g = true → g ∈ s.own := fun g hg => h.needs x ⟨_, List.mem_of_getElem? hk, by simp⟩ g hg
  have hp : ∀ y, Pending (acts.set k (p ++ r)) y → y ∈ p ∨ Pending acts y := fun y hy => pending_set hk hy
  simp only [exec] at he
  split at he
  · simp at he
  rename_i hf
  have hf : s.freed = false := by simpa using hf
  rw [hf] at h2 h4
  simp at h2 h4
  cases x with
  | use g =>
    simp at he; obtain ⟨rfl, rfl⟩ := he
    simp [wU, wF] at hU hF
    simp [wH] at hH
    refine ⟨by simp; omega, by simp [hf, hF, h2], fun y hy => ?_, by simp [hf, h4], by simpa [hH] using h5⟩
    rcases hp y hy with hy | hy
    · simp at hy
    · exact h.needs y hy
  | ref g g' =>
    simp at he; obtain ⟨rfl, rfl⟩ := he
    simp [wU, wF] at hU hF
    have := List.length_pos_of_mem (hx g (by simp [Instr.needs]))
    refine ⟨by simp; omega, ?_, fun y hy g hg => ?_, by simp [hf, h4], fun g => ?_⟩
    · simp [hf, hF, h2]; omega
    · rcases hp y hy with hy | hy
      · simp at hy
      · exact List.mem_cons_of_mem _ (h.needs y hy g hg)
    · have a := hH g; have b := h5 g
      simp [wH] at a
      simp only [List.count_cons, List.nil_append]
      by_cases hgg : g' = g
      · subst hgg; simp at a ⊢; omega
      · simp [hgg] at a ⊢; omega
  | unref g =>
    simp at he; obtain ⟨rfl, rfl⟩ := he
    have hw : wl wU (if s.ctr - 1 = 0 then [Instr.free] else []) = 0 := by split <;> simp [wU]
    rw [hw] at hU
    simp [wU] at hU
    have hpos : 0 < s.ctr := by omega
    refine ⟨by show s.ctr - 1 = s.own.length + _; omega, ?_, fun y hy g hg => ?_, by simp [hf, h4], fun g' => ?_⟩
    · show ws wF _ + s.freed.toNat = if s.ctr - 1 = 0 then 1 else 0
      rw [hf]
      by_cases hc : s.ctr - 1 = 0
      · rw [if_pos hc] at hF ⊢; simp [hc] at hF ⊢; simp [wF] at hF
        have : ¬ s.ctr = 0 := by omega
        simp only [this, if_false] at h2
        omega
      · rw [if_neg hc] at hF ⊢
        simp [wF] at hF
        have : ¬ s.ctr = 0 := by omega
        simp only [this, if_false] at h2
        simp [hc]; omega
    · rcases hp y hy with hy | hy
      · split at hy <;> simp at hy
        subst hy; simp [Instr.needs] at hg
      · exact h.needs y hy g hg
    · have a := hH g'; have b := h5 g'
      have hw : wl (wH g') (if s.ctr - 1 = 0 then [Instr.free] else []) = 0 := by split <;> simp [wH]
      rw [hw] at a
      show s.own.count g' + _ ≤ if g' ∈ s.used then 1 else 0
      omega
  | free =>
    simp only at he
    split at he
    · rename_i hc
      simp at he; obtain ⟨rfl, rfl⟩ := he
      simp [wU, wF] at hU hF
      simp [wH] at hH
      refine ⟨by simp; omega, ?_, fun y hy => ?_, by simp [h4], by simpa [hH] using h5⟩
      · simp [hc] at h2 ⊢; omega
      · rcases hp y hy with hy | hy
        · simp at hy
        · exact h.needs y hy
    · simp at he

theorem Inv.env {s s' : St} {acts : List (List Instr)} (h : Inv s acts) {a : Act} {p : List Instr}
    (he : env s acts a = some (s', p)) : Inv s' (acts ++ [p]) := by
  have h1 := h.ctr; have h2 := h.fr; have h4 := h.log; have h5 := h.one
  have hp : ∀ {l : List Instr} y, Pending (acts ++ [l]) y → y ∈ l ∨ Pending acts y := by
    rintro l y ⟨a, ha, hy⟩
    rcases List.mem_append.1 ha with ha | ha
    · exact .inr ⟨a, ha, hy⟩
    · simp at ha; subst ha; exact .inl hy
  cases a <;> simp only [RefCount.env] at he <;> split at he <;> simp at he <;> obtain ⟨rfl, rfl⟩ := he <;> rename_i hc
  · refine ⟨by simp [wU]; omega, by simp [wF, h2], fun y hy g hg => ?_, h4, by simpa [wH] using h5⟩
    rcases hp y hy with hy | hy
    · simp at hy; subst hy; simp [Instr.needs] at hg; subst hg; exact hc
    · exact h.needs y hy g hg
  · rename_i g0 g1
    refine ⟨by simp [wU]; omega, by simp [wF, h2], fun y hy g hg => ?_, h4, fun g => ?_⟩
    · rcases hp y hy with hy | hy
      · simp at hy; subst hy; simp [Instr.needs] at hg; subst hg; exact hc.1
      · exact h.needs y hy g hg
    · have b := h5 g
      simp [wH]
      by_cases hgg : g1 = g
      · subst hgg; simp [hc.2] at b ⊢; simp [b]
      · simp [hgg, Ne.symm hgg]; exact b
  · rename_i g
    have hl := List.length_erase_of_mem hc.1
    have hpos := List.length_pos_of_mem hc.1
    refine ⟨?_, by simp [wF, h2], fun y hy g' hg => ?_, h4, fun g' => ?_⟩
    · simp [wU]; omega
    · rcases hp y hy with hq | hq
      · simp at hq; subst hq; simp [Instr.needs] at hg
      · have hne : g' ≠ g := by
          rintro rfl
          obtain ⟨a, haa, hya⟩ := hq
          have hall := hc.2
          simp only [List.all_eq_true] at hall
          have := hall a haa y hya
          simp [hg] at this
        exact (List.mem_erase_of_ne hne).2 (h.needs y hq g' hg)
    · have b := h5 g'
      simp only [ws_append, ws_cons, ws_nil, wl_cons, wl_nil, wH, List.count_erase]
      by_cases hgg : g = g'
      · subst hgg
        have := List.count_pos_iff.2 hc.1
        simp; omega
      · simp [hgg]; exact b

theorem reach_inv {c : Conf mach} (h : Reach mach .init c) : Inv c.sh c.acts :=
  Reach.inv (M := mach) (P := Inv) ⟨rfl, rfl, by rintro x ⟨a, ha, _⟩; simp at ha, rfl, fun g => by simp [St.init, List.count_cons]; split <;> split <;> simp_all⟩
    (fun _ _ _ _ _ hI he => hI.env he) (fun _ _ _ _ _ b _ _ hI hk he => hI.run (b := b) hk he) h

theorem Inv.pending_pos {s : St} {acts : List (List Instr)} (h : Inv s acts) {k : Nat} {x : Instr} {r : List Instr}
    (hk : acts[k]? = some (x :: r)) : s.freed = false := by
  have h1 := h.ctr; have h2 := h.fr
  cases hf : s.freed with
  | false => rfl
  | true =>
    rw [hf] at h2
    simp at h2
    have hc : s.ctr = 0 := by split at h2 <;> omega
    have hF := ws_pos (w := wF) hk
    have hU := ws_pos (w := wU) hk
    have ho : s.own = [] := List.length_eq_zero_iff.1 (by omega)
    simp [hc] at h2
    cases x with
    | use g => have := h.needs (.use g) ⟨_, List.mem_of_getElem? hk, by simp⟩ g (by simp [Instr.needs]); simp [ho] at this
    | ref g g' => have := h.needs (.ref g g') ⟨_, List.mem_of_getElem? hk, by simp⟩ g (by simp [Instr.needs]); simp [ho] at this
    | unref g => simp [wU] at hU; omega
    | free => simp [wF] at hF; omega

/-! ## Happens-before -/

/-- Event `e`, an access through handle `h`, will be known to whoever destroys the state. -/
structure Kn (h : Hd) (e : Nat) (s : St) (acts : List (List Instr)) (m : Mem Unit) : Prop where
  st : h ∈ s.own ∨ Pending acts (.unref h) ∨ m.msg () e = true
  u : AllKnow (fun x => x = .unref h) acts m e
  f : AllKnow (fun x => x = .free) acts m e
  d : Done (fun v => v = .free) s.log m e

theorem grows (entry : St → Act → Nat → Bool) : Grows (ann entry) .init where
  init := rfl
  env s acts a s' p he := by
    cases a <;> simp only [env] at he <;> split at he <;> simp at he <;> obtain ⟨rfl, rfl⟩ := he <;> simp
  run s x b s' p he := by
    simp only [exec] at he
    split at he
    · simp at he
    · cases x <;> simp only at he <;> repeat' split at he
      all_goals simp at he
      all_goals obtain ⟨rfl, rfl⟩ := he
      all_goals simp

theorem reach_kn {entry : St → Act → Nat → Bool} (ho : Ordered entry) {c : Conf mach} {m : Mem Unit}
    (h : HReach (ann entry) .init c m) {e : Nat} {v : Ev} {g : Hd} (hv : c.sh.log[e]? = some v) (hg : v.through g) :
    Kn g e c.sh c.acts m := by
  refine HReach.inv (A := ann entry) (P := fun c => Inv c.sh c.acts)
    (Q := fun s acts m => ∀ e v g, s.log[e]? = some v → Ev.through g v → Kn g e s acts m)
    (fun c hc => reach_inv hc) ?_ ?_ ?_ h e v g hv hg
  · intro e v g hv; simp [St.init] at hv
  · intro c m a s' p hI _ hQ he e v g hv hg
    have hl : s'.log = c.sh.log := by
      cases a <;> simp only [env] at he <;> split at he <;> simp at he <;> obtain ⟨rfl, rfl⟩ := he <;> rfl
    have hv' := hv
    rw [hl] at hv'
    have hK := hQ e v g hv' hg
    have hd := hK.d.step (evs := []) (log' := s'.log) (by simp [hl]) (k := c.acts.length)
      (v := m.known c.sh.log.length (entry c.sh a)) (as := []) (by simp)
    have hms : m.msg () e = true → (m.act c.acts.length (m.known c.sh.log.length (entry c.sh a)) []
        c.sh.log.length s'.log.length).msg () e = true := fun hm => Mem.keep (by simp) hm
    have hpe : Pending c.acts (.unref g) → Pending (c.acts ++ [p]) (.unref g) := by
      rintro ⟨a, ha, hx⟩; exact ⟨a, by simp [ha], hx⟩
    cases a <;> simp only [env] at he <;> split at he <;> simp at he <;> obtain ⟨rfl, rfl⟩ := he
    · exact ⟨hK.st.imp id (Or.imp hpe hms), hK.u.env (by simp), hK.f.env (by simp), hd⟩
    · exact ⟨hK.st.imp id (Or.imp hpe hms), hK.u.env (by simp), hK.f.env (by simp), hd⟩
    · rename_i g' _ _
      refine ⟨?_, hK.u.env ?_, hK.f.env (by simp), hd⟩
      · by_cases hgg : g = g'
        · subst hgg; exact .inr (.inl ⟨[.unref g], by simp, by simp⟩)
        · rcases hK.st with h1 | h1
          · exact .inl ((List.mem_erase_of_ne hgg).2 h1)
          · exact .inr (h1.imp hpe hms)
      · rintro ⟨y, hy, rfl⟩
        simp at hy; subst hy
        left
        have hlt := (List.getElem?_eq_some_iff.1 hv').1
        exact Mem.known_of hlt (ho _ _ _ _ hv' hg) (.inl rfl)
  · intro c m k x r b s' p hI hI' hQ hk he e v g hv hg
    have hf := hI.pending_pos hk
    have hlen : s'.log.length = c.sh.log.length + 1 := by
      simp only [exec, hf] at he
      cases x <;> simp at he <;> try (obtain ⟨rfl, rfl⟩ := he; simp)
      split at he <;> simp at he
      obtain ⟨rfl, rfl⟩ := he; simp
    by_cases hlt : e < c.sh.log.length
    · have hvo : c.sh.log[e]? = some v := by
        simp only [exec, hf] at he
        cases x <;> simp at he <;> try (obtain ⟨rfl, rfl⟩ := he; simpa [List.getElem?_append_left hlt] using hv)
        split at he <;> simp at he
        obtain ⟨rfl, rfl⟩ := he; simpa [List.getElem?_append_left hlt] using hv
      have hK := hQ e v g hvo hg
      have hpe : x ≠ .unref g → Pending c.acts (.unref g) → Pending (c.acts.set k (p ++ r)) (.unref g) := by
        rintro hne ⟨a, ha, hx⟩
        obtain ⟨j, hj⟩ := List.getElem?_of_mem ha
        by_cases hjk : j = k
        · subst hjk
          rw [hk] at hj; simp at hj; subst hj
          have hkl := (List.getElem?_eq_some_iff.1 hk).1
          refine ⟨p ++ r, List.mem_of_getElem? (i := j) (by simp [hkl]), ?_⟩
          rcases List.mem_cons.1 hx with hx | hx
          · exact absurd hx.symm hne
          · simp [hx]
        · exact ⟨a, List.mem_of_getElem? (i := j) (by rw [List.getElem?_set_ne (Ne.symm hjk)]; exact hj), hx⟩
      cases x with
      | use g' =>
        simp [exec, hf] at he; obtain ⟨rfl, rfl⟩ := he
        refine ⟨hK.st.imp id (Or.imp (hpe (by simp)) (Mem.keep (by simp))), hK.u.run hk (by simp), hK.f.run hk (by simp), ?_⟩
        exact hK.d.step rfl (by simp)
      | ref g' g'' =>
        simp [exec, hf] at he; obtain ⟨rfl, rfl⟩ := he
        refine ⟨hK.st.imp (List.mem_cons_of_mem _) (Or.imp (hpe (by simp)) (Mem.keep (by simp [Acc.stores]))),
          hK.u.run hk (by simp), hK.f.run hk (by simp), ?_⟩
        exact hK.d.step rfl (by simp)
      | unref g' =>
        simp [exec, hf] at he; obtain ⟨rfl, rfl⟩ := he
        -- what the decrement knows
        have hacq : g = g' ∨ m.msg () e = true →
            m.acquire (m.view k) [Acc.rmw .acqRel ()] e = true := by
          rintro (rfl | hm)
          · exact m.acquire_mono _ (hK.u k _ hk _ (by simp) rfl)
          · exact m.acquire_msg (l := ()) (List.mem_singleton.2 rfl) (by simp [Acc.acquires]) hm
        refine ⟨?_, hK.u.run hk ?_, hK.f.run hk ?_, hK.d.step rfl (by simp)⟩
        · by_cases hgg : g' = g
          · subst hgg
            exact .inr (.inr (Mem.publish (by simp [Acc.stores]) (List.mem_singleton.2 rfl) (by simp [Acc.releases])
              (.inl (hacq (.inl rfl)))))
          · refine hK.st.imp id (Or.imp (hpe (by simpa using hgg)) (Mem.keep (by simp [Acc.stores])))
        · rintro ⟨y, hy, rfl⟩; split at hy <;> simp at hy
        · rintro ⟨y, hy, rfl⟩
          split at hy <;> simp at hy
          rename_i hc
          apply hacq
          by_cases hgg : g = g'
          · exact .inl hgg
          · right
            have hctr := hI.ctr
            have hU := ws_pos (w := wU) hk
            simp [wU] at hU
            rcases hK.st with h1 | h1 | h1
            · have := List.length_pos_of_mem h1; omega
            · exfalso
              have hU' := ws_set wU (if c.sh.ctr - 1 = 0 then [Instr.free] else []) hk
              have hw : wl wU (if c.sh.ctr - 1 = 0 then [Instr.free] else []) = 0 := by split <;> simp [wU]
              rw [hw] at hU'
              simp only [wU] at hU'
              obtain ⟨a, ha, hx⟩ := hpe (by simpa using Ne.symm hgg) h1
              have := ws_pos_of_mem (w := wU) ha hx
              simp only [wU] at this
              omega
            · exact h1
      | free =>
        simp [exec, hf] at he
        split at he <;> simp at he
        obtain ⟨rfl, rfl⟩ := he
        refine ⟨hK.st.imp id (Or.imp (hpe (by simp)) (Mem.keep (by simp))), hK.u.run hk (by simp), hK.f.run hk (by simp), ?_⟩
        exact hK.d.step rfl fun _ => m.acquire_mono _ (hK.f k _ hk _ (by simp) rfl)
    · have hlt' := (List.getElem?_eq_some_iff.1 hv).1
      have hee : e = c.sh.log.length := by omega
      subst hee
      -- a new access through `g`: nobody is about to destroy `g`
      have hn : Pending c.acts x := ⟨_, List.mem_of_getElem? hk, by simp⟩
      have key : x.needs g = true ∧ p = [] ∧ c.sh.own ⊆ s'.own := by
        cases x <;> simp [exec, hf] at he
        · obtain ⟨rfl, rfl⟩ := he
          simp at hv; subst hv; exact ⟨by simpa [Instr.needs, Ev.through] using hg, rfl, by simp⟩
        · obtain ⟨rfl, rfl⟩ := he
          simp at hv; subst hv; exact ⟨by simpa [Instr.needs, Ev.through] using hg, rfl, by simp⟩
        · obtain ⟨rfl, rfl⟩ := he
          simp at hv; subst hv; simp [Ev.through] at hg
        · split at he <;> simp at he
          obtain ⟨rfl, rfl⟩ := he
          simp at hv; subst hv; simp [Ev.through] at hg
      obtain ⟨hng, rfl, hsub⟩ := key
      have hown := hI.needs x hn g hng
      have hU : ∀ a ∈ c.acts, ∀ y ∈ a, ¬ y = .unref g := by
        rintro a ha y hy rfl
        have h1 := ws_pos_of_mem (w := wH g) ha hy
        simp only [wH, if_true] at h1
        have h2 := hI.one g
        have h3 := List.count_pos_iff.2 hown
        split at h2 <;> omega
      have hF : ∀ a ∈ c.acts, ∀ y ∈ a, ¬ y = .free := by
        rintro a ha y hy rfl
        have h1 := ws_pos_of_mem (w := wF) ha hy
        simp only [wF] at h1
        have h2 := hI.fr
        have h3 := hI.ctr
        have h4 := List.length_pos_of_mem hown
        have h5 : ¬ c.sh.ctr = 0 := by omega
        simp [h5] at h2
        omega
      refine ⟨.inl (hsub hown), AllKnow.fresh hU hk ⟨Nat.le_refl _, hlt'⟩, AllKnow.fresh hF hk ⟨Nat.le_refl _, hlt'⟩, ?_⟩
      intro n w hw _ hen
      have := (List.getElem?_eq_some_iff.1 hw).1
      omega

/-! ## Properties -/

variable {entry : St → Act → Nat → Bool} {c : Conf mach} {m : Mem Unit}

/-- C55. The shared state is not accessed after it was destroyed, and it is not destroyed while its count is not zero,
whatever the threads do with their handles. -/
theorem C55_no_use_after_free (h : Reach mach .init c) : c.bad = false := by
  refine Reach.no_fault (M := mach) (P := Inv) (fun c hc => reach_inv hc) ?_ h
  intro s acts k x r b hI hk he
  have hf := hI.pending_pos hk
  simp only [exec, hf] at he
  cases x <;> simp at he
  have h1 := ws_pos (w := wF) hk
  have h2 := hI.fr
  simp only [wF] at h1
  split at h2
  · contradiction
  · omega

/-- C55. The shared state is destroyed at most once. -/
theorem C55_free_once (h : Reach mach .init c) : c.sh.log.count .free ≤ 1 := by
  have := (reach_inv h).log
  rw [this]; cases c.sh.freed <;> simp

/-- C55. When no handle is left and no thread is inside of the library then the state was destroyed. -/
theorem C55_freed_when_unused (h : Reach mach .init c) (hq : Quiescent c) (ho : c.sh.own = []) :
    .free ∈ c.sh.log := by
  have hI := reach_inv h
  have h1 := hI.ctr; have h2 := hI.fr; have h3 := hI.log
  rw [ws_quiescent _ hq, ho] at h1
  rw [ws_quiescent _ hq] at h2
  simp at h1
  simp [h1] at h2
  rw [h2] at h3
  exact List.count_pos_iff.1 (by simp [h3])

/-- C55. Every access to the shared state happens before its destruction, provided that the users destroy their handles
after they have used them. -/
theorem C55_use_before_free (ho : Ordered entry) (h : HReach (ann entry) .init c m) {a b : Nat} {v : Ev} {g : Hd}
    (ha : c.sh.log[a]? = some v) (hv : v.through g) (hb : c.sh.log[b]? = some .free) : m.hb a b := by
  have hK := reach_kn ho h ha hv
  have hlt : a < b := by
    -- after the destruction there are no accesses
    have hno : ∀ l1 l2 : List Ev, c.sh.log = l1 ++ .free :: l2 → ∀ w ∈ l2, False := by
      refine Reach.inv_with (M := mach) (P := Inv)
        (Q := fun s _ => ∀ l1 l2 : List Ev, s.log = l1 ++ .free :: l2 → ∀ w ∈ l2, False)
        (fun c hc => reach_inv hc) ?_ ?_ ?_ h.reach
      · intro l1 l2 e; simp [St.init] at e
      · intro s acts a s' p _ _ hQ he
        have hl : s'.log = s.log := by
          cases a <;> simp only [env] at he <;> split at he <;> simp at he <;> obtain ⟨rfl, rfl⟩ := he <;> rfl
        rw [hl]; exact hQ
      · intro s acts k x r b s' p hI hI' hQ hk he l1 l2 e w hw
        have hf := hI.pending_pos hk
        have hnf : .free ∉ s.log := by
          have := hI.log
          rw [hf] at this
          intro hm
          have := List.count_pos_iff.2 hm
          simp_all
        have hl : ∃ v, s'.log = s.log ++ [v] := by
          simp only [exec, hf] at he
          cases x <;> simp at he <;> try (obtain ⟨rfl, rfl⟩ := he; exact ⟨_, rfl⟩)
          split at he <;> simp at he
          obtain ⟨rfl, rfl⟩ := he; exact ⟨_, rfl⟩
        obtain ⟨v, hl⟩ := hl
        rw [hl] at e
        rcases List.eq_nil_or_concat l2 with rfl | ⟨l3, u, rfl⟩
        · simp at hw
        · have : s.log ++ [v] = (l1 ++ .free :: l3) ++ [u] := by simpa using e
          have := (List.append_inj' this rfl).1
          exact hnf (by simp [this])
    apply Classical.byContradiction
    intro hn
    have hne : a ≠ b := by
      rintro rfl
      rw [ha] at hb; simp at hb; subst hb; exact hv
    have hl := (List.getElem?_eq_some_iff.1 hb).1
    have hw := (List.getElem?_eq_some_iff.1 hb).2
    have hsp : c.sh.log = c.sh.log.take b ++ .free :: c.sh.log.drop (b + 1) := by
      rw [← hw, List.getElem_cons_drop, List.take_append_drop]
    refine hno _ _ hsp v (List.mem_of_getElem? (i := a - (b + 1)) ?_)
    rw [List.getElem?_drop, show b + 1 + (a - (b + 1)) = a by omega]
    exact ha
  exact hK.d b _ hb rfl hlt

/-! ## Example -/

/-- The promise is copied to a future, both are used, by two threads, and destroyed. The users know what they did with
the handle when they destroy it, and nothing else. -/
def dentry (s : St) : Act → Nat → Bool
  | .drop h, e => match s.log[e]? with
    | some (.use g) | some (.ref g _) => g == h
    | _ => false
  | _, _ => false

theorem dentry_ordered : Ordered dentry := by
  intro s h e v hv hg
  cases v <;> simp [Ev.through] at hg <;> simp [dentry, hv, hg]

def demo : Conf mach × Mem Unit :=
  (ann dentry).go .init
    [.env (.copy 0 1), .run 0 true, .env (.use 0), .env (.use 1), .run 1 true, .run 2 true, .env (.drop 0), .run 3 true,
     .env (.drop 1), .run 4 true, .run 4 true]

example : demo.1.sh.log = [.ref 0 1, .use 0, .use 1, .drop 0, .drop 1, .free] := rfl
example : demo.2.hb 0 5 ∧ demo.2.hb 1 5 ∧ demo.2.hb 2 5 := by decide
example : ¬ demo.2.hb 1 2 := by decide

example : demo.2.hb 2 5 :=
  C55_use_before_free dentry_ordered (HReach.go _ _ _) (a := 2) (b := 5) (g := 1) rfl rfl rfl
example : demo.1.bad = false := C55_no_use_after_free (HReach.go (ann dentry) .init _).reach
example : demo.1.sh.log.count .free ≤ 1 := C55_free_once (HReach.go (ann dentry) .init _).reach
example : .free ∈ demo.1.sh.log :=
  C55_freed_when_unused (HReach.go (ann dentry) .init _).reach (show ∀ a ∈ demo.1.acts, a = [] by decide) rfl

end Verif.Promise.RefCount
