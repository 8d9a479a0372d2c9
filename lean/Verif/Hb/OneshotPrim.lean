import Verif.Hb.Resolver
import Verif.OneshotPrim.Props

/-!
# Happens-before for `oneshot_primitive`

`state_` is exchanged with acquire and release order in `raise()` (oneshot-event.hpp line 55), loaded with acquire order
(line 75) and compare-exchanged with acquire and release order, acquire order on failure (lines 80-85).
-/

namespace Verif.OneshotPrim

/-- The only atomic variable is `state_`. `entry` is what the callers know. -/
abbrev ann (entry : St → Act → Nat → Bool) : Ann mach where
  L := Unit
  dec := inferInstance
  len s := s.log.length
  entry := entry
  eff s x b := match x with
    | .start _ => [.load .acq ()]
    | .loop _ cur => if cur = .fired then [] else if s.head = cur ∧ b then [.rmw .acqRel ()] else [.load .acq ()]
    | .raise => [.rmw .acqRel ()]
    | .setv _ | .walk _ | .complete _ _ => []

variable {entry : St → Act → Nat → Bool}

/-! ## Facts -/

/-- Everything in the list was pushed. -/
structure Ps (s : St) (acts : List (List Instr)) : Prop where
  head : ∀ i, s.head = .node i → .push i ∈ s.log
  next : ∀ i j, s.next j = .node i → .push i ∈ s.log
  pend : ∀ i x, Pending acts x → rest x = some (.node i) ∨ (∃ j, x = .loop j (.node i)) → .push i ∈ s.log
  call : .call ∈ s.log → s.called = true

theorem pend_app {acts : List (List Instr)} {l : List Instr} {y : Instr} (h : Pending (acts ++ [l]) y) :
    y ∈ l ∨ Pending acts y := by
  obtain ⟨a, ha, hy⟩ := h
  rcases List.mem_append.1 ha with ha | ha
  · exact .inr ⟨a, ha, hy⟩
  · simp at ha; subst ha; exact .inl hy

theorem reach_ps {c : Conf mach} (h : Reach mach init c) : Ps c.sh c.acts := by
  refine Reach.inv (M := mach) (P := Ps) ?_ ?_ ?_ h
  · constructor
    · simp [init]
    · simp [init]
    · rintro i x ⟨a, ha, _⟩; simp at ha
    · simp [init]
  · intro s acts a s' p hs he
    have h3 : ∀ x, Pending (acts ++ [p]) x → x ∈ p ∨ Pending acts x := fun x hx => pend_app hx
    obtain ⟨h0, h1, h2, h5⟩ := hs
    cases a <;> simp only [env] at he <;> split at he <;> simp at he <;> obtain ⟨rfl, rfl⟩ := he
    · constructor <;> simp <;> grind [rest]
    · constructor <;> simp <;> grind [rest]
  · intro s acts k x r b s' p hs hk he
    have h3 : ∀ y, Pending (acts.set k (p ++ r)) y → y ∈ p ∨ Pending acts y := fun y hy => pending_set hk hy
    have h4 : Pending acts x := ⟨_, List.mem_of_getElem? hk, by simp⟩
    clear hk
    obtain ⟨h0, h1, h2, h5⟩ := hs
    cases x with
    | walk q =>
      cases q <;> simp only [exec] at he <;> (try split at he) <;> simp at he <;> obtain ⟨rfl, rfl⟩ := he <;>
        constructor <;> (try simp) <;> grind [rest]
    | start i => simp [exec] at he; obtain ⟨rfl, rfl⟩ := he; constructor <;> grind [rest]
    | loop i q =>
      simp only [exec] at he
      split at he
      · simp at he; obtain ⟨rfl, rfl⟩ := he; constructor <;> grind [rest]
      split at he
      · simp at he
      split at he <;> simp at he <;> obtain ⟨rfl, rfl⟩ := he <;> constructor <;> simp [upd_apply] <;> grind [rest]
    | raise =>
      simp only [exec] at he
      split at he <;> simp at he
      obtain ⟨rfl, rfl⟩ := he; constructor <;> simp <;> grind [rest]
    | setv i =>
      simp only [exec, St.finish] at he
      split at he <;> simp at he
      obtain ⟨rfl, rfl⟩ := he; constructor <;> simp <;> grind [rest]
    | complete i q =>
      simp only [exec, St.finish] at he
      split at he <;> simp at he
      obtain ⟨rfl, rfl⟩ := he; constructor <;> simp <;> grind [rest]

/-- The instruction belongs to the running `raise()`, or has seen that the event fired. -/
def late (x : Instr) : Prop := x = .raise ∨ isWalk x = 1 ∨ sawFired x = true

/-- What a step does. -/
theorem exec_facts {s s' : St} {x : Instr} {b : Bool} {p : List Instr} (he : exec s x b = .ok s' p) :
    ∃ evs, s'.log = s.log ++ evs ∧ evs.length ≤ 1 ∧
    (s.head = .fired → s'.head = .fired) ∧ (s.head ≠ .fired → s'.head = .fired → x = .raise) ∧
    (∀ y ∈ p, late y → late x ∨ (s.head = .fired ∧ .load .acq () ∈ (ann entry).eff s x b)) ∧
    (∀ y ∈ p, isWalk y = 1 → isWalk x = 1 ∨ (x = .raise ∧ s.head ≠ .fired)) ∧
    (∀ i, .done i ∈ evs → late x ∧ i ∈ ops x) ∧
    (∀ i, .push i ∈ evs → i ∈ ops x ∧ s.head ≠ .fired ∧ (ann entry).eff s x b = [.rmw .acqRel ()] ∧ p = [] ∧ s'.head ≠ .fired) ∧
    (.raise ∈ evs → x = .raise ∧ s.head ≠ .fired ∧ isRaise x = 1) ∧ (.call ∉ evs) ∧ (∀ i, .begin i ∉ evs) ∧
    (∀ y ∈ p, ∀ i ∈ ops y, i ∈ ops x ∨ x = .walk (.node i)) ∧
    (∀ y ∈ p, y ≠ .raise) ∧ (∀ a ∈ (ann entry).eff s x b, ∀ l, a.stores l = false) ∧
    (x = .raise → (ann entry).eff s x b = [.rmw .acqRel ()]) := by
  cases x with
  | walk q =>
    cases q <;> simp only [exec] at he <;> (try split at he) <;> simp at he <;> obtain ⟨rfl, rfl⟩ := he
    · exact ⟨_, rfl, by simp [late, isWalk, ops]⟩
    · exact ⟨[], by simp, by simp [late, isWalk, ops]⟩
  | start i =>
    simp [exec] at he; obtain ⟨rfl, rfl⟩ := he
    refine ⟨[], by simp, ?_⟩
    simp [late, isWalk, ops, sawFired, Acc.stores]
    grind [sawFired]
  | loop i q =>
    simp only [exec] at he
    split at he
    · rename_i hq; subst hq
      simp at he; obtain ⟨rfl, rfl⟩ := he; exact ⟨[], by simp, by simp [late, isWalk, ops, sawFired]⟩
    split at he
    · simp at he
    split at he <;> simp at he <;> obtain ⟨rfl, rfl⟩ := he
    · rename_i h1 h2 h3
      refine ⟨_, rfl, ?_⟩
      simp [late, isWalk, ops, sawFired, Acc.stores, h1, h3]
    · rename_i h1 h2 h3
      refine ⟨[], by simp, ?_⟩
      simp [late, isWalk, ops, sawFired, Acc.stores, h1, h3]
      grind [sawFired]
  | raise =>
    simp only [exec] at he
    split at he <;> simp at he
    rename_i hf
    obtain ⟨rfl, rfl⟩ := he; exact ⟨_, rfl, by simp [late, isWalk, isRaise, ops, hf, Acc.stores]⟩
  | setv i =>
    simp only [exec, St.finish] at he
    split at he <;> simp at he
    obtain ⟨rfl, rfl⟩ := he; exact ⟨_, rfl, by simp [late, isWalk, ops, sawFired]⟩
  | complete i q =>
    simp only [exec, St.finish] at he
    split at he <;> simp at he
    obtain ⟨rfl, rfl⟩ := he; exact ⟨_, rfl, by simp [late, isWalk, ops]⟩

theorem env_facts {s s' : St} {acts : List (List Instr)} {a : Act} {p : List Instr} (he : env s acts a = some (s', p)) :
    s'.head = s.head ∧ ((∃ i, s'.log = s.log ++ [.begin i] ∧ p = [.start i] ∧ s.started i = false) ∨
      (s'.log = s.log ++ [.call] ∧ p = [.raise] ∧ s.called = false)) := by
  cases a <;> simp only [env] at he <;> split at he <;> simp at he <;> obtain ⟨rfl, rfl⟩ := he
  · rename_i h; exact ⟨rfl, .inl ⟨_, rfl, rfl, by simpa using h⟩⟩
  · rename_i h; exact ⟨rfl, .inr ⟨rfl, rfl, by simpa using h⟩⟩

/-! ## The raise -/

structure KR (s : St) (acts : List (List Instr)) (m : Mem Unit) (e : Nat) : Prop where
  know : AllKnow late acts m e
  msg : s.head = .fired → m.msg () e = true
  done : Done (fun v => ∃ i, v = .done i) s.log m e

theorem none_late {s : St} {acts : List (List Instr)} {l : List Id} (h : Inv s acts l) (hf : s.head ≠ .fired) :
    ∀ a ∈ acts, ∀ x ∈ a, late x → isRaise x = 1 := by
  intro a ha x hx hl
  have h1 := h.raised
  rw [if_neg hf] at h1
  have h2 := h.walks
  rcases hl with rfl | hl | hl
  · rfl
  · have := ws_pos_of_mem (w := isWalk) ha hx; omega
  · exact absurd (h.saw x ⟨a, ha, hx⟩ hl) hf

theorem hreach_raise {c : Conf mach} {m : Mem Unit} (h : HReach (ann entry) init c m) :
    ∀ (e : Nat) v, c.sh.log[e]? = some v → v = .call ∨ v = .raise → KR c.sh c.acts m e := by
  refine HReach.inv (A := ann entry) (P := fun c => (∃ l, Inv c.sh c.acts l) ∧ Ps c.sh c.acts)
    (Q := fun s acts m => ∀ (e : Nat) v, s.log[e]? = some v → v = .call ∨ v = .raise → KR s acts m e)
    (fun c hc => ⟨reach_inv hc, reach_ps hc⟩) ?_ ?_ ?_ h
  · simp [init]
  · rintro c m a s' p ⟨⟨l, hI⟩, hP⟩ - hQ he e v hv hcv
    obtain ⟨hh, hcase⟩ := env_facts (acts := c.acts) he
    have hlog : ∃ w, s'.log = c.sh.log ++ [w] ∧ (∀ i, w ≠ .done i) := by
      rcases hcase with ⟨i, h1, -, -⟩ | ⟨h1, -, -⟩ <;> exact ⟨_, h1, by simp⟩
    obtain ⟨w, hl, hw⟩ := hlog
    by_cases hel : e < c.sh.log.length
    · rw [hl, List.getElem?_append_left hel] at hv
      have hK := hQ e v hv hcv
      refine ⟨hK.know.env ?_, fun hf => Mem.keep (by simp) (hK.msg (by rw [← hh]; exact hf)), hK.done.step hl ?_⟩
      · rintro ⟨y, hy, hly⟩
        rcases hcase with ⟨i, -, rfl, -⟩ | ⟨-, rfl, hc⟩
        · simp at hy; subst hy; simp [late, isWalk, sawFired] at hly
        · exfalso
          have h1 := hI.calls
          rw [hc] at h1
          simp at h1
          rcases hcv with rfl | rfl
          · have := hP.call (List.mem_of_getElem? hv); simp [hc] at this
          · have := List.count_pos_iff.2 (List.mem_of_getElem? hv); omega
      · rintro ⟨u, hu, i, rfl⟩; simp at hu; exact absurd hu.symm (hw i)
    · have hlt := (List.getElem?_eq_some_iff.1 hv).1
      have hlen : s'.log.length = c.sh.log.length + 1 := by rw [hl]; simp
      have he' : e = c.sh.log.length := by omega
      subst he'
      rw [hl] at hv; simp at hv; subst hv
      rcases hcase with ⟨i, h1, -, -⟩ | ⟨-, rfl, hc⟩
      · rw [hl] at h1; simp at h1; subst h1; simp at hcv
      · have h1 := hI.calls
        rw [hc] at h1
        simp at h1
        have hf : c.sh.head ≠ .fired := by
          intro hf
          have := hI.raised
          rw [if_pos hf] at this
          omega
        refine ⟨?_, fun hf' => absurd (hh ▸ hf') hf, ?_⟩
        · have : AllKnow late c.acts m c.sh.log.length := by
            intro k a hk x hx hlx
            have h2 := none_late hI hf a (List.mem_of_getElem? hk) x hx hlx
            have h3 := ws_pos_of_mem (w := isRaise) (List.mem_of_getElem? hk) hx
            omega
          exact this.env (fun _ => .inr ⟨Nat.le_refl _, by show _ < s'.log.length; omega⟩)
        · intro n u hu hd hn
          have := (List.getElem?_eq_some_iff.1 hu).1
          omega
  · rintro c m k x r b s' p ⟨⟨l, hI⟩, hP⟩ - hQ hk he e v hv hcv
    obtain ⟨evs, hl, f0, f1, f2, f3, f4, f5, f6, f7, f8, f9, f10, f11, f12, f13⟩ := exec_facts (entry := entry) he
    by_cases hel : e < c.sh.log.length
    · rw [hl, List.getElem?_append_left hel] at hv
      have hK := hQ e v hv hcv
      have hx : late x → m.view k e = true := hK.know k _ hk x (by simp)
      refine ⟨hK.know.run hk ?_, fun hf => ?_, hK.done.step hl ?_⟩
      · rintro ⟨y, hy, hly⟩
        rcases f3 y hy hly with h1 | ⟨h1, h2⟩
        · exact m.acquire_mono _ (hx h1)
        · exact m.acquire_msg (l := ()) h2 (by simp [Acc.acquires]) (hK.msg h1)
      · by_cases hf' : c.sh.head = .fired
        · exact Mem.keep (fun a ha => f12 a ha _) (hK.msg hf')
        · have hxr := f2 hf' hf
          refine Mem.publish (fun a ha => f12 a ha _) (x := .rmw .acqRel ()) (by rw [f13 hxr]; simp) (by simp [Acc.releases])
            (.inl (m.acquire_mono _ (hx (.inl hxr))))
      · rintro ⟨u, hu, i, rfl⟩
        exact m.acquire_mono _ (hx (f5 i hu).1)
    · have hlt := (List.getElem?_eq_some_iff.1 hv).1
      have hlen : s'.log.length ≤ c.sh.log.length + 1 := by rw [hl]; simp; exact f0
      have hve : v ∈ evs := by
        rw [hl, List.getElem?_append_right (by omega)] at hv
        exact List.mem_of_getElem? hv
      have hvr : v = .raise := by rcases hcv with rfl | rfl; exact absurd hve f8; rfl
      subst hvr
      obtain ⟨rfl, hf, -⟩ := f7 hve
      have hin : c.sh.log.length ≤ e ∧ e < s'.log.length := ⟨by omega, hlt⟩
      refine ⟨?_, fun _ => ?_, ?_⟩
      · intro j a hj y hy hly
        by_cases hjk : j = k
        · subst hjk; exact Mem.act_view_self (.inr hin)
        · exfalso
          rw [List.getElem?_set_ne (Ne.symm hjk)] at hj
          have h2 := none_late hI hf a (List.mem_of_getElem? hj) y hy hly
          have h3 := ws_set isRaise p hk
          have h4 := ws_pos_of_mem (w := isRaise) (acts := c.acts.set k (p ++ r)) (a := a) (List.mem_of_getElem? (i := j)
            (by rw [List.getElem?_set_ne (Ne.symm hjk)]; exact hj)) hy
          have h5 := hI.calls
          have h6 : wl isRaise p = 0 := by
            simp only [exec, if_neg hf] at he
            simp at he; obtain ⟨-, rfl⟩ := he; simp [isRaise]
          simp [isRaise] at h3
          split at h5 <;> omega
      · refine Mem.publish (fun a ha => f12 a ha _) (x := .rmw .acqRel ()) (by rw [f13 rfl]; simp) (by simp [Acc.releases]) (.inr hin)
      · intro n u hu hd hn
        have := (List.getElem?_eq_some_iff.1 hu).1
        omega

/-! ## The waits -/

structure KW (i : Id) (s : St) (acts : List (List Instr)) (m : Mem Unit) (e : Nat) : Prop where
  know : AllKnow (fun x => i ∈ ops x) acts m e
  msg : .push i ∈ s.log → s.head ≠ .fired → m.msg () e = true
  walk : .push i ∈ s.log → AllKnow (fun x => isWalk x = 1) acts m e
  done : Done (fun v => v = .done i) s.log m e

theorem no_walk {s : St} {acts : List (List Instr)} {l : List Id} (h : Inv s acts l) (hf : s.head ≠ .fired) :
    ∀ a ∈ acts, ∀ x ∈ a, ¬ isWalk x = 1 := by
  intro a ha x hx hl
  have h1 := h.raised
  rw [if_neg hf] at h1
  have h2 := h.walks
  have := ws_pos_of_mem (w := isWalk) ha hx; omega

theorem ops_begun {s : St} {acts : List (List Instr)} {l : List Id} (h : Inv s acts l) (i : Id) :
    ws (cw ops (· == i)) acts ≤ (begun s.log).count i := by
  have h1 := h.place (· == i)
  unfold List.count
  omega

theorem push_begun {s : St} {acts : List (List Instr)} {l : List Id} (h : Inv s acts l) {i : Id} (hp : .push i ∈ s.log) :
    0 < (begun s.log).count i := by
  have h1 := h.place (· == i)
  unfold List.count
  rcases h.pushed i hp with h2 | h2 | ⟨q, a, h2, h3⟩
  · have : 0 < l.countP (· == i) := List.countP_pos_iff.2 ⟨i, h2, by simp⟩
    omega
  · have : 0 < (dones s.log).countP (· == i) := List.countP_pos_iff.2 ⟨i, h2, by simp⟩
    omega
  · have := ws_pos_of_mem (w := cw ops (· == i)) h2 h3
    simp [cw, ops] at this
    omega

theorem hreach_wait {c : Conf mach} {m : Mem Unit} (h : HReach (ann entry) init c m) :
    ∀ (e : Nat) v i, c.sh.log[e]? = some v → v = .begin i ∨ v = .push i → KW i c.sh c.acts m e := by
  refine HReach.inv (A := ann entry) (P := fun c => (∃ l, Inv c.sh c.acts l) ∧ Ps c.sh c.acts)
    (Q := fun s acts m => ∀ (e : Nat) v i, s.log[e]? = some v → v = .begin i ∨ v = .push i → KW i s acts m e)
    (fun c hc => ⟨reach_inv hc, reach_ps hc⟩) ?_ ?_ ?_ h
  · simp [init]
  · rintro c m a s' p ⟨⟨l, hI⟩, hP⟩ - hQ he e v i hv hcv
    obtain ⟨hh, hcase⟩ := env_facts (acts := c.acts) he
    have hlog : ∃ w, s'.log = c.sh.log ++ [w] ∧ (∀ i, w ≠ .done i) ∧ ∀ i, w ≠ .push i := by
      rcases hcase with ⟨i, h1, -, -⟩ | ⟨h1, -, -⟩ <;> exact ⟨_, h1, by simp, by simp⟩
    obtain ⟨w, hl, hw, hw'⟩ := hlog
    have hpush : ∀ i, .push i ∈ s'.log → .push i ∈ c.sh.log := by
      intro i hm
      rw [hl] at hm
      simp at hm
      exact hm.resolve_right (fun h => hw' i h.symm)
    have hpw : ∀ y ∈ p, ¬ isWalk y = 1 := by
      rcases hcase with ⟨i, -, rfl, -⟩ | ⟨-, rfl, -⟩ <;> simp [isWalk]
    by_cases hel : e < c.sh.log.length
    · rw [hl, List.getElem?_append_left hel] at hv
      have hK := hQ e v i hv hcv
      refine ⟨hK.know.env ?_, fun hm hf => Mem.keep (by simp) (hK.msg (hpush i hm) (by rw [← hh]; exact hf)),
        fun hm => (hK.walk (hpush i hm)).env ?_, hK.done.step hl ?_⟩
      · rintro ⟨y, hy, hly⟩
        rcases hcase with ⟨j, -, rfl, hj⟩ | ⟨-, rfl, hc⟩
        · simp at hy; subst hy
          simp [ops] at hly; subst hly
          exfalso
          have h1 := hI.once i
          rw [hj] at h1
          have h2 : 0 < (begun c.sh.log).count i := by
            rcases hcv with rfl | rfl
            · exact List.count_pos_iff.2 (mem_begun.2 (List.mem_of_getElem? hv))
            · exact push_begun hI (List.mem_of_getElem? hv)
          simp at h1; omega
        · simp at hy; subst hy; simp [ops] at hly
      · rintro ⟨y, hy, hly⟩; exact absurd hly (hpw y hy)
      · rintro ⟨u, hu, rfl⟩; simp at hu; exact absurd hu.symm (hw i)
    · have hlt := (List.getElem?_eq_some_iff.1 hv).1
      have hlen : s'.log.length = c.sh.log.length + 1 := by rw [hl]; simp
      have he' : e = c.sh.log.length := by omega
      subst he'
      rw [hl] at hv; simp at hv; subst hv
      rcases hcase with ⟨j, h1, rfl, hj⟩ | ⟨h1, -, -⟩
      · rw [hl] at h1; simp at h1; subst h1
        simp at hcv; subst hcv
        have h1 := hI.once j
        rw [hj] at h1
        simp at h1
        have hnp : .push j ∉ s'.log := by
          intro hm
          have := push_begun hI (hpush j hm)
          omega
        refine ⟨?_, fun hm => absurd hm hnp, fun hm => absurd hm hnp, ?_⟩
        · have : AllKnow (fun x => j ∈ ops x) c.acts m c.sh.log.length := by
            intro k a hk x hx hlx
            have h2 := ws_pos_of_mem (w := cw ops (· == j)) (List.mem_of_getElem? hk) hx
            have h3 := ops_begun hI j
            have h4 : 0 < cw ops (· == j) x := List.countP_pos_iff.2 ⟨j, hlx, by simp⟩
            omega
          exact this.env (fun _ => .inr ⟨Nat.le_refl _, by show _ < s'.log.length; omega⟩)
        · intro n u hu hd hn
          have := (List.getElem?_eq_some_iff.1 hu).1
          omega
      · rw [hl] at h1; simp at h1; subst h1; simp at hcv
  · rintro c m k x r b s' p ⟨⟨l, hI⟩, hP⟩ - hQ hk he e v i hv hcv
    obtain ⟨evs, hl, f0, f1, f2, f3, f4, f5, f6, f7, f8, f9, f10, f11, f12, f13⟩ := exec_facts (entry := entry) he
    by_cases hel : e < c.sh.log.length
    · rw [hl, List.getElem?_append_left hel] at hv
      have hK := hQ e v i hv hcv
      have hx : i ∈ ops x → m.view k e = true := hK.know k _ hk x (by simp)
      refine ⟨hK.know.run hk ?_, fun hm hf => ?_, fun hm => ?_, hK.done.step hl ?_⟩
      · rintro ⟨y, hy, hly⟩
        rcases f10 y hy i hly with h1 | rfl
        · exact m.acquire_mono _ (hx h1)
        · have h2 := hP.pend i (.walk (.node i)) ⟨_, List.mem_of_getElem? hk, List.mem_cons_self⟩ (.inl rfl)
          exact m.acquire_mono _ (hK.walk h2 k _ hk (.walk (.node i)) (by simp) rfl)
      · have hf' : c.sh.head ≠ .fired := fun h => hf (f1 h)
        by_cases hm' : .push i ∈ c.sh.log
        · exact Mem.keep (fun a ha => f12 a ha _) (hK.msg hm' hf')
        · have hm : .push i ∈ evs := by
            rw [hl] at hm
            exact (List.mem_append.1 hm).resolve_left hm'
          obtain ⟨g1, -, g2, -⟩ := f6 i hm
          exact Mem.publish (fun a ha => f12 a ha _) (x := .rmw .acqRel ()) (by rw [g2]; simp) (by simp [Acc.releases])
            (.inl (m.acquire_mono _ (hx g1)))
      · by_cases hm' : .push i ∈ c.sh.log
        · refine (hK.walk hm').run hk ?_
          rintro ⟨y, hy, hly⟩
          rcases f4 y hy hly with h1 | ⟨h1, h2⟩
          · exact m.acquire_mono _ (hK.walk hm' k _ hk x (by simp) h1)
          · exact m.acquire_msg (l := ()) (a := .rmw .acqRel ()) (by rw [f13 h1]; simp) (by simp [Acc.acquires])
              (hK.msg hm' h2)
        · have hm : .push i ∈ evs := by
            rw [hl] at hm
            exact (List.mem_append.1 hm).resolve_left hm'
          obtain ⟨g1, g3, g2, rfl, -⟩ := f6 i hm
          intro j a hj y hy hly
          exfalso
          rcases pending_set hk ⟨a, List.mem_of_getElem? hj, hy⟩ with h1 | ⟨a', ha', hy'⟩
          · simp at h1
          · exact no_walk hI g3 a' ha' y hy' hly
      · rintro ⟨u, hu, rfl⟩
        exact m.acquire_mono _ (hx (f5 i hu).2)
    · have hlt := (List.getElem?_eq_some_iff.1 hv).1
      have hlen : s'.log.length ≤ c.sh.log.length + 1 := by rw [hl]; simp; exact f0
      have hve : v ∈ evs := by
        rw [hl, List.getElem?_append_right (by omega)] at hv
        exact List.mem_of_getElem? hv
      have hvr : v = .push i := by rcases hcv with rfl | rfl; exact absurd hve (f9 i); rfl
      subst hvr
      obtain ⟨g1, g3, g2, rfl, g4⟩ := f6 i hve
      have hin : c.sh.log.length ≤ e ∧ e < s'.log.length := ⟨by omega, hlt⟩
      refine ⟨?_, fun _ _ => ?_, fun _ => ?_, ?_⟩
      · intro j a hj y hy hly
        by_cases hjk : j = k
        · subst hjk; exact Mem.act_view_self (.inr hin)
        · exfalso
          have h3 : ws (cw ops (· == i)) (c.acts.set k ([] ++ r)) + (ops x).countP (· == i) = ws (cw ops (· == i)) c.acts := by
            have := cw_set ops (· == i) [] hk
            simpa using this
          have h4 := ws_pos_of_mem (w := cw ops (· == i)) (List.mem_of_getElem? hj) hy
          have h5 := ops_begun hI i
          have h6 := hI.once i
          have h7 : 0 < (ops x).countP (· == i) := List.countP_pos_iff.2 ⟨i, g1, by simp⟩
          have h8 : 0 < cw ops (· == i) y := List.countP_pos_iff.2 ⟨i, hly, by simp⟩
          split at h6 <;> omega
      · exact Mem.publish (fun a ha => f12 a ha _) (x := .rmw .acqRel ()) (by rw [g2]; simp) (by simp [Acc.releases]) (.inr hin)
      · intro j a hj y hy hly
        exfalso
        rcases pending_set hk ⟨a, List.mem_of_getElem? hj, hy⟩ with h1 | ⟨a', ha', hy'⟩
        · simp at h1
        · exact no_walk hI g3 a' ha' y hy' hly
      · intro n u hu hd hn
        have := (List.getElem?_eq_some_iff.1 hu).1
        omega

/-! ## Properties -/

/-- C61. Everything before `raise()` happens before the completions: the call of `raise()`, and its exchange, happen before
each completion of a wait that follows. -/
theorem C61_raise_before_completion {c : Conf mach} {m : Mem Unit} (h : HReach (ann entry) init c m) {a b : Nat} {i : Id}
    {v : Ev} (ha : c.sh.log[a]? = some v) (hv : v = .call ∨ v = .raise) (hb : c.sh.log[b]? = some (.done i)) (hab : a < b) :
    m.hb a b :=
  (hreach_raise h a v ha hv).done b _ hb ⟨i, rfl⟩ hab

/-- C61. The call of `start()`, and its last access to the operation, happen before the completion of the wait (which may
destroy the operation), whoever completes it. -/
theorem C61_start_before_completion {c : Conf mach} {m : Mem Unit} (h : HReach (ann entry) init c m) {a b : Nat} {i : Id}
    {v : Ev} (ha : c.sh.log[a]? = some v) (hv : v = .begin i ∨ v = .push i) (hb : c.sh.log[b]? = some (.done i))
    (hab : a < b) : m.hb a b :=
  (hreach_wait h a v i ha hv).done b _ hb rfl hab

/-! ## Examples -/

/-- The schedule of `demo`; nobody knows anything when they call. -/
def hdemo : Conf mach × Mem Unit := (ann fun _ _ _ => false).go init
  [.env (.start 0), .env (.start 1), .env (.start 2), .run 0 true, .run 1 true, .run 2 true,
   .run 0 true, .run 1 true, .run 1 false, .run 1 true, .env .raise, .run 3 true,
   .run 3 true, .run 2 true, .run 3 true, .run 3 true, .run 3 true, .run 3 true, .run 2 true, .run 2 true]

theorem hdemo_reach : HReach (ann fun _ _ _ => false) init hdemo.1 hdemo.2 := HReach.go _ _ _

theorem hdemo_log : hdemo.1.sh.log = [.begin 0, .begin 1, .begin 2, .push 0, .push 1, .call, .raise, .done 1, .done 0,
    .ret, .done 2] := by decide

example : hdemo.2.hb 5 10 := C61_raise_before_completion hdemo_reach (by rw [hdemo_log]; rfl) (.inl rfl)
  (by rw [hdemo_log]; rfl) (by omega)
example : hdemo.2.hb 4 7 := C61_start_before_completion hdemo_reach (by rw [hdemo_log]; rfl) (.inr rfl)
  (by rw [hdemo_log]; rfl) (by omega)
/-- The completions of different waits need not be ordered. -/
example : ¬ hdemo.2.hb 8 10 ∧ ¬ hdemo.2.hb 2 7 := by decide

end Verif.OneshotPrim
