import Verif.Hb.Resolver
import Verif.Result.Props

/-!
# Happens-before for `result<T>`

`cfp_` is exchanged with `release` at the final suspension point (result.hpp lines 123-124, 232-233) and with `relaxed` in
`start()` (lines 297 and 332); if `start()` finds that the coroutine has finished, an acquire fence follows
(lines 300, 335), which makes the exchange an acquire operation.
-/

namespace Verif.Result

variable {B : Body}

/-- The atomic variables are the `cfp_` of the coroutines. `entry` is what the environment knows when it starts an
operation or completes a sender. -/
abbrev ann (entry : St B → Act B → Nat → Bool) : Ann (mach B) where
  L := Id
  dec := inferInstanceAs (DecidableEq Nat)
  len s := s.log.length
  entry := entry
  eff s x _ := match x with
    | .exStart i => if s.cfp i = .pastSuspend then [.rmw .acq i] else [.rmw .rlx i]
    | .exFin i => [.rmw .rel i]
    | _ => []

/-- Whoever completes an awaited sender knows that it was started. -/
def Ordered (entry : St B → Act B → Nat → Bool) : Prop :=
  ∀ s i v (e : Nat) a, s.log[e]? = some (.await i a) → entry s (.complete i v) e = true

/-- Events of the coroutine: everything but the two exchanges. -/
def Ev.co (i : Id) : Ev S → Prop
  | .left _ | .fin _ => False
  | v => v.op = i

/-- Instructions that run or complete the coroutine. -/
def tok (i : Id) : Instr → Prop
  | .exStart _ => False
  | .link j | .go j | .seg j | .awStart j | .emplace j _ | .hres j | .exFin j | .setv j => j = i

instance (i : Id) (x : Instr) : Decidable (tok i x) := by cases x <;> simp only [tok] <;> infer_instance

/-- Weight of the instructions that run or complete the coroutine. -/
def tw (i : Id) (x : Instr) : Nat := if tok i x then 1 else 0

theorem tw_eq (i : Id) (x : Instr) : tw i x = lw i x + gw i x + sw i x + aw i x + ew i x + hw i x + fw i x + vw i x := by
  cases x <;> simp [tw, tok, lw, gw, sw, aw, ew, hw, fw, vw]

theorem ws_tw (i : Id) (acts : List (List Instr)) : ws (tw i) acts = ws (lw i) acts + ws (gw i) acts + ws (sw i) acts +
    ws (aw i) acts + ws (ew i) acts + ws (hw i) acts + ws (fw i) acts + ws (vw i) acts := by
  have e : tw i = fun x => lw i x + (gw i x + (sw i x + (aw i x + (ew i x + (hw i x + (fw i x + vw i x)))))) := by
    funext x; rw [tw_eq]; omega
  rw [e]
  rw [ws_add (w' := lw i) (w'' := fun x => gw i x + (sw i x + (aw i x + (ew i x + (hw i x + (fw i x + vw i x)))))) (fun _ => rfl),
    ws_add (w' := gw i) (w'' := fun x => sw i x + (aw i x + (ew i x + (hw i x + (fw i x + vw i x))))) (fun _ => rfl),
    ws_add (w' := sw i) (w'' := fun x => aw i x + (ew i x + (hw i x + (fw i x + vw i x)))) (fun _ => rfl),
    ws_add (w' := aw i) (w'' := fun x => ew i x + (hw i x + (fw i x + vw i x))) (fun _ => rfl),
    ws_add (w' := ew i) (w'' := fun x => hw i x + (fw i x + vw i x)) (fun _ => rfl),
    ws_add (w' := hw i) (w'' := fun x => fw i x + vw i x) (fun _ => rfl),
    ws_add (w' := fw i) (w'' := vw i) (fun _ => rfl)]
  omega

/-- Only one activity at a time runs or completes a coroutine, and none while it waits for a sender. -/
theorem tok_one {s : St B} {acts : List (List Instr)} (h : Inv1 s acts) (i : Id) :
    ws (tw i) acts ≤ 1 ∧ (tag (s.frame i) = 0 ∨ tag (s.frame i) = 4 → ws (tw i) acts = 0) := by
  rw [ws_tw]
  have h1 := h.lg i; have h2 := h.sg i; have h3 := h.as i; have h4 := h.eh i; have h5 := h.fi i; have h6 := h.vx i
  grind

theorem exec_facts {s s' : St B} {acts : List (List Instr)} (h : Inv1 s acts) {k : Nat} {x : Instr} {r p : List Instr}
    (hk : acts[k]? = some (x :: r)) {b : Bool} (he : exec s x b = .ok s' p) : ∃ evs, s'.log = s.log ++ evs ∧
    evs.length ≤ 1 ∧ (∀ w ∈ evs, ∀ i, w.co i → tok i x ∧ ¬ (s'.phase i = .started ∧ s'.cfp i = .pastSuspend)) ∧
    (∀ y ∈ p, ∀ i, tok i y → tok i x ∨ (x = .exStart i ∧ s.phase i = .started ∧ s.cfp i = .pastSuspend)) ∧
    (∀ i, s'.phase i = .started → s'.cfp i = .pastSuspend →
      (s.phase i = .started ∧ s.cfp i = .pastSuspend) ∨ x = .exFin i) ∧
    ∀ i, (tag (s'.frame i) = 3 ∨ tag (s'.frame i) = 4) →
      ((tag (s.frame i) = 3 ∨ tag (s.frame i) = 4) ∧ ∀ w ∈ evs, ¬ w.co i) ∨ ∃ a, evs = [.await i a] := by
  have X := h.x1; have C := h.cf; have P := h.ps; have SG := h.sg; have EH := h.eh
  have S := fun i => ws_pos (w := sw i) hk
  have H := fun i => ws_pos (w := hw i) hk
  have E := fun i => ws_pos (w := ew i) hk
  have A := fun i => ws_pos (w := aw i) hk
  clear hk h
  exec_cases he
  all_goals first
    | refine ⟨_, rfl, by simp, ?_, ?_, ?_, ?_⟩
    | refine ⟨[], by simp, by simp, ?_, ?_, ?_, ?_⟩
  all_goals simp [tok, Ev.co, Ev.op, upd_apply, sw, hw, ew, aw] at *
  all_goals grind [tag, Leaf.num, Ev.co, Ev.op]

theorem env_facts {s s' : St B} {acts : List (List Instr)} {a : Act B} {p : List Instr} (h : Inv1 s acts) (h2 : Inv2 s acts)
    (he : env s acts a = some (s', p)) : ∃ w, s'.log = s.log ++ [w] ∧
    (∀ i, w.co i → (∀ y ∈ p, ∀ j, tok j y → j = i) ∧ ws (tw i) acts = 0 ∧ tag (s'.frame i) ≠ 3 ∧ tag (s'.frame i) ≠ 4 ∧
      ¬ (s'.phase i = .started ∧ s'.cfp i = .pastSuspend) ∧
      ((∀ v ∈ s.log, v.op ≠ i) ∨ ((tag (s.frame i) = 3 ∨ tag (s.frame i) = 4) ∧ ∃ v, a = .complete i v))) ∧
    (∃ i, w.co i) ∧
    (∀ i, ¬ w.co i → s'.phase i = s.phase i ∧ s'.cfp i = s.cfp i ∧ s'.frame i = s.frame i) := by
  have T := tok_one h
  have F := h.fr; have C := h.cf; have P := h.ps; have X := h.x1; have PH := h.ph; have EV := h2.evs
  clear h h2
  env_cases he
  all_goals refine ⟨_, rfl, ?_, ?_, ?_⟩
  all_goals simp [tok, Ev.co, Ev.op, upd_apply] at *
  all_goals grind [tag, Leaf.num, Ev.co, Ev.op, tok]

/-- What is known about an event `e` of coroutine `i`. -/
structure K (i : Id) (s : St B) (acts : List (List Instr)) (m : Mem Id) (e : Nat) : Prop where
  know : AllKnow (tok i) acts m e
  msg : s.phase i = .started → s.cfp i = .pastSuspend → m.msg i e = true
  done : Done (Ev.co i) s.log m e

/-- The last event of a coroutine that waits for a sender is the beginning of this `co_await`. -/
def Last (i : Id) (s : St B) : Prop := ∃ (n : Nat) (a : Nat), s.log[n]? = some (.await i a) ∧
  ∀ (e : Nat) v, s.log[e]? = some v → v.co i → e ≤ n

theorem Last.app {i : Id} {s s' : St B} {evs : List (Ev B.S)} (h : Last i s) (hl : s'.log = s.log ++ evs)
    (hn : ∀ w ∈ evs, ¬ w.co i) : Last i s' := by
  obtain ⟨n, a, h1, h2⟩ := h
  have hlt := (List.getElem?_eq_some_iff.1 h1).1
  refine ⟨n, a, by rw [hl, List.getElem?_append_left hlt]; exact h1, fun e v he hv => ?_⟩
  by_cases hel : e < s.log.length
  · rw [hl, List.getElem?_append_left hel] at he; exact h2 e v he hv
  · rw [hl, List.getElem?_append_right (by omega)] at he
    exact absurd hv (hn v (List.mem_of_getElem? he))

theorem eff_stores {s : St B} {x : Instr} {b : Bool} {entry : St B → Act B → Nat → Bool} {a : Acc Id} {l : Id}
    (h : a ∈ (ann entry).eff s x b) : a.stores l = false := by
  cases x <;> simp only [ann] at h
  case exStart i => split at h <;> simp at h <;> subst h <;> rfl
  case exFin i => simp at h; subst h; rfl
  all_goals simp at h

theorem tok_ne_zero {acts : List (List Instr)} {k : Nat} {a : List Instr} (hk : acts[k]? = some a) {i : Id} {x : Instr}
    (hx : x ∈ a) (ht : tok i x) : ws (tw i) acts ≠ 0 := by
  have := ws_pos_of_mem (w := tw i) (List.mem_of_getElem? hk) hx
  simp [tw, ht] at this
  omega

/-- Two different activities with such an instruction have weight two. -/
theorem tok_two {acts : List (List Instr)} {k j : Nat} {x y : Instr} {r c : List Instr} (hk : acts[k]? = some (x :: r))
    (hj : acts[j]? = some c) (hjk : j ≠ k) (hy : y ∈ c) {i : Id} (hx : tok i x) (hy' : tok i y) : 2 ≤ ws (tw i) acts := by
  have h1 := ws_set (tw i) (p := []) hk
  have h2 : (acts.set k ([] ++ r))[j]? = some c := by rw [List.getElem?_set_ne (Ne.symm hjk)]; exact hj
  have h3 := tok_ne_zero h2 hy hy'
  simp [tw, hx] at h1
  simp at h3
  omega

variable {entry : St B → Act B → Nat → Bool}

/-- Everything that the coroutine does is ordered. -/
structure HInv (s : St B) (acts : List (List Instr)) (m : Mem Id) : Prop where
  k : ∀ (e : Nat) v i, s.log[e]? = some v → v.co i → K i s acts m e
  last : ∀ i, (tag (s.frame i) = 3 ∨ tag (s.frame i) = 4) → Last i s

theorem hreach_inv (hE : Ordered entry) {c : Conf (mach B)} {m : Mem Id} (h : HReach (ann entry) init c m) :
    HInv c.sh c.acts m := by
  refine HReach.inv (A := ann entry) (P := fun c => Inv1 c.sh c.acts ∧ Inv2 c.sh c.acts)
    (Q := fun s acts m => HInv s acts m) (fun c hc => ⟨reach_inv1 hc, reach_inv2 hc⟩) ?_ ?_ ?_ h
  · exact ⟨by simp [init], by simp [init, tag]⟩
  · rintro c m a s' p ⟨h1, h2⟩ - hQ he
    obtain ⟨w, hl, f1, ⟨iw, hiw⟩, f3⟩ := env_facts h1 h2 he
    have hco : ∀ i, w.co i → i = iw := by
      intro i hi
      cases w <;> simp only [Ev.co, Ev.op] at hi hiw <;> first | exact hi.symm.trans hiw | exact absurd hi id
    obtain ⟨g1, g2, g3, g4, g5, g6⟩ := f1 iw hiw
    have hlen : s'.log.length = c.sh.log.length + 1 := by rw [hl]; simp
    -- the caller knows what the coroutine has done so far
    have hknow : ∀ (e : Nat) v, c.sh.log[e]? = some v → v.co iw →
        m.known c.sh.log.length (entry c.sh a) e = true := by
      intro e v hev hv
      rcases g6 with g6 | ⟨gt, u, rfl⟩
      · have := g6 v (List.mem_of_getElem? hev)
        cases v <;> simp only [Ev.co, Ev.op] at hv this <;> first | exact absurd hv this | exact absurd hv id
      · obtain ⟨n, a, h3, h4⟩ := hQ.last iw gt
        have hn := (List.getElem?_eq_some_iff.1 h3).1
        refine Mem.known_of hn (hE _ _ _ _ _ h3) ?_
        by_cases hen : n = e
        · exact .inl hen
        · have := h4 e v hev hv
          exact .inr ((hQ.k e v iw hev hv).done n _ h3 rfl (by omega))
    refine ⟨fun e v i hev hv => ?_, fun i hi => ?_⟩
    · by_cases hel : e < c.sh.log.length
      · rw [hl, List.getElem?_append_left hel] at hev
        have hK := hQ.k e v i hev hv
        refine ⟨hK.know.env ?_, ?_, hK.done.step hl ?_⟩
        · rintro ⟨y, hy, ht⟩
          have := g1 y hy i ht
          subst this
          exact .inl (hknow e v hev hv)
        · intro h3 h4
          by_cases hi : i = iw
          · subst hi; exact absurd ⟨h3, h4⟩ g5
          · have h5 := f3 i (fun hw => hi (hco i hw))
            rw [h5.1] at h3; rw [h5.2.1] at h4
            exact Mem.keep (by simp) (hK.msg h3 h4)
        · rintro ⟨w', hw', ht⟩
          simp at hw'; subst hw'
          have := hco i ht
          subst this
          exact hknow e v hev hv
      · have hee : e = c.sh.log.length := by
          have := (List.getElem?_eq_some_iff.1 hev).1; omega
        subst hee
        have hvw : v = w := by rw [hl] at hev; simpa using hev.symm
        subst hvw
        have := hco i hv
        subst this
        refine ⟨?_, fun h3 h4 => absurd ⟨h3, h4⟩ g5, ?_⟩
        · intro j b hj y hy hty
          by_cases hjl : j < c.acts.length
          · rw [List.getElem?_append_left hjl] at hj
            exact absurd g2 (tok_ne_zero hj hy hty)
          · have : j = c.acts.length := by have := (List.getElem?_eq_some_iff.1 hj).1; simp at this; omega
            subst this
            exact Mem.act_view_self (.inr ⟨Nat.le_refl _, by show _ < s'.log.length; omega⟩)
        · intro n v hn _ hlt
          have := (List.getElem?_eq_some_iff.1 hn).1
          omega
    · by_cases hii : i = iw
      · subst hii; exact absurd hi (by simp [g3, g4])
      · have h5 := f3 i (fun hw => hii (hco i hw))
        rw [h5.2.2] at hi
        exact (hQ.last i hi).app hl (by simpa using fun hw => hii (hco i hw))
  · rintro c m k x r b s' p ⟨h1, h2⟩ - hQ hk he
    obtain ⟨evs, hl, f0, f1, f2, f3, f4⟩ := exec_facts h1 hk he
    have hx : ∀ (e : Nat) v i, c.sh.log[e]? = some v → v.co i → tok i x → m.view k e = true :=
      fun e v i hev hv ht => (hQ.k e v i hev hv).know k _ hk x (by simp) ht
    refine ⟨fun e v i hev hv => ?_, fun i hi => ?_⟩
    · by_cases hel : e < c.sh.log.length
      · rw [hl, List.getElem?_append_left hel] at hev
        have hK := hQ.k e v i hev hv
        refine ⟨hK.know.run hk ?_, ?_, hK.done.step hl ?_⟩
        · rintro ⟨y, hy, ht⟩
          rcases f2 y hy i ht with h3 | ⟨rfl, h3, h4⟩
          · exact m.acquire_mono _ (hx e v i hev hv h3)
          · refine m.acquire_msg (a := .rmw .acq i) (l := i) ?_ (by simp [Acc.acquires]) (hK.msg h3 h4)
            simp [h4]
        · intro h3 h4
          rcases f3 i h3 h4 with ⟨h5, h6⟩ | rfl
          · exact Mem.keep (fun a ha => eff_stores ha) (hK.msg h5 h6)
          · exact Mem.publish (x := .rmw .rel i) (fun a ha => eff_stores ha) (by simp) (by simp [Acc.releases])
              (.inl (m.acquire_mono _ (hx e v i hev hv rfl)))
        · rintro ⟨w, hw, ht⟩
          exact m.acquire_mono _ (hx e v i hev hv (f1 w hw i ht).1)
      · have hlt := (List.getElem?_eq_some_iff.1 hev).1
        have hlen : s'.log.length ≤ c.sh.log.length + 1 := by rw [hl]; simp; exact f0
        have hve : v ∈ evs := by
          rw [hl, List.getElem?_append_right (by omega)] at hev
          exact List.mem_of_getElem? hev
        obtain ⟨ht, hn⟩ := f1 v hve i hv
        refine ⟨?_, fun h3 h4 => absurd ⟨h3, h4⟩ hn, ?_⟩
        · intro j d hj y hy hty
          rw [List.getElem?_set] at hj
          split at hj
          · rename_i hjk; subst hjk
            exact Mem.act_view_self (.inr ⟨by show c.sh.log.length ≤ e; omega, hlt⟩)
          · rename_i hjk
            have := tok_two hk hj (Ne.symm hjk) hy ht hty
            have := (tok_one h1 i).1
            omega
        · intro n w hw _ hen
          have := (List.getElem?_eq_some_iff.1 hw).1
          omega
    · rcases f4 i hi with ⟨h3, h4⟩ | ⟨a, rfl⟩
      · exact (hQ.last i h3).app hl h4
      · refine ⟨c.sh.log.length, a, by rw [hl]; simp, fun e v hev _ => ?_⟩
        have := (List.getElem?_eq_some_iff.1 hev).1
        rw [hl] at this; simp at this; omega

/-! ### The two exchanges -/

structure FL (s : St B) (acts : List (List Instr)) : Prop where
  fin : ∀ i, .fin i ∈ s.log → tag (s.frame i) = 7 ∨ s.phase i = .done
  left : ∀ i, .left i ∈ s.log → ws (xw i) acts = 0

theorem reach_fl {c : Conf (mach B)} (h : Reach (mach B) init c) : FL c.sh c.acts := by
  refine Reach.inv_with (M := mach B) (P := fun s acts => Inv1 s acts ∧ Inv2 s acts) (Q := FL)
    (fun _ h => ⟨reach_inv1 h, reach_inv2 h⟩) ?_ ?_ ?_ h
  · constructor <;> simp [init]
  · rintro s acts a s' p ⟨h1, h2⟩ - hQ he
    have hf := hQ.fin; have hl := hQ.left; have ev := h2.evs
    constructor <;> intro i <;> specialize hf i <;> specialize hl i
    · clear h1 h2; env_cases he <;> simp [upd_apply] at * <;> grind [tag, Leaf.num, Ev.op]
    · clear h1 h2; env_cases he <;> simp [upd_apply, xw] at * <;> grind [Ev.op]
  · rintro s acts k x r b s' p ⟨h1, h2⟩ - hQ hk he
    have hf := hQ.fin; have hl := hQ.left
    have X := fun i => ws_set (xw i) p hk
    have x1 := h1.x1
    have S := fun i => ws_pos (w := sw i) hk
    constructor <;> intro i <;> specialize hf i <;> specialize hl i <;> specialize X i <;> specialize x1 i
    · clear h1 h2 hk hQ; exec_cases he <;> simp [upd_apply] at * <;> grind [tag, Leaf.num]
    · clear h1 h2 hk hQ S; generalize acts.set k (p ++ r) = acts' at *
      exec_cases he <;> simp [upd_apply, xw] at * <;> grind

structure KL (i : Id) (s : St B) (acts : List (List Instr)) (m : Mem Id) (e : Nat) : Prop where
  know : AllKnow (fun x => x = .setv i) acts m e
  done : Done (fun v => ∃ u, v = .done i u) s.log m e

/-- After both exchanges nobody pushes the completion any more, and the completion comes from there. -/
theorem setv_push {s s' : St B} {acts : List (List Instr)} (h : Inv1 s acts) {k : Nat} {x : Instr} {r p : List Instr}
    (hk : acts[k]? = some (x :: r)) {b : Bool} (he : exec s x b = .ok s' p) : ∃ evs, s'.log = s.log ++ evs ∧
    evs.length ≤ 1 ∧ (∀ i, .setv i ∈ p → (x = .exStart i ∧ 1 ≤ ws (xw i) acts) ∨ (x = .exFin i ∧ tag (s.frame i) = 6)) ∧
    (∀ i u, .done i u ∈ evs → x = .setv i) ∧
    (∀ i, .left i ∈ evs → x = .exStart i ∧ 1 ≤ ws (xw i) acts ∧ s.phase i ≠ .done) := by
  have X := fun i => ws_pos (w := xw i) hk
  have F := fun i => ws_pos (w := fw i) hk
  have fi := h.fi
  clear hk h
  exec_cases he
  all_goals first
    | refine ⟨_, rfl, by simp, ?_, ?_, ?_⟩
    | refine ⟨[], by simp, by simp, ?_, ?_, ?_⟩
  all_goals simp [xw, fw] at *
  all_goals grind [tag]

theorem hreach_left {c : Conf (mach B)} {m : Mem Id} (h : HReach (ann entry) init c m) :
    ∀ (e f : Nat) i, c.sh.log[e]? = some (.left i) → c.sh.log[f]? = some (.fin i) → f < e → KL i c.sh c.acts m e := by
  refine HReach.inv (A := ann entry) (P := fun c => Inv1 c.sh c.acts ∧ FL c.sh c.acts)
    (Q := fun s acts m => ∀ (e f : Nat) i, s.log[e]? = some (.left i) → s.log[f]? = some (.fin i) → f < e →
      KL i s acts m e) (fun c hc => ⟨reach_inv1 hc, reach_fl hc⟩) ?_ ?_ ?_ h
  · simp [init]
  · rintro c m a s' p ⟨h1, h2⟩ - hQ he e f i hev hfv hfe
    have hw : ∃ w, s'.log = c.sh.log ++ [w] ∧ (∀ i, w ≠ .left i) ∧ (∀ i u, w ≠ .done i u) ∧ ∀ y ∈ p, ∀ i, y ≠ .setv i := by
      clear hQ h1 h2 hev hfv
      simp only at he
      env_cases he <;> exact ⟨_, rfl, by simp, by simp, by simp⟩
    obtain ⟨w, hl, g1, g2, g3⟩ := hw
    have hel : e < c.sh.log.length := by
      apply Classical.byContradiction
      intro hn
      have := (List.getElem?_eq_some_iff.1 hev).1
      rw [hl] at this hev
      simp at this
      have : e = c.sh.log.length := by omega
      subst this
      simp at hev
      exact g1 i hev
    rw [hl, List.getElem?_append_left hel] at hev
    rw [hl, List.getElem?_append_left (by omega)] at hfv
    have hK := hQ e f i hev hfv hfe
    refine ⟨hK.know.env ?_, hK.done.step hl ?_⟩
    · rintro ⟨y, hy, rfl⟩; exact absurd rfl (g3 _ hy i)
    · rintro ⟨v, hv, u, rfl⟩; simp at hv; exact absurd hv.symm (g2 i u)
  · rintro c m k x r b s' p ⟨h1, h2⟩ - hQ hk he e f i hev hfv hfe
    obtain ⟨evs, hl, f0, f1, f2, f3⟩ := setv_push h1 hk he
    by_cases hel : e < c.sh.log.length
    · rw [hl, List.getElem?_append_left hel] at hev
      rw [hl, List.getElem?_append_left (by omega)] at hfv
      have hK := hQ e f i hev hfv hfe
      refine ⟨hK.know.run hk ?_, hK.done.step hl ?_⟩
      · rintro ⟨y, hy, rfl⟩
        have h3 := h2.left i (List.mem_of_getElem? hev)
        have h4 := h2.fin i (List.mem_of_getElem? hfv)
        rcases f1 i hy with h5 | h5
        · omega
        · rcases h4 with h4 | h4
          · omega
          · have := (h1.ph i).2 (by simp [h4]); omega
      · rintro ⟨v, hv, u, rfl⟩
        have := f2 i u hv
        subst this
        exact m.acquire_mono _ (hK.know k _ hk _ (by simp) rfl)
    · have hlt := (List.getElem?_eq_some_iff.1 hev).1
      have hlen : s'.log.length ≤ c.sh.log.length + 1 := by rw [hl]; simp; exact f0
      have hfl : f < c.sh.log.length := by omega
      rw [hl, List.getElem?_append_left hfl] at hfv
      have hle : .left i ∈ evs := by
        rw [hl, List.getElem?_append_right (by omega)] at hev
        exact List.mem_of_getElem? hev
      obtain ⟨rfl, h3, h4⟩ := f3 i hle
      have h5 : tag (c.sh.frame i) = 7 := by
        rcases h2.fin i (List.mem_of_getElem? hfv) with h | h
        · exact h
        · exact absurd h h4
      have h6 : ws (vw i) c.acts = 0 := by
        rw [h1.vx i, if_neg (by omega)]
      refine ⟨AllKnow.fresh (fun a ha y hy hye => ?_) hk ⟨by show c.sh.log.length ≤ e; omega, hlt⟩, ?_⟩
      · have := ws_pos_of_mem (w := vw i) ha hy
        subst hye
        simp [vw] at this; omega
      · intro n w hw _ hen
        have := (List.getElem?_eq_some_iff.1 hw).1
        omega

/-! ## Properties -/

/-- C59. Everything that a coroutine does is ordered by happens-before: the call of `start()`, its `co_await`s, the
completions of the awaited senders, its continuations on whatever threads, its return, and the completion of the receiver.
Contract: starting an awaited sender happens before its completion. -/
theorem C59_coroutine_ordered (hE : Ordered entry) {c : Conf (mach B)} {m : Mem Id} (h : HReach (ann entry) init c m)
    {i : Id} {a b : Nat} {v w : Ev B.S} (ha : c.sh.log[a]? = some v) (hb : c.sh.log[b]? = some w) (hv : v.op = i)
    (hw : w.op = i) (hvl : v ≠ .left i ∧ v ≠ .fin i) (hwl : w ≠ .left i ∧ w ≠ .fin i) (hab : a < b) : m.hb a b := by
  have hco : ∀ v : Ev B.S, v.op = i → v ≠ .left i ∧ v ≠ .fin i → v.co i := by
    intro v h1 h2
    cases v <;> simp only [Ev.co, Ev.op] at h1 ⊢ <;> first | exact h1 | (subst h1; first | exact h2.1 rfl | exact h2.2 rfl)
  exact ((hreach_inv hE h).k a v i ha (hco v hv hvl)).done b w hb (hco w hw hwl) hab

/-- C60, partial. The last access of `start()` to the operation happens before the completion of the receiver (which may
destroy the operation and the coroutine frame), if the coroutine reaches its end before the exchange in `start()`. In this
case `start()` completes the receiver itself. Missing: the case in which the coroutine ends later, see
`C60_start_before_completion_false`. -/
theorem C60_start_before_completion_partial {c : Conf (mach B)} {m : Mem Id} (h : HReach (ann entry) init c m) {i : Id}
    {a b f v : Nat} (ha : c.sh.log[a]? = some (.left i)) (hb : c.sh.log[b]? = some (.done i v)) (hab : a < b)
    (hf : c.sh.log[f]? = some (.fin i)) (hfa : f < a) : m.hb a b :=
  (hreach_left h a f i ha hf hfa).done b _ hb ⟨_, rfl⟩ hab

/-! ## Examples -/

/-- The environment knows everything. -/
def omni : St B → Act B → Nat → Bool := fun _ _ _ => true

theorem omni_ordered : Ordered (omni (B := B)) := fun _ _ _ _ _ _ => rfl

/-- The completion of a sender knows of its start, and nothing else is known. -/
def minimal : St sumBody → Act sumBody → Nat → Bool
  | s, .complete i _, e => match s.log[e]? with
    | some (.await j _) => j = i
    | _ => false
  | _, _, _ => false

theorem minimal_ordered : Ordered minimal := by
  intro s i v e a h
  simp [minimal, h]

/-- The first coroutine awaits a sender; it is finished by another thread before the exchange in `start()`. The second one
is finished after it. -/
def hdemo : Conf M × Mem Id := (ann minimal).go init (
  [.env (.start 1 (1, []))] ++ List.replicate 4 (.run 0 true) ++ [.env (.complete 1 5)] ++
    List.replicate 6 (.run 1 true) ++ List.replicate 4 (.run 0 true) ++
  [.env (.start 2 (1, []))] ++ List.replicate 6 (.run 2 true) ++ [.env (.complete 2 3)] ++
    List.replicate 8 (.run 3 true))

theorem hdemo_reach : HReach (ann minimal) init hdemo.1 hdemo.2 := HReach.go _ _ _

theorem hdemo_log : hdemo.1.sh.log =
    [.start 1 (1, []), .await 1 0, .complete 1 5, .resume 1 5, .ret 1 5, .fin 1, .left 1, .done 1 5,
     .start 2 (1, []), .await 2 0, .left 2, .complete 2 3, .resume 2 3, .ret 2 3, .fin 2, .done 2 3] := by decide

example : hdemo.2.hb 0 7 ∧ hdemo.2.hb 4 7 ∧ hdemo.2.hb 6 7 ∧ hdemo.2.hb 2 6 ∧ hdemo.2.hb 8 15 ∧ ¬ hdemo.2.hb 3 8 := by
  decide
example : hdemo.2.hb 2 7 := C59_coroutine_ordered minimal_ordered hdemo_reach (i := 1) (v := .complete 1 5) (w := .done 1 5)
  (by rw [hdemo_log]; rfl) (by rw [hdemo_log]; rfl) rfl rfl (by simp) (by simp) (by omega)
example : hdemo.2.hb 6 7 := C60_start_before_completion_partial hdemo_reach (i := 1) (v := 5) (f := 5)
  (by rw [hdemo_log]; rfl) (by rw [hdemo_log]; rfl) (by omega) (by rw [hdemo_log]; rfl) (by omega)

/-- C60 is false: the last access of `start()` to the operation need not happen before the completion of the receiver,
because the exchange at the final suspension point does not acquire. -/
theorem C60_start_before_completion_false : ∃ (entry : _) (c : Conf M) (m : Mem Id), Ordered entry ∧
    HReach (ann entry) init c m ∧ ∃ i a b v, c.sh.log[a]? = some (.left i) ∧ c.sh.log[b]? = some (.done i v) ∧ a < b ∧
      ¬ m.hb a b := by
  refine ⟨minimal, hdemo.1, hdemo.2, minimal_ordered, hdemo_reach, 2, 10, 15, 3, ?_, ?_, by omega, by decide⟩
  · rw [hdemo_log]; rfl
  · rw [hdemo_log]; rfl

end Verif.Result
