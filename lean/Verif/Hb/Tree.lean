import Verif.Hb.TreeTok
import Verif.Hb.Resolver
import Verif.Tree.Props

/-!
# Happens-before for the sender algorithms

The counters of `when_all` (algorithm.hpp lines 674, 713) and of `race_and_cancel` (line 364) are the only atomic variables;
all accesses are read-modify-writes with `acq_rel`. What the cancellation events of `race_and_cancel` contribute to the
order is left out: they only add to it.
-/

namespace Verif.Tree

/-- The atomic variables are the counters of the operations. `entry` is what the environment knows when it starts an
expression or completes a leaf. -/
abbrev ann (entry : St → Act → Nat → Bool) : Ann mach where
  L := Path
  dec := inferInstanceAs (DecidableEq (List Nat))
  len s := s.log.length
  entry := entry
  eff s x _ := match x with
    | .recv (_ :: i :: q) _ => match s.snd (i :: q) with
      | some (.all _ _) | some (.race _ _) => [.rmw .acqRel (i :: q)]
      | _ => []
    | .trail p => [.rmw .acqRel p]
    | _ => []

/-- Whoever completes a leaf knows that it was started. -/
def Ordered (entry : St → Act → Nat → Bool) : Prop :=
  ∀ s p v (e : Nat), s.log[e]? = some (.start p) → entry s (.finish p v) e = true

/-- The operation that an event belongs to. -/
def Ev.at : Ev → Path
  | .start p | .done p _ | .call p _ _ | .invoke p _ | .cond p _ _ | .bind p _ | .cancel p => p

/-- All events but the cancellation of the losers of a race. -/
def Ev.main : Ev → Prop
  | .cancel _ => False
  | _ => True

theorem eff_stores {s : St} {x : Instr} {b : Bool} {entry : St → Act → Nat → Bool} {a : Acc Path} {l : Path}
    (h : a ∈ (ann entry).eff s x b) : a.stores l = false := by
  simp only [ann] at h
  split at h
  · split at h <;> simp at h <;> subst h <;> rfl
  · simp at h; subst h; rfl
  · simp at h

set_option maxHeartbeats 2000000

/-- What an instruction does. -/
structure Facts (s s' : St) (acts acts' : List (List Instr)) (x : Instr) (p : List Instr) (evs : List Ev) : Prop where
  log : s'.log = s.log ++ evs
  one : evs.length ≤ 1
  ev : ∀ w ∈ evs, w.main → x.tok ∧ (w.at = x.at ∨ ∃ k S, x.at = k :: w.at ∧ w.at ≠ [] ∧ s.snd w.at = some S ∧ ¬ S.par)
  tok : ∀ y ∈ p, y.tok → x.tok ∧ (x.at <:+ y.at ∨ ∃ k c v S, x = .recv (k :: c) v ∧ c ≠ [] ∧ s.snd c = some S ∧
    ((c <:+ y.at ∧ ¬ S.par) ∨ (y.at = c ∧ S.par ∧ s.ctr c = 1)))
  rcv : ∀ q v, x = .recv q v → ∀ w ∈ evs, w.main → w.at ≠ q
  rdy : ∀ i, s'.rdy i = true → s.rdy i = true ∨ (x = .begin i ∧ evs = [])
  beg : ∀ i, .begin i ∈ p → x = .start i ∧ evs = [.start i]
  phase : ∀ i, s.phase i ≠ .none → s'.phase i ≠ .none
  live : ∀ i, Live s acts i → Live s' acts' i ∨ ∃ v, x = .recv i v
  can : ∀ q j, .cancel q j ∈ p → ∃ k v, x = .recv (k :: q) v ∧ k ≠ j
  cev : ∀ q j, .cancel (j :: q) ∈ evs → x = .cancel q j
  sph : ∀ i, s.phase i = .started ∨ s.phase i = .done → s'.phase i = .started ∨ s'.phase i = .done
  est : ∀ w ∈ evs, w.main → w.at = x.at → s'.phase w.at = .started ∨ s'.phase w.at = .done
  sst : ∀ i, .start i ∈ evs → s.phase i = .conn

theorem mem_starts {q : Path} {n : Nat} {y : Instr} (h : y ∈ starts q n) : ∃ k, y = .start (k :: q) := by
  simp [starts] at h
  obtain ⟨k, _, rfl⟩ := h
  exact ⟨k, rfl⟩

theorem mem_cancels {q : Path} {n k : Nat} {y : Instr} (h : y ∈ cancels q n k) : ∃ j, y = .cancel q j ∧ k ≠ j := by
  simp only [cancels, List.mem_map] at h
  obtain ⟨j, h1, rfl⟩ := h
  simp at h1
  exact ⟨j, rfl, Ne.symm h1.2⟩

theorem exec_facts {s s' : St} {acts : List (List Instr)} (h : Inv s acts) (h2 : Inv2 s acts) {k : Nat} {x : Instr}
    {r p : List Instr} (hk : acts[k]? = some (x :: r)) {b : Bool} (he : exec s x b = .ok s' p) :
    ∃ evs, Facts s s' acts (acts.set k (p ++ r)) x p evs := by
  have hl : ∀ i, Live s acts i → Live s' (acts.set k (p ++ r)) i ∨ ∃ v, x = .recv i v := by
    intro i hl
    have C := ws_set (rcw i) p hk
    by_cases hx : ∃ v, x = .recv i v
    · exact .inr hx
    · left
      have hx : ∀ v, x ≠ .recv i v := fun v e => hx ⟨v, e⟩
      have h0 : rcw i x = 0 := by
        cases x <;> simp [rcw] at hx ⊢
        exact hx
      rcases hl with hl | hl
      · by_cases hs : ∃ v, x = .setv i v
        · obtain ⟨v, rfl⟩ := hs
          right
          exec_cases he
          simp [rcw] at C ⊢
          omega
        · left
          have hs : ∀ v, x ≠ .setv i v := fun v e => hs ⟨v, e⟩
          clear C h0 hk
          exec_cases he
          all_goals simp only [ne_eq, Instr.setv.injEq, Instr.recv.injEq, reduceCtorEq, not_false_eq_true, not_and] at hs hx
          all_goals (try simp [St.ev, St.box, St.kids, updP_apply])
          all_goals grind
      · right; omega
  have ph : ∀ i, s.phase i ≠ .none → s'.phase i ≠ .none := by
    intro i hi
    clear hk hl h h2
    exec_cases he
    all_goals (try simp [St.ev, St.box, St.kids, updP_apply])
    all_goals grind
  have sph : ∀ i, s.phase i = .started ∨ s.phase i = .done → s'.phase i = .started ∨ s'.phase i = .done := by
    intro i hi
    have pr := pre h hk
    have hkd := fun p n i => @isKid_ne p n i
    clear hk hl h h2
    exec_cases he
    all_goals (try (replace pr := pr.bg _ rfl))
    all_goals (try (replace pr := pr.lp _ _ rfl))
    all_goals (try (replace pr := pr.rs _ _ _ _ rfl _ (by assumption) rfl))
    all_goals (try simp [St.ev, St.box, St.kids, updP_apply])
    all_goals grind
  have pr := pre h hk
  clear hk h h2
  exec_cases he
  all_goals (try (replace pr := pr.bg _ rfl))
  all_goals (try (replace pr := pr.lp _ _ rfl))
  all_goals first
    | refine ⟨[_], rfl, by simp, ?_, ?_, ?_, ?_, ?_, ph, hl, ?_, ?_, sph, ?_, ?_⟩
    | refine ⟨[], by simp [St.box, St.kids], by simp, ?_, ?_, ?_, ?_, ?_, ph, hl, ?_, ?_, sph, ?_, ?_⟩
  all_goals clear hl ph sph
  all_goals simp [Instr.tok, Instr.at, Ev.main, Ev.at, St.ev, St.box, St.kids, updP_apply, Snd.par]
  all_goals (try grind [Instr.tok, Instr.at, mem_starts, mem_cancels])

/-- The operation of an event was constructed, and so were those that it is a part of. -/
def Made (s : St) : Prop := ∀ v ∈ s.log, v.main → v.at ≠ [] ∧ ∀ p, p <:+ v.at → p ≠ [] → s.phase p ≠ .none

/-- What is known about event number `e`, which is `v`. -/
structure K (s : St) (acts : List (List Instr)) (m : Mem Path) (e : Nat) (v : Ev) : Prop where
  know : AllKnow (fun y => y.tok ∧ ¬ Apart s.snd v.at y.at) acts m e
  msg : ∀ c i S, c ≠ [] → (i :: c) <:+ v.at → s.snd c = some S → S.par → Live s acts (i :: c) ∨ m.msg c e = true
  done : Done (fun w => w.main ∧ ¬ Apart s.snd v.at w.at) s.log m e

/-- Whoever is going to complete leaf `p` finds what it has to know in the event that started it. -/
def Lf (s : St) (m : Mem Path) (p : Path) : Prop :=
  ∃ n : Nat, s.log[n]? = some (.start p) ∧
    ∀ (e : Nat) v, s.log[e]? = some v → v.main → ¬ Apart s.snd v.at p → e = n ∨ m.past n e = true

structure HInv (s : St) (acts : List (List Instr)) (m : Mem Path) : Prop where
  made : Made s
  k : ∀ (e : Nat) v, s.log[e]? = some v → v.main → K s acts m e v
  lf : ∀ p, s.rdy p = true ∨ Pending acts (.begin p) → Lf s m p
  can : ∀ (k : Nat) a q j, acts[k]? = some a → .cancel q j ∈ a →
    ∃ (e : Nat) (i v : Nat), i ≠ j ∧ s.log[e]? = some (.done (i :: q) v) ∧ m.view k e = true
  cev : ∀ (n : Nat) q j, s.log[n]? = some (.cancel (j :: q)) →
    ∃ (e : Nat) (i v : Nat), i ≠ j ∧ s.log[e]? = some (.done (i :: q) v) ∧ m.past n e = true

/-- Facts about reachable configurations. -/
structure Good (s : St) (acts : List (List Instr)) : Prop where
  h : Inv s acts
  h2 : Inv2 s acts
  h1 : RcOne acts

theorem reach_good {c : Conf mach} (h : Reach mach init c) : Good c.sh c.acts :=
  ⟨reach_inv h, reach_inv2 h, reach_rcone h⟩

theorem Good.ne {s : St} {acts : List (List Instr)} (g : Good s acts) {y : Instr} (hy : Pending acts y) (ht : y.tok) :
    y.at ≠ [] := by
  intro e
  obtain ⟨a, ha, hya⟩ := hy
  have h1 := ws_pos_of_mem (w := own []) ha hya
  have h2 := g.h.nil.1
  have h3 := ws_pos_of_mem (w := rcw []) ha hya
  have h4 := g.h2.rn []
  rw [g.h.root] at h4
  simp only [Wt.of] at h2
  cases y <;> simp [Instr.tok, Instr.at, own, rcw] at * <;> subst e <;> simp at * <;> omega

/-- Another token, or a leaf that is going to be completed, is concurrent with the one at hand. -/
theorem Good.apart {s : St} {acts : List (List Instr)} (g : Good s acts) {k : Nat} {x : Instr} {r : List Instr}
    (hk : acts[k]? = some (x :: r)) (ht : x.tok) {q : Path} (hq : q ≠ [])
    (hy : tkw q x + 1 ≤ toks s acts q) : Apart s.snd x.at q := by
  have hx := g.ne (pending_top hk) ht
  have hp : 0 < toks s acts x.at := by
    have := ws_pos (w := tkw x.at) hk
    rw [tkw_tok ht] at this
    simp only [toks]; omega
  refine toks_apart g.h g.h2 hx hq ?_ hp (by omega)
  rintro rfl
  have := toks_le g.h g.h2 g.h1 x.at hx
  rw [tkw_tok ht] at hy
  omega

theorem Good.live {s : St} {acts : List (List Instr)} (g : Good s acts) {k : Nat} {x : Instr} {r : List Instr}
    (hk : acts[k]? = some (x :: r)) (ht : x.tok) : Live s acts x.at := by
  have hx := g.ne (pending_top hk) ht
  refine (toks_live g.h ?_).resolve_left hx
  have := ws_pos (w := tkw x.at) hk
  rw [tkw_tok ht] at this
  simp only [toks]; omega

theorem Good.live_up {s : St} {acts : List (List Instr)} (g : Good s acts) {p q : Path} (hq : q ≠ [])
    (hl : Live s acts p) (hs : q <:+ p) : Live s acts q := by
  rcases Tree.live_up g.h hq hl hs with e | e
  · rw [e]; exact hl
  · exact .inl (.inr e)

theorem Good.live_phase {s : St} {acts : List (List Instr)} (g : Good s acts) {p : Path}
    (hl : Live s acts p) : s.phase p ≠ .none := by
  rcases hl with (e | e) | e
  · rw [e]; simp
  · rw [e]; simp
  · rw [g.h2.rn p e]; simp

/-- When the last child of a `when_all` or `race_and_cancel` reports its completion, the others have done so. -/
theorem Good.last {s : St} {acts : List (List Instr)} (g : Good s acts) {k i a v : Nat} {c : Path} {r : List Instr}
    (hk : acts[a]? = some (.recv (k :: c) v :: r)) (hc : c ≠ []) (hik : i ≠ k) {S : Snd} (hS : s.snd c = some S)
    (hp : S.par) (h1 : s.ctr c = 1) (hl : Live s acts (i :: c)) : False := by
  have hst := live_parent g.h hc hl
  have h3 := g.h.sta c hc hst S hS
  have h5 := g.h.fit c i hc
  have h6 := ws_pos (w := recw c) hk
  have h7 : ws (fun x => rcw (k :: c) x + rcw (i :: c) x) acts ≤ ws (recw c) acts :=
    ws_mono (fun x => by
      cases x <;> simp [rcw, recw]
      rename_i q _
      cases q with
      | nil => simp
      | cons j q =>
        simp
        by_cases e : q = c
        · subst e; simp
          by_cases e1 : j = k
          · subst e1; simp [Ne.symm hik]
          · simp [e1]; split <;> simp
        · simp [e]) acts
  rw [ws_add (fun _ => rfl)] at h7
  have h8 := ws_pos (w := rcw (k :: c)) hk
  simp only [Wt.of] at h3
  simp [recw] at h6
  simp [rcw] at h8
  rcases hl with hl | hl
  · have h9 := h5 hl S hS
    have h10 := fun m (hm : i < m) => kids_pos (ph := s.phase) (q := c) hm (act_pos.2 hl)
    cases S <;> simp [Snd.par] at hp <;> simp [Load, Fits] at h3 h9
    all_goals
      have := h10 (_ + 1) (Nat.lt_succ_of_le h9)
      omega
  · cases S <;> simp [Snd.par] at hp <;> simp [Load] at h3 <;> omega

section Run
variable {entry : St → Act → Nat → Bool} {s s' : St} {acts : List (List Instr)} {m : Mem Path} {k : Nat} {x : Instr}
  {r p : List Instr} {b : Bool} {evs : List Ev}

theorem Facts.ev_apart (F : Facts s s' acts (acts.set k (p ++ r)) x p evs) {w : Ev} (hw : w ∈ evs) (hm : w.main) {q : Path}
    (h : Apart s.snd x.at q) : Apart s.snd w.at q := by
  rcases (F.ev w hw hm).2 with e | ⟨j, S, h1, h2, h3, h4⟩
  · rw [e]; exact h
  · rw [h1] at h
    apply Classical.byContradiction
    intro hn
    rcases (h.symm.up (fun h => hn h.symm)).2 with e | ⟨S', h5, h6⟩
    · exact h2 e
    · rw [h3] at h5; cases h5; exact h4 h6

/-- If the activity does not know the event, then the event is concurrent with what the activity does. -/
theorem K.ev_knows {e : Nat} {v w : Ev} (hK : K s acts m e v) (hk : acts[k]? = some (x :: r))
    (F : Facts s s' acts (acts.set k (p ++ r)) x p evs) (hw : w ∈ evs) (hm : w.main) (hn : ¬ Apart s.snd v.at w.at) :
    m.acquire (m.view k) ((ann entry).eff s x b) e = true := by
  apply Mem.acquire_mono
  have ht := (F.ev w hw hm).1
  refine hK.know k _ hk x (by simp) ⟨ht, fun h => hn ?_⟩
  exact (F.ev_apart hw hm h.symm).symm

theorem K.tok_knows {e : Nat} {v : Ev} (hK : K s acts m e v) (g : Good s acts) (hk : acts[k]? = some (x :: r))
    (F : Facts s s' acts (acts.set k (p ++ r)) x p evs) {y : Instr} (hy : y ∈ p) (ht : y.tok)
    (hn : ¬ Apart s.snd v.at y.at) : m.acquire (m.view k) ((ann entry).eff s x b) e = true := by
  have hx := (F.tok y hy ht).1
  have key : ¬ Apart s.snd v.at x.at → m.acquire (m.view k) ((ann entry).eff s x b) e = true := by
    intro h
    apply Mem.acquire_mono
    exact hK.know k _ hk x (by simp) ⟨hx, h⟩
  rcases (F.tok y hy ht).2 with h1 | ⟨j, c, u, S, rfl, hc, hS, h1 | h1⟩
  · exact key (fun h => hn (h.ext h1))
  · apply key
    intro h
    rcases (Apart.up h (fun h => hn (h.ext h1.1))).2 with e | ⟨S', h5, h6⟩
    · exact hc e
    · rw [hS] at h5; cases h5; exact h1.2 h6
  · by_cases ha : Apart s.snd v.at (Instr.recv (j :: c) u).at
    · obtain ⟨⟨i, hi, hs⟩, -⟩ := Apart.up ha (by rw [← h1.1]; exact hn)
      rcases hK.msg c i S hc hs hS h1.2.1 with h2 | h2
      · exact (g.last hk hc hi hS h1.2.1 h1.2.2 h2).elim
      · obtain ⟨a, c, rfl⟩ := List.exists_cons_of_ne_nil hc
        refine m.acquire_msg (a := .rmw .acqRel (a :: c)) (l := a :: c) ?_ (by simp [Acc.acquires]) h2
        simp only [ann, hS]
        cases S <;> simp [Snd.par] at h1 ⊢
    · exact key ha

theorem K.run (hM : Made s) {e : Nat} {v : Ev} (hv : s.log[e]? = some v) (hm : v.main) (hK : K s acts m e v) (g : Good s acts)
    (hk : acts[k]? = some (x :: r)) (X : ∀ p S, s.snd p = some S → s'.snd p = some S)
    (F : Facts s s' acts (acts.set k (p ++ r)) x p evs) :
    K s' (acts.set k (p ++ r)) (m.act k (m.view k) ((ann entry).eff s x b) s.log.length s'.log.length) e v := by
  refine ⟨?_, ?_, ?_⟩
  · have h1 : AllKnow (fun y => y.tok ∧ ¬ Apart s'.snd v.at y.at) acts m e :=
      fun j a ha y hy ⟨ht, hn⟩ => hK.know j a ha y hy ⟨ht, fun h => hn (h.mono X)⟩
    refine h1.run hk ?_
    rintro ⟨y, hy, ht, hn⟩
    exact hK.tok_knows g hk F hy ht (fun h => hn (h.mono X))
  · intro c i S hc hs hS hp
    have h1 := hM v (List.mem_of_getElem? hv) hm
    have h2 := h1.2 c ((List.suffix_cons ..).trans hs) hc
    obtain ⟨S0, h3⟩ : ∃ S, s.snd c = some S := by
      cases h : s.snd c with
      | none => exact absurd ((g.h.sn c).1 h) h2
      | some S => exact ⟨S, rfl⟩
    have h4 := X _ _ h3
    rw [hS] at h4; cases h4
    rcases hK.msg c i S hc hs h3 hp with h5 | h5
    · rcases F.live _ h5 with h6 | ⟨u, rfl⟩
      · exact .inl h6
      · right
        obtain ⟨a, c, rfl⟩ := List.exists_cons_of_ne_nil hc
        refine Mem.publish (fun a ha => eff_stores ha) (x := .rmw .acqRel (a :: c)) ?_ (by simp [Acc.releases]) (.inl ?_)
        · simp only [ann, h3]
          cases S <;> simp [Snd.par] at hp ⊢
        · apply Mem.acquire_mono
          refine hK.know k _ hk _ (List.mem_cons_self ..) ⟨trivial, fun h => ?_⟩
          exact h.symm.not_suffix hs
    · exact .inr (Mem.keep (fun a ha => eff_stores ha) h5)
  · have h1 : Done (fun w => w.main ∧ ¬ Apart s'.snd v.at w.at) s.log m e :=
      fun n w hw ⟨h2, h3⟩ => hK.done n w hw ⟨h2, fun h => h3 (h.mono X)⟩
    refine h1.step F.log ?_
    rintro ⟨w, hw, h2, h3⟩
    exact hK.ev_knows hk F hw h2 (fun h => h3 (h.mono X))

theorem K.new (g : Good s acts) (hk : acts[k]? = some (x :: r)) (X : ∀ p S, s.snd p = some S → s'.snd p = some S)
    (F : Facts s s' acts (acts.set k (p ++ r)) x p evs) {v : Ev} (hv : v ∈ evs) (hm : v.main) :
    K s' (acts.set k (p ++ r)) (m.act k (m.view k) ((ann entry).eff s x b) s.log.length s'.log.length) s.log.length v := by
  have hlt : s.log.length < s'.log.length := by
    rw [F.log]
    have := List.length_pos_of_mem hv
    simp; omega
  have hx := (F.ev v hv hm).1
  have hlv := g.live hk hx
  refine ⟨?_, ?_, ?_⟩
  · intro j a ha y hy ⟨ht, hn⟩
    by_cases hjk : j = k
    · subst hjk
      exact Mem.act_view_self (.inr ⟨Nat.le_refl _, hlt⟩)
    · exfalso
      rw [List.getElem?_set_ne (Ne.symm hjk)] at ha
      apply hn
      refine Apart.mono ?_ X
      apply F.ev_apart hv hm
      have hpy : Pending acts y := ⟨a, List.mem_of_getElem? ha, hy⟩
      have hpy' : Pending (acts.set k ([] ++ r)) y :=
        ⟨a, List.mem_of_getElem? (i := j) (by rw [List.getElem?_set_ne (Ne.symm hjk)]; exact ha), hy⟩
      apply g.apart hk hx (g.ne hpy ht)
      rcases pending_set2 hk hpy' with h1 | h1
      · simp at h1
      · have := h1.2 (tkw y.at)
        rw [tkw_tok ht] at this
        simp only [toks]; omega
  · intro c i S hc hs hS hp
    left
    have h1 : Live s acts (i :: c) ∧ ∀ u, x ≠ .recv (i :: c) u := by
      rcases (F.ev v hv hm).2 with e | ⟨j, S', h1, h2, h3, h4⟩
      · rw [e] at hs
        refine ⟨g.live_up (by simp) hlv hs, ?_⟩
        rintro u rfl
        exact F.rcv _ _ rfl v hv hm e
      · have h5 : (i :: c) <:+ x.at := by rw [h1]; exact hs.trans (List.suffix_cons ..)
        refine ⟨g.live_up (by simp) hlv h5, ?_⟩
        rintro u rfl
        have h6 := hs.length_le
        have h7 := congrArg List.length h1
        simp [Instr.at] at h6 h7
        omega
    rcases F.live _ h1.1 with h2 | ⟨u, h2⟩
    · exact h2
    · exact absurd h2 (h1.2 u)
  · intro n w hw _ hlt'
    have h1 := (List.getElem?_eq_some_iff.1 hw).1
    rw [F.log] at h1
    have := F.one
    simp at h1; omega

theorem Lf.step {q : Path} (h : Lf s m q) (hl : s'.log = s.log ++ evs) (X : ∀ p S, s.snd p = some S → s'.snd p = some S)
    (hn : ∀ w ∈ evs, w.main → Apart s.snd w.at q) {v : Nat → Bool} {as : List (Acc Path)} :
    Lf s' (m.act k v as s.log.length s'.log.length) q := by
  obtain ⟨n, h1, h2⟩ := h
  have hlt := (List.getElem?_eq_some_iff.1 h1).1
  refine ⟨n, by rw [hl, List.getElem?_append_left hlt]; exact h1, fun e v he hm ha => ?_⟩
  rw [Mem.act_past_old _ _ _ _ _ _ hlt]
  by_cases hel : e < s.log.length
  · rw [hl, List.getElem?_append_left hel] at he
    exact h2 e v he hm (fun h => ha (h.mono X))
  · rw [hl, List.getElem?_append_right (by omega)] at he
    exact absurd ((hn v (List.mem_of_getElem? he) hm).mono X) ha

end Run

theorem log_cases {α : Type} {log evs : List α} {n : Nat} {v : α} (h : (log ++ evs)[n]? = some v) (h1 : evs.length ≤ 1) :
    (n < log.length ∧ log[n]? = some v) ∨ (n = log.length ∧ v ∈ evs) := by
  by_cases hl : n < log.length
  · exact .inl ⟨hl, by rw [List.getElem?_append_left hl] at h; exact h⟩
  · have h2 := (List.getElem?_eq_some_iff.1 h).1
    rw [List.getElem?_append_right (by omega)] at h
    simp at h2
    exact .inr ⟨by omega, List.mem_of_getElem? h⟩

theorem run_hinv {entry : St → Act → Nat → Bool} {s s' : St} {acts : List (List Instr)} {m : Mem Path} {k : Nat} {x : Instr}
    {r p : List Instr} {b : Bool} (g : Good s acts) (H : HInv s acts m) (hk : acts[k]? = some (x :: r))
    (he : exec s x b = .ok s' p) :
    HInv s' (acts.set k (p ++ r)) (m.act k (m.view k) ((ann entry).eff s x b) s.log.length s'.log.length) := by
  obtain ⟨evs, F⟩ := exec_facts g.h g.h2 hk he
  have X := (exec_ext g.h hk he).1
  have app : ∀ {n : Nat} {v : Ev}, s.log[n]? = some v → s'.log[n]? = some v := by
    intro n v h
    rw [F.log, List.getElem?_append_left (List.getElem?_eq_some_iff.1 h).1]; exact h
  refine ⟨?_, ?_, ?_, ?_, ?_⟩
  · intro v hv hm
    rw [F.log] at hv
    rcases List.mem_append.1 hv with hv | hv
    · exact ⟨(H.made v hv hm).1, fun p hp hne => F.phase _ ((H.made v hv hm).2 p hp hne)⟩
    · have hx := (F.ev v hv hm).1
      have hlv := g.live hk hx
      have h1 : v.at ≠ [] ∧ v.at <:+ x.at := by
        rcases (F.ev v hv hm).2 with e | ⟨j, S', h1, h2, h3, h4⟩
        · rw [e]; exact ⟨g.ne (pending_top hk) hx, List.suffix_refl _⟩
        · rw [h1]; exact ⟨h2, List.suffix_cons ..⟩
      exact ⟨h1.1, fun p hp hne => F.phase _ (g.live_phase (g.live_up hne hlv (hp.trans h1.2)))⟩
  · intro e v hv hm
    rw [F.log] at hv
    rcases log_cases hv F.one with ⟨_, hv'⟩ | ⟨rfl, hv'⟩
    · exact (H.k e v hv' hm).run H.made hv' hm g hk X F
    · exact K.new g hk X F hv' hm
  · intro q hq
    have old : Lf s m q → (∀ w ∈ evs, w.main → tkw q x + 1 ≤ toks s acts q ∧ q ≠ []) →
        Lf s' (m.act k (m.view k) ((ann entry).eff s x b) s.log.length s'.log.length) q := by
      intro h1 h2
      refine h1.step F.log X (fun w hw hm => F.ev_apart hw hm (g.apart hk (F.ev w hw hm).1 (h2 w hw hm).2 (h2 w hw hm).1))
    rcases hq with hq | hq
    · rcases F.rdy q hq with h1 | ⟨rfl, h1⟩
      · refine old (H.lf q (.inl h1)) (fun w hw hm => ⟨?_, ?_⟩)
        · have := ws_pos (w := tkw q) hk
          simp only [toks, h1, if_true]; omega
        · rintro rfl
          have := g.h.nil.2
          rw [h1] at this; cases this
      · exact old (H.lf q (.inr (pending_top hk))) (by rw [h1]; simp)
    · rcases pending_set2 hk hq with h1 | ⟨h1, h2⟩
      · obtain ⟨rfl, h3⟩ := F.beg q h1
        have hl := F.log
        rw [h3] at hl
        have hlt : s.log.length < s'.log.length := by rw [hl]; simp
        refine ⟨s.log.length, by rw [hl]; simp, fun e v he hm ha => ?_⟩
        rw [hl] at he
        rcases log_cases he (by simp) with ⟨_, he⟩ | ⟨rfl, _⟩
        · right
          rw [Mem.act_past_new _ _ _ _ _ _ (Nat.le_refl _) hlt]
          have : m.view k e = true := (H.k e v he hm).know k _ hk _ (List.mem_cons_self ..)
            ⟨trivial, fun h => ha (h.mono X)⟩
          rw [m.acquire_mono _ this]; rfl
        · exact .inl rfl
      · refine old (H.lf q (.inr h1)) (fun w hw hm => ⟨?_, g.ne h1 trivial⟩)
        have := h2 (tkw q)
        have h3 : tkw q (.begin q) = 1 := tkw_tok (x := .begin q) trivial
        rw [h3] at this
        simp only [toks]; omega
  · intro j a q i ha hc
    by_cases hjk : j = k
    · subst hjk
      have hlt := (List.getElem?_eq_some_iff.1 hk).1
      rw [List.getElem?_set_self hlt] at ha
      simp at ha; subst ha
      rcases List.mem_append.1 hc with hc | hc
      · obtain ⟨u, v, rfl, hne⟩ := F.can q i hc
        have h1 : 0 < ws (rvw (u :: q) v) acts := by
          have := ws_pos (w := rvw (u :: q) v) hk
          simp [rvw] at this; exact this
        obtain ⟨e, he⟩ := List.getElem?_of_mem (g.h2.rv _ _ h1)
        refine ⟨e, u, v, hne, app he, Mem.act_view_mono ?_⟩
        refine (H.k e _ he trivial).know j _ hk _ (List.mem_cons_self ..) ⟨trivial, fun h => ?_⟩
        exact h.not_suffix (List.suffix_refl _)
      · obtain ⟨e, u, v, h1, h2, h3⟩ := H.can j _ q i hk (List.mem_cons_of_mem _ hc)
        exact ⟨e, u, v, h1, app h2, Mem.act_view_mono h3⟩
    · rw [List.getElem?_set_ne (Ne.symm hjk)] at ha
      obtain ⟨e, u, v, h1, h2, h3⟩ := H.can j _ q i ha hc
      exact ⟨e, u, v, h1, app h2, Mem.act_view_mono h3⟩
  · intro n q j hn
    rw [F.log] at hn
    rcases log_cases hn F.one with ⟨hlt, hn'⟩ | ⟨rfl, hn'⟩
    · obtain ⟨e, u, v, h1, h2, h3⟩ := H.cev n q j hn'
      refine ⟨e, u, v, h1, app h2, ?_⟩
      rw [Mem.act_past_old _ _ _ _ _ _ hlt]; exact h3
    · have := F.cev q j hn'
      subst this
      obtain ⟨e, u, v, h1, h2, h3⟩ := H.can k _ q j hk (List.mem_cons_self ..)
      have hlt : s.log.length < s'.log.length := by
        rw [F.log]
        have := List.length_pos_of_mem hn'
        simp; omega
      refine ⟨e, u, v, h1, app h2, ?_⟩
      rw [Mem.act_past_new _ _ _ _ _ _ (Nat.le_refl _) hlt, m.acquire_mono _ h3]; rfl

theorem last_of {q : Path} (h : q ≠ []) : ∃ t, [t] <:+ q := by
  rcases List.eq_nil_or_concat q with rfl | ⟨l, t, rfl⟩
  · exact absurd rfl h
  · exact ⟨t, l, by simp⟩

theorem env_hinv {entry : St → Act → Nat → Bool} (ho : Ordered entry) {s s' : St} {acts : List (List Instr)} {m : Mem Path}
    {a : Act} {p : List Instr} (g : Good s acts) (H : HInv s acts m) (he : env s acts a = some (s', p)) :
    HInv s' (acts ++ [p])
      (m.act acts.length (m.known s.log.length (entry s a)) [] s.log.length s'.log.length) := by
  have X := env_ext g.h he
  have hl : s'.log = s.log := X.2
  have hl' : s'.log = s.log ++ [] := by rw [hl]; simp
  have ph : ∀ q, s.phase q ≠ .none → s'.phase q ≠ .none := by
    intro q hq
    env_cases he
    · simp only [updP_apply]; split <;> simp [hq]
    · exact hq
  have lv : ∀ q, Live s acts q → Live s' (acts ++ [p]) q := by
    intro q hq
    rcases hq with hq | hq
    · left
      env_cases he
      · simp only [updP_apply]; split
        · simp
        · exact hq
      · exact hq
    · right
      simp; omega
  have rd : ∀ q, s'.rdy q = true → s.rdy q = true := by
    intro q hq
    env_cases he
    · exact hq
    · simp only [updP_apply] at hq; split at hq
      · cases hq
      · exact hq
  have nb : ∀ q, .begin q ∉ p := by intro q; env_cases he <;> simp
  have nc : ∀ q j, .cancel q j ∉ p := by intro q j; env_cases he <;> simp
  refine ⟨?_, ?_, ?_, ?_, ?_⟩
  · intro v hv hm
    rw [hl] at hv
    exact ⟨(H.made v hv hm).1, fun q hq hne => ph _ ((H.made v hv hm).2 q hq hne)⟩
  · intro e v hv hm
    rw [hl] at hv
    have hK := H.k e v hv hm
    have hM := H.made v (List.mem_of_getElem? hv) hm
    refine ⟨?_, ?_, ?_⟩
    · have h1 : AllKnow (fun y => y.tok ∧ ¬ Apart s'.snd v.at y.at) acts m e :=
        fun j a ha y hy ⟨ht, hn⟩ => hK.know j a ha y hy ⟨ht, fun h => hn (h.mono X.1)⟩
      refine h1.env ?_
      rintro ⟨y, hy, ht, hn⟩
      left
      have hn : ¬ Apart s.snd v.at y.at := fun h => hn (h.mono X.1)
      show m.known s.log.length (entry s a) e = true
      simp only [env] at he
      split at he
      · rename_i t S
        split at he
        · rename_i hph
          simp at he
          obtain ⟨-, rfl⟩ := he
          simp at hy; subst hy
          exfalso
          obtain ⟨t', ht'⟩ := last_of hM.1
          by_cases e : t' = t
          · subst e; exact hM.2 _ ht' (by simp) hph
          · exact hn ⟨[], t', t, e, ht', List.suffix_refl _, .inl rfl⟩
        · cases he
      · rename_i q u
        split at he
        · rename_i hr
          simp at he
          obtain ⟨-, rfl⟩ := he
          simp at hy; subst hy
          obtain ⟨n, h2, h3⟩ := H.lf q (.inl hr)
          refine Mem.known_of (List.getElem?_eq_some_iff.1 h2).1 (ho _ _ _ _ h2) ?_
          rcases h3 e v hv hm hn with h4 | h4
          · exact .inl h4.symm
          · exact .inr h4
        · cases he
    · intro c i S hc hs hS hp
      have h2 := hM.2 c ((List.suffix_cons ..).trans hs) hc
      obtain ⟨S0, h3⟩ : ∃ S, s.snd c = some S := by
        cases h : s.snd c with
        | none => exact absurd ((g.h.sn c).1 h) h2
        | some S => exact ⟨S, rfl⟩
      have h4 := X.1 _ _ h3
      rw [hS] at h4; cases h4
      rcases hK.msg c i S hc hs h3 hp with h5 | h5
      · exact .inl (lv _ h5)
      · exact .inr (Mem.keep (by simp) h5)
    · have h1 : Done (fun w => w.main ∧ ¬ Apart s'.snd v.at w.at) s.log m e :=
        fun n w hw ⟨h2, h3⟩ => hK.done n w hw ⟨h2, fun h => h3 (h.mono X.1)⟩
      exact h1.step hl' (by simp)
  · intro q hq
    refine Lf.step (evs := []) (H.lf q ?_) hl' X.1 (by simp)
    rcases hq with hq | hq
    · exact .inl (rd q hq)
    · rcases pending_append hq with h | h
      · exact absurd h (nb q)
      · exact .inr h
  · intro j b q i hb hc
    by_cases hlt : j < acts.length
    · rw [List.getElem?_append_left hlt] at hb
      obtain ⟨e, u, v, h1, h2, h3⟩ := H.can j b q i hb hc
      exact ⟨e, u, v, h1, by rw [hl]; exact h2, by rw [Mem.act_view_ne (by omega)]; exact h3⟩
    · rw [List.getElem?_append_right (by omega)] at hb
      have := List.mem_of_getElem? hb
      simp at this; subst this
      exact absurd hc (nc q i)
  · intro n q j hn
    rw [hl] at hn
    obtain ⟨e, u, v, h1, h2, h3⟩ := H.cev n q j hn
    refine ⟨e, u, v, h1, by rw [hl]; exact h2, ?_⟩
    rw [Mem.act_past_old _ _ _ _ _ _ (List.getElem?_eq_some_iff.1 hn).1]; exact h3

theorem init_hinv : HInv init [] .init := by
  refine ⟨?_, ?_, ?_, ?_, ?_⟩
  · intro v hv; simp [init] at hv
  · intro e v hv; simp [init] at hv
  · rintro p (h | ⟨a, h, _⟩)
    · simp [init] at h
    · simp at h
  · intro k a q j h; simp at h
  · intro n q j h; simp [init] at h

theorem reach_hinv {entry : St → Act → Nat → Bool} (ho : Ordered entry) {c : Conf mach} {m : Mem Path}
    (h : HReach (ann entry) init c m) : HInv c.sh c.acts m :=
  HReach.inv (A := ann entry) (P := fun c => Good c.sh c.acts) (Q := fun s acts m => HInv s acts m)
    (fun _ hc => reach_good hc) init_hinv
    (fun _ _ _ _ _ hg _ H he => env_hinv ho hg H he)
    (fun _ _ _ _ _ _ _ _ hg _ H hk he => run_hinv hg H hk he) h

/-! ## The first and the last event of an operation -/

/-- Operations with events were started, and nothing happens inside of an operation before it is started or after it has
completed. -/
structure Span (s : St) : Prop where
  sta : ∀ v ∈ s.log, v.main → ∀ p, p <:+ v.at → p ≠ [] → s.phase p = .started ∨ s.phase p = .done
  fst : Hist (fun before w => ∀ p, w = .start p → ∀ v ∈ before, v.main → ¬ p <:+ v.at) s.log
  lst : Hist (fun before w => w.main → ∀ p u, p <:+ w.at → .done p u ∉ before) s.log

theorem run_span {s s' : St} {acts : List (List Instr)} {k : Nat} {x : Instr} {r p : List Instr} {b : Bool}
    (g : Good s acts) (H : Span s) (hk : acts[k]? = some (x :: r)) (he : exec s x b = .ok s' p) : Span s' := by
  obtain ⟨evs, F⟩ := exec_facts g.h g.h2 hk he
  have sub : ∀ w ∈ evs, w.main → w.at <:+ x.at := by
    intro w hw hm
    rcases (F.ev w hw hm).2 with e | ⟨j, S', h1, h2, h3, h4⟩
    · rw [e]; exact List.suffix_refl _
    · rw [h1]; exact List.suffix_cons ..
  have up : ∀ w ∈ evs, w.main → ∀ p, p <:+ w.at → p ≠ [] → p = x.at ∧ w.at = x.at ∨ s.phase p = .started := by
    intro w hw hm p hp hne
    have hx := (F.ev w hw hm).1
    rcases live_up g.h hne (g.live hk hx) (hp.trans (sub w hw hm)) with e | e
    · left
      refine ⟨e, ?_⟩
      have h1 := hp.length_le
      have h2 := (sub w hw hm)
      rw [e] at h1
      exact h2.eq_of_length (Nat.le_antisymm h2.length_le h1)
    · exact .inr e
  have hl := F.log
  have h1 := F.one
  have hsta : ∀ v ∈ s'.log, v.main → ∀ p, p <:+ v.at → p ≠ [] → s'.phase p = .started ∨ s'.phase p = .done := by
    intro v hv hm p hp hne
    rw [hl] at hv
    rcases List.mem_append.1 hv with hv | hv
    · exact F.sph _ (H.sta v hv hm p hp hne)
    · rcases up v hv hm p hp hne with ⟨e1, e2⟩ | e
      · have := F.est v hv hm e2
        rw [e2, ← e1] at this; exact this
      · exact F.sph _ (.inl e)
  have hfst : ∀ w ∈ evs, ∀ p, w = .start p → ∀ v ∈ s.log, v.main → ¬ p <:+ v.at := by
    rintro w hw p rfl v hv hm hs
    have h2 := F.sst p hw
    by_cases hne : p = []
    · subst hne; rw [g.h.root] at h2; cases h2
    · rcases H.sta v hv hm p hs hne with h3 | h3 <;> rw [h2] at h3 <;> cases h3
  have hlst : ∀ w ∈ evs, w.main → ∀ p u, p <:+ w.at → .done p u ∉ s.log := by
    intro w hw hm p u hp hd
    have h2 := g.h2.s2 p u hd
    have hne : p ≠ [] := by rintro rfl; rw [g.h.root] at h2; cases h2
    rcases up w hw hm p hp hne with ⟨e1, e2⟩ | e
    · have hx := (F.ev w hw hm).1
      have h3 := g.h.off p hne (.inr h2)
      simp only [Wt.of] at h3
      have h4 := ws_pos (w := own p) hk
      rw [h3.1] at h4
      have h5 := F.rcv p
      subst e1
      cases x <;> simp [Instr.tok] at hx <;> simp [Instr.at, own] at h4
      exact h5 _ rfl w hw hm e2
    · rw [e] at h2; cases h2
  match evs, hl, h1, hfst, hlst with
  | [], hl, _, _, _ => rw [List.append_nil] at hl; exact ⟨hsta, by rw [hl]; exact H.fst, by rw [hl]; exact H.lst⟩
  | [w], hl, _, hfst, hlst =>
    exact ⟨hsta, by rw [hl, Hist.snoc]; exact ⟨H.fst, hfst w (by simp)⟩, by rw [hl, Hist.snoc]; exact ⟨H.lst, hlst w (by simp)⟩⟩
  | _ :: _ :: _, _, h, _, _ => simp at h

theorem reach_span {c : Conf mach} (h : Reach mach init c) : Span c.sh := by
  refine Reach.inv_with (P := Good) (Q := fun s _ => Span s) (fun c hc => reach_good hc) ?_ ?_ ?_ h
  · exact ⟨by simp [init], .nil, .nil⟩
  · intro s acts a s' p g _ H he
    have hl := (env_ext g.h he).2
    refine ⟨?_, by rw [hl]; exact H.fst, by rw [hl]; exact H.lst⟩
    intro v hv hm q hq hne
    rw [hl] at hv
    have h1 := H.sta v hv hm q hq hne
    env_cases he
    · simp only [updP_apply]
      split
      · rename_i hph e; subst e; simp_all
      · exact h1
    · exact h1
  · intro s acts k x r b s' p g _ H hk he
    exact run_span g H hk he

/-! ## Properties -/

variable {entry : St → Act → Nat → Bool} {c : Conf mach} {m : Mem Path} {a b : Nat}

theorem grows (entry : St → Act → Nat → Bool) : Grows (ann entry) init := by
  refine ⟨rfl, ?_, ?_⟩
  · intro s acts a s' p he
    show s.log.length ≤ s'.log.length
    simp only [mach] at he
    env_cases he <;> simp
  · intro s x b s' p he
    show s.log.length ≤ s'.log.length
    simp only [mach] at he
    exec_cases he <;> simp [St.ev, St.box, St.kids]

/-- C63. Of two events of a composition, the earlier one happens before the later one, unless they belong to different
children of a `when_all` or a `race_and_cancel`. (Cancellations of the losers of a race are the subject of C64.) -/
theorem C63_ordered (ho : Ordered entry) (h : HReach (ann entry) init c m) {v w : Ev} (hab : a < b)
    (hv : c.sh.log[a]? = some v) (hw : c.sh.log[b]? = some w) (hvm : v.main) (hwm : w.main)
    (hn : ¬ Apart c.sh.snd v.at w.at) : m.hb a b :=
  ((reach_hinv ho h).k a v hv hvm).done b w hw ⟨hwm, hn⟩ hab

theorem not_apart {snd : Path → Option Snd} {p q : Path} (h : p <:+ q) : ¬ Apart snd q p := fun ha =>
  ha.symm.not_suffix h

/-- C63. Everything that an operation and its parts do happens before its completion. -/
theorem C63_work_before_completion (ho : Ordered entry) (h : HReach (ann entry) init c m) {v : Ev} {p : Path} {u : Nat}
    (hv : c.sh.log[a]? = some v) (hw : c.sh.log[b]? = some (.done p u)) (hvm : v.main) (hp : p <:+ v.at) (hne : a ≠ b) :
    m.hb a b := by
  refine C63_ordered ho h ?_ hv hw hvm trivial (not_apart hp)
  apply Classical.byContradiction
  intro hlt
  have hlt : b < a := by omega
  have h1 := (reach_span h.reach).lst
  obtain ⟨ha, hv⟩ := List.getElem?_eq_some_iff.1 hv
  have h2 := h1 (c.sh.log.take a) v (c.sh.log.drop (a + 1)) (by rw [← hv]; simp) hvm p u hp
  apply h2
  rw [List.mem_iff_getElem?]
  exact ⟨b, by rw [List.getElem?_take, if_pos hlt]; exact hw⟩

/-- C63. The start of an operation happens before everything that it and its parts do. -/
theorem C63_start_before_work (ho : Ordered entry) (h : HReach (ann entry) init c m) {v : Ev} {p : Path}
    (hv : c.sh.log[a]? = some (.start p)) (hw : c.sh.log[b]? = some v) (hvm : v.main) (hp : p <:+ v.at) (hne : a ≠ b) :
    m.hb a b := by
  refine C63_ordered ho h ?_ hv hw trivial hvm (fun ha => ha.not_suffix hp)
  apply Classical.byContradiction
  intro hlt
  have hlt : b < a := by omega
  have h1 := (reach_span h.reach).fst
  obtain ⟨ha, hv⟩ := List.getElem?_eq_some_iff.1 hv
  have h2 := h1 (c.sh.log.take a) _ (c.sh.log.drop (a + 1)) (by rw [← hv]; simp) p rfl v ?_ hvm
  · exact h2 hp
  · rw [List.mem_iff_getElem?]
    exact ⟨b, by rw [List.getElem?_take, if_pos hlt]; exact hw⟩

/-- C63. `when_all` and `race_and_cancel` complete only after each of their senders has completed, and the completion
of each sender happens before the completion of the whole. -/
theorem C63_children_before_completion (ho : Ordered entry) (h : HReach (ann entry) init c m) {p : Path} {n u : Nat}
    {f : Nat → Snd} (hs : c.sh.snd p = some (.all n f) ∨ c.sh.snd p = some (.race n f))
    (hb : c.sh.log[b]? = some (.done p u)) {k : Nat} (hk : k ≤ n) :
    ∃ a v, c.sh.log[a]? = some (.done (k :: p) v) ∧ m.hb a b := by
  have h1 : ∃ v l1 l2 l3, c.sh.log = l1 ++ .done (k :: p) v :: l2 ++ .done p u :: l3 := by
    rcases hs with hs | hs
    · exact (C46_after_all h.reach hs (List.mem_of_getElem? hb)).2 k hk
    · exact (C47_after_all h.reach hs (List.mem_of_getElem? hb)).2 k hk
  obtain ⟨v, l1, l2, l3, e⟩ := h1
  have ha : c.sh.log[l1.length]? = some (.done (k :: p) v) := by rw [e]; simp
  refine ⟨l1.length, v, ha, C63_work_before_completion ho h ha hb trivial (List.suffix_cons ..) ?_⟩
  rintro rfl
  rw [ha] at hb
  simp at hb

/-- C63. `race_and_cancel` cancels a sender only after the completion of another one, which happens before the
cancellation. -/
theorem C63_winner_before_cancel (ho : Ordered entry) (h : HReach (ann entry) init c m) {j : Nat} {q : Path}
    (hb : c.sh.log[b]? = some (.cancel (j :: q))) :
    ∃ i a v, i ≠ j ∧ c.sh.log[a]? = some (.done (i :: q) v) ∧ m.hb a b := by
  obtain ⟨e, i, v, h1, h2, h3⟩ := (reach_hinv ho h).cev b q j hb
  exact ⟨i, e, v, h1, h2, h3⟩

/-- C64, what holds: a cancellation that the completion of one of the senders waited for happens before the completion of
`race_and_cancel`. Missing: the cancellation that no sender waited for, see `C64_cancel_before_completion_false`. -/
theorem C64_cancel_before_completion_partial (ho : Ordered entry) (h : HReach (ann entry) init c m) {j i v u d : Nat} {q : Path}
    (_ : c.sh.log[a]? = some (.cancel (j :: q))) (hb : c.sh.log[b]? = some (.done (i :: q) v)) (hab : m.hb a b)
    (hd : c.sh.log[d]? = some (.done q u)) : m.hb a d := by
  refine h.hb_trans (grows entry) hab (C63_work_before_completion ho h hb hd trivial (List.suffix_cons ..) ?_)
  rintro rfl
  rw [hb] at hd
  simp at hd

/-! ## Examples -/

/-- Whoever completes leaf `p` knows only the start of `p` and what happened before it. -/
def entryD (s : St) : Act → Nat → Bool
  | .start _ _, _ => false
  | .finish p _, e => s.log[e]? == some (.start p)

theorem entryD_ordered : Ordered entryD := by
  intro s p v e h
  simp [entryD, h]

/-- `race_and_cancel(leaf, leaf)`: the threads that complete the leaves run at the same time. -/
def raceRun : List (Lbl mach) :=
  [.env (.start 0 (.race 1 (fun _ => .leaf)))] ++ List.replicate 6 (.run 0 true) ++
    [.env (.finish [0, 0] 3), .env (.finish [1, 0] 4), .run 1 true, .run 1 true, .run 2 true, .run 2 true, .run 1 true,
     .run 2 true]

def raceDemo : Conf mach × Mem Path := (ann entryD).go init raceRun

theorem raceDemo_reach : HReach (ann entryD) init raceDemo.1 raceDemo.2 := HReach.go _ _ _

theorem raceDemo_log : raceDemo.1.sh.log = [.start [0], .start [0, 0], .start [1, 0], .done [0, 0] 3, .done [1, 0] 4,
    .cancel [1, 0], .done [0] 0] := by decide

/-- C64 is false of the code: the loop that cancels the other senders is not ordered before the completion of
`race_and_cancel`, which ends the lifetime of the operation that the loop reads. -/
theorem C64_cancel_before_completion_false : ¬ ∀ (c : Conf mach) (m : Mem Path) (a b j u : Nat) (q : Path),
    HReach (ann entryD) init c m → c.sh.log[a]? = some (.cancel (j :: q)) → c.sh.log[b]? = some (.done q u) → m.hb a b := by
  intro h
  have := h raceDemo.1 raceDemo.2 5 6 1 0 [0] raceDemo_reach (by rw [raceDemo_log]; rfl) (by rw [raceDemo_log]; rfl)
  revert this
  decide

example : raceDemo.2.hb 3 6 :=
  C63_work_before_completion entryD_ordered raceDemo_reach (v := .done [0, 0] 3) (p := [0]) (u := 0) (by rw [raceDemo_log]; rfl)
    (by rw [raceDemo_log]; rfl) trivial (by simp [Ev.at]) (by omega)

example : ∃ i a v, i ≠ 1 ∧ raceDemo.1.sh.log[a]? = some (.done (i :: [0]) v) ∧ raceDemo.2.hb a 5 :=
  C63_winner_before_cancel entryD_ordered raceDemo_reach (by rw [raceDemo_log]; rfl)

/-- The two leaves are not ordered. -/
example : ¬ raceDemo.2.hb 3 4 := by decide

/-- Whoever completes leaf `p` knows its start and its cancellation. -/
def entryC (s : St) : Act → Nat → Bool
  | .start _ _, _ => false
  | .finish p _, e => s.log[e]? == some (.start p) || s.log[e]? == some (.cancel p)

theorem entryC_ordered : Ordered entryC := by
  intro s p v e h
  simp [entryC, h]

/-- `race_and_cancel(leaf, leaf)`: the second leaf completes because it is cancelled. -/
def waitRun : List (Lbl mach) :=
  [.env (.start 0 (.race 1 (fun _ => .leaf)))] ++ List.replicate 6 (.run 0 true) ++
    [.env (.finish [0, 0] 3), .run 1 true, .run 1 true, .run 1 true, .env (.finish [1, 0] 4), .run 2 true, .run 2 true,
     .run 2 true]

def waitDemo : Conf mach × Mem Path := (ann entryC).go init waitRun

theorem waitDemo_reach : HReach (ann entryC) init waitDemo.1 waitDemo.2 := HReach.go _ _ _

theorem waitDemo_log : waitDemo.1.sh.log = [.start [0], .start [0, 0], .start [1, 0], .done [0, 0] 3, .cancel [1, 0],
    .done [1, 0] 4, .done [0] 0] := by decide

example : waitDemo.2.hb 4 6 :=
  C64_cancel_before_completion_partial entryC_ordered waitDemo_reach (b := 5) (j := 1) (q := [0]) (i := 1) (v := 4) (u := 0)
    (by rw [waitDemo_log]; rfl) (by rw [waitDemo_log]; rfl) (by decide) (by rw [waitDemo_log]; rfl)

/-- `transform(when_all(leaf, sequence(leaf, leaf)), f)`; three threads complete the leaves. -/
def allExpr : Snd := .xform (.all 1 (pick .leaf (.seq 1 (fun _ => .leaf)))) (fun _ v => v + 1)

def allRun : List (Lbl mach) :=
  [.env (.start 0 allExpr)] ++ List.replicate 12 (.run 0 true) ++
    [.env (.finish [0, 1, 0, 0] 7), .run 1 true, .run 1 true, .env (.finish [0, 0, 0] 5)] ++ List.replicate 2 (.run 1 true) ++
    List.replicate 2 (.run 2 true) ++ [.env (.finish [1, 1, 0, 0] 8)] ++ List.replicate 12 (.run 3 true)

def allDemo : Conf mach × Mem Path := (ann entryD).go init allRun

theorem allDemo_reach : HReach (ann entryD) init allDemo.1 allDemo.2 := HReach.go _ _ _

set_option maxRecDepth 10000 in
theorem allDemo_log : allDemo.1.sh.log = [.start [0], .start [0, 0], .start [0, 0, 0], .start [1, 0, 0],
    .start [0, 1, 0, 0], .done [0, 1, 0, 0] 7, .start [1, 1, 0, 0], .done [0, 0, 0] 5, .done [1, 1, 0, 0] 8,
    .done [1, 0, 0] 8, .done [0, 0] 0, .call [0] 0 1, .done [0] 1] := by decide

theorem sib {c d : Path} {i j x y : Nat} (hn : i ≠ j) (h1 : i :: c <:+ x :: d) (h2 : j :: c <:+ y :: d) : c = d := by
  rcases List.suffix_cons_iff.1 h1 with h1 | h1
  · simp at h1; exact h1.2
  · rcases List.suffix_cons_iff.1 h2 with h2 | h2
    · simp at h2; exact h2.2
    · have := List.suffix_of_suffix_length_le h1 h2 (by simp)
      have := this.eq_of_length (by simp)
      simp at this
      exact absurd this hn

set_option maxRecDepth 10000

/-- The two leaves of the sequence. -/
example : allDemo.2.hb 5 8 :=
  C63_ordered entryD_ordered allDemo_reach (v := .done [0, 1, 0, 0] 7) (w := .done [1, 1, 0, 0] 8) (by omega)
    (by rw [allDemo_log]; rfl) (by rw [allDemo_log]; rfl) trivial trivial (by
      rintro ⟨c, i, j, h1, h2, h3, h4⟩
      have hs : c = [1, 0, 0] := sib h1 h2 h3
      subst hs
      rcases h4 with h4 | ⟨S, h4, h5⟩
      · cases h4
      · have : allDemo.1.sh.snd [1, 0, 0] = some (.seq 1 (fun _ => .leaf)) := rfl
        rw [this] at h4
        cases h4
        exact h5)

example : ∃ a v, allDemo.1.sh.log[a]? = some (.done (0 :: [0, 0]) v) ∧ allDemo.2.hb a 10 :=
  C63_children_before_completion entryD_ordered allDemo_reach (n := 1) (f := pick .leaf (.seq 1 (fun _ => .leaf))) (u := 0)
    (.inl rfl) (by rw [allDemo_log]; rfl) (by omega)

example : allDemo.2.hb 1 9 :=
  C63_start_before_work entryD_ordered allDemo_reach (v := .done [1, 0, 0] 8) (p := [0, 0]) (by rw [allDemo_log]; rfl)
    (by rw [allDemo_log]; rfl) trivial (by simp [Ev.at]) (by omega)

/-- Leaves of different children of `when_all` are not ordered. -/
example : ¬ allDemo.2.hb 5 7 := by decide

end Verif.Tree
