import Verif.Hb.WithCancel
import Verif.Run.Props

/-!
# Happens-before for `run`, and `run_forever`

`run` shares `st.done` and `st.value` (basic.hpp lines 404-407 and 422) with the receiver: ordinary variables, no atomic
accesses and no locks.

If the sender completes inside `start()` or `wait()` (`mt = false`), the receiver is called on the thread that called `run`.
The machine has an activity of its own for the receiver; program order of the thread is expressed by a location
for each call that is passed from one to the other, like a lock.
-/

namespace Verif.Run

/-- The thread that called `run`. -/
abbrev Loc := Id

/-- Accesses. On another thread there are none. -/
def eff (mt : Bool) (_ : St) : Instr → Bool → List (Acc Loc)
  | .setDone r, _ => if mt then [] else [.unlock r]  -- `set_value` returns to the caller
  | .leave r, _ => if mt then [] else [.lock r]
  | _, _ => []

def Ev.id : Ev → Id
  | .call r | .complete r _ | .wait r | .ret r _ => r

/-- Inside `start()` or `wait()` the thread has seen everything that was done for this call. On another thread, the sender
completes after it was started. -/
def entry (mt : Bool) (s : St) : Act → Nat → Bool
  | .complete r _, n => match s.log[n]? with
    | some (.call j) => j == r
    | some v => !mt && v.id == r
    | none => false
  | _, _ => false

abbrev ann (mt dummy : Bool) : Ann (mach mt dummy) :=
  ⟨Loc, inferInstance, fun s => s.log.length, entry mt, eff mt⟩

/-! ## Completion on another thread -/

/-- The sender completes on another thread between `start()` and the test of `st.done`. -/
def race : Conf (mach true false) × Mem Loc :=
  (ann true false).go init [.env (.call 0), .run 0 true, .env (.complete 0 7), .run 1 true, .run 1 true, .run 0 true,
    .run 0 true, .run 0 true]

/-- C76 is false if the sender completes on another thread: `run` returns, but the completion does not happen before the return.
`st.done` and `st.value` are read and written by two threads without synchronisation. -/
theorem C76_other_thread_false :
    ∃ (c : Conf (mach true false)) (m : Mem Loc), HReach (ann true false) init c m ∧
      ∃ a b, a < b ∧ c.sh.log[a]? = some (.complete 0 7) ∧ c.sh.log[b]? = some (.ret 0 7) ∧ ¬ m.hb a b :=
  ⟨race.1, race.2, HReach.go _ _ _, 1, 2, by decide⟩

/-! ## Completion on the same thread -/

/-- Instructions of the thread that called `run`, outside of `start()` and `wait()`. -/
def thr (r : Id) : Instr → Prop
  | .start j | .loop j | .wait j | .ret j => j = r
  | _ => False

/-- Instructions of the receiver. -/
def rcv (r : Id) : Instr → Prop
  | .emplace j _ | .setDone j => j = r
  | _ => False

structure HThr (s : St) (acts : List (List Instr)) (m : Mem Loc) (e : Nat) (r : Id) : Prop where
  rcv : AllKnow (rcv r) acts m e
  thr : AllKnow (thr r) acts m e
  inside : AllKnow (fun x => x = .leave r) acts m e ∨ s.busy r = true ∨ m.msg r e = true
  later : ∀ (n : Nat) v, e < n → s.log[n]? = some v → v.id = r → m.past n e = true

theorem no_stores (s : St) (x : Instr) (b : Bool) (l : Loc) : ∀ a ∈ eff false s x b, a.stores l = false := by
  cases x <;> simp [eff, Acc.stores]

structure Facts' (c : Conf (mach false false)) : Prop where
  inv : Inv false c.sh c.acts

theorem later_step {log evs log' : List Ev} {m : Mem Loc} {e : Nat} {r : Id}
    (h : ∀ (n : Nat) v, e < n → log[n]? = some v → v.id = r → m.past n e = true) (hl : log' = log ++ evs) {k : Nat}
    {v : Nat → Bool} {as : List (Acc Loc)} (hn : (∃ w ∈ evs, w.id = r) → m.acquire v as e = true) :
    ∀ (n : Nat) w, e < n → log'[n]? = some w → w.id = r → (m.act k v as log.length log'.length).past n e = true := by
  subst hl
  intro n w hen hw hP
  by_cases hl : n < log.length
  · rw [Mem.act_past_old _ _ _ _ _ _ hl]
    rw [List.getElem?_append_left hl] at hw
    exact h n w hen hw hP
  · have h2 := (List.getElem?_eq_some_iff.1 hw).1
    rw [Mem.act_past_new _ _ _ _ _ _ (by omega) h2]
    rw [List.getElem?_append_right (by omega)] at hw
    rw [hn ⟨w, List.mem_of_getElem? hw, hP⟩]; rfl

theorem exec_thr {s s' : St} {x : Instr} {b : Bool} {p : List Instr} (he : exec false false s x b = .ok s' p) (i : Id) :
    (∀ y ∈ p, rcv i y → rcv i x) ∧ (∀ y ∈ p, thr i y → thr i x ∨ (x = .leave i ∧ s.busy i = false)) ∧
    (.leave i ∈ p → thr i x) ∧ (s.busy i = true → s'.busy i = true ∨ x = .setDone i) ∧
    ∃ evs, s'.log = s.log ++ evs ∧ ∀ w ∈ evs, w.id = i → thr i x := by
  exec_cases he <;> simp [rcv, thr, Ev.id, upd_apply] at * <;> grind

theorem HThr.run {s s' : St} {acts : List (List Instr)} {m : Mem Loc} {e : Nat} {i : Id} (h : HThr s acts m e i)
    {k : Nat} {x : Instr} {r p : List Instr} {b : Bool} (hk : acts[k]? = some (x :: r))
    (he : exec false false s x b = .ok s' p) :
    HThr s' (acts.set k (p ++ r)) (m.act k (m.view k) (eff false s x b) s.log.length s'.log.length) e i := by
  obtain ⟨h1, h2, h3, h4, evs, h5, h6⟩ := exec_thr he i
  have hr : Run.rcv i x → m.acquire (m.view k) (eff false s x b) e = true := fun hx =>
    m.acquire_mono _ (h.rcv k _ hk x (by simp) hx)
  have ht : Run.thr i x → m.acquire (m.view k) (eff false s x b) e = true := fun hx =>
    m.acquire_mono _ (h.thr k _ hk x (by simp) hx)
  refine ⟨h.rcv.run hk ?_, h.thr.run hk ?_, ?_, later_step h.later h5 ?_⟩
  · rintro ⟨y, hy, hm⟩; exact hr (h1 y hy hm)
  · rintro ⟨y, hy, hm⟩
    rcases h2 y hy hm with g | ⟨rfl, g⟩
    · exact ht g
    · rcases h.inside with g' | g' | g'
      · exact m.acquire_mono _ (g' k _ hk _ (by simp) rfl)
      · simp [g] at g'
      · exact m.acquire_msg (a := .lock i) (l := i) (by simp [eff]) (by simp [Acc.acquires]) g'
  · rcases h.inside with g | g | g
    · left
      refine AllKnow.run g hk ?_
      rintro ⟨y, hy, rfl⟩; exact ht (h3 hy)
    · rcases h4 g with g | rfl
      · exact .inr (.inl g)
      · right; right
        have := hr rfl
        rw [Mem.act_msg]
        simp [eff, Mem.acquire, Mem.release] at this ⊢
        simp [this]
    · exact .inr (.inr (Mem.keep (no_stores s x b _) g))
  · rintro ⟨w, hw, ho⟩; exact ht (h6 w hw ho)

theorem env_shape {s s' : St} {acts : List (List Instr)} {a : Act} {p : List Instr} (he : env false s acts a = some (s', p)) :
    (∃ r, a = .call r ∧ s.phase r = .fresh ∧ p = [.start r] ∧ s'.log = s.log ++ [.call r] ∧ s'.busy = s.busy) ∨
    (∃ r v, a = .complete r v ∧ s.inside r = true ∧ p = [.emplace r v] ∧ s'.log = s.log ++ [.complete r v] ∧
      s'.busy = upd s.busy r true) := by
  env_cases he
  · rename_i r hr; exact .inl ⟨r, rfl, hr, rfl, rfl, rfl⟩
  · rename_i r v hr; exact .inr ⟨r, v, rfl, by simpa using hr.2.2, rfl, rfl, rfl⟩

theorem called {s : St} {acts : List (List Instr)} (f : Inv false s acts) {u : Ev} {r : Id} (hu : u ∈ s.log) (hi : u.id = r) :
    .call r ∈ s.log := by
  have hc : ∀ v, .complete r v ∈ s.log → .call r ∈ s.log := by
    intro v hv
    obtain ⟨l1, l2, h1, h2⟩ := Hist.mem f.ok hv
    rw [h1]; simp [h2.1]
  obtain ⟨l1, l2, h1, h2⟩ := Hist.mem f.ok hu
  cases u <;> simp [Ev.id] at hi <;> subst hi
  · exact hu
  · exact hc _ hu
  · rw [h1]; simp [h2.1]
  · exact hc _ (by rw [h1]; exact List.mem_append_left _ h2.1)

theorem HThr.env {c : Conf (mach false false)} {s' : St} {m : Mem Loc} {e : Nat} {i : Id} {a : Act} {p : List Instr} {u : Ev}
    (f : Inv false c.sh c.acts) (h : HThr c.sh c.acts m e i) (hu : c.sh.log[e]? = some u) (hi : u.id = i)
    (he : env false c.sh c.acts a = some (s', p)) :
    HThr s' (c.acts ++ [p])
      (m.act c.acts.length (m.known c.sh.log.length (entry false c.sh a)) [] c.sh.log.length s'.log.length) e i := by
  have hl := (List.getElem?_eq_some_iff.1 hu).1
  rcases env_shape he with ⟨r, rfl, h1, rfl, h2, h3⟩ | ⟨r, v, rfl, h1, rfl, h2, h3⟩
  · have hne : r ≠ i := by
      rintro rfl
      exact (f.lca r).1 (called f (List.mem_of_getElem? hu) hi) h1
    refine ⟨h.rcv.env ?_, h.thr.env ?_, ?_, later_step h.later h2 ?_⟩
    · simp [Run.rcv]
    · simp [Run.thr, hne]
    · rcases h.inside with g | g | g
      · exact .inl (AllKnow.env g (by simp))
      · exact .inr (.inl (by rw [h3]; exact g))
      · exact .inr (.inr (Mem.keep (by simp) g))
    · simp [Ev.id, hne]
  · have hk : r = i → m.known c.sh.log.length (entry false c.sh (.complete r v)) e = true := by
      rintro rfl
      refine Mem.known_of hl ?_ (.inl rfl)
      simp only [entry, hu]
      cases u <;> simp [Ev.id] at hi <;> simp [Ev.id, hi]
    refine ⟨h.rcv.env ?_, h.thr.env ?_, ?_, later_step h.later h2 ?_⟩
    · rintro ⟨y, hy, hm⟩; simp at hy; subst hy; exact .inl (hk hm)
    · simp [Run.thr]
    · rcases h.inside with g | g | g
      · exact .inl (AllKnow.env g (by simp))
      · exact .inr (.inl (by rw [h3]; simp [upd_apply, g]))
      · exact .inr (.inr (Mem.keep (by simp) g))
    · rintro ⟨w, hw, ho⟩; simp at hw; subst hw; exact hk ho

/-- No instruction of this kind is ahead. -/
theorem allKnow_none {T : Instr → Prop} {acts : List (List Instr)} {m : Mem Loc} {e : Nat} (h : ∀ x, Pending acts x → ¬ T x) :
    AllKnow T acts m e := fun _ a hk x hx ht => absurd ht (h x ⟨a, List.mem_of_getElem? hk, hx⟩)

theorem idle {s : St} {acts : List (List Instr)} (f : Inv false s acts) (r : Id) :
    (s.busy r = false → ∀ x, Pending acts x → ¬ rcv r x) ∧
    (s.phase r ≠ .running → ∀ x, Pending acts x → ¬ thr r x ∧ x ≠ .leave r) ∧
    (s.inside r = true → ∀ x, Pending acts x → ¬ thr r x) := by
  have h1 := f.bus r
  have h2 := f.th r
  have h3 := f.ins r
  refine ⟨fun hb x hx hr => ?_, fun hp x hx => ⟨fun hr => ?_, fun hr => ?_⟩, fun hi x hx hr => ?_⟩
  · have g1 := hx.le (ew r)
    have g2 := hx.le (dw r)
    simp [hb] at h1
    cases x <;> simp [rcv] at hr <;> simp [ew, dw, hr] at g1 g2 <;> omega
  · have g1 := hx.le (sw r)
    have g2 := hx.le (lw r)
    have g3 := hx.le (ww r)
    have g4 := hx.le (rw' r)
    simp [hp] at h2
    cases x <;> simp [thr] at hr <;> simp [sw, lw, ww, rw', hr] at g1 g2 g3 g4 <;> omega
  · have g1 := hx.le (vw r)
    simp [hp] at h2
    subst hr; simp [vw] at g1; omega
  · have g1 := hx.le (sw r)
    have g2 := hx.le (lw r)
    have g3 := hx.le (ww r)
    have g4 := hx.le (rw' r)
    simp [hi] at h3
    split at h2 <;> cases x <;> simp [thr] at hr <;> simp [sw, lw, ww, rw', hr] at g1 g2 g3 g4 <;> omega

theorem hreach_thr {c : Conf (mach false false)} {m : Mem Loc} (h : HReach (ann false false) init c m) :
    ∀ (e : Nat) u, c.sh.log[e]? = some u → HThr c.sh c.acts m e u.id := by
  refine HReach.inv (A := ann false false) (P := fun c => Inv false c.sh c.acts)
    (Q := fun s acts m => ∀ (e : Nat) u, s.log[e]? = some u → HThr s acts m e u.id) (fun c h => reach_inv h) ?_ ?_ ?_ h
  · intro e u h; simp [init] at h
  · intro c m a s' p f f' hQ he e u hu
    have he : env false c.sh c.acts a = some (s', p) := he
    by_cases hlt : e < c.sh.log.length
    · have hu' : c.sh.log[e]? = some u := by
        rcases env_shape he with ⟨r, _, _, _, h2, _⟩ | ⟨r, v, _, _, _, h2, _⟩ <;>
          rw [h2, List.getElem?_append_left hlt] at hu <;> exact hu
      exact (hQ e u hu').env f hu' rfl he
    · have hle : c.sh.log.length ≤ e := by omega
      have hnew : ∀ w, s'.log = c.sh.log ++ [w] → e = c.sh.log.length ∧ u = w := by
        intro w hw
        have := (List.getElem?_eq_some_iff.1 hu).1
        rw [hw] at this hu
        simp at this
        have he : e = c.sh.log.length := by omega
        subst he
        simpa [eq_comm] using hu
      have hlen : ∀ w, s'.log = c.sh.log ++ [w] → c.sh.log.length < s'.log.length := by intro w hw; rw [hw]; simp
      have late : ∀ (n : Nat) w, s'.log = c.sh.log ++ [w] → c.sh.log.length < n → ∀ v, s'.log[n]? ≠ some v := by
        intro n w hw hn v hv
        have := (List.getElem?_eq_some_iff.1 hv).1
        rw [hw] at this; simp at this; omega
      rcases env_shape he with ⟨r, rfl, h1, rfl, h2, h3⟩ | ⟨r, v, rfl, h1, rfl, h2, h3⟩
      · obtain ⟨rfl, rfl⟩ := hnew _ h2
        have hb : c.sh.busy r = false := by
          cases hb : c.sh.busy r
          · rfl
          · have g1 := f.cst r (f.bco r hb).1
            have g2 := f.fre r h1
            simp [g1] at g2
        obtain ⟨g1, g2, _⟩ := idle f r
        have g2 := g2 (by simp [h1])
        refine ⟨AllKnow.env (allKnow_none (g1 hb)) (by simp [rcv, Ev.id]), AllKnow.env (allKnow_none fun x hx => (g2 x hx).1) ?_,
          .inl (AllKnow.env (allKnow_none fun x hx => (g2 x hx).2) (by simp)), fun n v hn hv => absurd hv (late n _ h2 hn v)⟩
        exact fun _ => .inr ⟨Nat.le_refl _, hlen _ h2⟩
      · obtain ⟨rfl, rfl⟩ := hnew _ h2
        have hb : c.sh.busy r = false := by
          have he' := he
          simp only [env] at he'
          split at he'
          · rename_i hg
            cases hb : c.sh.busy r
            · rfl
            · have := (f.bco r hb).1; simp [this] at hg
          · simp at he'
        obtain ⟨g1, _, g2⟩ := idle f r
        refine ⟨AllKnow.env (allKnow_none (g1 hb)) ?_, AllKnow.env (allKnow_none (g2 h1)) (by simp [thr]),
          .inr (.inl (by rw [h3]; simp [Ev.id])), fun n v hn hv => absurd hv (late n _ h2 hn v)⟩
        exact fun _ => .inr ⟨Nat.le_refl _, hlen _ h2⟩
  · intro c m k x r b s' p f f' hQ hk he e u hu
    have he : exec false false c.sh x b = .ok s' p := he
    obtain ⟨_, _, _, _, evs, h5, h6⟩ := exec_thr he u.id
    by_cases hlt : e < c.sh.log.length
    · rw [h5, List.getElem?_append_left hlt] at hu
      exact (hQ e u hu).run hk he
    · have hm := hu
      rw [h5, List.getElem?_append_right (by omega)] at hm
      have ht := h6 u (List.mem_of_getElem? hm) rfl
      have hev : evs = [u] := by
        have g : s'.log = c.sh.log ∨ ∃ w, s'.log = c.sh.log ++ [w] := by
          clear hk f h5 h6 hm hu ht f'
          exec_cases he <;> simp
        rcases g with g | ⟨w, g⟩
        · rw [g] at h5; simp at h5; subst h5; simp at hm
        · rw [g] at h5; simp at h5; subst h5
          have := List.mem_of_getElem? hm
          simp at this; rw [this]
      subst hev
      have hE : e = c.sh.log.length := by
        have := (List.getElem?_eq_some_iff.1 hm).1
        simp at this; omega
      subst hE
      have hx : Pending c.acts x := pending_top hk
      have hpr : c.sh.phase u.id = .running := by
        apply Classical.byContradiction
        intro hp
        exact ((idle f u.id).2.1 hp x hx).1 ht
      have hin : c.sh.inside u.id = false := by
        cases hi : c.sh.inside u.id
        · rfl
        · exact absurd ht ((idle f u.id).2.2 hi x hx)
      have hb : c.sh.busy u.id = false := by
        cases hb : c.sh.busy u.id
        · rfl
        · have := f.bin u.id rfl hb; simp [hin] at this
      have hv : c.sh.log.length < s'.log.length := by rw [h5]; simp
      have only : ∀ T : Instr → Prop, (∀ y, T y → thr u.id y ∨ y = .leave u.id) →
          AllKnow T (c.acts.set k (p ++ r)) (m.act k (m.view k) (eff false c.sh x b) c.sh.log.length s'.log.length)
            c.sh.log.length := by
        intro T hT j l hj y hy hTy
        rw [List.getElem?_set] at hj
        split at hj
        · rename_i hjk; subst hjk
          exact Mem.act_view_self (.inr ⟨Nat.le_refl _, hv⟩)
        · rename_i hjk
          exfalso
          have g := f.th u.id
          simp [hpr] at g
          have e1 : ∀ z : Instr, thr u.id z ∨ z = .leave u.id →
              0 < sw u.id z + vw u.id z + lw u.id z + ww u.id z + rw' u.id z := by
            intro z hz
            cases z <;> simp [thr] at hz <;> simp [sw, vw, lw, ww, rw', hz]
          have e2 : ws (fun z => sw u.id z + vw u.id z + lw u.id z + ww u.id z + rw' u.id z) c.acts ≤ 1 := by
            have e3 : ∀ A B : Instr → Nat, ws (fun z => A z + B z) c.acts = ws A c.acts + ws B c.acts := fun A B =>
              ws_add (fun _ => rfl) _
            simp only [e3]; omega
          exact hjk (ws_only e2 hk (by simp) (e1 x (.inl ht)) hj hy (e1 y (hT y hTy))).symm
      refine ⟨?_, only _ (fun y hy => .inl hy), .inl (only _ (fun y hy => .inr hy)), fun n v hn hv => ?_⟩
      · refine AllKnow.run (allKnow_none ((idle f u.id).1 hb)) hk ?_
        rintro ⟨y, hy, hr⟩
        have := (exec_thr he u.id).1 y hy hr
        exact absurd this ((idle f u.id).1 hb x hx)
      · have := (List.getElem?_eq_some_iff.1 hv).1
        rw [h5] at this; simp at this; omega

/-! ## C76 -/

/-- C76. If the sender completes inside of `start()` or `wait()`, then everything that is done for a call of `run` is ordered by
happens-before; in particular the completion of the sender happens before the return of `run`. -/
theorem C76_same_thread_partial {c : Conf (mach false false)} {m : Mem Loc} (h : HReach (ann false false) init c m) {a b : Nat}
    {v w : Ev} (hab : a < b) (ha : c.sh.log[a]? = some v) (hb : c.sh.log[b]? = some w) (hv : v.id = w.id) : m.hb a b :=
  (hreach_thr h a v ha).later b w hab hb hv.symm

/-! ## The hypotheses are met

The sender of call 0 completes inside of its first `wait()`. -/

def hdemo : Conf (mach false false) × Mem Loc :=
  (ann false false).go init [.env (.call 0), .run 0 true, .run 0 true, .run 0 true, .run 0 true, .env (.call 1), .run 1 true,
    .env (.complete 0 7), .run 2 true, .run 2 true, .run 0 true, .run 0 true, .run 0 true]

theorem hdemo_reach : HReach (ann false false) init hdemo.1 hdemo.2 := HReach.go _ _ _
theorem hdemo_log : hdemo.1.sh.log = [.call 0, .wait 0, .call 1, .complete 0 7, .ret 0 7] := by decide

example : hdemo.2.hb 3 4 :=
  C76_same_thread_partial hdemo_reach (v := .complete 0 7) (w := .ret 0 7) (by decide) (by rw [hdemo_log]; rfl)
    (by rw [hdemo_log]; rfl) rfl

/-- Calls on different threads are not ordered. -/
example : ¬ hdemo.2.hb 2 4 := by decide

end Verif.Run
