import Verif.Hb.Order
import Verif.Mutex.Props

/-!
# Memory orders of `async::mutex`

Annotation of `Verif/Mutex/Model.lean` with the memory orders of mutex.hpp lines 9-180.
-/

namespace Verif.Mutex

/-- The atomic variable `st_` (line 170) and the internal `mutex_` (line 164). -/
inductive Loc where
  | st
  | mtx
deriving DecidableEq

/-- Memory accesses of the instructions. -/
def eff (s : St) : Instr → Bool → List (Acc Loc)
  | .lock _, _ | .tryLock _, _ =>  -- compare_exchange_strong, lines 112-120: acquire, relaxed
    if s.st = .none then [.rmw .acq .st] else [.load .rlx .st]
  | .acqM _, _ => [.lock .mtx]
  | .ld _, _ => [.load .rlx .st]  -- line 46
  | .chk _ .none, b => if s.st = .none ∧ b then [.rmw .acq .st] else [.load .rlx .st]  -- lines 49-54
  | .chk _ .locked, b => if s.st = .locked ∧ b then [.rmw .rlx .st] else [.load .rlx .st]  -- lines 59-64
  | .chk _ .contended, _ => []
  | .push _, _ => []
  | .relM, _ => [.unlock .mtx]
  | .acq _, _ => []
  | .unlock _, _ => [.load .rlx .st]  -- line 123
  | .casU _, _ => if s.st = .locked then [.rmw .rel .st] else [.load .rlx .st]  -- lines 128-133
  | .acqU _, _ => [.lock .mtx]
  | .popU _, _ => []
  | .stU _, _ => if s.waiters = [] then [.store .rlx .st] else []  -- line 150

/-- The user calls `unlock` after learning that the mutex was acquired. -/
def entry (s : St) : Act → Nat → Bool
  | .unlock i, n => s.log[n]? == some (.acq i)
  | _, _ => false

abbrev ann : Ann mach := ⟨Loc, inferInstance, fun s => s.log.length, entry, eff⟩

/-- Position of the end of a critical section. -/
def Ends (log : List Ev) (n : Nat) : Prop := ∃ i, log[n]? = some (.unlock i)

theorem Ends.app {log : List Ev} {l : List Ev} {n : Nat} (h : Ends (log ++ l) n) (hl : ∀ i, .unlock i ∉ l) :
    Ends log n := by
  obtain ⟨i, hi⟩ := h
  by_cases hn : n < log.length
  · exact ⟨i, by rwa [List.getElem?_append_left hn] at hi⟩
  · rw [List.getElem?_append_right (by omega)] at hi
    exact absurd (List.mem_of_getElem? hi) (hl i)

/-- Whoever owns the mutex has seen the end of all earlier critical sections. -/
structure HInv (s : St) (acts : List (List Instr)) (m : Mem Loc) : Prop where
  tok : ∀ (k : Nat) a, acts[k]? = some a → ∀ x ∈ a, tokId x ≠ none → Sees (Ends s.log) (m.view k)
  held : ∀ i (n : Nat), i ∈ holding s.log → s.log[n]? = some (.acq i) → Sees (Ends s.log) (m.past n)
  free : s.st = .none → Sees (Ends s.log) (m.msg .st)
  done : ∀ i (n e : Nat), s.log[n]? = some (.acq i) → Ends s.log e → e < n → m.past n e = true

theorem HInv.step {s s' : St} {acts : List (List Instr)} {m : Mem Loc} (h : HInv s acts m) {k : Nat} {x : Instr}
    {r p : List Instr} (hk : acts[k]? = some (x :: r)) {as : List (Acc Loc)} {evs : List Ev}
    (hlog : s'.log = s.log ++ evs) (hu : ∀ i, .unlock i ∉ evs) (h1 : ∀ i, s'.log.count (.acq i) ≤ 1)
    (he : evs.length ≤ 1)
    (ht : (∃ y ∈ p, tokId y ≠ none) → Sees (Ends s.log) (m.acquire (m.view k) as))
    (ha : ∀ i, .acq i ∈ evs → Sees (Ends s.log) (m.acquire (m.view k) as))
    (hh : ∀ i, i ∈ holding s'.log → i ∈ holding s.log ∨ .acq i ∈ evs)
    (hf : s'.st = .none → Sees (Ends s.log) ((m.act k (m.view k) as s.log.length s'.log.length).msg .st)) :
    HInv s' (acts.set k (p ++ r)) (m.act k (m.view k) as s.log.length s'.log.length) := by
  have hends : ∀ n, Ends s'.log n → Ends s.log n := fun n hn => by rw [hlog] at hn; exact hn.app hu
  have hlt : ∀ n, Ends s.log n → n < s.log.length := fun n hn => by
    obtain ⟨i, hi⟩ := hn; exact (List.getElem?_eq_some_iff.1 hi).1
  refine ⟨?_, ?_, ?_, ?_⟩
  · intro j a hj y hy hty n hn
    rw [Mem.act_view]
    rw [List.getElem?_set] at hj
    split at hj
    · rename_i e; subst e
      simp only [if_true]
      split at hj
      · simp at hj; subst hj
        rcases List.mem_append.1 hy with hy | hy
        · rw [ht ⟨y, hy, hty⟩ n (hends n hn)]; rfl
        · rw [(h.tok k _ hk y (List.mem_cons_of_mem _ hy) hty).acquire m as n (hends n hn)]; rfl
      · simp at hj
    · rename_i hne
      rw [if_neg (Ne.symm hne)]
      exact h.tok j a hj y hy hty n (hends n hn)
  · intro i n hi hn e hee
    by_cases hl : n < s.log.length
    · rw [Mem.act_past_old _ _ _ _ _ _ hl]
      have hn' : s.log[n]? = some (.acq i) := by rw [hlog, List.getElem?_append_left hl] at hn; exact hn
      rcases hh i hi with hi | hi
      · exact h.held i n hi hn' e (hends e hee)
      · exfalso
        have := h1 i
        rw [hlog, List.count_append] at this
        have h2 := List.count_pos_iff.2 hi
        have h3 := List.count_pos_iff.2 (List.mem_of_getElem? hn')
        omega
    · have hlen := (List.getElem?_eq_some_iff.1 hn).1
      rw [Mem.act_past_new _ _ _ _ _ _ (by omega) hlen]
      rw [hlog, List.getElem?_append_right (by omega)] at hn
      rw [ha i (List.mem_of_getElem? hn) e (hends e hee)]; rfl
  · intro hs n hn
    exact hf hs n (hends n hn)
  · intro i n e hn hee hlt'
    by_cases hl : n < s.log.length
    · rw [Mem.act_past_old _ _ _ _ _ _ hl]
      have hn' : s.log[n]? = some (.acq i) := by rw [hlog, List.getElem?_append_left hl] at hn; exact hn
      exact h.done i n e hn' (hends e hee) hlt'
    · have hlen := (List.getElem?_eq_some_iff.1 hn).1
      rw [Mem.act_past_new _ _ _ _ _ _ (by omega) hlen]
      rw [hlog, List.getElem?_append_right (by omega)] at hn
      rw [ha i (List.mem_of_getElem? hn) e (hends e hee)]; rfl

/-- What the proof uses of the plain machine. -/
structure Facts' (c : Conf mach) : Prop where
  inv : Inv c.sh c.acts
  one : ∀ i, c.sh.log.count (.acq i) ≤ 1

theorem facts' (c : Conf mach) (h : Reach mach init c) : Facts' c :=
  ⟨reach_inv h, fun i => by have := C15_at_most_once h i; omega⟩

theorem run_hinv (c : Conf mach) (m : Mem Loc) (k : Nat) (x : Instr) (r : List Instr) (b : Bool) (s' : St)
    (p : List Instr) (_ : Facts' c) (h1 : Facts' ⟨s', c.acts.set k (p ++ r), false⟩) (h : HInv c.sh c.acts m)
    (hk : c.acts[k]? = some (x :: r)) (he : exec c.sh x b = .ok s' p) :
    HInv s' (c.acts.set k (p ++ r)) (m.act k (m.view k) (eff c.sh x b) c.sh.log.length s'.log.length) := by
  have one := h1.one
  have tk := h.tok k _ hk x (by simp)
  have fr := h.free
  have acqst : ∀ v, c.sh.st = .none → Sees (Ends c.sh.log) (m.acquire v [.rmw .acq .st]) := by
    intro v hs n hn
    simp [Mem.acquire, fr hs n hn]
  cases x <;> simp only [exec] at he
  case lock i =>
    split at he <;> simp at he <;> obtain ⟨rfl, rfl⟩ := he <;> rename_i hs
    · refine h.step hk (evs := [.fast i]) rfl (by simp) one (by simp) (fun _ => ?_) (by simp)
        (by simp [holding.step]) (by simp)
      simp only [eff, hs, if_true]; exact acqst _ hs
    · refine h.step hk (evs := []) (by simp) (by simp) one (by simp) (by simp [tokId]) (by simp) (by simp) ?_
      intro h2; exact absurd h2 hs
  case tryLock i =>
    split at he <;> simp at he <;> obtain ⟨rfl, rfl⟩ := he <;> rename_i hs
    · refine h.step hk (evs := [.fast i]) rfl (by simp) one (by simp) (fun _ => ?_) (by simp)
        (by simp [holding.step]) (by simp)
      simp only [eff, hs, if_true]; exact acqst _ hs
    · refine h.step hk (evs := [.fail i]) rfl (by simp) one (by simp) (by simp) (by simp)
        (by simp [holding.step]) ?_
      intro h2; exact absurd h2 hs
  case acqM i =>
    split at he <;> simp at he
    obtain ⟨rfl, rfl⟩ := he
    refine h.step hk (evs := []) (by simp) (by simp) one (by simp) (by simp [tokId]) (by simp) (by simp) ?_
    intro h2 n hn; simp [Mem.act_msg, eff, Mem.release, fr h2 n hn]
  case ld i =>
    simp at he; obtain ⟨rfl, rfl⟩ := he
    refine h.step hk (evs := []) (by simp) (by simp) one (by simp) (by simp [tokId]) (by simp) (by simp) ?_
    intro h2 n hn; simp [Mem.act_msg, eff, Mem.release, fr h2 n hn]
  case chk i v =>
    cases v <;> simp only [exec] at he
    · split at he <;> simp at he <;> obtain ⟨rfl, rfl⟩ := he <;> rename_i hs
      · refine h.step hk (evs := [.fast i]) rfl (by simp) one (by simp) (fun _ => ?_) (by simp)
          (by simp [holding.step]) (by simp)
        simp only [eff, hs, if_true, and_self]; exact acqst _ hs.1
      · refine h.step hk (evs := []) (by simp) (by simp) one (by simp) (by simp [tokId]) (by simp) (by simp) ?_
        intro h2 n hn; simp [Mem.act_msg, eff, hs, Mem.release, fr h2 n hn]
    · split at he <;> simp at he <;> obtain ⟨rfl, rfl⟩ := he <;> rename_i hs
      · exact h.step hk (evs := []) (by simp) (by simp) one (by simp) (by simp [tokId]) (by simp) (by simp) (by simp)
      · refine h.step hk (evs := []) (by simp) (by simp) one (by simp) (by simp [tokId]) (by simp) (by simp) ?_
        intro h2 n hn; simp [Mem.act_msg, eff, hs, Mem.release, fr h2 n hn]
    · simp at he; obtain ⟨rfl, rfl⟩ := he
      refine h.step hk (evs := []) (by simp) (by simp) one (by simp) (by simp [tokId]) (by simp) (by simp) ?_
      intro h2 n hn; simp [Mem.act_msg, eff, Mem.release, fr h2 n hn]
  case push i =>
    simp at he; obtain ⟨rfl, rfl⟩ := he
    refine h.step hk (evs := [.enq i]) rfl (by simp) one (by simp) (by simp [tokId]) (by simp)
      (by simp [holding.step]) ?_
    intro h2 n hn; simp [Mem.act_msg, eff, Mem.release, fr h2 n hn]
  case relM =>
    simp at he; obtain ⟨rfl, rfl⟩ := he
    refine h.step hk (evs := []) (by simp) (by simp) one (by simp) (by simp) (by simp) (by simp) ?_
    intro h2 n hn; simp [Mem.act_msg, eff, Mem.release, fr h2 n hn]
  case acq i =>
    simp at he; obtain ⟨rfl, rfl⟩ := he
    refine h.step hk (evs := [.acq i]) rfl (by simp) one (by simp) (by simp)
      (fun _ _ => (tk (by simp [tokId])).acquire _ _) (by simp [holding.step]) ?_
    intro h2 n hn; simp [Mem.act_msg, eff, Mem.release, fr h2 n hn]
  case unlock i =>
    have T := (tk (by simp [tokId])).acquire m (eff c.sh (.unlock i) b)
    split at he <;> simp at he <;> obtain ⟨rfl, rfl⟩ := he <;> rename_i hs
    all_goals
      exact h.step hk (evs := []) (by simp) (by simp) one (by simp) (fun _ => T) (by simp) (by simp)
        (by simp [hs])
  case casU i =>
    have T := (tk (by simp [tokId])).acquire m (eff c.sh (.casU i) b)
    split at he <;> simp at he <;> obtain ⟨rfl, rfl⟩ := he <;> rename_i hs
    · refine h.step hk (evs := [.rel i]) rfl (by simp) one (by simp) (by simp) (by simp) (by simp [holding.step]) ?_
      intro _ n hn
      have := T n hn
      simp only [eff, hs, if_true] at this ⊢
      simp [Mem.act_msg, Mem.release, this]
    · exact h.step hk (evs := []) (by simp) (by simp) one (by simp) (fun _ => T) (by simp) (by simp) (by simp [hs])
  case acqU i =>
    have T := (tk (by simp [tokId])).acquire m (eff c.sh (.acqU i) b)
    split at he <;> simp at he
    obtain ⟨rfl, rfl⟩ := he
    refine h.step hk (evs := []) (by simp) (by simp) one (by simp) (fun _ => T) (by simp) (by simp) ?_
    intro h2 n hn; simp [Mem.act_msg, eff, Mem.release, fr h2 n hn]
  case popU i =>
    have T := (tk (by simp [tokId])).acquire m (eff c.sh (.popU i) b)
    split at he <;> simp at he
    obtain ⟨rfl, rfl⟩ := he
    refine h.step hk (evs := [.grant i _]) rfl (by simp) one (by simp) (fun _ => T) (by simp)
      (by simp [holding.step]) ?_
    intro h2 n hn; simp [Mem.act_msg, eff, Mem.release, fr h2 n hn]
  case stU j =>
    have T := (tk (by simp [tokId])).acquire m (eff c.sh (.stU j) b)
    simp at he; obtain ⟨rfl, rfl⟩ := he
    refine h.step hk (evs := []) (by simp) (by simp) one (by simp) (fun _ => T) (by simp) (by simp) ?_
    intro h2 n hn
    simp only at h2
    split at h2
    · simp at h2
    · rename_i hw; simp [Mem.act_msg, eff, hw, Mem.release, fr h2 n hn]

theorem env_hinv (c : Conf mach) (m : Mem Loc) (a : Act) (s' : St) (p : List Instr) (h0 : Facts' c)
    (_ : Facts' ⟨s', c.acts ++ [p], false⟩) (h : HInv c.sh c.acts m) (he : env c.sh c.acts a = some (s', p)) :
    HInv s' (c.acts ++ [p])
      (m.act c.acts.length (m.known c.sh.log.length (entry c.sh a)) [] c.sh.log.length s'.log.length) := by
  have hlt : ∀ n, Ends c.sh.log n → n < c.sh.log.length := fun n hn => by
    obtain ⟨i, hi⟩ := hn; exact (List.getElem?_eq_some_iff.1 hi).1
  have begin : ∀ (e : Ev) (x : Instr), (∀ i, e ≠ .unlock i) → (∀ i, e ≠ .acq i) → tokId x = none →
      ∀ s1 : St, s1.log = c.sh.log ++ [e] → s1.st = c.sh.st → ∀ v,
      HInv s1 (c.acts ++ [[x]]) (m.act c.acts.length v [] c.sh.log.length s1.log.length) := by
    intro e x hu ha hx s1 hlog hst v
    have hends : ∀ n, Ends s1.log n → Ends c.sh.log n := fun n hn => by
      rw [hlog] at hn; exact hn.app (by intro i; simp; exact fun h => hu i h.symm)
    have hold : holding s1.log = holding c.sh.log := by
      rw [hlog, holding_append]
      cases e <;> simp [holding.step]
      · exact absurd rfl (hu _)
      · exact absurd rfl (ha _)
    have hpos : ∀ i (n : Nat), s1.log[n]? = some (.acq i) → n < c.sh.log.length ∧ c.sh.log[n]? = some (.acq i) := by
      intro i n hn
      rw [hlog] at hn
      by_cases hl : n < c.sh.log.length
      · exact ⟨hl, by rwa [List.getElem?_append_left hl] at hn⟩
      · rw [List.getElem?_append_right (by omega)] at hn
        have := List.mem_of_getElem? hn
        simp at this
        exact absurd this.symm (ha i)
    refine ⟨?_, ?_, ?_, ?_⟩
    · intro j a hj y hy hty n hn
      rw [Mem.act_view]
      by_cases hl : j < c.acts.length
      · rw [List.getElem?_append_left hl] at hj
        rw [if_neg (by omega)]
        exact h.tok j a hj y hy hty n (hends n hn)
      · rw [List.getElem?_append_right (by omega)] at hj
        have := List.mem_of_getElem? hj
        simp at this; subst this
        simp at hy; subst hy
        exact absurd hx hty
    · intro i n hi hn e' he'
      obtain ⟨hl, hn'⟩ := hpos i n hn
      rw [Mem.act_past_old _ _ _ _ _ _ hl]
      exact h.held i n (hold ▸ hi) hn' e' (hends e' he')
    · intro hs n hn
      exact h.free (hst ▸ hs) n (hends n hn)
    · intro i n e' hn he' hlt'
      obtain ⟨hl, hn'⟩ := hpos i n hn
      rw [Mem.act_past_old _ _ _ _ _ _ hl]
      exact h.done i n e' hn' (hends e' he') hlt'
  cases a <;> simp only [env] at he
  case lock i =>
    split at he <;> simp at he
    obtain ⟨rfl, rfl⟩ := he
    exact begin (.lock i) (.lock i) (by simp) (by simp) rfl
      { c.sh with used := upd c.sh.used i true, log := c.sh.log ++ [.lock i] } rfl rfl _
  case tryLock i =>
    split at he <;> simp at he
    obtain ⟨rfl, rfl⟩ := he
    exact begin (.tryLock i) (.tryLock i) (by simp) (by simp) rfl
      { c.sh with used := upd c.sh.used i true, log := c.sh.log ++ [.tryLock i] } rfl rfl _
  case unlock i =>
    split at he <;> simp at he
    rename_i hi
    obtain ⟨rfl, rfl⟩ := he
    have hI := h0.inv
    have hcnt := List.count_pos_iff.2 hi
    have hown : (spec c.sh.log).owner = some i := by
      have := hI.own i
      split at this
      · assumption
      · omega
    have hone : (holding c.sh.log).length ≤ 1 ∧ ∀ j, ws (tok j) c.acts = 0 := by
      refine ⟨?_, fun j => ?_⟩
      · have := hI.ok.tok
        have h2 : (if (view c.sh c.acts).st = .none then 0 else 1) ≤ 1 := by split <;> omega
        simp only [view] at this h2; omega
      · have := hI.own j
        rw [hown] at this
        by_cases hij : i = j
        · subst hij; simp at this; omega
        · rw [if_neg (by simpa using hij)] at this; omega
    have hhold : holding c.sh.log = [i] := by
      have : (holding c.sh.log).length = 1 := by
        have := List.count_le_length (a := i) (l := holding c.sh.log); omega
      obtain ⟨j, hj⟩ := List.length_eq_one_iff.1 this
      rw [hj] at hi ⊢; simp at hi; rw [hi]
    have hends : ∀ n, Ends (c.sh.log ++ [.unlock i]) n → Ends c.sh.log n ∨ n = c.sh.log.length := by
      intro n ⟨j, hj⟩
      by_cases hl : n < c.sh.log.length
      · rw [List.getElem?_append_left hl] at hj; exact .inl ⟨j, hj⟩
      · have := (List.getElem?_eq_some_iff.1 hj).1
        simp at this; right; omega
    have hpos : ∀ j (n : Nat), (c.sh.log ++ [Ev.unlock i])[n]? = some (.acq j) →
        n < c.sh.log.length ∧ c.sh.log[n]? = some (.acq j) := by
      intro j n hn
      by_cases hl : n < c.sh.log.length
      · exact ⟨hl, by rwa [List.getElem?_append_left hl] at hn⟩
      · rw [List.getElem?_append_right (by omega)] at hn
        have := List.mem_of_getElem? hn
        simp at this
    refine ⟨?_, ?_, ?_, ?_⟩
    · intro j a hj y hy hty n hn
      rw [Mem.act_view]
      by_cases hl : j < c.acts.length
      · rw [List.getElem?_append_left hl] at hj
        exfalso
        obtain ⟨q, hq⟩ := Option.ne_none_iff_exists'.1 hty
        have h1 := ws_pos_of_mem (w := tok q) (List.mem_of_getElem? hj) hy
        rw [hone.2 q] at h1
        simp [tok, hq] at h1
      · have hj' : j = c.acts.length := by
          have := (List.getElem?_eq_some_iff.1 hj).1
          simp at this; omega
        simp only [hj', if_true, Mem.acquire]
        rcases hends n hn with hn | hn
        · obtain ⟨q, hq⟩ := List.getElem?_of_mem (holding_acq hi)
          have hql := (List.getElem?_eq_some_iff.1 hq).1
          rw [Mem.known_of hql (by simp [entry, hq]) (.inr (h.held i q hi hq n hn))]; rfl
        · subst hn; simp
    · intro j n hj
      simp [holding.step, hhold] at hj
    · intro hs
      simp only at hs
      rw [hI.none] at hs
      rw [hown] at hs; simp at hs
    · intro j n e hn he hlt'
      obtain ⟨hl, hn'⟩ := hpos j n hn
      rw [Mem.act_past_old _ _ _ _ _ _ hl]
      rcases hends e he with he | he
      · exact h.done j n e hn' he hlt'
      · omega

theorem reach_hinv {c : Conf mach} {m : Mem Loc} (h : HReach ann init c m) : HInv c.sh c.acts m := by
  refine HReach.inv (A := ann) (P := Facts') facts' ?_ env_hinv run_hinv h
  refine ⟨by simp, by simp [init], ?_, by simp [init]⟩
  intro _ n hn
  obtain ⟨i, hi⟩ := hn
  simp [init] at hi

/-- C50. Everything that the holder of the mutex did before calling `unlock` happens before every later acquisition, on
whatever thread. -/
theorem C50_critical_sections_ordered {c : Conf mach} {m : Mem Loc} (h : HReach ann init c m) {l1 l2 l3 : List Ev}
    {i j : Id} (e : c.sh.log = l1 ++ .unlock i :: l2 ++ .acq j :: l3) :
    m.hb l1.length (l1.length + 1 + l2.length) := by
  refine (reach_hinv h).done j _ _ ?_ ⟨i, ?_⟩ (by omega)
  · rw [e, List.getElem?_append_right (by simp; omega)]
    simp [show l1.length + 1 + l2.length - (l1.length + (l2.length + 1)) = 0 by omega]
  · rw [e]; simp

/-- The history only grows, hence happens-before is a strict partial order (`HReach.hb_trans`, `HReach.hb_lt`). -/
theorem grows : Grows ann init where
  init := rfl
  env s acts a s' p he := by
    cases a <;> simp only [mach, env] at he <;> split at he <;> simp at he <;> obtain ⟨rfl, _⟩ := he <;> simp [ann]
  run s x b s' p he := by
    cases x <;> simp only [mach, exec] at he
    case chk i v => cases v <;> simp only at he <;> (try split at he) <;> simp at he <;> obtain ⟨rfl, _⟩ := he <;> simp [ann]
    all_goals
      (try split at he) <;> simp at he <;> obtain ⟨rfl, _⟩ := he <;> simp [ann]

/-! ## Example -/

/-- 0 takes the free mutex, 1 queues up and gets it from 0; 1 frees it and 2 takes it on another thread. -/
def hdemo : Conf mach × Mem Loc := ann.go init
  [.env (.lock 0), .run 0 true, .run 0 true,
   .env (.lock 1), .run 1 true, .run 1 true, .run 1 true, .run 1 true, .run 1 true, .run 1 true,
   .env (.unlock 0), .run 2 true, .run 2 true, .run 2 true, .run 2 true, .run 2 true, .run 2 true,
   .env (.unlock 1), .run 3 true, .run 3 true,
   .env (.tryLock 2), .run 4 true, .run 4 true]

example : hdemo.1.sh.log = [.lock 0, .fast 0, .acq 0, .lock 1, .enq 1, .unlock 0, .grant 0 1, .acq 1, .unlock 1,
    .rel 1, .tryLock 2, .fast 2, .acq 2] := by decide
example : hdemo.2.hb 5 7 ∧ hdemo.2.hb 5 12 ∧ hdemo.2.hb 8 12 ∧ ¬ hdemo.2.hb 3 2 ∧ ¬ hdemo.2.hb 10 8 := by decide

/-- 0 gives up the mutex at position 5, 2 acquires it at position 12. -/
example : hdemo.2.hb 5 12 :=
  C50_critical_sections_ordered (HReach.go _ _ _) (i := 0) (j := 2) (l1 := hdemo.1.sh.log.take 5)
    (l2 := (hdemo.1.sh.log.drop 6).take 6) (l3 := []) (by decide)

end Verif.Mutex
