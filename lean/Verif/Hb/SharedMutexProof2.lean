import Verif.Hb.SharedMutexProof

/-! # Invariants of the views of `shared_mutex`: what writers know -/

namespace Verif.SharedMutex

/-- Position of the end of a section. -/
def End (log : List Ev) (e : Nat) : Prop := ∃ t, log[e]? = some (.unlock t)

/-- Belongs to a writer, or to a writer that hands the mutex over to readers. -/
def isW (x : Instr) : Prop := (∃ t ∈ toks x, t.2 = true) ∨ ∃ js, x = .stR js

/-- Some user that has been told of its admission knows event `e`. -/
def HoldKnows (log : List Ev) (m : Mem Loc) (e : Nat) : Prop :=
  ∃ t, ∃ n : Nat, t ∈ holding log ∧ log[n]? = some (.acq t) ∧ m.past n e = true

/-- Knowledge of the end `e` of a section. -/
structure RI (s : St) (acts : List (List Instr)) (m : Mem Loc) (e : Nat) : Prop where
  tok : AllKnow isW acts m e
  held : Held (·.2 = true) s.log m e
  car : m.msg .st e = true ∨ OneKnows (toks · ≠ []) acts m e ∨ HoldKnows s.log m e
  done : Done (fun v => ∃ i, v = .acq (i, true)) s.log m e

theorem HoldKnows.step {log log' evs : List Ev} {m : Mem Loc} {e : Nat} (h : HoldKnows log m e)
    (hl : log' = log ++ evs) (he : evs.length ≤ 1) (hu : ∀ t, .unlock t ∉ evs) {k : Nat} {v : Nat → Bool} {as : List (Acc Loc)} :
    HoldKnows log' (m.act k v as log.length log'.length) e := by
  obtain ⟨t, n, ht, hn, hp⟩ := h
  have hlt := (List.getElem?_eq_some_iff.1 hn).1
  refine ⟨t, n, ?_, by rw [hl, List.getElem?_append_left hlt]; exact hn, by rw [Mem.act_past_old _ _ _ _ _ _ hlt]; exact hp⟩
  match evs, he with
  | [], _ => simpa [hl] using ht
  | [w], _ =>
    rw [hl, holding_append]
    cases w <;> simp only [holding.step] <;> (try exact ht)
    · simp at hu
    · simp [ht]

theorem RI.step {s s' : St} {acts : List (List Instr)} {m : Mem Loc} {e : Nat} (h : RI s acts m e) {k : Nat} {x : Instr}
    {r p : List Instr} (hk : acts[k]? = some (x :: r)) {as : List (Acc Loc)} (evs : List Ev)
    (h1 : ∀ t, s'.log.count (.acq t) ≤ 1) (hlog : s'.log = s.log ++ evs) (he : evs.length ≤ 1)
    (hu : ∀ t, .unlock t ∉ evs)
    (ht : (∃ y ∈ p, isW y) ∨ (∃ i, .acq (i, true) ∈ evs) → m.acquire (m.view k) as e = true)
    (hc : toks x ≠ [] → m.view k e = true → (∃ y ∈ p, toks y ≠ []) ∨ (∃ t, evs = [.acq t]) ∨
      (m.act k (m.view k) as s.log.length s'.log.length).msg .st e = true)
    (hs : m.msg .st e = true → (m.act k (m.view k) as s.log.length s'.log.length).msg .st e = true ∨
      (m.view k e = true ∧ ∃ y ∈ p, toks y ≠ [])) :
    RI s' (acts.set k (p ++ r)) (m.act k (m.view k) as s.log.length s'.log.length) e := by
  have hkl := (List.getElem?_eq_some_iff.1 hk).1
  have mk : m.view k e = true → (∃ y ∈ p, toks y ≠ []) → OneKnows (toks · ≠ []) (acts.set k (p ++ r))
      (m.act k (m.view k) as s.log.length s'.log.length) e := by
    rintro hv ⟨y, hy, hy'⟩
    exact ⟨k, p ++ r, y, by simp [hkl], by simp [hy], hy', Mem.act_view_mono hv⟩
  refine ⟨h.tok.run hk fun hp => ht (.inl hp), h.held.step hlog he h1 ?_, ?_, h.done.step hlog ?_⟩
  · rintro ⟨⟨i, q⟩, ha, hq⟩
    simp at hq; subst hq
    exact ht (.inr ⟨i, ha⟩)
  · rcases h.car with h2 | h2 | h2
    · rcases hs h2 with h3 | ⟨h3, h4⟩
      · exact .inl h3
      · exact .inr (.inl (mk h3 h4))
    · rcases h2.run_or (p := p) (as := as) (a := s.log.length) (b := s'.log.length) hk with ⟨h3, h4⟩ | h3
      · rcases hc h3 h4 with h5 | ⟨t, h5⟩ | h5
        · exact .inr (.inl (mk h4 h5))
        · right; right
          subst h5
          refine ⟨t, s.log.length, ?_, by rw [hlog]; simp, ?_⟩
          · rw [hlog]; simp [holding.step]
          · rw [Mem.act_past_new _ _ _ _ _ _ (by omega) (by rw [hlog]; simp)]
            rw [m.acquire_mono _ h4]; rfl
        · exact .inl h5
      · exact .inr (.inl h3)
    · exact .inr (.inr (h2.step hlog he hu))
  · rintro ⟨v, hv, i, rfl⟩
    exact ht (.inr ⟨i, hv⟩)

theorem RI.free {s : St} {acts : List (List Instr)} {m : Mem Loc} {e : Nat} (h : RI s acts m e) (hI : Inv s acts)
    (hc : s.st.c = .none) : m.msg .st e = true := by
  obtain ⟨h1, h2⟩ := hI.vacant hc
  rcases h.car with h3 | ⟨k, a, x, hk, hx, ht, _⟩ | ⟨t, n, ht, _⟩
  · exact h3
  · exact absurd (h2 k a hk x hx) ht
  · rw [h1] at ht; simp at ht

theorem run_ri (c : Conf mach) (m : Mem Loc) (e : Nat) (k : Nat) (x : Instr) (r : List Instr) (b : Bool) (s' : St)
    (p : List Instr) (h0 : Facts' c) (h1 : Facts' ⟨s', c.acts.set k (p ++ r), false⟩) (hJ : ¬ ReaderHandsOver s'.log)
    (h : RI c.sh c.acts m e) (hk : c.acts[k]? = some (x :: r)) (he : exec c.sh x b = .ok s' p) :
    RI s' (c.acts.set k (p ++ r)) (m.act k (m.view k) (eff c.sh x b) c.sh.log.length s'.log.length) e := by
  have one := h1.one
  have free := h.free h0.inv
  have tk := fun ht => h.tok k _ hk x (by simp) ht
  have view : isW x → m.acquire (m.view k) (eff c.sh x b) e = true := fun ht => m.acquire_mono _ (tk ht)
  have keep : ∀ n, noStore (eff c.sh x b) → m.msg .st e = true →
      (m.act k (m.view k) (eff c.sh x b) c.sh.log.length n).msg .st e = true ∨
      (m.view k e = true ∧ ∃ y ∈ p, toks y ≠ []) := fun n hs h2 => .inl (Mem.keep hs h2)
  cases x
  case lock i =>
    simp only [exec] at he
    split at he <;> simp at he <;> obtain ⟨rfl, rfl⟩ := he <;> rename_i hs
    · refine h.step hk [.fast (i, true)] one rfl (by simp) (by simp) (fun _ => ?_) (by simp [toks])
        (keep _ (noStore_cas _ _))
      exact cas_acq (by simpa using hs) (free (by rw [hs]))
    · exact h.step hk [] one (by simp) (by simp) (by simp) (by simp [isW, toks]) (by simp [toks]) (keep _ (noStore_cas _ _))
  case tryLock i =>
    simp only [exec] at he
    split at he <;> simp at he <;> obtain ⟨rfl, rfl⟩ := he <;> rename_i hs
    · refine h.step hk [.fast (i, true)] one rfl (by simp) (by simp) (fun _ => ?_) (by simp [toks])
        (keep _ (noStore_cas _ _))
      exact cas_acq (by simpa using hs) (free (by rw [hs]))
    · exact h.step hk [.fail (i, true)] one rfl (by simp) (by simp) (by simp) (by simp [toks]) (keep _ (noStore_cas _ _))
  case lockS i =>
    simp only [exec] at he
    simp at he; obtain ⟨rfl, rfl⟩ := he
    exact h.step hk [] one (by simp) (by simp) (by simp) (by simp [isW, toks]) (by simp [toks])
      (keep _ (by simp [noStore, eff, Acc.stores]))
  case tryLockS i =>
    simp only [exec] at he
    simp at he; obtain ⟨rfl, rfl⟩ := he
    exact h.step hk [] one (by simp) (by simp) (by simp) (by simp [isW, toks]) (by simp [toks])
      (keep _ (by simp [noStore, eff, Acc.stores]))
  case lsT i f v =>
    have ns : noStore (eff c.sh (.lsT i f v) b) := by
      simp only [eff]; split
      · exact noStore_cas _ _
      · simp [noStore]
    simp only [exec] at he
    repeat' split at he
    all_goals simp at he; obtain ⟨rfl, rfl⟩ := he
    · exact h.step hk [.fast (i, false)] one rfl (by simp) (by simp) (by simp [isW, toks]) (by simp [toks]) (keep _ ns)
    · exact h.step hk [] one (by simp) (by simp) (by simp) (by simp [isW, toks]) (by simp [toks]) (keep _ ns)
    · exact h.step hk [.fast (i, false)] one rfl (by simp) (by simp) (by simp [isW, toks]) (by simp [toks]) (keep _ ns)
    · exact h.step hk [] one (by simp) (by simp) (by simp) (by simp [isW, toks]) (by simp [toks]) (keep _ ns)
    · exact h.step hk [] one (by simp) (by simp) (by simp) (by simp [isW, toks]) (by simp [toks]) (keep _ ns)
    · exact h.step hk [.fail (i, false)] one rfl (by simp) (by simp) (by simp) (by simp [toks]) (keep _ ns)
  case acqM t =>
    simp only [exec] at he
    split at he <;> simp at he
    obtain ⟨rfl, rfl⟩ := he
    exact h.step hk [] one (by simp) (by simp) (by simp) (by simp [isW, toks]) (by simp [toks])
      (keep _ (by simp [noStore, eff, Acc.stores]))
  case ld t =>
    simp only [exec] at he
    simp at he; obtain ⟨rfl, rfl⟩ := he
    exact h.step hk [] one (by simp) (by simp) (by simp) (by simp [isW, toks]) (by simp [toks])
      (keep _ (by simp [noStore, eff, Acc.stores]))
  case chk t v =>
    have ns : noStore (eff c.sh (.chk t v) b) := by
      obtain ⟨i, q⟩ := t
      cases q <;> simp only [eff] <;> split <;> (try split) <;> first | exact noStore_cas _ _ | simp [noStore]
    obtain ⟨i, q⟩ := t
    cases q <;> simp only [exec] at he
    · repeat' split at he
      all_goals simp at he; obtain ⟨rfl, rfl⟩ := he
      · exact h.step hk [.fast (i, false)] one rfl (by simp) (by simp) (by simp [isW, toks]) (by simp [toks]) (keep _ ns)
      · exact h.step hk [] one (by simp) (by simp) (by simp) (by simp [isW, toks]) (by simp [toks]) (keep _ ns)
      · exact h.step hk [.fast (i, false)] one rfl (by simp) (by simp) (by simp [isW, toks]) (by simp [toks]) (keep _ ns)
      all_goals exact h.step hk [] one (by simp) (by simp) (by simp) (by simp [isW, toks]) (by simp [toks]) (keep _ ns)
    · split at he
      · rename_i hv
        split at he <;> simp at he <;> obtain ⟨rfl, rfl⟩ := he <;> rename_i hs
        · refine h.step hk [.fast (i, true)] one rfl (by simp) (by simp) (fun _ => ?_) (by simp [toks]) (keep _ ns)
          simp only [eff, hv, if_true]
          exact cas_acq (by simpa using hs) (free (by rw [hs.1, hv]))
        · exact h.step hk [] one (by simp) (by simp) (by simp) (by simp [isW, toks]) (by simp [toks]) (keep _ ns)
      · repeat' split at he
        all_goals
          simp at he; obtain ⟨rfl, rfl⟩ := he
          exact h.step hk [] one (by simp) (by simp) (by simp) (by simp [isW, toks]) (by simp [toks]) (keep _ ns)
  case push t =>
    simp only [exec] at he
    simp at he; obtain ⟨rfl, rfl⟩ := he
    exact h.step hk [.enq t] one rfl (by simp) (by simp) (by simp [isW, toks]) (by simp [toks])
      (keep _ (by simp [noStore, eff]))
  case relM =>
    simp only [exec] at he
    simp at he; obtain ⟨rfl, rfl⟩ := he
    exact h.step hk [] one (by simp) (by simp) (by simp) (by simp) (by simp [toks])
      (keep _ (by simp [noStore, eff, Acc.stores]))
  case acq t =>
    simp only [exec] at he
    simp at he; obtain ⟨rfl, rfl⟩ := he
    refine h.step hk [.acq t] one rfl (by simp) (by simp) ?_ (fun _ _ => .inr (.inl ⟨t, rfl⟩))
      (keep _ (by simp [noStore, eff]))
    rintro (⟨y, hy, _⟩ | ⟨i, hi⟩)
    · simp at hy
    · simp at hi; subst hi; exact view (.inl ⟨(i, true), by simp [toks], rfl⟩)
  case unlock i =>
    have V := view (.inl ⟨(i, true), by simp [toks], rfl⟩)
    have ns : noStore (eff c.sh (.unlock i) b) := by simp [noStore, eff, Acc.stores]
    simp only [exec] at he
    repeat' split at he
    all_goals
      first
      | (simp at he; done)
      | (simp at he; obtain ⟨rfl, rfl⟩ := he
         exact h.step hk [] one (by simp) (by simp) (by simp) (fun _ => V) (by simp [toks]) (keep _ ns))
  case casU i =>
    have V := view (.inl ⟨(i, true), by simp [toks], rfl⟩)
    have ns : noStore (eff c.sh (.casU i) b) := noStore_cas _ _
    simp only [exec] at he
    split at he
    · simp at he; obtain ⟨rfl, rfl⟩ := he
      rename_i hs
      refine h.step hk [.rel (i, true)] one rfl (by simp) (by simp) (fun _ => V) (fun _ _ => .inr (.inr ?_)) (keep _ ns)
      simp only [eff, cas, hs, decide_true, if_true] at V ⊢
      simp [Mem.act_msg, Mem.release, V]
    · repeat' split at he
      all_goals
        first
        | (simp at he; done)
        | (simp at he; obtain ⟨rfl, rfl⟩ := he
           exact h.step hk [] one (by simp) (by simp) (by simp) (fun _ => V) (by simp [toks]) (keep _ ns))
  case acqU i =>
    have V := view (.inl ⟨(i, true), by simp [toks], rfl⟩)
    simp only [exec] at he
    split at he <;> simp at he
    obtain ⟨rfl, rfl⟩ := he
    exact h.step hk [] one (by simp) (by simp) (by simp) (fun _ => V) (by simp [toks])
      (keep _ (by simp [noStore, eff, Acc.stores]))
  case acqS i =>
    simp only [exec] at he
    split at he <;> simp at he
    obtain ⟨rfl, rfl⟩ := he
    exact h.step hk [] one (by simp) (by simp) (by simp) (by simp [isW, toks]) (by simp [toks])
      (keep _ (by simp [noStore, eff, Acc.stores]))
  case popU i =>
    have V := view (.inl ⟨(i, true), by simp [toks], rfl⟩)
    simp only [exec] at he
    split at he
    · simp at he
    · simp at he; obtain ⟨rfl, rfl⟩ := he
      exact h.step hk [.grant (i, true) _] one rfl (by simp) (by simp) (fun _ => V) (by simp [toks])
        (keep _ (by simp [noStore, eff]))
    · simp at he; obtain ⟨rfl, rfl⟩ := he
      exact h.step hk [.grant (i, true) _] one rfl (by simp) (by simp) (fun _ => V) (by simp [toks])
        (keep _ (by simp [noStore, eff]))
  case popS i =>
    simp only [exec] at he
    split at he
    · simp at he
    · simp at he
    · simp at he; obtain ⟨rfl, rfl⟩ := he
      exact absurd ⟨i, _, List.mem_append_right _ (List.mem_singleton.2 rfl)⟩ hJ
  case stE j =>
    have V := view (.inl ⟨(j, true), by simp [toks], rfl⟩)
    have T := tk (.inl ⟨(j, true), by simp [toks], rfl⟩)
    simp only [exec] at he
    simp at he; obtain ⟨rfl, rfl⟩ := he
    exact h.step hk [] one (by simp) (by simp) (by simp) (fun _ => V) (by simp [toks]) (fun _ => .inr ⟨T, by simp [toks]⟩)
  case stR js =>
    have V := view (.inr ⟨js, rfl⟩)
    have T := tk (.inr ⟨js, rfl⟩)
    have hj : js ≠ [] := by
      have hb := h0.inv.ok.bad
      have hb' := ws_pos (w := isBad) hk
      simp only [Verif.SharedMutex.view] at hb
      rintro rfl; simp [isBad] at hb'; omega
    obtain ⟨q, hq⟩ := List.exists_mem_of_ne_nil js hj
    simp only [exec] at he
    simp at he; obtain ⟨rfl, rfl⟩ := he
    have E : ∃ y ∈ Instr.relM :: js.map (fun j => Instr.acq (j, false)), toks y ≠ [] :=
      ⟨.acq (q, false), by simp [hq], by simp [toks]⟩
    exact h.step hk [] one (by simp) (by simp) (by simp) (fun _ => V) (fun _ _ => .inl E) (fun _ => .inr ⟨T, E⟩)
  case stS j =>
    have V := view (.inl ⟨(j, true), by simp [toks], rfl⟩)
    have T := tk (.inl ⟨(j, true), by simp [toks], rfl⟩)
    simp only [exec] at he
    simp at he; obtain ⟨rfl, rfl⟩ := he
    exact h.step hk [] one (by simp) (by simp) (by simp) (fun _ => V) (by simp [toks]) (fun _ => .inr ⟨T, by simp [toks]⟩)
  case unlockS i =>
    have ns : noStore (eff c.sh (.unlockS i) b) := by simp [noStore, eff, Acc.stores]
    simp only [exec] at he
    repeat' split at he
    all_goals
      first
      | (simp at he; done)
      | (simp at he; obtain ⟨rfl, rfl⟩ := he
         exact h.step hk [] one (by simp) (by simp) (by simp) (by simp [isW, toks]) (by simp [toks]) (keep _ ns))
  case usL i n =>
    have ns : noStore (eff c.sh (.usL i n) b) := noStore_cas _ _
    simp only [exec] at he
    split at he
    · simp at he
    · split at he
      · simp at he; obtain ⟨rfl, rfl⟩ := he
        rename_i hs
        refine h.step hk [.rel (i, false)] one rfl (by simp) (by simp) (by simp) (fun _ hv => .inr (.inr ?_)) (keep _ ns)
        have V := m.acquire_mono (eff c.sh (.usL i n) b) hv
        simp only [eff, cas, hs, decide_true, if_true, and_self] at V ⊢
        simp [Mem.act_msg, Mem.release, V]
      · repeat' split at he
        all_goals
          first
          | (simp at he; done)
          | (simp at he; obtain ⟨rfl, rfl⟩ := he
             exact h.step hk [] one (by simp) (by simp) (by simp) (by simp [isW, toks]) (by simp [toks]) (keep _ ns))
  case usC i v =>
    have ns : noStore (eff c.sh (.usC i v) b) := by
      simp only [eff]; split
      · exact noStore_cas _ _
      · simp [noStore]
    simp only [exec] at he
    split at he
    · rename_i hv
      split at he <;> simp at he <;> obtain ⟨rfl, rfl⟩ := he <;> rename_i hs
      · refine h.step hk [.rel (i, false)] one rfl (by simp) (by simp) (by simp) (fun _ hv => .inr (.inr ?_)) (keep _ ns)
        have V := m.acquire_mono (eff c.sh (.usC i v) b) hv
        simp only [eff, cas, decide_true, if_true, and_self, *] at V ⊢
        simp [Mem.act_msg, Mem.release, V]
      · exact h.step hk [] one (by simp) (by simp) (by simp) (by simp [isW, toks]) (by simp [toks]) (keep _ ns)
    · split at he
      · simp at he; obtain ⟨rfl, rfl⟩ := he
        exact h.step hk [] one (by simp) (by simp) (by simp) (by simp [isW, toks]) (by simp [toks]) (keep _ ns)
      · simp at he

theorem RI.call {s s' : St} {acts : List (List Instr)} {m : Mem Loc} {e : Nat} (h : RI s acts m e) {ev : Ev} {y : Instr}
    (hlog : s'.log = s.log ++ [ev]) (h1 : ∀ t, s'.log.count (.acq t) ≤ 1)
    (hev : ∀ t, ev ≠ .acq t) (hu : ∀ t, ev ≠ .unlock t) (ht : toks y = []) (hR : ∀ js, y ≠ .stR js) {v : Nat → Bool} :
    RI s' (acts ++ [[y]]) (m.act acts.length v [] s.log.length s'.log.length) e := by
  refine ⟨h.tok.env ?_, h.held.step hlog (by simp) h1 ?_, ?_, h.done.step hlog ?_⟩
  · rintro ⟨z, hz, hz'⟩
    simp at hz; subst hz
    rcases hz' with ⟨t, h, _⟩ | ⟨js, h⟩
    · rw [ht] at h; simp at h
    · exact absurd h (hR js)
  · rintro ⟨t, ha, _⟩
    simp at ha; exact absurd ha.symm (hev t)
  · rcases h.car with h2 | h2 | h2
    · exact .inl (Mem.keep (by simp) h2)
    · exact .inr (.inl h2.env)
    · refine .inr (.inr (h2.step hlog (by simp) ?_))
      intro t ht'; simp at ht'; exact absurd ht'.symm (hu t)
  · rintro ⟨w, hw, i, rfl⟩
    simp at hw; exact absurd hw.symm (hev _)

theorem End.old {log : List Ev} {v : Ev} {e : Nat} (h : End (log ++ [v]) e) :
    End log e ∨ (e = log.length ∧ ∃ t, v = .unlock t) := by
  obtain ⟨t, hi⟩ := h
  by_cases hl : e < log.length
  · rw [List.getElem?_append_left hl] at hi; exact .inl ⟨t, hi⟩
  · have := (List.getElem?_eq_some_iff.1 hi).1
    have he : e = log.length := by simp at this; omega
    subst he
    simp at hi; exact .inr ⟨rfl, t, hi⟩

theorem env_ri (c : Conf mach) (m : Mem Loc) (e : Nat) (a : Act) (s' : St) (p : List Instr) (h0 : Facts' c)
    (h1 : Facts' ⟨s', c.acts ++ [p], false⟩) (hE : End s'.log e) (h : End c.sh.log e → RI c.sh c.acts m e)
    (he : env c.sh c.acts a = some (s', p)) :
    RI s' (c.acts ++ [p])
      (m.act c.acts.length (m.known c.sh.log.length (entry c.sh a)) [] c.sh.log.length s'.log.length) e := by
  have one := h1.one
  cases a <;> simp only [env] at he <;> split at he <;> simp at he <;> obtain ⟨rfl, rfl⟩ := he
  case lock t _ =>
    have hW : RI c.sh c.acts m e := by
      rcases hE.old with hE | ⟨_, i, h⟩
      · exact h hE
      · simp at h
    refine hW.call (s' := { c.sh with used := upd c.sh.used t.1 true, log := c.sh.log ++ [.lock t] }) (ev := .lock t) rfl
      one (by simp) (by simp) ?_ ?_
    · obtain ⟨i, q⟩ := t; cases q <;> simp [Instr.ofLock, toks]
    · obtain ⟨i, q⟩ := t; cases q <;> simp [Instr.ofLock]
  case tryLock t _ =>
    have hW : RI c.sh c.acts m e := by
      rcases hE.old with hE | ⟨_, i, h⟩
      · exact h hE
      · simp at h
    refine hW.call (s' := { c.sh with used := upd c.sh.used t.1 true, log := c.sh.log ++ [.tryLock t] }) (ev := .tryLock t)
      rfl one (by simp) (by simp) ?_ ?_
    · obtain ⟨i, q⟩ := t; cases q <;> simp [Instr.ofTry, toks]
    · obtain ⟨i, q⟩ := t; cases q <;> simp [Instr.ofTry]
  case unlock t ht =>
    have hR : ∀ js, Instr.ofUnlock t ≠ .stR js := by obtain ⟨i, q⟩ := t; cases q <;> simp [Instr.ofUnlock]
    have hT : toks (Instr.ofUnlock t) = [t] := by obtain ⟨i, q⟩ := t; cases q <;> simp [Instr.ofUnlock, toks]
    have new : ∀ {v : Nat → Bool} {b : Nat}, v e = true ∨ (c.sh.log.length ≤ e ∧ e < b) →
        OneKnows (toks · ≠ []) (c.acts ++ [[Instr.ofUnlock t]]) (m.act c.acts.length v [] c.sh.log.length b) e := by
      intro v b hv
      refine ⟨c.acts.length, [Instr.ofUnlock t], Instr.ofUnlock t, by simp, by simp, by simp [hT], ?_⟩
      exact Mem.act_view_self hv
    rcases hE.old with hE | ⟨rfl, i, hi⟩
    · have hW := h hE
      refine ⟨hW.tok.env ?_, hW.held.step (evs := [.unlock t]) rfl (by simp) one (by simp), ?_,
        hW.done.step (evs := [.unlock t]) rfl (by simp)⟩
      · rintro ⟨z, hz, hz'⟩
        simp at hz; subst hz
        left
        rcases hz' with ⟨u, hu, hu'⟩ | ⟨js, hjs⟩
        · rw [hT] at hu; simp at hu; subst hu
          exact hW.held.known hu' ht
        · exact absurd hjs (hR js)
      · rcases hW.car with h2 | h2 | ⟨u, n, hu, hn, hp⟩
        · exact .inl (Mem.keep (by simp) h2)
        · exact .inr (.inl h2.env)
        · have hnl := (List.getElem?_eq_some_iff.1 hn).1
          by_cases hut : u = t
          · subst hut
            refine .inr (.inl (new (.inl ?_)))
            exact Mem.known_of hnl (by simp [entry, hn]) (.inr hp)
          · refine .inr (.inr ⟨u, n, ?_, ?_, ?_⟩)
            · simp only [holding_append, holding.step]
              exact (List.mem_erase_of_ne hut).2 hu
            · rw [List.getElem?_append_left hnl]; exact hn
            · rw [Mem.act_past_old _ _ _ _ _ _ hnl]; exact hp
    · simp at hi; subst hi
      have none : (∀ (k : Nat) a, c.acts[k]? = some a → ∀ x ∈ a, ¬ isW x) ∧
          ∀ u ∈ (holding c.sh.log).erase t, u.2 = false := by
        cases hq : t.2 with
        | true =>
          obtain ⟨h2, h3, -⟩ := h0.inv.sole ht hq
          refine ⟨fun k a hk x hx hw => ?_, by rw [h2]; simp⟩
          have := h3 k a hk x hx
          rcases hw with ⟨u, hu, _⟩ | ⟨js, rfl⟩
          · rw [this] at hu; simp at hu
          · have hb := h0.inv.ok.bad
            have hb' := ws_pos_of_mem (w := isBad) (List.mem_of_getElem? hk) hx
            simp only [view] at hb
            simp [toks] at this
            subst this; simp [isBad] at hb'; omega
        | false =>
          obtain ⟨h2, h3⟩ := h0.inv.readers ht hq
          refine ⟨fun k a hk x hx hw => ?_, fun u hu => h3 u (List.mem_of_mem_erase hu)⟩
          obtain ⟨h4, h5⟩ := h2 k a hk x hx
          rcases hw with ⟨u, hu, hu'⟩ | ⟨js, rfl⟩
          · rw [h4 u hu] at hu'; simp at hu'
          · simp [isR] at h5
      refine ⟨AllKnow.env (fun k a hk x hx hw => absurd hw (none.1 k a hk x hx)) ?_, ?_, .inr (.inl (new (.inr (by simp)))),
        Done.step (evs := [Ev.unlock t]) Done.new rfl (by simp)⟩
      · intro _; right; simp
      · intro u n hu hu'
        simp only [holding_append, holding.step] at hu'
        rw [none.2 u hu'] at hu; simp at hu

theorem reach_ri {c : Conf mach} {m : Mem Loc} (h : HReach ann init c m) (hJ : ¬ ReaderHandsOver c.sh.log) {e : Nat}
    (hE : End c.sh.log e) : RI c.sh c.acts m e := by
  refine HReach.inv (A := ann) (P := Facts') (Q := fun s acts m => ¬ ReaderHandsOver s.log → ∀ e, End s.log e → RI s acts m e)
    facts' ?_ ?_ ?_ h hJ e hE
  · intro _ e ⟨i, hi⟩
    simp [init] at hi
  · intro c m a s' p h0 h1 h he hJ e hE
    refine env_ri c m e a s' p h0 h1 hE (fun hE' => h (fun hj => hJ ?_) e hE') he
    obtain ⟨v, hv⟩ := env_log (acts := c.acts) he
    rw [hv]; exact hj.mono
  · intro c m k x r b s' p h0 h1 h hk he hJ e hE
    have hl := exec_log he
    refine run_ri c m e k x r b s' p h0 h1 hJ (h (fun hj => hJ ?_) e ?_) hk he
    · rcases hl with hl | ⟨v, hl, _⟩
      · rw [hl]; exact hj
      · rw [hl]; exact hj.mono
    · rcases hl with hl | ⟨v, hl, hv⟩
      · rw [hl] at hE; exact hE
      · rw [hl] at hE
        rcases hE.old with hE | ⟨_, i, hi⟩
        · exact hE
        · exact absurd hi (hv _)

end Verif.SharedMutex
