import Verif.Hb.SharedMutexModel

/-! # Invariants of the views of `shared_mutex` -/

namespace Verif.SharedMutex

theorem handed_fst (log : List Ev) : (log.foldl handed.step ({}, false)).1 = spec log := by
  induction log using List.reverseRecOn with
  | nil => rfl
  | append_singleton l v ih => rw [List.foldl_append, spec_append, ← ih]; rfl

theorem handed_append (l : List Ev) (v : Ev) : handed (l ++ [v]) = (match v with
    | .grant _ _ => true
    | _ => handed l && !(spec (l ++ [v])).own.isEmpty) := by
  have h := handed_fst l
  unfold handed
  rw [List.foldl_append, spec_append, ← h]
  rfl

theorem handed_own {l : List Ev} (h : Hist legal l) (hh : handed l = true) : (spec l).own ≠ [] := by
  induction l using List.reverseRecOn with
  | nil => simp [handed] at hh
  | append_singleton l v ih =>
    rw [Hist.snoc] at h
    rw [handed_append] at hh
    cases v <;> simp at hh <;> (try (rw [spec_append]; exact hh.2))
    obtain ⟨h1, h2, h3⟩ := h.2
    simp [Spec.step, h3]

theorem JoinsHandover.mono {l : List Ev} {v : List Ev} (h : JoinsHandover l) : JoinsHandover (l ++ v) := by
  obtain ⟨l1, i, l2, e, h⟩ := h
  exact ⟨l1, i, l2 ++ v, by rw [e]; simp, h⟩

theorem ReaderHandsOver.mono {l : List Ev} {v : List Ev} (h : ReaderHandsOver l) : ReaderHandsOver (l ++ v) := by
  obtain ⟨i, ts, h⟩ := h
  exact ⟨i, ts, List.mem_append_left _ h⟩

theorem Inv.mem_own' {s : St} {acts : List (List Instr)} (h : Inv s acts) {k : Nat} {x : Instr} {a : List Instr}
    (hk : acts[k]? = some a) (hx : x ∈ a) {t : Req} (ht : t ∈ toks x) : t ∈ (spec s.log).own := by
  have h1 := h.own (· == t)
  have h2 := ws_pos_of_mem (w := cw toks (· == t)) (List.mem_of_getElem? hk) hx
  have h3 : 0 < (toks x).countP (· == t) := List.countP_pos_iff.2 ⟨t, ht, by simp⟩
  simp only [cw] at h2 h1
  have h4 : 0 < (spec s.log).own.countP (· == t) := by omega
  obtain ⟨u, hu, e⟩ := List.countP_pos_iff.1 h4
  simp at e; rw [← e]; exact hu

theorem Inv.hold_own {s : St} {acts : List (List Instr)} (h : Inv s acts) {t : Req} (ht : t ∈ holding s.log) :
    t ∈ (spec s.log).own := by
  have h1 := h.own (· == t)
  have h3 : 0 < (holding s.log).countP (· == t) := List.countP_pos_iff.2 ⟨t, ht, by simp⟩
  have h4 : 0 < (spec s.log).own.countP (· == t) := by omega
  obtain ⟨u, hu, e⟩ := List.countP_pos_iff.1 h4
  simp at e; rw [← e]; exact hu

/-- Nobody has a right to a free mutex. -/
theorem Inv.vacant {s : St} {acts : List (List Instr)} (h : Inv s acts) (hc : s.st.c = .none) :
    holding s.log = [] ∧ ∀ (k : Nat) a, acts[k]? = some a → ∀ x ∈ a, toks x = [] := by
  have h0 := h.own_nil.2 hc
  constructor
  · rw [List.eq_nil_iff_forall_not_mem]
    intro t ht; have := h.hold_own ht; simp [h0] at this
  · intro k a hk x hx
    rw [List.eq_nil_iff_forall_not_mem]
    intro t ht; have := h.mem_own' hk hx ht; simp [h0] at this

/-- A writer that holds the mutex is alone. -/
theorem Inv.sole {s : St} {acts : List (List Instr)} (h : Inv s acts) {t : Req} (ht : t ∈ holding s.log)
    (hx : t.2 = true) : holding s.log = [t] ∧ (∀ (k : Nat) a, acts[k]? = some a → ∀ x ∈ a, toks x = []) ∧
      s.st.c ≠ .none ∧ s.st.n = 0 := by
  have ho := h.hold_own ht
  have h1 : (spec s.log).own.length ≤ 1 := by
    rcases own_ok h.legal with h1 | h1
    · exact h1
    · have := h1 t ho; rw [hx] at this; simp at this
  have hl := List.length_pos_of_mem ht
  have h2 := h.own (fun _ => true)
  simp only [List.countP_true] at h2
  have hH : holding s.log = [t] := eq_singleton (by omega) ht
  have hz : ws (cw toks (fun _ => true)) acts = 0 := by omega
  refine ⟨hH, ?_, ?_⟩
  · intro k a hk x hxa
    have := ws_pos_of_mem (w := cw toks (fun _ => true)) (List.mem_of_getElem? hk) hxa
    rw [hz] at this
    rw [List.eq_nil_iff_forall_not_mem]
    intro u hu
    have h3 : 0 < (toks x).countP (fun _ => true) := List.countP_pos_iff.2 ⟨u, hu, rfl⟩
    simp only [cw] at this; omega
  · obtain ⟨a1, a2, a3, a4, -⟩ := h.ok
    simp only [view, hH] at a1 a2 a3 a4
    simp [hx] at a1 a2 a3 a4
    have hc : ¬ s.st.c = .none := by intro hc; have := a1 hc; omega
    refine ⟨hc, ?_⟩
    have := a2 hc a3 a4
    omega

/-- While a reader holds the mutex, no writer has a right to it and no hand-over to readers is under way. -/
theorem Inv.readers {s : St} {acts : List (List Instr)} (h : Inv s acts) {t : Req} (ht : t ∈ holding s.log)
    (hx : t.2 = false) : (∀ (k : Nat) a, acts[k]? = some a → ∀ x ∈ a, (∀ u ∈ toks x, u.2 = false) ∧ isR x = 0) ∧
      ∀ u ∈ holding s.log, u.2 = false := by
  have ho := h.hold_own ht
  have h1 : ∀ u ∈ (spec s.log).own, u.2 = false := by
    rcases own_ok h.legal with h1 | h1
    · intro u hu
      have hl := List.length_pos_of_mem ho
      have e := eq_singleton (by omega) ho
      rw [e] at hu; simp at hu; rw [hu, hx]
    · exact h1
  refine ⟨fun k a hk x hxa => ⟨fun u hu => h1 u (h.mem_own' hk hxa hu), ?_⟩, fun u hu => h1 u (h.hold_own hu)⟩
  have h2 := ws_pos_of_mem (w := isR) (List.mem_of_getElem? hk) hxa
  have h3 := h.ok.rr
  simp only [view] at h3
  have h4 : 0 < (holding s.log).countP (!·.2) := List.countP_pos_iff.2 ⟨t, ht, by simp [hx]⟩
  by_cases hr : 0 < ws isR acts
  · have := h3 hr; omega
  · omega

/-- What the proofs use of the plain machine. -/
structure Facts' (c : Conf mach) : Prop where
  inv : Inv c.sh c.acts
  one : ∀ t, c.sh.log.count (.acq t) ≤ 1

theorem facts' (c : Conf mach) (h : Reach mach init c) : Facts' c :=
  ⟨reach_inv h, fun t => by have := C18_at_most_once h t; omega⟩

/-- Users that have been told of their admission know event `e`. -/
def Held (P : Req → Prop) (log : List Ev) (m : Mem Loc) (e : Nat) : Prop :=
  ∀ t (n : Nat), P t → t ∈ holding log → log[n]? = some (.acq t) → m.past n e = true

theorem Held.step {P : Req → Prop} {log : List Ev} {m : Mem Loc} {e : Nat} (h : Held P log m e)
    {evs log' : List Ev} (hl : log' = log ++ evs) (he : evs.length ≤ 1) (h1 : ∀ t, log'.count (.acq t) ≤ 1)
    {k : Nat} {v : Nat → Bool} {as : List (Acc Loc)}
    (hn : (∃ t, .acq t ∈ evs ∧ P t) → m.acquire v as e = true) :
    Held P log' (m.act k v as log.length log'.length) e := by
  subst hl
  intro t n hP ht hn'
  by_cases hl : n < log.length
  · rw [Mem.act_past_old _ _ _ _ _ _ hl]
    rw [List.getElem?_append_left hl] at hn'
    refine h t n hP ?_ hn'
    match evs, he with
    | [], _ => simpa using ht
    | [w], _ =>
      rw [holding_append] at ht
      cases w <;> simp only [holding.step] at ht <;> (try exact ht)
      · exact List.mem_of_mem_erase ht
      · rename_i u
        rcases List.mem_append.1 ht with ht | ht
        · exact ht
        · simp at ht; subst ht
          have := h1 t
          rw [List.count_append] at this
          have h3 := List.count_pos_iff.2 (List.mem_of_getElem? hn')
          simp at this; omega
  · have h2 := (List.getElem?_eq_some_iff.1 hn').1
    rw [Mem.act_past_new _ _ _ _ _ _ (by omega) h2]
    rw [List.getElem?_append_right (by omega)] at hn'
    rw [hn ⟨t, List.mem_of_getElem? hn', hP⟩]; rfl

/-- The caller of `unlock` knows what it knew when it was told of its admission. -/
theorem Held.known {P : Req → Prop} {s : St} {m : Mem Loc} {e : Nat} (h : Held P s.log m e) {t : Req} (hP : P t)
    (ht : t ∈ holding s.log) : m.known s.log.length (entry s (.unlock t)) e = true := by
  obtain ⟨q, hq⟩ := List.getElem?_of_mem (holding_acq ht)
  have hql := (List.getElem?_eq_some_iff.1 hq).1
  exact Mem.known_of hql (by simp [entry, hq]) (.inr (h t q hP ht hq))

/-! ## Ends of exclusive sections -/

/-- Position of the end of an exclusive section. -/
def EndX (log : List Ev) (e : Nat) : Prop := ∃ i, log[e]? = some (.unlock (i, true))

/-- Knowledge of the end `e` of an exclusive section. -/
structure WI (s : St) (acts : List (List Instr)) (m : Mem Loc) (e : Nat) : Prop where
  tok : AllKnow (toks · ≠ []) acts m e
  held : Held (fun _ => True) s.log m e
  free : handed s.log = false → s.st.c = .none ∨ s.st.n ≠ 0 → m.msg .st e = true
  over : ∀ (k : Nat) a, acts[k]? = some a → ∀ js, .stR js ∈ a → handed s.log = true
  done : Done (fun v => ∃ t, v = .acq t) s.log m e

theorem WI.step {s s' : St} {acts : List (List Instr)} {m : Mem Loc} {e : Nat} (h : WI s acts m e) {k : Nat} {x : Instr}
    {r p : List Instr} (hk : acts[k]? = some (x :: r)) {as : List (Acc Loc)} (evs : List Ev)
    (h1 : ∀ t, s'.log.count (.acq t) ≤ 1) (hlog : s'.log = s.log ++ evs) (he : evs.length ≤ 1)
    (hI : Inv s' (acts.set k (p ++ r)))
    (ht : (∃ y ∈ p, toks y ≠ []) ∨ (∃ t, .acq t ∈ evs) → m.acquire (m.view k) as e = true)
    (hR : ∀ js, .stR js ∈ p → handed s'.log = true)
    (hf : handed s'.log = false → s'.st.c = .none ∨ s'.st.n ≠ 0 →
      (m.act k (m.view k) as s.log.length s'.log.length).msg .st e = true) :
    WI s' (acts.set k (p ++ r)) (m.act k (m.view k) as s.log.length s'.log.length) e := by
  refine ⟨h.tok.run hk fun hp => ht (.inl hp), h.held.step hlog he h1 fun ⟨t, ha, _⟩ => ht (.inr ⟨t, ha⟩), hf, ?_,
    h.done.step hlog ?_⟩
  · intro j a hj js hjs
    have old : handed s.log = true → handed s'.log = true := by
      intro ho
      match evs, he with
      | [], _ => simpa [hlog] using ho
      | [v], _ =>
        have hne : (spec s'.log).own ≠ [] := by
          have hb := hI.ok.bad
          simp only [view] at hb
          have hb' := ws_pos_of_mem (w := isBad) (List.mem_of_getElem? hj) hjs
          have hjs' : js ≠ [] := by
            rintro rfl; simp [isBad] at hb'; omega
          obtain ⟨q, hq⟩ := List.exists_mem_of_ne_nil js hjs'
          have := hI.mem_own' hj hjs (t := (q, false)) (by simp [toks, hq])
          intro h0; rw [h0] at this; simp at this
        rw [hlog, handed_append]
        rw [hlog] at hne
        cases v <;> simp [ho] <;> simpa using hne
    rw [List.getElem?_set] at hj
    split at hj
    · rename_i ej; subst ej
      split at hj
      · simp at hj; subst hj
        rcases List.mem_append.1 hjs with hp | hr
        · exact hR js hp
        · exact old (h.over k _ hk js (by simp [hr]))
      · simp at hj
    · exact old (h.over j a hj js hjs)
  · rintro ⟨v, hv, t, rfl⟩
    exact ht (.inr ⟨t, hv⟩)

theorem handed_eq {l : List Ev} {v : Ev} (h : Hist legal l) (hv : ∀ t ts, v ≠ .grant t ts)
    (ho : (spec (l ++ [v])).own ≠ [] ∨ (spec (l ++ [v])).own = (spec l).own) : handed (l ++ [v]) = handed l := by
  have key : handed l = true → ((spec (l ++ [v])).own.isEmpty) = false := by
    intro hh
    rcases ho with ho | ho
    · simpa using ho
    · rw [ho]; simpa using handed_own h hh
  rw [handed_append]
  cases v <;> first | exact absurd rfl (hv _ _) | skip
  all_goals
    simp only
    cases hh : handed l with
    | false => rfl
    | true => rw [key hh]; rfl

/-- The accesses do not store to `st_`. -/
def noStore (as : List (Acc Loc)) : Prop := ∀ a ∈ as, a.stores Loc.st = false

theorem noStore_cas (b : Bool) (o : Ord) : noStore (cas b o) := by
  unfold cas noStore; split <;> simp [Acc.stores]

theorem cas_acq {m : Mem Loc} {v : Nat → Bool} {e : Nat} {b : Bool} (hb : b = true) (h : m.msg .st e = true) :
    m.acquire v (cas b .acq) e = true := by
  subst hb; simp [cas, Mem.acquire, h]

theorem run_wi (c : Conf mach) (m : Mem Loc) (e : Nat) (k : Nat) (x : Instr) (r : List Instr) (b : Bool) (s' : St)
    (p : List Instr) (h0 : Facts' c) (h1 : Facts' ⟨s', c.acts.set k (p ++ r), false⟩) (hJ : ¬ JoinsHandover s'.log)
    (h : WI c.sh c.acts m e) (hk : c.acts[k]? = some (x :: r)) (he : exec c.sh x b = .ok s' p) :
    WI s' (c.acts.set k (p ++ r)) (m.act k (m.view k) (eff c.sh x b) c.sh.log.length s'.log.length) e := by
  have one := h1.one
  have I := h1.inv
  have tk := fun ht => h.tok k _ hk x (by simp) ht
  have leg := h0.inv.legal
  have hnone : c.sh.st.c = .none → handed c.sh.log = false := by
    intro hc
    cases hh : handed c.sh.log with
    | false => rfl
    | true => exact absurd (h0.inv.own_nil.2 hc) (handed_own leg hh)
  have fnone : c.sh.st.c = .none → m.msg .st e = true := fun hc => h.free (hnone hc) (.inl hc)
  have join : ∀ i, c.sh.log ++ [.fast (i, false)] = s'.log → c.sh.st.n ≠ 0 → m.msg .st e = true := by
    intro i hl hn
    refine h.free ?_ (.inr hn)
    cases hh : handed c.sh.log with
    | false => rfl
    | true => exact absurd ⟨_, i, [], hl.symm, hh⟩ hJ
  have keep : ∀ {s1 : St}, handed s1.log = handed c.sh.log → (s1.st.c = .none ∨ s1.st.n ≠ 0 → c.sh.st.c = .none ∨
      c.sh.st.n ≠ 0) → noStore (eff c.sh x b) → handed s1.log = false → s1.st.c = .none ∨ s1.st.n ≠ 0 →
      (m.act k (m.view k) (eff c.sh x b) c.sh.log.length s1.log.length).msg .st e = true :=
    fun ha hb hs hc hd => Mem.keep hs (h.free (ha ▸ hc) (hb hd))
  have view : toks x ≠ [] → m.acquire (m.view k) (eff c.sh x b) e = true := fun ht => m.acquire_mono _ (tk ht)
  have hfast : ∀ t, handed (c.sh.log ++ [.fast t]) = handed c.sh.log := fun t =>
    handed_eq leg (by simp) (.inl (by simp [Spec.step]))
  have hsame : ∀ v, ((spec c.sh.log).step v).own = (spec c.sh.log).own → (∀ t ts, v ≠ .grant t ts) →
      handed (c.sh.log ++ [v]) = handed c.sh.log := fun v hv hg => handed_eq leg hg (.inr (by simpa using hv))
  cases x
  case lock i =>
    simp only [exec] at he
    split at he <;> simp at he <;> obtain ⟨rfl, rfl⟩ := he <;> rename_i hs
    · refine h.step hk [.fast (i, true)] one rfl (by simp) I (fun _ => ?_) (by simp) (by simp [St.admit])
      exact cas_acq (by simpa using hs) (fnone (by rw [hs]))
    · exact h.step hk [] one (by simp) (by simp) I (by simp [toks]) (by simp) (keep rfl id (noStore_cas _ _))
  case tryLock i =>
    simp only [exec] at he
    split at he <;> simp at he <;> obtain ⟨rfl, rfl⟩ := he <;> rename_i hs
    · refine h.step hk [.fast (i, true)] one rfl (by simp) I (fun _ => ?_) (by simp) (by simp [St.admit])
      exact cas_acq (by simpa using hs) (fnone (by rw [hs]))
    · exact h.step hk [.fail (i, true)] one rfl (by simp) I (by simp) (by simp)
        (keep (hsame _ rfl (by simp)) id (noStore_cas _ _))
  case lockS i =>
    simp only [exec] at he
    simp at he; obtain ⟨rfl, rfl⟩ := he
    exact h.step hk [] one (by simp) (by simp) I (by simp [toks]) (by simp)
      (keep rfl id (by simp [noStore, eff, Acc.stores]))
  case tryLockS i =>
    simp only [exec] at he
    simp at he; obtain ⟨rfl, rfl⟩ := he
    exact h.step hk [] one (by simp) (by simp) I (by simp [toks]) (by simp)
      (keep rfl id (by simp [noStore, eff, Acc.stores]))
  case lsT i f v =>
    have ns : noStore (eff c.sh (.lsT i f v) b) := by
      simp only [eff]; split
      · exact noStore_cas _ _
      · simp [noStore]
    simp only [exec] at he
    split at he
    · rename_i hv
      split at he <;> simp at he <;> obtain ⟨rfl, rfl⟩ := he <;> rename_i hs
      · refine h.step hk [.fast (i, false)] one rfl (by simp) I (fun _ => ?_) (by simp) ?_
        · simp only [eff, hv, true_or, if_true]
          exact cas_acq (by simpa using hs) (fnone (by rw [hs, hv]))
        · exact fun _ _ => Mem.keep ns (fnone (by rw [hs, hv]))
      · exact h.step hk [] one (by simp) (by simp) I (by simp [toks]) (by simp) (keep rfl id ns)
    · split at he
      · rename_i hv
        split at he <;> simp at he <;> obtain ⟨rfl, rfl⟩ := he <;> rename_i hs
        · refine h.step hk [.fast (i, false)] one rfl (by simp) I (fun _ => ?_) (by simp) ?_
          · simp only [eff]
            rw [if_pos (.inr hv)]
            exact cas_acq (by simpa using hs) (join i rfl (by rw [hs]; exact hv.2))
          · exact fun _ _ => Mem.keep ns (join i rfl (by rw [hs]; exact hv.2))
        · exact h.step hk [] one (by simp) (by simp) I (by simp [toks]) (by simp) (keep rfl id ns)
      · split at he <;> simp at he <;> obtain ⟨rfl, rfl⟩ := he
        · exact h.step hk [] one (by simp) (by simp) I (by simp [toks]) (by simp) (keep rfl id ns)
        · exact h.step hk [.fail (i, false)] one rfl (by simp) I (by simp) (by simp)
            (keep (hsame _ rfl (by simp)) id ns)
  case acqM t =>
    simp only [exec] at he
    split at he <;> simp at he
    obtain ⟨rfl, rfl⟩ := he
    exact h.step hk [] one (by simp) (by simp) I (by simp [toks]) (by simp)
      (keep rfl id (by simp [noStore, eff, Acc.stores]))
  case ld t =>
    simp only [exec] at he
    simp at he; obtain ⟨rfl, rfl⟩ := he
    exact h.step hk [] one (by simp) (by simp) I (by simp [toks]) (by simp)
      (keep rfl id (by simp [noStore, eff, Acc.stores]))
  case chk t v =>
    have ns : noStore (eff c.sh (.chk t v) b) := by
      obtain ⟨i, q⟩ := t
      cases q <;> simp only [eff] <;> split <;> (try split) <;> first | exact noStore_cas _ _ | simp [noStore]
    obtain ⟨i, q⟩ := t
    cases q <;> simp only [exec] at he
    · split at he
      · rename_i hv
        split at he <;> simp at he <;> obtain ⟨rfl, rfl⟩ := he <;> rename_i hs
        · refine h.step hk [.fast (i, false)] one rfl (by simp) I (fun _ => ?_) (by simp) ?_
          · simp only [eff, hv, true_or, if_true]
            exact cas_acq (by simpa using hs) (fnone (by rw [hs.1, hv]))
          · exact fun _ _ => Mem.keep ns (fnone (by rw [hs.1, hv]))
        · exact h.step hk [] one (by simp) (by simp) I (by simp [toks]) (by simp) (keep rfl id ns)
      · split at he
        · rename_i hv
          split at he <;> simp at he <;> obtain ⟨rfl, rfl⟩ := he <;> rename_i hs
          · refine h.step hk [.fast (i, false)] one rfl (by simp) I (fun _ => ?_) (by simp) ?_
            · simp only [eff]
              rw [if_pos (.inr hv)]
              exact cas_acq (by simpa using hs) (join i rfl (by rw [hs.1]; exact hv.2))
            · exact fun _ _ => Mem.keep ns (join i rfl (by rw [hs.1]; exact hv.2))
          · exact h.step hk [] one (by simp) (by simp) I (by simp [toks]) (by simp) (keep rfl id ns)
        · split at he
          · split at he <;> simp at he <;> obtain ⟨rfl, rfl⟩ := he <;> rename_i hs
            · exact h.step hk [] one (by simp) (by simp) I (by simp [toks]) (by simp) (keep rfl (by simp) ns)
            · exact h.step hk [] one (by simp) (by simp) I (by simp [toks]) (by simp) (keep rfl id ns)
          · simp at he; obtain ⟨rfl, rfl⟩ := he
            exact h.step hk [] one (by simp) (by simp) I (by simp [toks]) (by simp) (keep rfl id ns)
    · split at he
      · rename_i hv
        split at he <;> simp at he <;> obtain ⟨rfl, rfl⟩ := he <;> rename_i hs
        · refine h.step hk [.fast (i, true)] one rfl (by simp) I (fun _ => ?_) (by simp) (by simp [St.admit])
          simp only [eff, hv, if_true]
          exact cas_acq (by simpa using hs) (fnone (by rw [hs.1, hv]))
        · exact h.step hk [] one (by simp) (by simp) I (by simp [toks]) (by simp) (keep rfl id ns)
      · split at he
        · split at he <;> simp at he <;> obtain ⟨rfl, rfl⟩ := he <;> rename_i hs
          · exact h.step hk [] one (by simp) (by simp) I (by simp [toks]) (by simp)
              (keep rfl (by rw [hs.1]; simp; exact .inr) ns)
          · exact h.step hk [] one (by simp) (by simp) I (by simp [toks]) (by simp) (keep rfl id ns)
        · simp at he; obtain ⟨rfl, rfl⟩ := he
          exact h.step hk [] one (by simp) (by simp) I (by simp [toks]) (by simp) (keep rfl id ns)
  case push t =>
    simp only [exec] at he
    simp at he; obtain ⟨rfl, rfl⟩ := he
    exact h.step hk [.enq t] one rfl (by simp) I (by simp [toks]) (by simp)
      (keep (hsame _ rfl (by simp)) id (by simp [noStore, eff]))
  case relM =>
    simp only [exec] at he
    simp at he; obtain ⟨rfl, rfl⟩ := he
    exact h.step hk [] one (by simp) (by simp) I (by simp) (by simp)
      (keep rfl id (by simp [noStore, eff, Acc.stores]))
  case acq t =>
    simp only [exec] at he
    simp at he; obtain ⟨rfl, rfl⟩ := he
    exact h.step hk [.acq t] one rfl (by simp) I (fun _ => view (by simp [toks])) (by simp)
      (keep (hsame _ rfl (by simp)) id (by simp [noStore, eff]))
  case unlock i =>
    have V := view (by simp [toks])
    have ns : noStore (eff c.sh (.unlock i) b) := by simp [noStore, eff, Acc.stores]
    simp only [exec] at he
    split at he
    · simp at he
    · split at he
      · simp at he
      · split at he <;> simp at he <;> obtain ⟨rfl, rfl⟩ := he
        all_goals exact h.step hk [] one (by simp) (by simp) I (fun _ => V) (by simp) (keep rfl id ns)
  case casU i =>
    have V := view (by simp [toks])
    have ns : noStore (eff c.sh (.casU i) b) := noStore_cas _ _
    simp only [exec] at he
    split at he
    · simp at he; obtain ⟨rfl, rfl⟩ := he
      rename_i hs
      refine h.step hk [.rel (i, true)] one rfl (by simp) I (fun _ => V) (by simp) ?_
      intro _ _
      simp only [eff, cas, hs, decide_true, if_true] at V ⊢
      simp [Mem.act_msg, Mem.release, V]
    · split at he
      · simp at he
      · split at he
        · simp at he; obtain ⟨rfl, rfl⟩ := he
          exact h.step hk [] one (by simp) (by simp) I (fun _ => V) (by simp) (keep rfl id ns)
        · simp at he
  case acqU i =>
    have V := view (by simp [toks])
    simp only [exec] at he
    split at he <;> simp at he
    obtain ⟨rfl, rfl⟩ := he
    exact h.step hk [] one (by simp) (by simp) I (fun _ => V) (by simp)
      (keep rfl id (by simp [noStore, eff, Acc.stores]))
  case acqS i =>
    have V := view (by simp [toks])
    simp only [exec] at he
    split at he <;> simp at he
    obtain ⟨rfl, rfl⟩ := he
    exact h.step hk [] one (by simp) (by simp) I (fun _ => V) (by simp)
      (keep rfl id (by simp [noStore, eff, Acc.stores]))
  case popU i =>
    have V := view (by simp [toks])
    simp only [exec] at he
    split at he
    · simp at he
    · simp at he; obtain ⟨rfl, rfl⟩ := he
      exact h.step hk [.grant (i, true) _] one rfl (by simp) I (fun _ => V) (by simp) (by simp [handed_append])
    · simp at he; obtain ⟨rfl, rfl⟩ := he
      exact h.step hk [.grant (i, true) _] one rfl (by simp) I (fun _ => V) (by simp [handed_append])
        (by simp [handed_append])
  case popS i =>
    have V := view (by simp [toks])
    simp only [exec] at he
    split at he
    · simp at he
    · simp at he
    · simp at he; obtain ⟨rfl, rfl⟩ := he
      exact h.step hk [.grant (i, false) _] one rfl (by simp) I (fun _ => V) (by simp) (by simp [handed_append])
  case stE j =>
    have V := view (by simp [toks])
    simp only [exec] at he
    simp at he; obtain ⟨rfl, rfl⟩ := he
    refine h.step hk [] one (by simp) (by simp) I (fun _ => V) (by simp) ?_
    simp only [eff]
    split
    · simp
    · exact fun ha hb => Mem.keep (by simp) (h.free ha hb)
  case stR js =>
    have V : m.acquire (m.view k) (eff c.sh (.stR js) b) e = true := by
      refine view ?_
      have hb := h0.inv.ok.bad
      have hb' := ws_pos (w := isBad) hk
      simp only [Verif.SharedMutex.view] at hb
      intro h0
      simp [toks] at h0
      subst h0; simp [isBad] at hb'; omega
    have ho := h.over k _ hk js (by simp)
    simp only [exec] at he
    simp at he; obtain ⟨rfl, rfl⟩ := he
    refine h.step hk [] one (by simp) (by simp) I (fun _ => V) (by simp) ?_
    simp [ho]
  case stS j =>
    have V := view (by simp [toks])
    simp only [exec] at he
    simp at he; obtain ⟨rfl, rfl⟩ := he
    refine h.step hk [] one (by simp) (by simp) I (fun _ => V) (by simp) ?_
    split <;> simp
  case unlockS i =>
    have V := view (by simp [toks])
    have ns : noStore (eff c.sh (.unlockS i) b) := by simp [noStore, eff, Acc.stores]
    simp only [exec] at he
    split at he
    · simp at he
    · split at he
      · simp at he
      · split at he <;> simp at he <;> obtain ⟨rfl, rfl⟩ := he
        all_goals exact h.step hk [] one (by simp) (by simp) I (fun _ => V) (by simp) (keep rfl id ns)
  case usL i n =>
    have V := view (by simp [toks])
    have ns : noStore (eff c.sh (.usL i n) b) := noStore_cas _ _
    simp only [exec] at he
    split at he
    · simp at he
    · split at he
      · simp at he; obtain ⟨rfl, rfl⟩ := he
        rename_i hs
        refine h.step hk [.rel (i, false)] one rfl (by simp) I (fun _ => V) (by simp) ?_
        intro _ _
        simp only [eff, cas, hs, decide_true, if_true, and_self] at V ⊢
        simp [Mem.act_msg, Mem.release, V]
      · split at he
        · simp at he
        · split at he
          · simp at he
          · split at he <;> simp at he <;> obtain ⟨rfl, rfl⟩ := he
            all_goals exact h.step hk [] one (by simp) (by simp) I (fun _ => V) (by simp) (keep rfl id ns)
  case usC i v =>
    have V := view (by simp [toks])
    have ns : noStore (eff c.sh (.usC i v) b) := by
      simp only [eff]; split
      · exact noStore_cas _ _
      · simp [noStore]
    simp only [exec] at he
    split at he
    · rename_i hv
      split at he <;> simp at he <;> obtain ⟨rfl, rfl⟩ := he <;> rename_i hs
      · refine h.step hk [.rel (i, false)] one rfl (by simp) I (fun _ => V) (by simp) ?_
        intro _ _
        simp only [eff, cas, hs, decide_true, if_true, and_self, hv] at V ⊢
        simp [Mem.act_msg, Mem.release, V]
      · exact h.step hk [] one (by simp) (by simp) I (fun _ => V) (by simp) (keep rfl id ns)
    · split at he
      · simp at he; obtain ⟨rfl, rfl⟩ := he
        exact h.step hk [] one (by simp) (by simp) I (fun _ => V) (by simp) (keep rfl id ns)
      · simp at he

theorem WI.call {s s' : St} {acts : List (List Instr)} {m : Mem Loc} {e : Nat} (h : WI s acts m e) {ev : Ev} {y : Instr}
    (hlog : s'.log = s.log ++ [ev]) (hst : s'.st = s.st) (h1 : ∀ t, s'.log.count (.acq t) ≤ 1) (hleg : Hist legal s.log)
    (hev : ∀ t, ev ≠ .acq t) (ho : (spec (s.log ++ [ev])).own = (spec s.log).own) (hg : ∀ t ts, ev ≠ .grant t ts)
    (hR : ∀ js, y ≠ .stR js) {v : Nat → Bool} (ht : toks y ≠ [] → v e = true) :
    WI s' (acts ++ [[y]]) (m.act acts.length v [] s.log.length s'.log.length) e := by
  have hh : handed s'.log = handed s.log := by rw [hlog]; exact handed_eq hleg hg (.inr ho)
  refine ⟨h.tok.env ?_, h.held.step hlog (by simp) h1 ?_, ?_, ?_, h.done.step hlog ?_⟩
  · rintro ⟨z, hz, hz'⟩
    simp at hz; subst hz
    exact .inl (ht hz')
  · rintro ⟨t, ha, _⟩
    simp at ha; exact absurd ha.symm (hev t)
  · rw [hh, hst]
    exact fun ha hb => Mem.keep (by simp) (h.free ha hb)
  · rw [hh]
    intro j a hj js hjs
    by_cases hl : j < acts.length
    · rw [List.getElem?_append_left hl] at hj
      exact h.over j a hj js hjs
    · rw [List.getElem?_append_right (by omega)] at hj
      have := List.mem_of_getElem? hj
      simp at this; subst this; simp at hjs
      exact absurd hjs.symm (hR js)
  · rintro ⟨w, hw, t, rfl⟩
    simp at hw; exact absurd hw.symm (hev t)

/-- The end of an exclusive section, when it happens. -/
theorem WI.new {s s' : St} {acts : List (List Instr)} {m : Mem Loc} {i : Id} (hI : Inv s acts)
    (hlog : s'.log = s.log ++ [.unlock (i, true)]) (hst : s'.st = s.st) (hi : (i, true) ∈ holding s.log) {y : Instr}
    (hR : ∀ js, y ≠ .stR js) {v : Nat → Bool} :
    WI s' (acts ++ [[y]]) (m.act acts.length v [] s.log.length s'.log.length) s.log.length := by
  obtain ⟨h1, h2, h3, h4⟩ := hI.sole hi rfl
  refine ⟨AllKnow.env (fun k a hk x hx ht => absurd (h2 k a hk x hx) ht) ?_, ?_, ?_, ?_, Done.step (evs := [_]) Done.new hlog ?_⟩
  · intro _; right; rw [hlog]; simp
  · intro t n _ ht
    rw [hlog] at ht; simp [holding.step, h1] at ht
  · rw [hst]; intro _ hn; exact absurd hn (by simp [h3, h4])
  · intro j a hj js hjs
    by_cases hl : j < acts.length
    · rw [List.getElem?_append_left hl] at hj
      have hb := hI.ok.bad
      have hb' := ws_pos_of_mem (w := isBad) (List.mem_of_getElem? hj) hjs
      have ht := h2 j a hj _ hjs
      simp only [view] at hb
      simp [toks] at ht
      subst ht; simp [isBad] at hb'; omega
    · rw [List.getElem?_append_right (by omega)] at hj
      have := List.mem_of_getElem? hj
      simp at this; subst this; simp at hjs
      exact absurd hjs.symm (hR js)
  · rintro ⟨w, hw, t, rfl⟩
    simp at hw

theorem EndX.old {log : List Ev} {v : Ev} {e : Nat} (h : EndX (log ++ [v]) e) :
    EndX log e ∨ (e = log.length ∧ ∃ i, v = .unlock (i, true)) := by
  obtain ⟨i, hi⟩ := h
  by_cases hl : e < log.length
  · rw [List.getElem?_append_left hl] at hi; exact .inl ⟨i, hi⟩
  · have := (List.getElem?_eq_some_iff.1 hi).1
    have he : e = log.length := by simp at this; omega
    subst he
    simp at hi; exact .inr ⟨rfl, i, hi⟩

theorem env_wi (c : Conf mach) (m : Mem Loc) (e : Nat) (a : Act) (s' : St) (p : List Instr) (h0 : Facts' c)
    (h1 : Facts' ⟨s', c.acts ++ [p], false⟩) (hE : EndX s'.log e) (h : EndX c.sh.log e → WI c.sh c.acts m e)
    (he : env c.sh c.acts a = some (s', p)) :
    WI s' (c.acts ++ [p])
      (m.act c.acts.length (m.known c.sh.log.length (entry c.sh a)) [] c.sh.log.length s'.log.length) e := by
  have leg := h0.inv.legal
  have one := h1.one
  cases a <;> simp only [env] at he <;> split at he <;> simp at he <;> obtain ⟨rfl, rfl⟩ := he
  case lock t _ =>
    have hW : WI c.sh c.acts m e := by
      rcases hE.old with hE | ⟨_, i, h⟩
      · exact h hE
      · simp at h
    refine hW.call (s' := { c.sh with used := upd c.sh.used t.1 true, log := c.sh.log ++ [.lock t] }) (ev := .lock t) rfl rfl one leg (by simp) (by simp [Spec.step]) (by simp) ?_ ?_
    · obtain ⟨i, q⟩ := t; cases q <;> simp [Instr.ofLock]
    · obtain ⟨i, q⟩ := t; cases q <;> simp [Instr.ofLock, toks]
  case tryLock t _ =>
    have hW : WI c.sh c.acts m e := by
      rcases hE.old with hE | ⟨_, i, h⟩
      · exact h hE
      · simp at h
    refine hW.call (s' := { c.sh with used := upd c.sh.used t.1 true, log := c.sh.log ++ [.tryLock t] }) (ev := .tryLock t) rfl rfl one leg (by simp) (by simp [Spec.step]) (by simp) ?_ ?_
    · obtain ⟨i, q⟩ := t; cases q <;> simp [Instr.ofTry]
    · obtain ⟨i, q⟩ := t; cases q <;> simp [Instr.ofTry, toks]
  case unlock t ht =>
    have hR : ∀ js, Instr.ofUnlock t ≠ .stR js := by obtain ⟨i, q⟩ := t; cases q <;> simp [Instr.ofUnlock]
    rcases hE.old with hE | ⟨rfl, i, hi⟩
    · have hW := h hE
      exact hW.call (s' := { c.sh with log := c.sh.log ++ [.unlock t] }) (ev := .unlock t) rfl rfl one leg (by simp) (by simp [Spec.step]) (by simp) hR
        (fun _ => hW.held.known trivial ht)
    · simp at hi; subst hi
      exact WI.new (s' := { c.sh with log := c.sh.log ++ [.unlock (i, true)] }) h0.inv rfl rfl ht hR

theorem exec_log {s : St} {x : Instr} {b : Bool} {s' : St} {p : List Instr} (he : exec s x b = .ok s' p) :
    s'.log = s.log ∨ ∃ v, s'.log = s.log ++ [v] ∧ ∀ t, v ≠ .unlock t := by
  cases x
  case chk t v =>
    obtain ⟨i, q⟩ := t
    cases q <;> simp only [exec] at he <;> repeat' split at he
    all_goals
      first
      | (simp at he; done)
      | (simp at he; obtain ⟨rfl, rfl⟩ := he; simp [St.admit])
  all_goals
    simp only [exec] at he
    repeat' split at he
    all_goals
      first
      | (simp at he; done)
      | (simp at he; obtain ⟨rfl, rfl⟩ := he; simp [St.admit])

theorem reach_wi {c : Conf mach} {m : Mem Loc} (h : HReach ann init c m) (hJ : ¬ JoinsHandover c.sh.log) {e : Nat}
    (hE : EndX c.sh.log e) : WI c.sh c.acts m e := by
  refine HReach.inv (A := ann) (P := Facts') (Q := fun s acts m => ¬ JoinsHandover s.log → ∀ e, EndX s.log e → WI s acts m e)
    facts' ?_ ?_ ?_ h hJ e hE
  · intro _ e ⟨i, hi⟩
    simp [init] at hi
  · intro c m a s' p h0 h1 h he hJ e hE
    refine env_wi c m e a s' p h0 h1 hE (fun hE' => h (fun hj => hJ ?_) e hE') he
    obtain ⟨v, hv⟩ := env_log (acts := c.acts) he
    rw [hv]; exact hj.mono
  · intro c m k x r b s' p h0 h1 h hk he hJ e hE
    have hl := exec_log he
    refine run_wi c m e k x r b s' p h0 h1 hJ (h (fun hj => hJ ?_) e ?_) hk he
    · rcases hl with hl | ⟨v, hl, _⟩
      · rw [hl]; exact hj
      · rw [hl]; exact hj.mono
    · rcases hl with hl | ⟨v, hl, hv⟩
      · rw [hl] at hE; exact hE
      · rw [hl] at hE
        rcases hE.old with hE | ⟨_, i, hi⟩
        · exact hE
        · exact absurd hi (hv _)

end Verif.SharedMutex
