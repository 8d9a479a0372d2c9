import Verif.WithCancel.Proof

/-! # Invariants of `with_cancel_cb`: history -/

namespace Verif.WithCancel

def reqStep (e : EvId) (b : Bool) : Ev → Bool
  | .cancel e' => if e' = e then true else b
  | .revive e' => if e' = e then false else b
  | _ => b

/-- `cancel()` took effect and `reset()` was not called since. -/
def requested (e : EvId) (log : List Ev) : Bool := log.foldl (reqStep e) false

@[simp] theorem requested_append (e : EvId) (l : List Ev) (v : Ev) :
    requested e (l ++ [v]) = reqStep e (requested e l) v := by
  simp [requested]

/-- Each event of the history is justified by the events before it. -/
def Ok (before : List Ev) : Ev → Prop
  | .start i _ => ∀ t, .start i t ∉ before
  | .istart i => .istart i ∉ before ∧ ∃ t, .start i t ∈ before
  | .inner i _ => .istart i ∈ before ∧ ∀ w, .inner i w ∉ before
  | .cb i => .cb i ∉ before ∧ (∀ v, .done i v ∉ before) ∧ ∃ e, .start i (some e) ∈ before ∧ requested e before = true
  | .cbRet i => .cb i ∈ before ∧ (∀ v, .done i v ∉ before)
  | .done i v => (∀ w, .done i w ∉ before) ∧ .inner i v ∈ before ∧ (.cb i ∈ before → .cbRet i ∈ before)
  | .revive e => ∀ i, .start i (some e) ∈ before → ∃ v, .done i v ∈ before
  | _ => True

def cbw (i : Id) : Instr → Nat
  | .set j | .cb j => if j = i then 1 else 0
  | .drain l => num i l
  | _ => 0

structure Inv2 (s : St) (acts : List (List Instr)) : Prop where
  preq : ∀ i, i ∈ s.pool → reqT s.req (s.tok i) = false
  creq : ∀ i, Pending acts (.cb i) → reqT s.req (s.tok i) = true
  dreq : ∀ i l, Pending acts (.drain l) → i ∈ l → reqT s.req (s.tok i) = true
  sreq : ∀ i, Pending acts (.sub i true) → reqT s.req (s.tok i) = true
  pa : ∀ i, i ∈ s.pool → ta s acts i = 1
  gone : ∀ i, s.phase i = .running → reqT s.req (s.tok i) = false →
    i ∈ s.pool ∨ Pending acts (.set i) ∨ Pending acts (.complete i)
  fired : ∀ i, s.phase i = .running → i ∈ s.pool ∨ Pending acts (.set i) ∨ (∃ l, Pending acts (.drain l) ∧ i ∈ l) ∨
    Pending acts (.cb i) ∨ .cb i ∈ s.log ∨ Pending acts (.complete i)
  cnt : ∀ i, s.log.count (.cb i) + ws (cbw i) acts + num i s.pool ≤ if s.phase i = .fresh then 0 else 1
  dn : ∀ i, (∃ v, .done i v ∈ s.log) ↔ s.phase i = .done
  st : ∀ i t, .start i t ∈ s.log ↔ s.phase i ≠ .fresh ∧ s.tok i = t
  inn : ∀ i, (∃ v, .inner i v ∈ s.log) ↔ s.inner i = .completed
  ist : ∀ i, .istart i ∈ s.log ↔ s.inner i ≠ .idle
  storev : ∀ i v, Pending acts (.store i v) → .inner i v ∈ s.log
  valv : ∀ i v, s.val i = some v → .inner i v ∈ s.log
  ret : ∀ i, .cb i ∈ s.log → .cbRet i ∈ s.log ∨ Pending acts (.cbRet i)
  retc : ∀ i, Pending acts (.cbRet i) → .cb i ∈ s.log
  reqlog : ∀ e, s.req e = requested e s.log
  hist : Hist Ok s.log

theorem Inv1.running_b {s : St} {acts : List (List Instr)} (h : Inv1 s acts) {x : Instr} (hx : Pending acts x) {i : Id}
    (hu : 0 < bw i x) : s.phase i = .running := by
  apply Classical.byContradiction
  intro hn
  have h1 := (h.off i hn).2.1
  have h2 := hx.le (bw i)
  unfold tb at h1
  omega

theorem Inv1.running_a {s : St} {acts : List (List Instr)} (h : Inv1 s acts) {x : Instr} (hx : Pending acts x) {i : Id}
    (hu : 0 < aw i x) : s.phase i = .running ∧ s.inner i = .completed := by
  have hr : s.phase i = .running := by
    apply Classical.byContradiction
    intro hn
    have h1 := (h.off i hn).1
    have h2 := hx.le (aw i)
    unfold ta at h1
    omega
  refine ⟨hr, Classical.byContradiction fun hn => ?_⟩
  have h1 := (h.one i).1
  have h2 := hx.le (aw i)
  simp [ta, open_, hr, hn] at h1
  omega

theorem Inv1.running_c {s : St} {acts : List (List Instr)} (h : Inv1 s acts) {i : Id} (hx : Pending acts (.complete i)) :
    s.phase i = .running ∧ ta s acts i = 0 ∧ tb s acts i = 0 ∧ s.val i ≠ none := by
  have h2 := hx.le (cw i)
  simp [cw] at h2
  have hr : s.phase i = .running := by
    apply Classical.byContradiction
    intro hn
    have h1 := (h.off i hn).2.2
    omega
  have h3 := (h.ful i hr).1 (by have := (h.one i).2.2; omega)
  refine ⟨hr, h3.1, h3.2, fun hv => ?_⟩
  have h4 := (h.val i (by simp [hr])).1 hv
  have h5 := ws_stw_le i acts
  have h6 := h3.1
  simp [ta, open_, hr] at h6
  rcases h4 with h4 | h4
  · exact h4 h6.2
  · omega

theorem Inv1.running_s {s : St} {acts : List (List Instr)} (h : Inv1 s acts) {x : Instr} (hx : Pending acts x) {i : Id}
    (hu : 0 < sw i x) : s.phase i = .running ∧ s.inner i = .idle := by
  have h1 := h.sta i
  have h2 := hx.le (sw i)
  split at h1
  · assumption
  · omega

theorem in_pool {s : St} {acts : List (List Instr)} (h1 : Inv1 s acts) (h2 : Inv2 s acts) {i : Id}
    (hx : Pending acts (.tryReset i)) (hr : reqT s.req (s.tok i) = false) : i ∈ s.pool := by
  obtain ⟨h3, h4⟩ := h1.running_a hx (i := i) (by simp [aw])
  rcases h2.gone i h3 hr with h5 | h5 | h5
  · exact h5
  · have := (h1.running_s h5 (i := i) (by simp [sw])).2
    simp [h4] at this
  · have := (h1.running_c h5).2.1
    have h6 := hx.le (aw i)
    simp [aw] at h6
    simp [ta] at this
    omega

theorem reqT_upd (req : EvId → Bool) (e : EvId) (t : Option EvId) :
    reqT (upd req e true) t = (reqT req t || t == some e) := by
  cases t with
  | none => rfl
  | some e' => simp [reqT, upd_apply]; by_cases h : e' = e <;> simp [h]

theorem reqT_upd_false (req : EvId → Bool) (e : EvId) (t : Option EvId) :
    reqT (upd req e false) t = (reqT req t && !(t == some e)) := by
  cases t with
  | none => rfl
  | some e' => simp [reqT, upd_apply]; by_cases h : e' = e <;> simp [h]

set_option maxHeartbeats 2000000 in
theorem run_inv2 {s : St} {acts : List (List Instr)} (h1 : Inv1 s acts) (h : Inv2 s acts) {k : Nat} {x : Instr}
    {r p : List Instr} (hk : acts[k]? = some (x :: r)) {b : Bool} {s' : St}
    (he : exec s x b = .ok s' p) : Inv2 s' (acts.set k (p ++ r)) := by
  have hpx := pending_top hk
  have hb := fun i => @Inv1.running_b s acts h1 x hpx i
  have ha := fun i => @Inv1.running_a s acts h1 x hpx i
  have hs := fun i => @Inv1.running_s s acts h1 x hpx i
  have hc : ∀ i, x = .complete i → s.phase i = .running ∧ ta s acts i = 0 ∧ tb s acts i = 0 ∧ s.val i ≠ none :=
    fun i e => h1.running_c (by subst e; exact hpx)
  have hin : ∀ i, x = .tryReset i → reqT s.req (s.tok i) = false → i ∈ s.pool :=
    fun i e => in_pool h1 h (by subst e; exact hpx)
  have hst : ∀ y, Pending acts y → y ≠ x → Pending (acts.set k (p ++ r)) y := fun y hy hne => pending_stays hk hy hne
  have hnew : ∀ y ∈ p, Pending (acts.set k (p ++ r)) y := fun y hy => pending_new hk hy
  have hset : ∀ y, Pending (acts.set k (p ++ r)) y → y ∈ p ∨ Pending acts y := fun y hy =>
    (pending_set2 hk hy).imp id And.left
  have hlo := fun e o => @mem_listOf s e o
  have hot := fun e o => @mem_others s e o
  have hme := fun i j (hj : j ∈ s.pool) => num_erase hj i
  have hfs := fun i e => filter_split s i e
  have hsub : ∀ i j, j ∈ s.pool.erase i → j ∈ s.pool := fun i j => List.mem_of_mem_erase
  have hkeep : ∀ i j, j ≠ i → j ∈ s.pool → j ∈ s.pool.erase i := fun i j hne hj => (List.mem_erase_of_ne hne).2 hj
  have hw := fun i => ws_set (cbw i) p hk
  have hup := reqT_upd s.req
  have hdq : ∀ i l, x = .drain (i :: l) → reqT s.req (s.tok i) = true :=
    fun i l e => h.dreq i (i :: l) (e ▸ hpx) (by simp)
  have hwa := fun i => ws_set (aw i) p hk
  have hsetr : ∀ i, Pending acts (.set i) → s.phase i = .running ∧ s.inner i = .idle :=
    fun i hp => h1.running_s hp (by simp [sw])
  have hone := h1.one
  have hrb := fun i (y : Instr) (hy : Pending acts y) => h1.running_b hy (i := i)
  generalize acts.set k (p ++ r) = acts' at *
  clear hk
  constructor
  case preq =>
    have := h.preq
    clear h h1 hpx hb ha hs hc hin hst hnew hset hme hfs hw hwa hone hrb hsetr
    exec_cases he <;> (try simp [reqT, upd_apply] at *) <;> grind [reqT]
  case creq =>
    have := h.creq; have h2 := h.dreq
    clear h h1 hb ha hs hc hin hst hnew hme hfs hw hwa hone hrb hsetr
    exec_cases he <;> (try simp [upd_apply] at *) <;> grind [reqT, upd_apply]
  case dreq =>
    have h2 := h.dreq
    clear h h1 hb ha hs hc hin hst hnew hme hfs hw hwa hone hrb hsetr
    exec_cases he <;> (try simp [upd_apply] at *) <;> grind [reqT, upd_apply]
  case sreq =>
    have h2 := h.sreq
    clear h h1 hb ha hs hc hin hst hnew hme hfs hw hwa hone hrb hsetr
    exec_cases he <;> (try simp [upd_apply] at *) <;> grind
  case pa =>
    intro i
    have h2 := h.pa i; have h3 := h.preq i; have h4 := h.sreq i; have h5 := hone i
    specialize hwa i; specialize hlo; specialize hot
    have h6 : x = .tryReset i → i ∉ s.pool.erase i := by
      intro _ hm
      have h7 := mem_num.1 hm
      have h8 := num_erase (List.mem_of_mem_erase hm) i
      simp at h8
      have h9 := h5.2.1
      unfold tb at h9; omega
    have h10 : x = .set i → s.phase i = .running ∧ s.inner i = .idle := by rintro rfl; exact hsetr i hpx
    specialize hc i
    clear h h1 hb ha hin hst hnew hme hfs hw hone hrb hset hsetr
    exec_cases he <;> (try simp [ta, aw, open_, upd_apply] at *) <;> grind (splits := 20)
  case gone =>
    have h2 := h.gone; have h3 := h.creq
    clear h h1 hb ha hs hc hin hset hme hfs hw hwa hone hrb hsetr
    exec_cases he <;> (try simp [upd_apply] at *) <;> grind [reqT, upd_apply]
  case fired =>
    have h2 := h.fired
    clear h h1 hb ha hs hc hin hset hme hfs hw hwa hone hrb hsetr
    exec_cases he <;> (try simp [upd_apply] at *) <;> grind
  case cnt =>
    intro i
    have h2 := h.cnt i
    specialize hw i; specialize hb i; specialize hme i; specialize hfs i
    clear h h1 ha hs hc hin hset hst hnew hone hrb hsetr
    exec_cases he <;> (try simp [upd_apply, cbw, bw, List.count_append, List.count_cons] at *) <;> grind
  case dn =>
    have h2 := h.dn
    clear h h1 ha hs hin hset hst hnew hone hrb hwa hsetr hw hme hfs
    exec_cases he <;> (try simp [upd_apply] at *) <;> grind
  case st =>
    have h2 := h.st
    clear h h1 ha hs hin hset hst hnew hone hrb hwa hsetr hw hme hfs
    exec_cases he <;> (try simp [upd_apply] at *) <;> grind
  case inn =>
    have h2 := h.inn
    clear h h1 ha hin hset hst hnew hone hrb hwa hsetr hw hme hfs
    exec_cases he <;> (try simp [upd_apply] at *) <;> grind
  case ist =>
    have h2 := h.ist
    clear h h1 ha hin hset hst hnew hone hrb hwa hsetr hw hme hfs
    exec_cases he <;> (try simp [upd_apply] at *) <;> grind
  case storev =>
    have h2 := h.storev
    clear h h1 ha hin hst hnew hone hrb hwa hsetr hw hme hfs
    exec_cases he <;> (try simp [upd_apply] at *) <;> grind
  case valv =>
    have h2 := h.storev; have h3 := h.valv
    clear h h1 ha hin hst hnew hone hrb hwa hsetr hw hme hfs
    exec_cases he <;> (try simp [upd_apply] at *) <;> grind
  case ret =>
    have h2 := h.ret; have h3 := h.retc
    clear h h1 ha hin hset hone hrb hwa hsetr hw hme hfs
    exec_cases he <;> (try simp [upd_apply] at *) <;> grind
  case retc =>
    have h3 := h.retc
    clear h h1 ha hin hst hnew hone hrb hwa hsetr hw hme hfs
    exec_cases he <;> (try simp [upd_apply] at *) <;> grind
  case reqlog =>
    have h3 := h.reqlog
    clear h h1 ha hin hst hnew hset hone hrb hwa hsetr hw hme hfs
    exec_cases he <;> (try simp [upd_apply, reqStep] at *) <;> grind
  case hist =>
    have h2 := h.hist
    have h3 := h.reqlog; have h4 := h.dn; have h5 := h.st; have h6 := h.ist; have h7 := h.valv
    have h5' : ∀ i, s.phase i ≠ .fresh → Ev.start i (s.tok i) ∈ s.log := fun i hi => (h.st i _).2 ⟨hi, rfl⟩
    have h8 := h.creq; have h9 := h.ret; have h10 := h.retc
    have h11 : ∀ i, x = .cb i → Ev.cb i ∉ s.log := by
      rintro i rfl hm
      have := h.cnt i
      have h12 := hpx.le (cbw i)
      have h13 := List.count_pos_iff.2 hm
      simp [cbw] at h12
      split at this <;> omega
    have h12 : ∀ i, x = .complete i → ¬ Pending acts (.cbRet i) := by
      rintro i rfl hp
      have := (hc i rfl).2.2.1
      have h13 := hp.le (bw i)
      simp [bw] at h13
      unfold tb at this
      omega
    have h14 : ∀ i, reqT s.req (s.tok i) = true → ∃ e, s.tok i = some e ∧ s.req e = true := by
      intro i hi
      cases ht : s.tok i with
      | none => simp [reqT, ht] at hi
      | some e => exact ⟨e, rfl, by simpa [reqT, ht] using hi⟩
    clear h h1 ha hin hst hnew hset hone hrb hwa hsetr hw hme hfs
    exec_cases he <;> (try simp [Ok, aw, bw, sw] at *) <;> grind

set_option maxHeartbeats 2000000 in
theorem env_inv2 {s : St} {acts : List (List Instr)} (h1 : Inv1 s acts) (h : Inv2 s acts) {a : Act} {s' : St}
    {p : List Instr} (he : env s acts a = some (s', p)) : Inv2 s' (acts ++ [p]) := by
  have hp := fun y => @pending_app _ acts p y
  have hfre := h1.fre
  have hup := reqT_upd_false s.req
  have hops := h1.ops
  have hrb := fun i (y : Instr) (hy : Pending acts y) => h1.running_b hy (i := i)
  have hpool : ∀ i, i ∈ s.pool → s.phase i = .running := by
    intro i hi
    apply Classical.byContradiction
    intro hn
    have h3 := (h1.off i hn).2.1
    have h4 := mem_num.1 hi
    unfold tb at h3; omega
  have hcb : ∀ i, Pending acts (.cb i) → s.phase i = .running := fun i hy => hrb i _ hy (by simp [bw])
  have hdr : ∀ i l, Pending acts (.drain l) → i ∈ l → s.phase i = .running :=
    fun i l hy hi => hrb i _ hy (mem_num.1 hi)
  clear hrb
  constructor
  case preq =>
    have := h.preq
    clear h h1
    env_cases he <;> (try simp [upd_apply] at *) <;> grind [reqT]
  case creq =>
    have := h.creq
    clear h h1
    env_cases he <;> (try simp [upd_apply] at *) <;> grind [reqT]
  case dreq =>
    have := h.dreq
    clear h h1
    env_cases he <;> (try simp [upd_apply] at *) <;> grind [reqT]
  case sreq =>
    have := h.sreq
    have h3 : ∀ i, Pending acts (.sub i true) → s.phase i = .running := fun i hy => (h1.running_a hy (by simp [aw])).1
    clear h h1
    env_cases he <;> (try simp [upd_apply] at *) <;> grind [reqT]
  case pa =>
    intro i
    have := h.pa i
    have h3 := h1.one i
    specialize hpool i
    clear h h1 hp
    env_cases he <;> (try simp [ta, aw, open_, upd_apply] at *) <;> grind
  case gone =>
    have := h.gone
    clear h h1
    env_cases he <;> (try simp [upd_apply] at *) <;> grind [reqT]
  case fired =>
    have := h.fired
    clear h h1
    env_cases he <;> (try simp [upd_apply] at *) <;> grind
  case cnt =>
    intro i
    have := h.cnt i
    clear h h1
    env_cases he <;> (try simp [upd_apply, cbw, List.count_append, List.count_cons] at *) <;> grind
  case dn =>
    have := h.dn
    clear h h1
    env_cases he <;> (try simp [upd_apply] at *) <;> grind
  case st =>
    have := h.st
    clear h h1
    env_cases he <;> (try simp [upd_apply] at *) <;> grind
  case inn =>
    have := h.inn
    clear h h1
    env_cases he <;> (try simp [upd_apply] at *) <;> grind
  case ist =>
    have := h.ist
    clear h h1
    env_cases he <;> (try simp [upd_apply] at *) <;> grind
  case storev =>
    have := h.storev
    clear h h1
    env_cases he <;> (try simp [upd_apply] at *) <;> grind
  case valv =>
    have := h.valv
    clear h h1
    env_cases he <;> (try simp [upd_apply] at *) <;> grind
  case ret =>
    have := h.ret
    clear h h1
    env_cases he <;> (try simp [upd_apply] at *) <;> grind
  case retc =>
    have := h.retc
    clear h h1
    env_cases he <;> (try simp [upd_apply] at *) <;> grind
  case reqlog =>
    have := h.reqlog
    clear h h1
    env_cases he <;> (try simp [upd_apply, reqStep] at *) <;> grind
  case hist =>
    have := h.hist; have h4 := h.dn; have h5 := h.st; have h6 := h.ist; have h7 := h.inn
    clear h h1
    env_cases he <;> (try simp [Ok] at *) <;> grind

theorem init_inv2 : Inv2 init [] := by
  constructor <;> simp [init, requested, Hist.nil, not_pending_nil]

theorem reach_inv2 {c : Conf mach} (h : Reach mach init c) : Inv2 c.sh c.acts :=
  Reach.inv_with (P := Inv1) (fun _ hc => reach_inv1 hc) init_inv2
    (fun _ _ _ _ _ h1 _ h he => env_inv2 h1 h he)
    (fun _ _ _ _ _ _ _ _ h1 _ h hk he => run_inv2 h1 h hk he) h

end Verif.WithCancel
