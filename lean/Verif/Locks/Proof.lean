import Verif.Locks.Model

/-! # Lemmas for `Verif.Locks.Props` -/

namespace Verif.Locks

/-- `Seg P D own L xs L'`: executing `xs` by a thread that holds the mutexes `L` leaves it with `L'`; fields are accessed only with
the mutex of their object, unless `D` is false and the access is a read of the buffer of a queue; `P` holds of the held mutexes wherever a mutex is requested or code of the user is called (other
than by `under`); the number of a barrier is written only with the mutex of the barrier; a value is set only in promises in `own`. -/
inductive Seg (P : List Obj → Prop) (D : Prop) (own : Obj → Prop) : List Obj → List Instr → List Obj → Prop where
  | nil {L} : Seg P D own L [] L
  | lock {L o r L'} : P L → Seg P D own (o :: L) r L' → Seg P D own L (.lock o :: r) L'
  | unlock {L o r L'} : Seg P D own L r L' → Seg P D own (o :: L) (.unlock o :: r) L'
  | acc {L o f w r L'} : (o ∈ L ∨ ¬ D ∧ f = .buffer ∧ w = false) → (f = .hasValue → w = true → own o) → Seg P D own L r L' →
      Seg P D own L (.acc o f w :: r) L'
  | atom {L a w r L'} : (∀ b, a = .phase b → w = true → b ∈ L) → Seg P D own L r L' → Seg P D own L (.atom a w :: r) L'
  | peek {L o r L'} : own o → Seg P D own L r L' → Seg P D own L (.acc o .hasValue false :: r) L'
  | user {L r L'} : P L → Seg P D own L r L' → Seg P D own L (.user :: r) L'
  | under {L o r L'} : o ∈ L → Seg P D own L r L' → Seg P D own L (.under o :: r) L'
  | alt {L xs ys r L1 L'} : Seg P D own L xs L1 → Seg P D own L ys L1 → Seg P D own L1 r L' →
      Seg P D own L (.alt xs ys :: r) L'
  | loop {L xs r L'} : Seg P D own L xs L → Seg P D own L r L' → Seg P D own L (.loop xs :: r) L'
  | callback {L r L'} : P L → Seg P D own L r L' → Seg P D own L (.callback :: r) L'
  | complete {L r L'} : P L → Seg P D own L r L' → Seg P D own L (.complete :: r) L'

variable {P : List Obj → Prop} {D : Prop} {own own' : Obj → Prop} {L L1 L2 : List Obj}

theorem Seg.append {xs ys} (h : Seg P D own L xs L1) (h2 : Seg P D own L1 ys L2) : Seg P D own L (xs ++ ys) L2 := by
  induction h with
  | nil => exact h2
  | lock p _ ih => exact .lock p (ih h2)
  | unlock _ ih => exact .unlock (ih h2)
  | acc a b _ ih => exact .acc a b (ih h2)
  | atom a _ ih => exact .atom a (ih h2)
  | peek a _ ih => exact .peek a (ih h2)
  | user p _ ih => exact .user p (ih h2)
  | under p _ ih => exact .under p (ih h2)
  | alt a b _ _ _ ih => exact .alt a b (ih h2)
  | loop a _ _ ih => exact .loop a (ih h2)
  | callback p _ ih => exact .callback p (ih h2)
  | complete p _ ih => exact .complete p (ih h2)

theorem Seg.mono {xs} (ho : ∀ o, own o → own' o) (h : Seg P D own L xs L1) : Seg P D own' L xs L1 := by
  induction h with
  | nil => exact .nil
  | lock p _ ih => exact .lock p ih
  | unlock _ ih => exact .unlock ih
  | acc a b _ ih => exact .acc a (fun x y => ho _ (b x y)) ih
  | atom a _ ih => exact .atom a ih
  | peek a _ ih => exact .peek (ho _ a) ih
  | user p _ ih => exact .user p ih
  | under p _ ih => exact .under p ih
  | alt _ _ _ i1 i2 ih => exact .alt i1 i2 ih
  | loop _ _ i1 ih => exact .loop i1 ih
  | callback p _ ih => exact .callback p ih
  | complete p _ ih => exact .complete p ih

/-- Build a segment instruction by instruction. -/
macro "seg" : tactic => `(tactic|
  repeat first
    | exact .nil
    | (refine Seg.lock ‹_› ?_)
    | (refine Seg.unlock ?_)
    | (refine Seg.acc (by simp) (by simp) ?_)
    | (refine Seg.atom (by simp) ?_)
    | (refine Seg.user ‹_› ?_)
    | (refine Seg.under (by simp) ?_)
    | (refine Seg.callback ‹_› ?_)
    | (refine Seg.complete ‹_› ?_)
    | (refine Seg.loop ?_ ?_))

theorem seg_transition (hP : P L) (e : Option Obj) : Seg P D own L (transition e) L := by
  cases e with
  | none => exact .atom (by simp) (.alt .nil (.user hP .nil) .nil)
  | some e =>
    refine .atom (by simp) (.alt .nil (.alt ?_ (.user hP .nil) .nil) .nil)
    refine .lock hP (.acc (by simp) (by simp) (.alt (.unlock .nil) ?_ .nil))
    seg

theorem seg_tryCancel (hP : P L) (o : Obj) (f : Fld) (hf : f ≠ .hasValue) : Seg P D own L (tryCancel o f) L := by
  refine .lock hP (.alt ?_ (.alt (.atom (by simp) .nil) .nil .nil) (.alt (L1 := o :: L) ?_ .nil (.unlock .nil)))
  · seg
  · exact .acc (.inl (by simp)) (fun h => absurd h hf) .nil

theorem seg_listen (hP : P L) (o : Obj) (f : Fld) (hf : f ≠ .hasValue) (e : Option Obj) :
    Seg P D own L (listen o f e) L := by
  cases e with
  | none => exact seg_transition hP none
  | some e =>
    refine .lock hP (.acc (by simp) (by simp) (.alt (L1 := L) ?_ ?_ .nil))
    · exact .acc (by simp) (by simp) (.unlock (seg_transition hP _))
    · exact .unlock ((seg_tryCancel hP o f hf).append (seg_transition hP _))

theorem seg_forceSet (hP : P L) (e : Obj) {g : List Instr} (hg : Seg P D own L g L) :
    Seg P D own L (forceSet e g) L := by
  refine .lock hP (.acc (by simp) (by simp) (.alt (L1 := L) ?_ (.unlock hg) .nil))
  seg

theorem seg_tryReset (hP : P L) (e : Obj) {g h : List Instr} (hg : Seg P D own L g L) (hh : Seg P D own L h L) :
    Seg P D own L (tryReset e g h) L :=
  .lock hP (.acc (by simp) (by simp) (.alt (L1 := L) (.acc (by simp) (by simp) (.unlock hg)) (.unlock hh) .nil))

theorem seg_resetAll (hP : P L) (es : List Obj) : Seg P D own L (resetAll es) L := by
  induction es with
  | nil => exact .nil
  | cons e es ih => exact (seg_tryReset hP e .nil .nil).append ih

theorem seg_suspend (hP : P L) (es : List Obj) : Seg P D own L (suspendTransition es) L :=
  .atom (by simp) (.alt .nil (seg_resetAll hP es) (.atom (by simp) (.alt (.user hP .nil) .nil .nil)))

theorem seg_setAll (hP : P L) (all es : List Obj) : Seg P D own L (setAll all es) L := by
  induction es with
  | nil => exact .nil
  | cons e es ih => exact (seg_forceSet hP e (seg_suspend hP all)).append ih

theorem seg_handler (hP : P L) : Seg P D own L cancelHandler L := .user hP (.atom (by simp) (.alt (.user hP .nil) .nil .nil))

theorem seg_cb (hP : P L) (k : Cb) : Seg P D own L k.body L := by
  cases k with
  | functor => exact .user hP .nil
  | resolver o b e => exact (seg_tryCancel hP o _ (by cases b <;> simp)).append (seg_transition hP _)
  | suspend es => exact seg_suspend hP es
  | withCancel => exact seg_handler hP

theorem seg_raise (hP : P L) (v : Obj) : Seg P D own L (recurringRaise v) L := by
  unfold recurringRaise; seg

theorem seg_detach (hP : P L) (m : Obj) : Seg P D own (m :: L) (detachStep m) L := by
  refine .acc (by simp) (by simp) (.atom (by simp) (.alt (L1 := L) ?_ (.unlock .nil) .nil))
  seg

theorem seg_waitIf (hP : P L) (v : Obj) {cond : List Instr} (hc : Seg P D own (v :: L) cond (v :: L)) (ct : Option Obj) :
    Seg P D own L (waitIf v cond ct) L := by
  refine .lock hP (hc.append (.alt (L1 := L) ?_ ?_ .nil))
  · seg
  · exact .acc (by simp) (by simp) (.unlock (seg_listen hP v .list (by simp) ct))

/-- All functions except `queue::empty` follow the discipline. -/
theorem seg_body (hP : P L) (f : Fn) (he : D → ∀ q, f ≠ .empty q) (ho : ∀ p, f = .setValue p → own p) :
    Seg P D own L (body f) L := by
  cases f with
  | empty q => exact .acc (.inr ⟨fun d => absurd rfl (he d q), rfl, rfl⟩) (by simp) .nil
  | isRequested e => simp only [body]; seg
  | callbackCtor e =>
    refine .lock hP (.acc (by simp) (by simp) (.alt (L1 := e :: L) ?_ ?_ (.unlock .nil))) <;> seg
  | callbackDtor e => exact seg_tryReset hP e .nil .nil
  | callbackUnbind e => exact seg_tryReset hP e .nil .nil
  | observerTrySet e => exact seg_forceSet hP e .nil
  | observerForceSet e => exact seg_forceSet hP e (.user hP .nil)
  | observerTryReset e => exact seg_tryReset hP e .nil .nil
  | cancel e => simp only [body]; seg
  | reset e => simp only [body]; seg
  | suspendStart es => exact (seg_setAll hP es es).append (seg_suspend hP es)
  | withCancelStart e => exact (seg_forceSet hP e (seg_handler hP)).append (.user hP .nil)
  | withCancelValue e => exact seg_tryReset hP e (.user hP .nil) (.atom (by simp) (.alt (.user hP .nil) .nil .nil))
  | emplace q =>
    refine .lock hP (.acc (by simp) (by simp) (.alt (L1 := L) ?_ ?_ .nil)) <;> seg
  | getStart q ct =>
    refine .lock hP (.acc (by simp) (by simp) (.alt (L1 := L) ?_ ?_ .nil))
    · seg
    · exact .acc (by simp) (by simp) (.unlock (seg_listen hP q .list (by simp) ct))
  | maybeGet q =>
    refine .lock hP (.acc (by simp) (by simp) (.alt (L1 := L) ?_ ?_ .nil)) <;> seg
  | raise v => exact seg_raise hP v
  | waitIfStart v ct => exact seg_waitIf hP v (.under (by simp) .nil) ct
  | waitStart v ct => exact seg_waitIf hP v .nil ct
  | sequencedRaise v => exact .atom (by simp) (seg_raise hP v)
  | nextSequence v => exact .atom (by simp) .nil
  | sequencedWaitStart v ct => exact seg_waitIf hP v (.atom (by simp) .nil) ct
  | barrierWaitStart b v ct => exact seg_waitIf hP v (.atom (by simp) .nil) ct
  | done w =>
    refine .atom (by simp) (.loop (.atom (by simp) .nil) (.alt .nil (.lock hP (.atom (by simp) (.alt (L1 := L) ?_ ?_ .nil))) .nil)) <;> seg
  | add w => exact .atom (by simp) .nil
  | groupWaitStart w ct =>
    refine .lock hP (.atom (by simp) (.alt (L1 := L) ?_ ?_ .nil))
    · seg
    · exact .acc (by simp) (by simp) (.unlock (seg_listen hP w .list (by simp) ct))
  | arrive b v =>
    refine .lock hP (.atom (by simp) (.acc (by simp) (by simp) (.acc (by simp) (by simp)
      (.alt (L1 := b :: L) ?_ .nil (.unlock (.alt (seg_raise hP v) .nil .nil))))))
    seg
  | setValue p =>
    have h := ho p rfl
    refine .lock hP (.under (by simp) (.acc (by simp) (fun _ _ => h) (.unlock (.peek h ?_))))
    seg
  | futureGetStart p ct =>
    refine .lock hP (.acc (by simp) (by simp) (.alt (L1 := L) ?_ ?_ .nil))
    · exact .acc (by simp) (by simp) (.unlock (seg_listen hP p .list (by simp) ct))
    · seg
  | postStart m =>
    refine .lock hP (.acc (by simp) (by simp) (.acc (by simp) (by simp) (.alt (L1 := L) ?_ ?_ .nil))) <;> seg
  | ack m => refine .atom (by simp) (.alt (L1 := L) ?_ .nil .nil); seg
  | attach m => simp only [body]; seg
  | detach m =>
    refine .lock hP (.acc (by simp) (by simp) (.acc (by simp) (by simp) (.alt (L1 := L) (.unlock .nil) ?_ .nil)))
    exact (seg_detach hP m).append (.loop (.lock hP (seg_detach hP m)) .nil)
  | pollStart m ct =>
    refine .lock hP (.acc (by simp) (by simp) (.alt (L1 := L) ?_ ?_ .nil))
    · seg
    · exact .acc (by simp) (by simp) (.unlock (seg_listen hP m .polls (by simp) ct))
  | tryLock m => exact .atom (by simp) .nil
  | tryLockShared m => exact .atom (by simp) (.loop (.atom (by simp) .nil) .nil)
  | lockStart m =>
    refine .atom (by simp) (.alt (L1 := L) (.user hP .nil) (.lock hP (.atom (by simp) (.loop (.atom (by simp) .nil)
      (.alt (L1 := L) ?_ ?_ .nil)))) .nil) <;> seg
  | unlock m =>
    refine .atom (by simp) (.alt (L1 := L) (.atom (by simp) .nil) .nil (.alt (L1 := L) .nil ?_ .nil))
    refine .lock hP (.acc (by simp) (by simp) (.loop (.acc (by simp) (by simp) .nil)
      (.alt (L1 := m :: L) (.atom (by simp) .nil) .nil ?_)))
    seg
  | lockSharedStart m =>
    refine .atom (by simp) (.loop (.atom (by simp) .nil) (.alt (L1 := L) (.user hP .nil) (.lock hP (.atom (by simp)
      (.loop (.atom (by simp) .nil) (.alt (L1 := L) ?_ ?_ .nil)))) .nil)) <;> seg
  | unlockShared m =>
    refine .atom (by simp) (.loop (.atom (by simp) .nil) (.alt (L1 := L) .nil ?_ .nil)); seg


/-- The invariant. -/
structure Inv (P : List Obj → Prop) (D : Prop) (s : St) : Prop where
  seg : ∀ t, Seg P D (fun p => s.setter p = some t) (s.held t) (s.stack t) []
  hold : ∀ o t, s.holder o = some t ↔ o ∈ s.held t
  nodup : ∀ t, (s.held t).Nodup

theorem inv_goto {s : St} (hi : Inv P D s) {t : Thr} {xs : List Instr}
    (h : Seg P D (fun p => s.setter p = some t) (s.held t) xs []) : Inv P D (s.goto t xs) := by
  refine ⟨fun u => ?_, hi.hold, hi.nodup⟩
  by_cases hu : u = t
  · subst hu; simpa [St.goto] using h
  · simpa [St.goto, upd, hu] using hi.seg u

theorem inv_mark {s : St} (hi : Inv P D s) {t : Thr} {f : Fn} (ha : s.admits f = true) :
    Inv P D (s.mark t f) ∧ (∀ p, f = .setValue p → (s.mark t f).setter p = some t) := by
  cases f with
  | setValue p =>
    have hn : s.setter p = none := by simpa [St.admits] using ha
    refine ⟨⟨fun u => (hi.seg u).mono ?_, hi.hold, hi.nodup⟩, ?_⟩
    · intro o ho
      simp only [St.mark, upd]
      split
      · subst_vars; rw [hn] at ho; simp at ho
      · exact ho
    · intro q hq; cases hq; simp [St.mark]
  | _ => exact ⟨hi, by simp⟩

theorem mark_same (s : St) (t : Thr) (f : Fn) : (s.mark t f).held = s.held ∧ (s.mark t f).stack = s.stack := by
  cases f <;> simp [St.mark]

/-- Runs of the user: `A` may forbid calls. -/
theorem inv_user {s s' : St} (hi : Inv P D s) {t : Thr} {x : Instr} {r : List Instr} {c : Choice}
    (hst : s.stack t = x :: r) (hr : Seg P D (fun p => s.setter p = some t) (s.held t) r [])
    (hc : ∀ f, c = .call f → P (s.held t) ∧ (D → ∀ q, f ≠ .empty q))
    (h : s.runUser t x r c = .ok s') : Inv P D s' := by
  cases c with
  | ret => simp [St.runUser] at h; subst h; exact inv_goto hi hr
  | call f =>
    simp only [St.runUser] at h
    split at h
    · rename_i ha
      simp at h; subst h
      obtain ⟨h1, h2⟩ := inv_mark (t := t) hi ha
      obtain ⟨e1, e2⟩ := mark_same s t f
      obtain ⟨hp, hd⟩ := hc f rfl
      have h3 := h1.seg t
      rw [e1, e2, hst] at h3
      refine inv_goto h1 ?_
      rw [e1]
      exact (seg_body hp f hd h2).append h3
    · simp at h
  | _ => simp [St.runUser] at h

theorem inv_step {s s' : St} (hi : Inv P D s) {t : Thr} {c : Choice}
    (hc : ∀ x r f, s.stack t = x :: r → c = .call f → ((∃ o, x = .under o) → P (s.held t)) ∧ (D → ∀ q, f ≠ .empty q))
    (h : step s t c = .ok s') : Inv P D s' := by
  have hs := hi.seg t
  cases hst : s.stack t with
  | nil => simp [step, hst] at h
  | cons x r =>
    rw [hst] at hs
    have hc' := hc x r
    simp only [step, hst] at h
    generalize hH : s.held t = H at hs
    cases hs with
    | lock hp hr =>
      subst hH
      rename_i o
      simp only at h
      split at h
      · rename_i hn
        simp at h; subst h
        refine ⟨fun u => ?_, fun o' u => ?_, fun u => ?_⟩
        · by_cases hu : u = t
          · subst hu; simpa [St.goto] using hr
          · simpa [St.goto, upd, hu] using hi.seg u
        · have := hi.hold o' u
          by_cases hu : u = t <;> by_cases ho : o' = o <;> simp [St.goto, upd, hu, ho] <;>
            first
              | (subst hu; simpa using this)
              | (subst ho; rw [hn] at this; simp at this; exact ⟨fun e => absurd e.symm hu, fun e => absurd e this⟩)
              | exact this
        · have h2 := hi.hold o t
          by_cases hu : u = t
          · subst hu; simp [St.goto, hi.nodup]; intro hm; rw [h2.2 hm] at hn; simp at hn
          · simpa [St.goto, upd, hu] using hi.nodup u
      · simp at h
    | unlock hr =>
      rename_i L o
      simp only at h
      split at h
      · rename_i hn
        simp at h; subst h
        have hd := hi.nodup t
        rw [hH] at hd
        have hno : o ∉ L := (List.nodup_cons.1 hd).1
        refine ⟨fun u => ?_, fun o' u => ?_, fun u => ?_⟩
        · by_cases hu : u = t
          · subst hu; simpa [St.goto, hH] using hr
          · simpa [St.goto, upd, hu] using hi.seg u
        · have h1 := hi.hold o' u
          by_cases hu : u = t
          · subst hu
            rw [hH] at h1
            by_cases ho : o' = o
            · subst ho; simp [St.goto, hH, hno]
            · simpa [St.goto, upd, hH, ho] using h1
          · by_cases ho : o' = o
            · subst ho
              rw [hn] at h1
              have : o' ∉ s.held u := fun hm => hu (by simpa using (h1.2 hm).symm)
              simp [St.goto, upd, hu, this]
            · simpa [St.goto, upd, hu, ho] using h1
        · by_cases hu : u = t
          · subst hu; simpa [St.goto, hH] using (List.nodup_cons.1 hd).2
          · simpa [St.goto, upd, hu] using hi.nodup u
      · simp at h
    | acc _ _ hr => subst hH; simp at h; subst h; exact inv_goto hi hr
    | atom _ hr => subst hH; simp at h; subst h; exact inv_goto hi hr
    | peek _ hr => subst hH; simp at h; subst h; exact inv_goto hi hr
    | user hp hr => subst hH; exact inv_user hi hst hr (fun f e => ⟨hp, (hc' f hst e).2⟩) h
    | under _ hr => subst hH; exact inv_user hi hst hr (fun f e => ⟨(hc' f hst e).1 ⟨_, rfl⟩, (hc' f hst e).2⟩) h
    | alt h1 h2 hr =>
      subst hH
      cases c <;> simp at h
      rename_i b
      subst h
      cases b
      · exact inv_goto hi (by simpa using h2.append hr)
      · exact inv_goto hi (by simpa using h1.append hr)
    | loop h1 hr =>
      subst hH
      cases c <;> simp at h
      rename_i b
      subst h
      cases b
      · exact inv_goto hi (by simpa using hr)
      · exact inv_goto hi (by simpa using h1.append (.loop h1 hr))
    | callback hp hr =>
      subst hH
      cases c <;> simp at h
      subst h
      exact inv_goto hi ((seg_cb hp _).append hr)
    | complete hp hr =>
      subst hH
      cases c <;> simp at h
      subst h
      exact inv_goto hi ((seg_transition hp _).append hr)

theorem inv_init : Inv P D St.init ↔ P [] := by
  constructor
  · intro h; have := h.seg 0; simp only [St.init] at this; cases this; assumption
  · intro h; exact ⟨fun _ => .user h .nil, by simp [St.init], by simp [St.init]⟩

theorem permits_call {A : Instr → Fn → Bool} {s : St} {t : Thr} {c : Choice} (h : permits A s t c = true) {x : Instr}
    {r : List Instr} {f : Fn} (h1 : s.stack t = x :: r) (h2 : c = .call f) : A x f = true := by
  subst h2; simpa [permits, h1] using h

theorem inv_all {s : St} (h : Reach Any s) : Inv (fun _ => True) False s := by
  induction h with
  | init => exact inv_init.2 trivial
  | step _ _ hs ih => exact inv_step ih (by intros; simp) hs

theorem inv_noempty {s : St} (h : Reach NoEmpty s) : Inv (fun _ => True) True s := by
  induction h with
  | init => exact inv_init.2 trivial
  | step _ ha hs ih =>
    refine inv_step ih (fun x r f h1 h2 => ⟨fun _ => trivial, fun _ q hq => ?_⟩) hs
    have := permits_call ha h1 h2
    subst hq; simp [NoEmpty] at this

theorem inv_quiet {s : St} (h : Reach Quiet s) : Inv (fun L => L = []) False s := by
  induction h with
  | init => exact inv_init.2 rfl
  | step _ ha hs ih =>
    refine inv_step ih (fun x r f h1 h2 => ⟨?_, by simp⟩) hs
    rintro ⟨o, rfl⟩
    have := permits_call ha h1 h2
    simp [Quiet] at this

/-- Thread `t` alone makes the given choices. -/
def alone (s : St) (t : Thr) (cs : List Choice) : Option St := runs s (cs.map (fun c => (t, c)))

theorem alone_cons {s s' : St} {t : Thr} {c : Choice} {cs : List Choice} (h : step s t c = .ok s') :
    alone s t (c :: cs) = alone s' t cs := by simp [alone, runs, h]

theorem alone_append {s s' : St} {t : Thr} {cs ds : List Choice} (h : alone s t cs = some s') :
    alone s t (cs ++ ds) = alone s' t ds := by
  induction cs generalizing s with
  | nil => simp [alone, runs] at h; subst h; rfl
  | cons c cs ih =>
    simp only [alone, List.map_cons, runs] at h
    split at h
    · rename_i s1 h1
      rw [List.cons_append, alone_cons h1]; exact ih h
    · simp at h

/-- A thread that holds a mutex gets to the end of a segment, or releases the mutex on the way. -/
theorem seg_finish {t : Thr} {o : Obj} {H L' : List Obj} {xs : List Instr}
    (h : Seg (fun L => L = []) D own H xs L') :
    ∀ (s : St) (r : List Instr), s.stack t = xs ++ r → s.held t = H → o ∈ H →
      (∀ p, s.holder p = some t ↔ p ∈ s.held t) → H.Nodup →
      ∃ cs s', alone s t cs = some s' ∧ (s'.holder o = none ∨
        (s'.stack t = r ∧ s'.held t = L' ∧ o ∈ L' ∧ (∀ p, s'.holder p = some t ↔ p ∈ s'.held t) ∧ L'.Nodup)) := by
  induction h with
  | nil =>
    intro s r hs hH ho hh hn
    exact ⟨[], s, rfl, .inr ⟨by simpa using hs, hH, ho, hh, hn⟩⟩
  | lock hp _ _ => intro s r _ _ ho; rw [hp] at ho; simp at ho
  | @unlock L p xs L' _ ih =>
    intro s r hs hH ho hh hn
    have hl : s.holder p = some t := (hh p).2 (by rw [hH]; simp)
    have hno : p ∉ L := (List.nodup_cons.1 hn).1
    have h1 : step s t .go = .ok ({ s with holder := upd s.holder p none, held := upd s.held t ((s.held t).erase p) }.goto t (xs ++ r)) := by
      simp [step, hs, hl]
    by_cases he : o = p
    · subst he
      exact ⟨[.go], _, by rw [alone_cons h1]; rfl, .inl (by simp [St.goto])⟩
    · obtain ⟨cs, s', h2, h3⟩ := ih ({ s with holder := upd s.holder p none, held := upd s.held t ((s.held t).erase p) }.goto t (xs ++ r)) r (by simp [St.goto]) (by simp [St.goto, hH]) (by simpa [he] using ho)
        (by
          intro q
          have := hh q
          by_cases hq : q = p
          · subst hq; simp [St.goto, hH, hno]
          · rw [hH] at this; simpa [St.goto, hH, upd, hq] using this) (List.nodup_cons.1 hn).2
      exact ⟨.go :: cs, s', by rw [alone_cons h1]; exact h2, h3⟩
  | @acc _ _ _ _ xs _ _ _ _ ih =>
    intro s r hs hH ho hh hn
    obtain ⟨cs, s', h2, h3⟩ := ih (s.goto t (xs ++ r)) r (by simp [St.goto]) hH ho hh hn
    exact ⟨.go :: cs, s', by rw [alone_cons (s' := s.goto t (xs ++ r)) (by simp [step, hs])]; exact h2, h3⟩
  | @atom _ _ _ xs _ _ _ ih =>
    intro s r hs hH ho hh hn
    obtain ⟨cs, s', h2, h3⟩ := ih (s.goto t (xs ++ r)) r (by simp [St.goto]) hH ho hh hn
    exact ⟨.go :: cs, s', by rw [alone_cons (s' := s.goto t (xs ++ r)) (by simp [step, hs])]; exact h2, h3⟩
  | @peek _ _ xs _ _ _ ih =>
    intro s r hs hH ho hh hn
    obtain ⟨cs, s', h2, h3⟩ := ih (s.goto t (xs ++ r)) r (by simp [St.goto]) hH ho hh hn
    exact ⟨.go :: cs, s', by rw [alone_cons (s' := s.goto t (xs ++ r)) (by simp [step, hs])]; exact h2, h3⟩
  | user hp _ _ => intro s r _ _ ho; rw [hp] at ho; simp at ho
  | @under _ _ xs _ _ _ ih =>
    intro s r hs hH ho hh hn
    obtain ⟨cs, s', h2, h3⟩ := ih (s.goto t (xs ++ r)) r (by simp [St.goto]) hH ho hh hn
    exact ⟨.ret :: cs, s', by rw [alone_cons (s' := s.goto t (xs ++ r)) (by simp [step, hs, St.runUser])]; exact h2, h3⟩
  | @alt L xs ys zs L1 L' _ _ _ ih1 _ ih =>
    intro s r hs hH ho hh hn
    obtain ⟨cs, s', h2, h3⟩ := ih1 (s.goto t (xs ++ (zs ++ r))) (zs ++ r) (by simp [St.goto]) hH ho hh hn
    have h1 : step s t (.pick true) = .ok (s.goto t (xs ++ (zs ++ r))) := by simp [step, hs]
    rcases h3 with h3 | ⟨a, b, c, d, e⟩
    · exact ⟨.pick true :: cs, s', by rw [alone_cons h1]; exact h2, .inl h3⟩
    · obtain ⟨ds, s2, h4, h5⟩ := ih s' r a b c d e
      exact ⟨.pick true :: (cs ++ ds), s2, by rw [alone_cons h1, alone_append h2]; exact h4, h5⟩
  | @loop L xs zs L' _ _ _ ih =>
    intro s r hs hH ho hh hn
    obtain ⟨cs, s', h2, h3⟩ := ih (s.goto t (zs ++ r)) r (by simp [St.goto]) hH ho hh hn
    exact ⟨.pick false :: cs, s', by rw [alone_cons (s' := s.goto t (zs ++ r)) (by simp [step, hs])]; exact h2, h3⟩
  | callback hp _ _ => intro s r _ _ ho; rw [hp] at ho; simp at ho
  | complete hp _ _ => intro s r _ _ ho; rw [hp] at ho; simp at ho

/-- In the general case a thread can always move, unless it waits for a mutex or has nothing to do. -/
theorem can_move {s : St} (hi : Inv P D s) {t : Thr} {x : Instr} {r : List Instr} (hst : s.stack t = x :: r)
    (hx : ∀ o, x = .lock o → s.holder o = none) : ∃ c s', step s t c = .ok s' := by
  cases x with
  | lock o => exact ⟨.go, by simp [step, hst, hx o rfl]⟩
  | unlock o =>
    have hs := hi.seg t
    rw [hst] at hs
    generalize hH : s.held t = H at hs
    cases hs
    exact ⟨.go, by simp [step, hst, (hi.hold o t).2 (by rw [hH]; simp)]⟩
  | acc => exact ⟨.go, by simp [step, hst]⟩
  | atom => exact ⟨.go, by simp [step, hst]⟩
  | user => exact ⟨.ret, by simp [step, hst, St.runUser]⟩
  | under => exact ⟨.ret, by simp [step, hst, St.runUser]⟩
  | alt => exact ⟨.pick true, by simp [step, hst]⟩
  | loop => exact ⟨.pick false, by simp [step, hst]⟩
  | callback => exact ⟨.cb .functor, by simp [step, hst]⟩
  | complete => exact ⟨.token none, by simp [step, hst]⟩

theorem runUser_ok {s s' : St} {t : Thr} {x : Instr} {r : List Instr} {c : Choice} (h : s.runUser t x r c = .ok s') :
    s'.holder = s.holder ∧ ∃ ys, s'.stack = upd s.stack t ys := by
  cases c with
  | ret => simp only [St.runUser, Res.ok.injEq] at h; subst h; exact ⟨rfl, _, rfl⟩
  | call f =>
    simp only [St.runUser] at h
    split at h
    · simp only [Res.ok.injEq] at h; subst h
      cases f <;> exact ⟨rfl, _, rfl⟩
    · simp at h
  | _ => simp [St.runUser] at h

/-- Finitely many mutexes are locked. -/
theorem held_finite {A : Instr → Fn → Bool} {s : St} (h : Reach A s) :
    ∃ os : List Obj, ∀ o, s.holder o ≠ none → o ∈ os := by
  induction h with
  | init => exact ⟨[], by simp [St.init]⟩
  | @step s s' t c _ _ hs ih =>
    obtain ⟨os, ho⟩ := ih
    cases hst : s.stack t with
    | nil => simp [step, hst] at hs
    | cons x r =>
      cases x with
      | lock p =>
        refine ⟨p :: os, fun o h => ?_⟩
        simp only [step, hst] at hs
        split at hs
        · simp at hs; subst hs
          by_cases e : o = p
          · simp [e]
          · have : s.holder o ≠ none := by simpa [St.goto, upd, e] using h
            simp [ho o this]
        · simp at hs
      | unlock p =>
        refine ⟨os, fun o h => ?_⟩
        simp only [step, hst] at hs
        split at hs
        · simp at hs; subst hs
          by_cases e : o = p
          · simp [St.goto, e] at h
          · exact ho o (by simpa [St.goto, upd, e] using h)
        · simp at hs
      | user =>
        refine ⟨os, fun o h => ho o ?_⟩
        simp only [step, hst] at hs
        rw [← (runUser_ok hs).1]; exact h
      | under =>
        refine ⟨os, fun o h => ho o ?_⟩
        simp only [step, hst] at hs
        rw [← (runUser_ok hs).1]; exact h
      | acc => simp [step, hst] at hs; subst hs; exact ⟨os, ho⟩
      | atom => simp [step, hst] at hs; subst hs; exact ⟨os, ho⟩
      | alt => simp only [step, hst] at hs; cases c <;> simp at hs; subst hs; exact ⟨os, ho⟩
      | loop => simp only [step, hst] at hs; cases c <;> simp at hs; subst hs; exact ⟨os, ho⟩
      | callback => simp only [step, hst] at hs; cases c <;> simp at hs; subst hs; exact ⟨os, ho⟩
      | complete => simp only [step, hst] at hs; cases c <;> simp at hs; subst hs; exact ⟨os, ho⟩

theorem Reach.of_runs {A : Instr → Fn → Bool} {s s' : St} {l : List (Thr × Choice)} (h : Reach A s)
    (ho : obeys A s l = true) (hr : runs s l = some s') : Reach A s' := by
  induction l generalizing s with
  | nil => simp [runs] at hr; subst hr; exact h
  | cons a l ih =>
    simp only [runs] at hr
    simp only [obeys, Bool.and_eq_true] at ho
    split at hr
    · rename_i s1 h1
      rw [h1] at ho
      exact ih (.step h ho.1 h1) ho.2 hr
    · simp at hr

/-- A thread that requests a mutex that it holds does so forever. -/
theorem stuck_of {s : St} {t : Thr} {o : Obj} {r : List Instr} (h1 : s.stack t = .lock o :: r)
    (h2 : s.holder o = some t) {l : List (Thr × Choice)} {s' : St} (hr : runs s l = some s') :
    s'.stack t = .lock o :: r ∧ s'.holder o = some t := by
  induction l generalizing s with
  | nil => simp [runs] at hr; subst hr; exact ⟨h1, h2⟩
  | cons a l ih =>
    obtain ⟨u, c⟩ := a
    simp only [runs] at hr
    split at hr
    · rename_i s1 hs
      refine ih ?_ ?_ hr <;> clear ih hr
      all_goals
        by_cases hu : u = t
        · subst hu; simp [step, h1, h2] at hs
        cases hst : s.stack u with
        | nil => simp [step, hst] at hs
        | cons x r' =>
          have hut : t ≠ u := fun e => hu e.symm
          cases x with
          | lock p =>
            simp only [step, hst] at hs
            split at hs
            · rename_i hn
              have hp : o ≠ p := by rintro rfl; rw [hn] at h2; simp at h2
              simp at hs; subst hs
              simp [St.goto, upd, hut, hp, h1, h2]
            · simp at hs
          | unlock p =>
            simp only [step, hst] at hs
            split at hs
            · rename_i hn
              have hp : o ≠ p := by rintro rfl; rw [hn] at h2; simp at h2; exact hu h2
              simp at hs; subst hs
              simp [St.goto, upd, hut, hp, h1, h2]
            · simp at hs
          | user =>
            simp only [step, hst] at hs
            obtain ⟨e1, ys, e2⟩ := runUser_ok hs
            simp [e1, e2, upd, hut, h1, h2]
          | under =>
            simp only [step, hst] at hs
            obtain ⟨e1, ys, e2⟩ := runUser_ok hs
            simp [e1, e2, upd, hut, h1, h2]
          | acc => simp [step, hst] at hs; subst hs; simp [St.goto, upd, hut, h1, h2]
          | atom => simp [step, hst] at hs; subst hs; simp [St.goto, upd, hut, h1, h2]
          | alt => simp only [step, hst] at hs; cases c <;> simp at hs; subst hs; simp [St.goto, upd, hut, h1, h2]
          | loop => simp only [step, hst] at hs; cases c <;> simp at hs; subst hs; simp [St.goto, upd, hut, h1, h2]
          | callback => simp only [step, hst] at hs; cases c <;> simp at hs; subst hs; simp [St.goto, upd, hut, h1, h2]
          | complete => simp only [step, hst] at hs; cases c <;> simp at hs; subst hs; simp [St.goto, upd, hut, h1, h2]
    · simp at hr

/-- A maximal element. -/
theorem exists_max (rank : Obj → Nat) (Q : Obj → Prop) (os : List Obj) (hq : ∀ o, Q o → o ∈ os) (h : ∃ o, Q o) :
    ∃ o, Q o ∧ ∀ p, Q p → rank p ≤ rank o := by
  have hb : ∃ n, ∀ o, Q o → rank o ≤ n := by
    clear h
    have : ∀ os : List Obj, ∃ n, ∀ o ∈ os, rank o ≤ n := by
      intro os
      induction os with
      | nil => exact ⟨0, by simp⟩
      | cons a l ih =>
        obtain ⟨n, hn⟩ := ih
        refine ⟨rank a + n, ?_⟩
        intro o ho
        rcases List.mem_cons.1 ho with rfl | ho
        · omega
        · have := hn o ho; omega
    obtain ⟨n, hn⟩ := this os
    exact ⟨n, fun o ho => hn o (hq o ho)⟩
  obtain ⟨n, hn⟩ := hb
  induction n with
  | zero => obtain ⟨o, ho⟩ := h; exact ⟨o, ho, fun p hp => by have := hn p hp; omega⟩
  | succ n ih =>
    by_cases he : ∃ o, Q o ∧ rank o = n + 1
    · obtain ⟨o, ho, e⟩ := he; exact ⟨o, ho, fun p hp => by have := hn p hp; omega⟩
    · exact ih fun o ho => by
        have := hn o ho
        have : rank o ≠ n + 1 := fun e => he ⟨o, ho, e⟩
        omega

end Verif.Locks
