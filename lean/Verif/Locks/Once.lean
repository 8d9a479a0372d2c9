import Verif.Locks.Sections

/-! # Exposed accesses in critical sections (lemmas for `Verif.Locks.SectionProps`) -/

namespace Verif.Locks

/-- Whether a thread is in a section, and has made an exposed access in it. -/
abbrev Ghost := Option (Obj × Bool)

/-- To have made no access is as good as to have made one. -/
def le (g g' : Ghost) : Prop := g = g' ∨ ∃ o, g = some (o, false) ∧ g' = some (o, true)

theorem le.rfl {g : Ghost} : le g g := .inl (Eq.refl g)

theorem le.trans {g g' g'' : Ghost} (h : le g g') (h' : le g' g'') : le g g'' := by
  rcases h with rfl | ⟨o, rfl, rfl⟩
  · exact h'
  · rcases h' with rfl | ⟨_, h, _⟩
    · exact .inr ⟨o, _root_.rfl, _root_.rfl⟩
    · simp at h

/-- `One g xs g'`: starting from `g`, executing `xs` leads to `g'`; there is at most one exposed access in each section. -/
inductive One : Ghost → List Instr → Ghost → Prop where
  | nil {g g'} : le g g' → One g [] g'
  | lock {o r g'} : One (some (o, false)) r g' → One none (.lock o :: r) g'
  | unlock {o b r g'} : One none r g' → One (some (o, b)) (.unlock o :: r) g'
  | acc {g o f w r g'} : One g r g' → One g (.acc o f w :: r) g'
  | out {a w r g'} : One none r g' → One none (.atom a w :: r) g'
  | free {o b a w r g'} : exposed o (.atom a w) = false → One (some (o, b)) r g' → One (some (o, b)) (.atom a w :: r) g'
  | use {o a w r g'} : One (some (o, true)) r g' → One (some (o, false)) (.atom a w :: r) g'
  | user {r g'} : One none r g' → One none (.user :: r) g'
  | under {o p r g'} : One (some (o, true)) r g' → One (some (o, false)) (.under p :: r) g'
  | alt {g xs ys r g1 g'} : One g xs g1 → One g ys g1 → One g1 r g' → One g (.alt xs ys :: r) g'
  | loop {g g1 xs r g'} : le g g1 → One g1 xs g1 → One g1 r g' → One g (.loop xs :: r) g'
  | callback {r g'} : One none r g' → One none (.callback :: r) g'
  | complete {r g'} : One none r g' → One none (.complete :: r) g'

theorem One.mono {g g1 g2 : Ghost} {xs : List Instr} (h : One g1 xs g2) : le g g1 → One g xs g2 := by
  induction h generalizing g with
  | nil h => intro hl; exact .nil (hl.trans h)
  | lock h _ => rintro (rfl | ⟨_, _, h'⟩) <;> first | exact .lock h | simp at h'
  | unlock h _ => rintro (rfl | ⟨o, rfl, h'⟩) <;> first | exact .unlock h | (simp at h'; obtain ⟨rfl, rfl⟩ := h'; exact .unlock h)
  | acc _ ih => intro hl; exact .acc (ih hl)
  | out h _ => rintro (rfl | ⟨_, _, h'⟩) <;> first | exact .out h | simp at h'
  | free he h ih =>
    rintro (rfl | ⟨o, rfl, h'⟩)
    · exact .free he h
    · simp at h'; obtain ⟨rfl, rfl⟩ := h'; exact .free he (ih (.inr ⟨_, rfl, rfl⟩))
  | use h _ => rintro (rfl | ⟨o, rfl, h'⟩) <;> first | exact .use h | simp at h'
  | user h _ => rintro (rfl | ⟨_, _, h'⟩) <;> first | exact .user h | simp at h'
  | under h _ => rintro (rfl | ⟨o, rfl, h'⟩) <;> first | exact .under h | simp at h'
  | alt _ _ h i1 i2 _ => intro hl; exact .alt (i1 hl) (i2 hl) h
  | loop hg h1 h2 _ _ => intro hl; exact .loop (hl.trans hg) h1 h2
  | callback h _ => rintro (rfl | ⟨_, _, h'⟩) <;> first | exact .callback h | simp at h'
  | complete h _ => rintro (rfl | ⟨_, _, h'⟩) <;> first | exact .complete h | simp at h'

theorem One.append {g g1 g2 : Ghost} {xs ys : List Instr} (h : One g xs g1) (h2 : One g1 ys g2) : One g (xs ++ ys) g2 := by
  induction h with
  | nil h => exact h2.mono h
  | lock _ ih => exact .lock (ih h2)
  | unlock _ ih => exact .unlock (ih h2)
  | acc _ ih => exact .acc (ih h2)
  | out _ ih => exact .out (ih h2)
  | free he _ ih => exact .free he (ih h2)
  | use _ ih => exact .use (ih h2)
  | user _ ih => exact .user (ih h2)
  | under _ ih => exact .under (ih h2)
  | alt a b _ _ _ ih => exact .alt a b (ih h2)
  | loop a b _ _ ih => exact .loop a b (ih h2)
  | callback _ ih => exact .callback (ih h2)
  | complete _ ih => exact .complete (ih h2)

theorem One.done {g : Ghost} : One g [] g := .nil .rfl

/-- Build it instruction by instruction. -/
macro "one" : tactic => `(tactic|
  repeat first
    | exact One.nil (.inl rfl)
    | exact One.nil (.inr ⟨_, rfl, rfl⟩)
    | (refine One.lock ?_)
    | (refine One.unlock ?_)
    | (refine One.acc ?_)
    | (refine One.out ?_)
    | (refine One.use ?_)
    | (refine One.user ?_)
    | (refine One.under ?_)
    | (refine One.callback ?_)
    | (refine One.complete ?_)
    | (refine One.loop .rfl ?_ ?_))

theorem one_transition (e : Option Obj) : One none (transition e) none := by
  cases e with
  | none => exact .out (.alt .done (.user .done) .done)
  | some e =>
    refine .out (.alt (g1 := none) .done (.alt (g1 := none) (.lock (.acc (.alt (g1 := none) ?_ ?_ .done))) ?_ .done) .done) <;> one

theorem one_tryCancel (o : Obj) (f : Fld) : One none (tryCancel o f) none := by
  refine .lock (.alt (g1 := some (o, true)) ?_ (.alt (g1 := some (o, true)) ?_ ?_ .done)
    (.alt (g1 := some (o, true)) ?_ .done (.unlock .done))) <;> one

theorem one_listen (o : Obj) (f : Fld) (e : Option Obj) : One none (listen o f e) none := by
  cases e with
  | none => exact one_transition none
  | some e =>
    exact .lock (.acc (.alt (g1 := none) (.acc (.unlock (one_transition _)))
      (.unlock ((one_tryCancel o f).append (one_transition _))) .done))

theorem one_forceSet (e : Obj) {g : List Instr} (hg : One none g none) : One none (forceSet e g) none :=
  .lock (.acc (.alt (g1 := none) (.acc (.unlock .done)) (.unlock hg) .done))

theorem one_tryReset (e : Obj) {g h : List Instr} (hg : One none g none) (hh : One none h none) :
    One none (tryReset e g h) none :=
  .lock (.acc (.alt (g1 := none) (.acc (.unlock hg)) (.unlock hh) .done))

theorem one_resetAll (es : List Obj) : One none (resetAll es) none := by
  induction es with
  | nil => exact .done
  | cons e es ih => exact (one_tryReset e .done .done).append ih

theorem one_suspend (es : List Obj) : One none (suspendTransition es) none :=
  .out (.alt .done (one_resetAll es) (.out (.alt (.user .done) .done .done)))

theorem one_setAll (all es : List Obj) : One none (setAll all es) none := by
  induction es with
  | nil => exact .done
  | cons e es ih => exact (one_forceSet e (one_suspend all)).append ih

theorem one_handler : One none cancelHandler none := .user (.out (.alt (.user .done) .done .done))

theorem one_cb (k : Cb) : One none k.body none := by
  cases k with
  | functor => exact .user .done
  | resolver o b e => exact (one_tryCancel o _).append (one_transition _)
  | suspend es => exact one_suspend es
  | withCancel => exact one_handler

theorem one_raise (v : Obj) : One none (recurringRaise v) none := by
  unfold recurringRaise; one

theorem one_detach (m : Obj) : One (some (m, false)) (detachStep m) none :=
  .acc (.use (.alt (g1 := none) (.acc (.unlock (.user .done))) (.unlock .done) .done))

theorem one_waitIf (v : Obj) {cond : List Instr} (hc : One (some (v, false)) cond (some (v, true))) (ct : Option Obj) :
    One none (waitIf v cond ct) none :=
  .lock (hc.append (.alt (g1 := none) (.unlock (.user .done)) (.acc (.unlock (one_listen v .list ct))) .done))

/-- All functions except the slow paths of `lock` and `lock_shared`. -/
theorem one_body (f : Fn) (h1 : ∀ m, f ≠ .lockStart m) (h2 : ∀ m, f ≠ .lockSharedStart m) : One none (body f) none := by
  cases f with
  | lockStart m => exact absurd rfl (h1 m)
  | lockSharedStart m => exact absurd rfl (h2 m)
  | empty q => exact .acc .done
  | isRequested e => simp only [body]; one
  | callbackCtor e => refine .lock (.acc (.alt (g1 := some (e, true)) ?_ ?_ (.unlock .done))) <;> one
  | callbackDtor e => exact one_tryReset e .done .done
  | callbackUnbind e => exact one_tryReset e .done .done
  | observerTrySet e => exact one_forceSet e .done
  | observerForceSet e => exact one_forceSet e (.user .done)
  | observerTryReset e => exact one_tryReset e .done .done
  | cancel e => simp only [body]; one
  | reset e => simp only [body]; one
  | suspendStart es => exact (one_setAll es es).append (one_suspend es)
  | withCancelStart e => exact (one_forceSet e one_handler).append (.user .done)
  | withCancelValue e => exact one_tryReset e (.user .done) (.out (.alt (.user .done) .done .done))
  | emplace q => refine .lock (.acc (.alt (g1 := none) ?_ ?_ .done)) <;> one
  | getStart q ct =>
    refine .lock (.acc (.alt (g1 := none) ?_ (.acc (.unlock (one_listen q .list ct))) .done))
    one
  | maybeGet q => refine .lock (.acc (.alt (g1 := none) ?_ ?_ .done)) <;> one
  | raise v => exact one_raise v
  | waitIfStart v ct => exact one_waitIf v (.under .done) ct
  | waitStart v ct => exact one_waitIf v (.nil (.inr ⟨v, rfl, rfl⟩)) ct
  | sequencedRaise v => exact .out (one_raise v)
  | nextSequence v => exact .out .done
  | sequencedWaitStart v ct => exact one_waitIf v (.use .done) ct
  | barrierWaitStart b v ct => exact one_waitIf v (.use .done) ct
  | done w =>
    refine .out (.loop .rfl (.out .done) (.alt (g1 := none) .done (.lock (.use (.alt (g1 := none) ?_ ?_ .done))) .done)) <;> one
  | add w => exact .out .done
  | groupWaitStart w ct =>
    exact .lock (.use (.alt (g1 := none) (.unlock (.user .done)) (.acc (.unlock (one_listen w .list ct))) .done))
  | arrive b v =>
    refine .lock (.free (by simp [exposed]) (.acc (.acc (.alt (g1 := some (b, true)) ?_ ?_ (.unlock (.alt (one_raise v) .done .done))))))
      <;> one
  | setValue p => simp only [body]; one
  | futureGetStart p ct =>
    exact .lock (.acc (.alt (g1 := none) (.acc (.unlock (one_listen p .list ct))) (.unlock (.user .done)) .done))
  | postStart m => refine .lock (.acc (.acc (.alt (g1 := none) ?_ ?_ .done))) <;> one
  | ack m => refine .out (.alt (g1 := none) ?_ .done .done); one
  | attach m => simp only [body]; one
  | detach m =>
    refine .lock (.acc (.acc (.alt (g1 := none) (.unlock .done) ?_ .done)))
    exact (one_detach m).append (.loop .rfl (.lock (one_detach m)) .done)
  | pollStart m ct =>
    exact .lock (.acc (.alt (g1 := none) (.acc (.unlock (.user .done))) (.acc (.unlock (one_listen m .polls ct))) .done))
  | tryLock m => exact .out .done
  | tryLockShared m => exact .out (.loop .rfl (.out .done) .done)
  | unlock m =>
    refine .out (.alt (g1 := none) (.out .done) .done (.alt (g1 := none) .done (.lock (.acc (.loop .rfl (.acc .done)
      (.alt (g1 := some (m, true)) (.use .done) (.nil (.inr ⟨m, rfl, rfl⟩)) ?_)))) .done))
    one
  | unlockShared m =>
    refine .out (.loop .rfl (.out .done) (.alt (g1 := none) .done ?_ .done))
    one

/-- How many exposed accesses a thread may still make. -/
def budget : Ghost → Nat
  | some (_, false) => 1
  | _ => 0

theorem One.next {g : Ghost} {x : Instr} {c : Choice} {r ys : List Instr} (h : One g (x :: r) none) (hn : next x c r = some ys)
    (hc : ∀ f, c = .call f → NoLock x f = true) : ∃ g', One g' ys none ∧
      (∀ o, x = .lock o → g = none ∧ g' = some (o, false)) ∧
      (∀ o b, g = some (o, b) → x ≠ .unlock o →
        ∃ b', g' = some (o, b') ∧ (if exposed o x then 1 else 0) + budget g' ≤ budget g) := by
  have hb : ∀ f, c = .call f → One none (body f) none := by
    intro f hf
    have := hc f hf
    refine one_body f ?_ ?_ <;> (rintro m rfl; simp [NoLock] at this)
  cases h with
  | lock h => simp [Locks.next] at hn; subst hn; exact ⟨_, h, by simp, by simp⟩
  | unlock h => simp [Locks.next] at hn; subst hn; exact ⟨_, h, by simp, by simp⟩
  | acc h => simp [Locks.next] at hn; subst hn; exact ⟨_, h, by simp, fun o b e _ => ⟨b, e, by simp [exposed]⟩⟩
  | out h => simp [Locks.next] at hn; subst hn; exact ⟨_, h, by simp, by simp⟩
  | free he h =>
    simp [Locks.next] at hn; subst hn
    refine ⟨_, h, by simp, fun o b e _ => ?_⟩
    simp at e; obtain ⟨rfl, rfl⟩ := e
    exact ⟨_, rfl, by simp [he]⟩
  | use h =>
    simp [Locks.next] at hn; subst hn
    refine ⟨_, h, by simp, fun o b e _ => ?_⟩
    simp at e; obtain ⟨rfl, rfl⟩ := e
    exact ⟨_, rfl, by simp [budget]; split <;> omega⟩
  | user h =>
    cases c <;> simp [Locks.next] at hn
    · subst hn; exact ⟨_, (hb _ rfl).append (.user h), by simp, by simp⟩
    · subst hn; exact ⟨_, h, by simp, by simp⟩
  | under h =>
    cases c <;> simp [Locks.next] at hn
    · rename_i f; have := hc f rfl; simp [NoLock, Plain, Quiet] at this
    · subst hn
      refine ⟨_, h, by simp, fun o b e _ => ?_⟩
      simp at e; obtain ⟨rfl, rfl⟩ := e
      exact ⟨_, rfl, by simp [budget]; split <;> omega⟩
  | alt h1 h2 h =>
    cases c <;> simp [Locks.next] at hn
    rename_i b
    subst hn
    refine ⟨g, ?_, by simp, fun o b e _ => ⟨b, e, by simp [exposed]⟩⟩
    cases b
    · simpa using h2.append h
    · simpa using h1.append h
  | loop hl h1 h =>
    cases c <;> simp [Locks.next] at hn
    rename_i b
    subst hn
    refine ⟨g, ?_, by simp, fun o b e _ => ⟨b, e, by simp [exposed]⟩⟩
    cases b
    · simpa using h.mono hl
    · simpa using (h1.mono hl).append (.loop .rfl h1 h)
  | callback h =>
    cases c <;> simp [Locks.next] at hn
    subst hn; exact ⟨_, (one_cb _).append h, by simp, by simp⟩
  | complete h =>
    cases c <;> simp [Locks.next] at hn
    subst hn; exact ⟨_, (one_transition _).append h, by simp, by simp⟩

theorem One.step {s s1 : St} {e : Ev} {r : List Instr} {g : Ghost} (h1 : s.stack e.thr = e.ins :: r)
    (h2 : permits NoLock s e.thr e.ch = true) (h3 : step s e.thr e.ch = .ok s1) (h : One g (s.stack e.thr) none) :
    (∀ t, t ≠ e.thr → s1.stack t = s.stack t) ∧ ∃ g', One g' (s1.stack e.thr) none ∧
      (∀ o, e.ins = .lock o → g' = some (o, false)) ∧
      (∀ o b, g = some (o, b) → e.ins ≠ .unlock o →
        ∃ b', g' = some (o, b') ∧ (if exposed o e.ins then 1 else 0) + budget g' ≤ budget g) := by
  rw [h1] at h
  obtain ⟨ys, hn, _, rfl⟩ := (step_iff h1).1 h3
  obtain ⟨g', a, b, c⟩ := h.next hn (fun f hf => permits_call h2 h1 hf)
  refine ⟨fun t ht => by simp [St.goto, upd_ne' ht, eff_stack], g', by simpa [St.goto] using a, fun o ho => (b o ho).2, c⟩

theorem Trace.one {s s' : St} {es : List Ev} (h : Trace NoLock s es s') (hi : ∀ t, ∃ g, One g (s.stack t) none) :
    ∀ t, ∃ g, One g (s'.stack t) none := by
  induction h with
  | nil => exact hi
  | @cons s s1 _ e es r h1 h2 h3 _ ih =>
    refine ih fun t => ?_
    obtain ⟨g, hg⟩ := hi e.thr
    obtain ⟨a, g', b, _⟩ := One.step h1 h2 h3 hg
    by_cases ht : t = e.thr
    · subst ht; exact ⟨g', b⟩
    · rw [a t ht]; exact hi t

theorem Trace.budget {s s' : St} {m : List Ev} (h : Trace NoLock s m s') {t : Thr} {o : Obj}
    (hm : ∀ e ∈ m, e.thr = t → e.ins ≠ .unlock o) : ∀ b, One (some (o, b)) (s.stack t) none →
    (m.filter (fun e => e.thr = t && exposed o e.ins)).length ≤ Locks.budget (some (o, b)) := by
  induction h with
  | nil => intro b _; simp
  | @cons s s1 _ e es r h1 h2 h3 _ ih =>
    intro b hb
    have ih := ih (fun e' he' => hm e' (by simp [he']))
    by_cases ht : e.thr = t
    · subst ht
      obtain ⟨_, g', c, _, d⟩ := One.step h1 h2 h3 hb
      obtain ⟨b', rfl, hle⟩ := d o b rfl (hm e (by simp) rfl)
      have := ih b' c
      rw [List.filter_cons]
      by_cases he : exposed o e.ins = true
      · simp only [he] at hle ⊢
        simp only [decide_true, Bool.and_self, if_true, List.length_cons] at hle ⊢
        omega
      · simp only [he] at hle ⊢
        simp only [Bool.and_false, Bool.false_eq_true, if_false] at hle ⊢
        omega
    · obtain ⟨ys, hn, _, rfl⟩ := (step_iff h1).1 h3
      have hst : ((eff e.ins e.ch e.thr s).goto e.thr ys).stack t = s.stack t := by
        simp [St.goto, upd_ne' (Ne.symm ht), eff_stack]
      rw [List.filter_cons]
      simp only [ht, decide_false, Bool.false_and, Bool.false_eq_true, if_false]
      exact ih b (by rw [hst]; exact hb)

/-- Without the slow paths of `lock` and `lock_shared`, there is at most one exposed access in each section. -/
theorem section_once {s' : St} {es m : List Ev} {t : Thr} {o : Obj} (h : Trace NoLock .init es s') (hs : Section es t o m) :
    AtMostOne t o m := by
  obtain ⟨a, b, c, d, rfl, hm⟩ := hs
  obtain ⟨s1, h1, h2⟩ := h.split
  cases h2 with
  | @cons _ s2 _ _ _ r x y z h3 =>
    obtain ⟨s3, h4, _⟩ := h3.split
    obtain ⟨g, hg⟩ := h1.one (fun _ => ⟨none, .user .done⟩) t
    obtain ⟨_, g', e, f, _⟩ := One.step x y z hg
    rw [f o rfl] at e
    have := h4.budget hm false e
    simpa [AtMostOne, budget] using this

end Verif.Locks
