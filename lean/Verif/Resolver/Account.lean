import Verif.Resolver.Facts
import Verif.Induct

/-! # Counting calls, pending instructions and events of a data structure -/

namespace Verif.Resolver

variable {S : DS}

/-- Weight of a pending instruction. -/
def wI (f : S.I → Nat) : Instr S → Nat
  | .ds x => f x
  | _ => 0

/-- Weight of an event. -/
def wEv (g : S.E → Nat) : Ev S → Nat
  | .ds v => g v
  | _ => 0

/-- Weight of a history. -/
def wLog (g : S.E → Nat) (log : List (Ev S)) : Nat := (log.map (wEv g)).sum

/-- Weight of the calls in an execution. -/
def wCall (f : S.I → Nat) : Lbl (mach S) → Nat
  | .env (.call x) => f x
  | _ => 0

@[simp] theorem wLog_append (g : S.E → Nat) (a b : List (Ev S)) : wLog g (a ++ b) = wLog g a + wLog g b := by
  simp [wLog]

@[simp] theorem wLog_ds (g : S.E → Nat) (es : List S.E) : wLog g (es.map Ev.ds) = (es.map g).sum := by
  simp only [wLog, List.map_map]; rfl

/-- The events of a step balance the instructions: `g` counts what is finished, `u` counts what is begun other than by
calls. -/
structure Balanced (S : DS) (f : S.I → Nat) (g u : S.E → Nat) : Prop where
  start : ∀ {d i b d' r es}, S.start d i b = some (d', r, es) → (es.map g).sum = (es.map u).sum
  tryCancel : ∀ {d i d' r es}, S.tryCancel d i = some (d', r, es) → (es.map g).sum = (es.map u).sum
  exec : ∀ {d x b d' ps es}, S.exec d x b = some (d', ps, es) →
    wl (wI f) (ps.map follow) + (es.map g).sum = f x + (es.map u).sum

variable {f : S.I → Nat} {g u : S.E → Nat}

theorem wl_tryCancel (l : List OpId) : wl (wI f) (l.map (fun i => Instr.tryCancel i false)) = 0 := by
  apply wl_zero; intro x hx; obtain ⟨i, -, rfl⟩ := List.mem_map.1 hx; rfl

theorem env_account {s s' : RSt S} {acts : List (List (Instr S))} {a : Act S} {p : List (Instr S)}
    (he : env s acts a = some (s', p)) :
    wl (wI f) p + wLog g s'.log + wLog u s.log = wLog g s.log + wLog u s'.log + wCall f (.env a) := by
  have hb : ∀ (k : S.E → Nat) i ct p, wLog k [Ev.begin i ct p] = 0 := fun _ _ _ _ => rfl
  have hr : ∀ (k : S.E → Nat) e, wLog k [Ev.reset (S := S) e] = 0 := fun _ _ => rfl
  cases a with
  | newOp i ct q =>
    simp only [env] at he
    split at he
    · simp at he
    · split at he <;> simp at he
      obtain ⟨rfl, rfl⟩ := he
      simp only [wLog_append, hb, wl_cons, wl_nil, wI, wCall]; omega
  | cancel e => simp only [env, Option.some.injEq, Prod.mk.injEq] at he; obtain ⟨rfl, rfl⟩ := he; simp [wI, wCall]
  | call x =>
    simp only [env] at he
    split at he <;> simp at he
    obtain ⟨rfl, rfl⟩ := he
    simp only [wl_cons, wl_nil, wI, wCall]; omega
  | reset e =>
    simp only [env] at he
    split at he <;> simp at he
    obtain ⟨rfl, rfl⟩ := he
    simp only [wLog_append, hr, wl_nil, wCall]; omega

theorem exec_account (B : Balanced S f g u) {s s' : RSt S} {x : Instr S} {b : Bool} {p : List (Instr S)}
    (he : exec s x b = .ok s' p) :
    wl (wI f) p + wLog g s'.log + wLog u s.log = wI f x + wLog g s.log + wLog u s'.log := by
  have hd : ∀ (k : S.E → Nat) i v, wLog k [Ev.done (S := S) i v] = 0 := fun _ _ _ => rfl
  have hc : ∀ (k : S.E → Nat) e, wLog k [Ev.cancel (S := S) e] = 0 := fun _ _ => rfl
  cases x with
  | start i =>
    simp only [exec] at he
    split at he <;> simp at he <;> obtain ⟨rfl, rfl⟩ := he
    all_goals
      have := B.start (by assumption)
      simp only [wLog_append, wLog_ds, wl_cons, wl_nil, wI]; omega
  | tryCancel i l =>
    simp only [exec] at he
    split at he <;> simp at he
    obtain ⟨rfl, rfl⟩ := he
    have := B.tryCancel (by assumption)
    simp only [wLog_append, wLog_ds, wl_cons, wl_nil, wI]; omega
  | ds y =>
    simp only [exec] at he
    split at he <;> simp at he
    obtain ⟨rfl, rfl⟩ := he
    have := B.exec (by assumption)
    simp only [wLog_append, wLog_ds, wI]; omega
  | cancel e =>
    simp only [exec, Out.ok.injEq] at he
    obtain ⟨rfl, rfl⟩ := he
    simp only [wLog_append, hc, wl_tryCancel, wI]; omega
  | setFast i v => simp only [exec, Out.ok.injEq] at he; obtain ⟨rfl, rfl⟩ := he; simp only [wLog_append, hd, wl_nil, wI]; omega
  | resume i => simp only [exec, Out.ok.injEq] at he; obtain ⟨rfl, rfl⟩ := he; simp only [wLog_append, hd, wl_nil, wI]; omega
  | complete i => simp only [exec, Out.ok.injEq] at he; obtain ⟨rfl, rfl⟩ := he; simp only [wl_cons, wl_nil, wI]
  | listen i => simp only [exec] at he; split at he <;> simp at he <;> obtain ⟨rfl, rfl⟩ := he <;> simp only [wl_cons, wl_nil, wI] <;> omega
  | register i => simp only [exec] at he; (repeat' split at he) <;> simp at he <;> obtain ⟨rfl, rfl⟩ := he <;> simp only [wl_cons, wl_nil, wI] <;> omega
  | transition i nb => simp only [exec] at he; (repeat' split at he) <;> simp at he <;> obtain ⟨rfl, rfl⟩ := he <;> simp only [wl_cons, wl_nil, wI] <;> omega
  | unregister i => simp only [exec] at he; (repeat' split at he) <;> simp at he <;> obtain ⟨rfl, rfl⟩ := he <;> simp only [wl_cons, wl_nil, wI] <;> omega

theorem step_account (B : Balanced S f g u) {c c' : Conf (mach S)} {l : Lbl (mach S)} (h : (mach S).step c l = some c') :
    ws (wI f) c'.acts + wLog g c'.sh.log + wLog u c.sh.log =
      ws (wI f) c.acts + wLog g c.sh.log + wLog u c'.sh.log + wCall f l := by
  cases l with
  | env a =>
    simp only [Mach.step] at h
    split at h
    · simp at h
    · split at h <;> simp at h
      rename_i s' p he
      subst h
      have := env_account (f := f) (g := g) (u := u) he
      simp only [ws_append, ws_cons, ws_nil]; omega
  | run k b =>
    simp only [Mach.step] at h
    split at h
    · simp at h
    · split at h
      · rename_i x r hk
        split at h <;> simp at h
        · rename_i s' p he
          subst h
          have := exec_account B he
          have := ws_set (wI f) p hk
          simp only [wCall]; omega
        · subst h; simp only [wCall]; omega
      · simp at h

/-- Calls and begun work are pending or finished. -/
theorem runs_account (B : Balanced S f g u) {ls : List (Lbl (mach S))} : ∀ {c c' : Conf (mach S)},
    (mach S).runs c ls = some c' → ws (wI f) c'.acts + wLog g c'.sh.log + wLog u c.sh.log =
      ws (wI f) c.acts + wLog g c.sh.log + wLog u c'.sh.log + (ls.map (wCall f)).sum := by
  induction ls with
  | nil => intro c c' h; simp only [Mach.runs, Option.some.injEq] at h; subst h; simp
  | cons l ls ih =>
    intro c c' h
    simp only [Mach.runs] at h
    split at h
    rotate_left
    · cases h
    rename_i c1 hs
    have h1 := step_account B hs
    have h2 := ih h
    simp only [List.map_cons, List.sum_cons]; omega

end Verif.Resolver
