import Verif.Tree.LifeSteps
import Verif.Tree.Props

/-!
# C71: lifetimes of the operations of algorithm.hpp

Executions are those of Verif/Tree/LifeModel.lean, in which the user may destroy the outermost operation of an expression as
soon as it has completed. `m.bad` says that an object was accessed or destroyed outside of its lifetime, constructed over an
existing one, or that an assertion of `frg::manual_box` has failed. `c.bad` says that the trailing code of `when_all::start`
or a cancellation by `race_and_cancel` ran after the completion of the operation (C46, C47, C64).
-/

namespace Verif.Tree

set_option maxHeartbeats 1000000
set_option maxRecDepth 100000

/-! ## Operations that were never started -/

/-- No operation of a `let` is constructed by connecting the sender. -/
def Snd.ready : Snd → Prop
  | .leaf | .inv _ | .ite _ _ _ | .seq _ _ | .rep _ _ => True
  | .xform S _ | .lam S => S.ready
  | .letS _ _ => False
  | .all n f | .race n f => ∀ k, k ≤ n → (f k).ready

theorem Fresh.tidy {m : LMem} {S : Snd} {p : Path} (h : Fresh m S p) (hr : S.ready) : Tidy m S p := by
  induction S generalizing p with
  | leaf | inv => exact h
  | seq | rep => exact ⟨h.1, h.2.2⟩
  | ite => exact ⟨h.1, by simp [h.2.1], by simp [h.2.1], by simp [h.2.1], fun k _ => h.2.2 k⟩
  | letS => exact absurd hr id
  | xform S f ih => exact ⟨h.1, ih h.2.1 hr, h.2.2⟩
  | lam S ih => exact ⟨h.1, ih h.2.1 hr, h.2.2⟩
  | all n f ih | race n f ih => exact ⟨h.1, fun k hk => ih k (h.2.1 k hk) (hr k hk), h.2.2⟩

theorem each_bad {g : Nat → LMem → LMem} (h : ∀ k m, m.bad = true → (g k m).bad = true) (n : Nat) :
    ∀ m, m.bad = true → (each g n m).bad = true := by
  induction n with
  | zero => exact fun m hm => h 0 m hm
  | succ n ih => exact fun m hm => ih _ (h _ m hm)

theorem dtor_bad (S : Snd) : ∀ p m, m.bad = true → (dtor S p m).bad = true := by
  induction S with
  | leaf | inv | seq | rep => intro p m h; simp [dtor, LMem.kill, h]
  | xform S _ ih | lam S ih => intro p m h; simp [dtor, LMem.kill, ih _ _ h]
  | ite c a b iha ihb =>
    intro p m h
    simp only [dtor, LMem.kill]
    have h1 : (if m.box p = some 0 then dtor a (0 :: p) m else m).bad = true := by split <;> simp [iha, h]
    generalize (if m.box p = some 0 then dtor a (0 :: p) m else m) = m1 at *
    split <;> simp [ihb, h1]
  | letS g f ih =>
    intro p m h
    simp only [dtor]
    split
    · simp [LMem.kill, ih _ _ _ h]
    · rfl
  | all n f ih | race n f ih =>
    intro p m h
    simp only [dtor, LMem.kill]
    rw [each_bad (fun k m hm => ih k _ m hm) n m h]
    rfl

theorem each_dtor_bad {f : Nat → Snd} {p : Path} {k : Nat}
    (ih : ∀ m, Fresh m (f k) (k :: p) → (dtor (f k) (k :: p) m).bad = true) (n : Nat) :
    ∀ m, k ≤ n → Fresh m (f k) (k :: p) → (each (fun k => dtor (f k) (k :: p)) n m).bad = true := by
  induction n with
  | zero =>
    intro m hk hF
    obtain rfl : k = 0 := by omega
    exact ih m hF
  | succ n ihn =>
    intro m hk hF
    by_cases e : k = n + 1
    · subst e
      exact each_bad (fun j m hm => dtor_bad _ _ m hm) n _ (ih m hF)
    · exact ihn _ (by omega) (hF.same ((dtor_only (f (n + 1)) ((n + 1) :: p) m).sib e))

theorem Fresh.dtor_bad {S : Snd} (hr : ¬ S.ready) : ∀ {p : Path} {m : LMem}, Fresh m S p → (dtor S p m).bad = true := by
  induction S with
  | leaf | inv | seq | rep | ite => exact absurd trivial hr
  | xform S _ ih | lam S ih =>
    intro p m h
    simp [dtor, LMem.kill, ih hr h.2.1]
  | letS g f ih =>
    intro p m h
    simp [dtor, h.2.1]
  | all n f ih | race n f ih =>
    intro p m h
    obtain ⟨k, hk, hn⟩ : ∃ k, k ≤ n ∧ ¬ (f k).ready := by
      apply Classical.byContradiction
      intro h'
      exact hr (fun k hk => Classical.byContradiction fun hn => h' ⟨k, hk, hn⟩)
    simp only [dtor, LMem.kill]
    rw [each_dtor_bad (fun m hm => ih k hn hm) n m hk (h.2.1 k hk)]
    rfl

/-- Connecting a sender and destroying the operation without having started it is fine exactly if the operation contains no
`let`; then nothing is left. -/
theorem C71_unstarted {S : Snd} {p : Path} {m : LMem} (hm : m.bad = false) (hd : ∀ r, p <:+ r → m.live r = false) :
    ((dtor S p (ctor S p m)).bad = false ↔ S.ready) ∧
      (S.ready → ∀ r, (dtor S p (ctor S p m)).live r = m.live r) := by
  obtain ⟨c1, c2⟩ := ctor_fresh S p m hd
  have c3 := ctor_only S p m
  by_cases hr : S.ready
  · obtain ⟨d1, d2⟩ := dtor_tidy S p _ (c1.tidy hr)
    have d3 := dtor_only S p (ctor S p m)
    refine ⟨⟨fun _ => hr, fun _ => by rw [d2, c2, hm]⟩, fun _ r => ?_⟩
    by_cases e : p <:+ r
    · rw [d1 r e, hd r e]
    · rw [(d3 r e).1, (c3 r e).1]
  · have := c1.dtor_bad hr
    exact ⟨⟨fun h => (by rw [h] at this; cases this), fun h => absurd h hr⟩, fun h => absurd h hr⟩

/-- `~let_operation` (algorithm.hpp 463-465) destroys the contents of an empty box if the operation was not started. -/
theorem C71_unstarted_let_false : ∃ S : Snd, (dtor S [0] (ctor S [0] .init)).bad = true :=
  ⟨.letS (fun _ => 0) (fun _ => .leaf), rfl⟩

example : ∃ S : Snd, S.ready ∧ (ctor S [0] .init).live [2, 0] = true ∧ (dtor S [0] (ctor S [0] .init)).bad = false :=
  ⟨.all 2 (fun _ => .seq 1 (fun _ => .letS (fun _ => 0) (fun _ => .leaf))), fun _ _ => trivial, rfl,
    ((C71_unstarted rfl (fun _ _ => rfl)).1).2 (fun _ _ => trivial)⟩

/-! ## Executions -/

/-- No operation object is used outside of its lifetime. The full statement is `LReach c m → m.bad = false`, without `hb`; it is
false, see `C71_lifetimes_false`. -/
theorem C71_lifetimes_partial {c : Conf mach} {m : LMem} (h : LReach c m) (hb : c.bad = false) : m.bad = false :=
  (reach_linv h hb).bad

/-- Unconditionally for expressions without `when_all` and `race_and_cancel`. -/
theorem C71_lifetimes_plain {c : Conf mach} {m : LMem} (h : LReach c m)
    (hp : ∀ t S, c.sh.snd [t] = some S → S.plain) : m.bad = false :=
  C71_lifetimes_partial h (C48_no_fault h.reach hp)

/-- Operations exist while they are running. -/
theorem C71_running_is_alive {c : Conf mach} {m : LMem} (h : LReach c m) (hb : c.bad = false) {p : Path}
    (hs : .start p ∈ c.sh.log) (hd : ∀ v, .done p v ∉ c.sh.log) : m.live p = true := by
  have i1 := reach_inv h.reach
  have i2 := reach_inv2 h.reach
  have hl := reach_linv h hb
  have hph := (i2.s1 p).1 hs
  have hpn : p ≠ [] := by rintro rfl; rw [i1.root] at hph; simp at hph
  cases e : m.live p with
  | true => rfl
  | false =>
    obtain ⟨v, hv⟩ := i2.s3 p (hl.gone p hpn (by rcases hph with h | h <;> rw [h] <;> simp) e).1
    exact absurd hv (hd v)

/-- When the user has destroyed an outermost operation, all the objects that were constructed for it are destroyed. -/
theorem C71_no_leak {c : Conf mach} {m : LMem} (h : LReach c m) (hb : c.bad = false) {t : Nat}
    (hs : .start [t] ∈ c.sh.log) (hl : m.live [t] = false) {p : Path} (hp : [t] <:+ p) : m.live p = false := by
  have i2 := reach_inv2 h.reach
  have hph := (i2.s1 _).1 hs
  exact ((reach_linv h hb).gone [t] (by simp) (by rcases hph with h | h <;> rw [h] <;> simp) hl).2 p hp

/-- A `sequence` and a `repeat_while` have at most one child at a time. -/
theorem C71_one_at_a_time {c : Conf mach} {m : LMem} (h : LReach c m) (hb : c.bad = false) {p : Path}
    (hS : (∃ n f, c.sh.snd p = some (.seq n f)) ∨ ∃ g f, c.sh.snd p = some (.rep g f)) {j k : Nat}
    (hj : m.live (j :: p) = true) (hk : m.live (k :: p) = true) : j = k := by
  have i1 := reach_inv h.reach
  have hl := reach_linv h hb
  have key : ∀ S, c.sh.snd p = some S → S.boxed = true → j = k := by
    intro S hS hbx
    have hne : c.sh.phase p ≠ .none := by intro e; rw [(i1.sn p).2 e] at hS; cases hS
    have hpn : p ≠ [] := by rintro rfl; exact hne i1.root
    have hlp : m.live p = true := by
      cases e : m.live p with
      | true => rfl
      | false => rw [(hl.gone p hpn hne e).2 _ (List.suffix_cons j p)] at hj; cases hj
    have sh := hl.shp p S hS hlp
    have sh1 : ∀ k, m.box p ≠ some k → Dead m (k :: p) := by cases S <;> simp [Snd.boxed] at hbx <;> exact sh.1
    have hin : ∀ i, m.live (i :: p) = true → m.box p = some i := by
      intro i hi
      apply Classical.byContradiction
      intro e
      rw [sh1 i e _ List.suffix_rfl] at hi
      cases hi
    have := (hin j hj).symm.trans (hin k hk)
    simpa using this
  rcases hS with ⟨n, f, hS⟩ | ⟨g, f, hS⟩
  · exact key _ hS rfl
  · exact key _ hS rfl

/-- When a `sequence` or `repeat_while` has completed, none of its children exists. -/
theorem C71_completed_is_empty {c : Conf mach} {m : LMem} (h : LReach c m) (hb : c.bad = false) {p : Path}
    (hS : (∃ n f, c.sh.snd p = some (.seq n f)) ∨ ∃ g f, c.sh.snd p = some (.rep g f)) {v : Nat}
    (hd : .done p v ∈ c.sh.log) (k : Nat) : m.live (k :: p) = false := by
  have i1 := reach_inv h.reach
  have i2 := reach_inv2 h.reach
  have hl := reach_linv h hb
  have hph := i2.s2 _ _ hd
  have hpn : p ≠ [] := by rintro rfl; rw [i1.root] at hph; cases hph
  cases e : m.live p with
  | false => exact (hl.gone p hpn (by rw [hph]; simp) e).2 _ (List.suffix_cons k p)
  | true =>
    have hG := fun S hS => tidy_of i1 i2 (reach_inv3 h.reach) (reach_hist h.reach) hl (S := S) hS hph e
    rcases hS with ⟨n, f, hS⟩ | ⟨g, f, hS⟩
    · exact (hG _ hS).2 k _ List.suffix_rfl
    · exact (hG _ hS).2 k _ List.suffix_rfl

/-! ## Examples -/

/-- Run a schedule (as `Mach.go`). -/
def lgo (cm : Conf mach × LMem) (ls : List (Lbl mach)) : Conf mach × LMem :=
  ls.foldl (fun cm l => match mach.step cm.1 l with | some c' => (c', cm.2.next cm.1 l) | none => cm) cm

theorem LReach.go (ls : List (Lbl mach)) : ∀ (cm : Conf mach × LMem), LReach cm.1 cm.2 → LReach (lgo cm ls).1 (lgo cm ls).2 := by
  induction ls with
  | nil => exact fun cm h => h
  | cons l ls ih =>
    intro cm h
    show LReach (lgo (match mach.step cm.1 l with | some c' => (c', cm.2.next cm.1 l) | none => cm) ls).1
      (lgo (match mach.step cm.1 l with | some c' => (c', cm.2.next cm.1 l) | none => cm) ls).2
    apply ih
    split
    · rename_i c' hs; exact .step h hs
    · exact h

theorem lgo_fst (ls : List (Lbl mach)) : ∀ (cm : Conf mach × LMem),
    (lgo cm ls).1 = ls.foldl (fun c l => (mach.step c l).getD c) cm.1 := by
  induction ls with
  | nil => exact fun _ => rfl
  | cons l ls ih =>
    intro cm
    show (lgo (match mach.step cm.1 l with | some c' => (c', cm.2.next cm.1 l) | none => cm) ls).1 = _
    rw [ih, List.foldl_cons]
    cases mach.step cm.1 l <;> rfl

/-- The operation of `demo` while the leaf is running. -/
def ldemo1 : Conf mach × LMem := lgo (mach.init init, .init) ([.env (.start 0 expr)] ++ List.replicate 6 (.run 0 true))

/-- After it has completed. -/
def ldemo : Conf mach × LMem := lgo ldemo1 ([.env (.finish [0, 0, 0] 7)] ++ List.replicate 40 (.run 1 true))

theorem ldemo1_reach : LReach ldemo1.1 ldemo1.2 := LReach.go _ _ .init
theorem ldemo_reach : LReach ldemo.1 ldemo.2 := LReach.go _ _ ldemo1_reach

theorem ldemo1_log : ldemo1.1.sh.log = [.start [0], .start [0, 0], .start [0, 0, 0]] := by decide
theorem ldemo_log : ldemo.1.sh.log = demo.sh.log := by rw [demo_log]; decide

example : ldemo1.2.live [0, 0, 0] = true :=
  C71_running_is_alive ldemo1_reach (by decide) (by rw [ldemo1_log]; simp) (by rw [ldemo1_log]; simp)

example : ldemo1.2.bad = false := C71_lifetimes_partial ldemo1_reach (by decide)

example : ldemo.2.bad = false := C71_lifetimes_partial ldemo_reach (by decide)

example : ldemo1.2.live [1, 0, 0] = false := by
  cases h : ldemo1.2.live [1, 0, 0] with
  | false => rfl
  | true => exact absurd (C71_one_at_a_time ldemo1_reach (by decide) (p := [0, 0]) (.inl ⟨_, _, rfl⟩) (j := 0) (k := 1) rfl h) (by decide)

theorem ldemo_demo : ldemo.1 = demo := by
  unfold ldemo ldemo1 demo Mach.go
  rw [lgo_fst, lgo_fst, ← List.foldl_append, ← List.append_assoc]

example : ldemo.2.bad = false :=
  C71_lifetimes_plain ldemo_reach (fun t S h => (demo_root t S (ldemo_demo ▸ h)).2 ▸ expr_plain)

/-- The children of the `sequence` are destroyed before it is. -/
example : ldemo.2.live [0, 0] = true ∧ ldemo.2.live [1, 0, 0] = false :=
  ⟨by decide, C71_completed_is_empty ldemo_reach (by decide) (p := [0, 0]) (.inl ⟨_, _, rfl⟩) (v := 4)
    (by rw [ldemo_log, demo_log]; simp) 1⟩

/-- The user destroys it. -/
def ldemo2 : LMem := dtor expr [0] ldemo.2

theorem ldemo2_reach : LReach ldemo.1 ldemo2 :=
  .destroy (v := 5) ldemo_reach (by rw [ldemo_log, demo_log]; simp) rfl (by decide)

example : ldemo2.bad = false := C71_lifetimes_partial ldemo2_reach (by decide)

example : ldemo2.live [0, 0] = false :=
  C71_no_leak ldemo2_reach (by decide) (t := 0) (by rw [ldemo_log, demo_log]; simp) (by decide) ⟨[0], rfl⟩

/-- `when_all` of one leaf, which another thread completes before `start()` returns. -/
def wdemo : Conf mach × LMem :=
  lgo (mach.init init, .init) ([.env (.start 0 (.all 0 (fun _ => .leaf)))] ++ List.replicate 4 (.run 0 true) ++
    [.env (.finish [0, 0] 7)] ++ List.replicate 4 (.run 1 true))

def wdemo1 : Conf mach × LMem := lgo (wdemo.1, dtor (.all 0 (fun _ => .leaf)) [0] wdemo.2) [.run 0 true]

/-- The restriction to `c.bad = false` is needed: the trailing code of `when_all::start` accesses the operation after it was
destroyed (C46). -/
theorem C71_lifetimes_false : ∃ c m, LReach c m ∧ m.bad = true := by
  refine ⟨wdemo1.1, wdemo1.2, LReach.go _ _ (.destroy (v := 0) (LReach.go _ _ .init) ?_ rfl ?_), ?_⟩
  · show Ev.done [0] 0 ∈ wdemo.1.sh.log
    decide
  · show wdemo.2.live [0] = true
    decide
  · decide

end Verif.Tree
