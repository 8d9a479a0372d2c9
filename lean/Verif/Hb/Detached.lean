import Verif.Hb.Baton
import Verif.Detached.Props

/-!
# Happens-before for `detached` coroutines

They use no atomic variables and no locks (basic.hpp lines 467-489).
-/

namespace Verif.Detached

open Verif.Result (Body)

variable {B : Body}

/-- `entry` is what the environment knows when it calls a coroutine or completes a sender. -/
abbrev ann (entry : St B → Act B → Nat → Bool) : Ann (mach B) where
  L := Empty
  dec := inferInstance
  len s := s.log.length
  entry := entry
  eff _ _ _ := []

/-- Whoever completes an awaited sender knows that it was started. -/
def Ordered (entry : St B → Act B → Nat → Bool) : Prop :=
  ∀ s i v (e : Nat) a, s.log[e]? = some (.await i a) → entry s (.complete i v) e = true

/-- What the coroutine does: everything but the return to the caller. -/
def ofCo (i : Id) : Ev S → Bool
  | .back _ => false
  | v => v.op == i

/-- 1 if the instruction runs the coroutine. -/
def runsCo (i : Id) : Instr → Nat
  | .seg j | .awStart j | .emplace j _ | .hres j | .fin j => if j = i then 1 else 0
  | .back _ => 0

theorem ws_runs (i : Id) (acts : List (List Instr)) : ws (runsCo i) acts =
    ws (sw i) acts + (ws (aw i) acts + (ws (ew i) acts + ws (hw i) acts + ws (fw i) acts)) := by
  rw [← ws_add (w := fun x => ew i x + hw i x) (fun _ => rfl), ← ws_add (w := fun x => ew i x + hw i x + fw i x) (fun _ => rfl),
    ← ws_add (w := fun x => aw i x + (ew i x + hw i x + fw i x)) (fun _ => rfl), ← ws_add (fun x => ?_)]
  cases x <;> simp [runsCo, sw, aw, ew, hw, fw]

/-- A `co_await` of coroutine `i`. -/
def Waits (i : Id) : Option (Ev S) → Prop
  | some (.await j _) => j = i
  | _ => False

theorem reach_last {c : Conf (mach B)} (h : Reach (mach B) init c) :
    ∀ i, tag (c.sh.frame i) = 3 ∨ tag (c.sh.frame i) = 4 → Waits i (lastOf (ofCo i) c.sh.log) := by
  refine Reach.inv_with (M := mach B) (P := fun s acts => Inv1 s acts)
    (Q := fun s _ => ∀ i, tag (s.frame i) = 3 ∨ tag (s.frame i) = 4 → Waits i (lastOf (ofCo i) s.log))
    (fun _ h => reach_inv1 h) ?_ ?_ ?_ h
  · simp [init, tag]
  · rintro s acts a s' p h1 - hwt he i
    specialize hwt i
    have ph := h1.ph
    simp only at he
    clear h1
    env_cases he <;> simp [upd_apply, lastOf_snoc, ofCo, Ev.op] at * <;> grind [tag, num, Waits]
  · rintro s acts k x r b s' p h1 - hwt hk he i
    specialize hwt i
    have S := ws_pos (w := sw i) hk
    have H := ws_pos (w := hw i) hk
    have F := ws_pos (w := fw i) hk
    have sg := h1.sg i; have eh := h1.eh i; have as := h1.as i; have fi := h1.fi i
    simp only at he
    clear h1 hk
    exec_cases he <;> simp [upd_apply, lastOf_snoc, ofCo, Ev.op, sw, hw, fw] at * <;> grind [tag, num, Waits]

theorem baton {entry : St B → Act B → Nat → Bool} (hE : Ordered entry) :
    Baton (ann entry) init (fun s => s.log) (fun c => Reach (mach B) init c) runsCo (fun i v => ofCo i v = true) where
  inv c h := h
  len _ := rfl
  nil := rfl
  one c i h := by
    have h1 := reach_inv1 h
    rw [ws_runs]
    have a1 := h1.sg i; have a2 := h1.as i; have a3 := h1.eh i; have a4 := h1.fi i
    grind
  env := by
    intro c a s' p h he
    have h1 := reach_inv1 h
    have h2 := reach_inv2 h
    have hl := reach_last h
    have hz : ∀ i, (tag (c.sh.frame i) = 0 ∨ tag (c.sh.frame i) = 4) → ws (runsCo i) c.acts = 0 := by
      intro i hi
      rw [ws_runs]
      have a1 := h1.sg i; have a2 := h1.as i; have a3 := h1.eh i; have a4 := h1.fi i
      grind
    cases a with
    | call i b =>
      simp only [env] at he
      split at he
      · rename_i hm
        simp at he; obtain ⟨rfl, rfl⟩ := he
        refine ⟨_, rfl, by simp, ?_, ?_⟩
        · intro j y hy ht
          refine ⟨_, List.mem_singleton.2 rfl, ?_⟩
          simp at hy
          rcases hy with rfl | rfl <;> simp [runsCo] at ht <;> simp [ofCo, Ev.op]
          grind
        · intro j v hv hj
          simp at hv; subst hv
          simp [ofCo, Ev.op] at hj; subst hj
          refine ⟨hz _ (.inl ((h1.ph _).2 (by simp [hm]))), fun e u heu hu => ?_⟩
          have := h2.evs u (List.mem_of_getElem? heu)
          cases u <;> simp [ofCo, Ev.op] at hu this <;> simp [hu, hm] at this
      · simp at he
    | complete i v =>
      simp only [env] at he
      split at he
      · rename_i k r hf
        simp at he; obtain ⟨rfl, rfl⟩ := he
        have h4 : tag (c.sh.frame i) = 4 := by rw [hf]; rfl
        refine ⟨_, rfl, by simp, ?_, ?_⟩
        · intro j y hy ht
          simp at hy; subst hy
          refine ⟨_, List.mem_singleton.2 rfl, ?_⟩
          simp [runsCo] at ht; simp [ofCo, Ev.op]
          grind
        · intro j w hv hj
          simp at hv; subst hv
          simp [ofCo, Ev.op] at hj; subst hj
          refine ⟨hz _ (.inr h4), fun e u heu hu => ?_⟩
          have h6 := hl _ (.inr h4)
          cases ht : lastOf (ofCo i) c.sh.log with
          | none => rw [ht] at h6; exact absurd h6 id
          | some t =>
            rw [ht] at h6
            obtain ⟨n, h7, h8, h9⟩ := lastOf_index ht
            cases t <;> simp only [Waits] at h6
            subst h6
            exact ⟨n, _, h7, h8, h9 e u heu hu, hE _ _ _ _ _ h7⟩
      · simp at he
  run := by
    intro c k x r b s' p h hk he
    simp only at he
    clear hk h
    exec_cases he
    all_goals first
      | refine ⟨_, rfl, by simp, ?_, ?_⟩
      | refine ⟨[], by simp, by simp, ?_, ?_⟩
    all_goals simp [runsCo, ofCo, Ev.op]
    all_goals first | done | exact fun _ h => h | grind

/-- The call and the return to the caller. -/
theorem caller_baton (entry : St B → Act B → Nat → Bool) :
    Baton (ann entry) init (fun s => s.log) (fun c => Reach (mach B) init c) bw
      (fun i v => (∃ b, v = .call i b) ∨ v = .back i) where
  inv c h := h
  len _ := rfl
  nil := rfl
  one c i h := by
    have h2 := reach_inv2 h
    by_cases hp : c.sh.phase i = .fresh ∨ .back i ∈ c.sh.log
    · have := h2.nb i hp; omega
    · have := h2.bk i (fun h => hp (.inl h)) (fun h => hp (.inr h)); omega
  env := by
    intro c a s' p h he
    have h2 := reach_inv2 h
    simp only at he
    have nb := h2.nb; have ev := h2.evs
    clear h h2
    env_cases he
    all_goals refine ⟨_, rfl, by simp, ?_, ?_⟩
    all_goals simp [bw]
    · intro i hi; split at hi <;> simp_all
    · rename_i hf
      refine ⟨nb _ (.inl hf), fun e u heu hu => ?_⟩
      have := ev u (List.mem_of_getElem? heu)
      rcases hu with ⟨b, rfl⟩ | rfl <;> simp [Ev.op, hf] at this
  run := by
    intro c k x r b s' p h hk he
    simp only at he
    clear hk h
    exec_cases he
    all_goals first
      | refine ⟨_, rfl, by simp, ?_, ?_⟩
      | refine ⟨[], by simp, by simp, ?_, ?_⟩
    all_goals simp [bw]

/-! ## Properties -/

/-- C96. Everything that a `detached` coroutine does is ordered by happens-before: its call, what the body does on whatever
threads, the completions of the senders that it awaits, its return, and the destruction of its frame.
Contract: starting an awaited sender happens before its completion. -/
theorem C96_detached_ordered {entry : St B → Act B → Nat → Bool} (hE : Ordered entry) {c : Conf (mach B)} {m : Mem Empty}
    (h : HReach (ann entry) init c m) {i : Id} {a b : Nat} {v w : Ev B.S} (ha : c.sh.log[a]? = some v)
    (hb : c.sh.log[b]? = some w) (hv : v.op = i) (hw : w.op = i) (hvb : v ≠ .back i) (hwb : w ≠ .back i) (hab : a < b) :
    m.hb a b := by
  have hco : ∀ v : Ev B.S, v.op = i → v ≠ .back i → ofCo i v = true := by
    intro v h1 h2
    cases v <;> simp [ofCo, Ev.op] at h1 h2 ⊢ <;> first | exact h1 | exact h2 h1
  exact (baton hE).ordered h ha hb (hco v hv hvb) (hco w hw hwb) hab

/-- C96. The call of a `detached` coroutine happens before its return to the caller. (No more than that: what the coroutine
does after its first suspension is not ordered with the caller, see the example.) -/
theorem C96_call_before_return {entry : St B → Act B → Nat → Bool} {c : Conf (mach B)} {m : Mem Empty}
    (h : HReach (ann entry) init c m) {i : Id} {a b : Nat} {s : B.S} (ha : c.sh.log[a]? = some (.call i s))
    (hb : c.sh.log[b]? = some (.back i)) (hab : a < b) : m.hb a b :=
  (caller_baton entry).ordered h ha hb (.inl ⟨_, rfl⟩) (.inr rfl) hab

/-! ## Examples -/

set_option maxRecDepth 20000

/-- The completion of a sender knows of its start, and nothing else is known. -/
def minimal : St waitBody → Act waitBody → Nat → Bool
  | s, .complete i _, e => match s.log[e]? with
    | some (.await j _) => j = i
    | _ => false
  | _, .call _ _, _ => false

theorem minimal_ordered : Ordered minimal := by
  intro s i v e a h
  simp [minimal, h]

/-- The coroutine continues on another thread before the call has returned. -/
def hdemo : Conf M × Mem Empty := (ann minimal).go init (
  [.env (.call 2 (2, []))] ++ List.replicate 2 (.run 0 true) ++ [.env (.complete 2 3)] ++ List.replicate 4 (.run 1 true) ++
  [.run 0 true, .env (.complete 2 4)] ++ List.replicate 4 (.run 2 true))

theorem hdemo_reach : HReach (ann minimal) init hdemo.1 hdemo.2 := HReach.go _ _ _

theorem hdemo_log : hdemo.1.sh.log =
    [.call 2 (2, []), .await 2 0, .complete 2 3, .resume 2 3, .await 2 1, .back 2, .complete 2 4, .resume 2 4, .ret 2,
     .free 2] := by decide

example : hdemo.2.hb 0 9 := C96_detached_ordered minimal_ordered hdemo_reach (i := 2) (v := .call 2 (2, [])) (w := .free 2)
  (by rw [hdemo_log]; rfl) (by rw [hdemo_log]; rfl) rfl rfl (by simp) (by simp) (by omega)
example : hdemo.2.hb 0 5 := C96_call_before_return hdemo_reach (i := 2) (s := (2, [])) (by rw [hdemo_log]; rfl)
  (by rw [hdemo_log]; rfl) (by omega)
example : ¬ hdemo.2.hb 3 5 ∧ ¬ hdemo.2.hb 5 9 ∧ hdemo.2.hb 1 6 := by decide

end Verif.Detached
