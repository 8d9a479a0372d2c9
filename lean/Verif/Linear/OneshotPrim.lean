import Mathlib.Data.List.Induction
import Verif.Linear.Log
import Verif.OneshotPrim.Props

/-!
# C98, `oneshot_primitive`: `raise` and `wait` behave like operations on a flag
-/

namespace Verif.OneshotPrim

/-- Calls: `wait` operation number `i`, and `raise()` (which may be called once). -/
inductive Call where
  | wait (i : Id)
  | raise
deriving DecidableEq

/-- Operations of the sequential object. -/
inductive Op where
  | wait
  | raise
deriving DecidableEq

/-- The sequential object, a flag. `raise()` sets it and a wait ends only if it is set. -/
def seq : Bool → Op → Unit → Bool → Prop
  | q, .raise, _, q' => q = false ∧ q' = true
  | q, .wait, _, q' => q = true ∧ q' = true

def invoked (log : List Ev) : Call → Op → Prop
  | .wait i, .wait => .begin i ∈ log
  | .raise, .raise => .call ∈ log
  | _, _ => False

def hasReturned (log : List Ev) : Call → Prop
  | .wait i => .done i ∈ log
  | .raise => .ret ∈ log

/-- How to watch the object: a wait begins with `start()` and ends with the completion of the receiver. -/
def watch : Watch mach Call Op Unit where
  invoked ls x o := ∃ c, mach.runs (mach.init init) ls = some c ∧ invoked c.sh.log x o
  returned ls x _ := ∃ c, mach.runs (mach.init init) ls = some c ∧ hasReturned c.sh.log x

/-- Calls that take effect at an event. -/
def effect (_ : List Ev) : Ev → List (Call × Op × Unit)
  | .raise => [(.raise, .raise, ())]
  | .done i => [(.wait i, .wait, ())]
  | _ => []

theorem accepts_log {log : List Ev} (h1 : log.count .raise ≤ 1)
    (h2 : Hist (fun before v => ∀ i, v = .done i → .raise ∈ before) log) :
    Accepts seq false (effects effect log) (decide (.raise ∈ log)) := by
  induction log using List.reverseRecOn with
  | nil => simp [Accepts]
  | append_singleton l v ih =>
    rw [Hist.snoc] at h2
    rw [List.count_append] at h1
    rw [effects_snoc]
    refine (ih (by omega) h2.1).append ?_
    cases v with
    | raise =>
      have : .raise ∉ l := by
        intro hm
        have := List.count_pos_iff.2 hm
        simp at h1; omega
      exact ⟨true, by simp [seq, this], by simp [Accepts]⟩
    | done i =>
      have := h2.2 i rfl
      exact ⟨true, by simp [seq, this], by simp [this, Accepts]⟩
    | _ => simp [effect, Accepts]

theorem count_wait (i : Id) (log : List Ev) :
    ((effects effect log).map (·.1)).count (.wait i) = log.count (.done i) := by
  induction log using List.reverseRecOn with
  | nil => simp
  | append_singleton l v ih =>
    rw [effects_snoc, List.map_append, List.count_append, ih, List.count_append]
    cases v <;> simp [effect, List.count_cons]

theorem count_raise (log : List Ev) : ((effects effect log).map (·.1)).count .raise = log.count .raise := by
  induction log using List.reverseRecOn with
  | nil => simp
  | append_singleton l v ih =>
    rw [effects_snoc, List.map_append, List.count_append, ih, List.count_append]
    cases v <;> simp [effect, List.count_cons]

theorem grow {c c' : Conf mach} {l : Lbl mach} (hs : mach.step c l = some c') : c.sh.log <+: c'.sh.log := by
  cases l with
  | env a =>
    simp only [Mach.step] at hs
    split at hs
    · simp at hs
    split at hs
    · rename_i s' p he
      simp only [Option.some.injEq] at hs; subst hs
      cases a <;> simp only [env] at he <;> split at he <;>
        simp only [Option.some.injEq, Prod.mk.injEq, reduceCtorEq] at he <;> obtain ⟨rfl, rfl⟩ := he <;> exact ⟨_, rfl⟩
    · simp at hs
  | run k b =>
    simp only [Mach.step] at hs
    split at hs
    · simp at hs
    split at hs
    · rename_i x r hx
      split at hs
      · rename_i s' p he
        simp only [Option.some.injEq] at hs; subst hs
        have he : exec c.sh x b = .ok s' p := he
        cases x with
        | walk q =>
          cases q <;> simp only [exec] at he <;> (repeat' split at he) <;>
          simp only [Out.ok.injEq, reduceCtorEq] at he <;> obtain ⟨rfl, rfl⟩ := he <;>
          first | exact List.prefix_rfl | exact ⟨_, rfl⟩
        | _ =>
          simp only [exec, St.finish] at he <;> (repeat' split at he) <;>
          simp only [Out.ok.injEq, reduceCtorEq] at he <;> obtain ⟨rfl, rfl⟩ := he <;>
          first | exact List.prefix_rfl | exact ⟨_, rfl⟩
      · simp at hs
      · simp only [Option.some.injEq] at hs; subst hs; exact List.prefix_rfl
    · simp at hs

theorem called_call {c : Conf mach} (h : OReach c) : c.sh.called = true → .call ∈ c.sh.log := by
  refine Reach.inv (M := mach) (P := fun s _ => s.called = true → .call ∈ s.log) (by simp [init]) ?_ ?_ h
  · intro s acts a s' p hs he
    cases a <;> simp only [env] at he <;> split at he <;> simp at he <;> obtain ⟨rfl, rfl⟩ := he <;> simp
    exact hs
  · intro s acts k x r b s' p hs _ he
    cases x with
    | walk q =>
      cases q <;> simp only [exec] at he <;> (repeat' split at he) <;>
      simp only [Out.ok.injEq, reduceCtorEq] at he <;> obtain ⟨rfl, rfl⟩ := he <;> intro hc <;>
      first | exact hs hc | exact List.mem_append_left _ (hs hc)
    | _ =>
      simp only [exec, St.finish] at he <;> (repeat' split at he) <;>
      simp only [Out.ok.injEq, reduceCtorEq] at he <;> obtain ⟨rfl, rfl⟩ := he <;> intro hc <;>
      first | exact hs hc | exact List.mem_append_left _ (hs hc)

/-- **C98** (oneshot_primitive). The event is strongly linearizable with respect to a flag. -/
theorem C98_oneshot_primitive_linearizable : StronglyLinearizable (M := mach) init watch seq false := by
  refine StronglyLinearizable.of_log (M := mach) (fun s : St => s.log) effect (fun c l c' hs => grow hs) ?_
  intro ls c hr
  have hc : OReach c := .of_runs .init hr
  obtain ⟨l, hI⟩ := reach_inv hc
  refine ⟨⟨_, accepts_log (C24_raise_called hc).1 hI.hist⟩, ?_, ?_, ?_⟩
  · rw [List.nodup_iff_count]
    intro x
    cases x with
    | wait i => rw [count_wait]; exact C24_at_most_once hc i
    | raise => rw [count_raise]; exact (C24_raise_called hc).1
  · intro e he
    refine ⟨c, hr, ?_⟩
    obtain ⟨l1, v, l2, e1, e2⟩ := of_mem_effects he
    cases v <;> simp only [effect, List.mem_singleton, List.not_mem_nil] at e2 <;> subst e2
    · exact (C24_not_before_raise hc e1).2
    · exact called_call hc ((C24_raise_called hc).2 (by rw [e1]; simp))
  · rintro x r ⟨c', hr', hret⟩
    rw [hr] at hr'; simp at hr'; subst hr'
    cases x with
    | wait i =>
      obtain ⟨l1, l2, e⟩ := List.append_of_mem (show .done i ∈ c.sh.log from hret)
      exact ⟨_, by rw [e]; exact mem_effects (by simp only [effect, List.mem_singleton]; rfl)⟩
    | raise =>
      have h1 := List.count_pos_iff.2 (show .ret ∈ c.sh.log from hret)
      have h2 := hI.walks
      obtain ⟨l1, l2, e⟩ := List.append_of_mem (List.count_pos_iff.1 (show 0 < c.sh.log.count .raise by omega))
      exact ⟨_, by rw [e]; exact mem_effects (by simp only [effect, List.mem_singleton]; rfl)⟩

/-- **C98** (oneshot_primitive), in the classical form. -/
theorem C98_oneshot_primitive_real_time : Linearizable (M := mach) init watch seq false :=
  C98_oneshot_primitive_linearizable.linearizable

/-- Two waits that begin before `raise()` and one that begins after it. -/
example : effects effect demo.sh.log = [(.raise, .raise, ()), (.wait 1, .wait, ()), (.wait 0, .wait, ()), (.wait 2, .wait, ())] := by
  decide

end Verif.OneshotPrim
