import Verif.Depth.Base
import Verif.Result.Model

/-! # Depth of the call stack of coroutines -/

namespace Verif.Result

/-- Calls: `start()` of the coroutine's operation (its instructions `link` and `exStart` are executed in one frame), `h.resume()` (`go`, `hres`;
the body is executed in this frame), `start()` of the awaited operation, `set_value` of its receiver, `await_suspend` at the
end, and the completion. -/
def frames : Instr → Nat
  | .seg _ => 0
  | _ => 1

/-- Depths of the instructions, if the awaited senders do not complete inside of `start()`. -/
def maxDepth : Instr → Nat
  | .link _ | .exStart _ | .emplace _ _ => 1
  | .go _ | .seg _ | .hres _ => 2
  | .awStart _ | .exFin _ => 3
  | .setv _ => 4

variable {B : Body}

theorem exec_depth {s s' : St B} {x : Instr} {b : Bool} {p : List Instr} (he : exec s x b = .ok s' p) :
    ∀ y ∈ p, maxDepth x + frames y ≤ maxDepth y := by
  intro y hy
  cases x <;> simp only [exec] at he <;> (repeat' split at he) <;> cases he <;> simp at hy <;>
    first
    | (subst hy; simp [maxDepth, frames])
    | (obtain ⟨_, rfl⟩ := hy; simp [maxDepth, frames])

theorem env_depth {s s' : St B} {acts : List (List Instr)} {a : Act B} {p : List Instr} (he : env s acts a = some (s', p)) :
    ∀ y ∈ p, frames y ≤ maxDepth y := by
  intro y hy
  cases a <;> simp only [env] at he <;> (repeat' split at he) <;> cases he <;> simp at hy
  · rcases hy with rfl | rfl <;> simp [maxDepth, frames]
  · subst hy; simp [maxDepth, frames]

theorem depth {c : Conf ((mach B).deep frames)} (h : Reach ((mach B).deep frames) Result.init c) :
    ∀ a ∈ c.acts, ∀ x ∈ a, x.2 ≤ maxDepth x.1 := by
  refine Reach.inv (M := (mach B).deep frames) (P := fun _ acts => ∀ a ∈ acts, ∀ x ∈ a, x.2 ≤ maxDepth x.1) (by simp) ?_ ?_ h
  · intro s acts a s' p ih he b hb x hx
    simp only at he
    split at he
    · rename_i s1 p1 he1
      cases he
      rcases List.mem_append.1 hb with hb | hb
      · exact ih b hb x hx
      · simp at hb; subst hb
        obtain ⟨y, hy, rfl⟩ := List.mem_map.1 hx
        exact env_depth he1 y hy
    · cases he
  · intro s acts k x r b s' p ih hk he a ha y hy
    simp only at he
    split at he
    · rename_i s1 p1 he1
      cases he
      have hm := List.mem_of_getElem? hk
      rcases List.mem_or_eq_of_mem_set ha with ha | rfl
      · exact ih a ha y hy
      · rcases List.mem_append.1 hy with hy | hy
        · obtain ⟨z, hz, rfl⟩ := List.mem_map.1 hy
          have h1 := ih _ hm x (List.mem_cons_self ..)
          have h2 := exec_depth he1 z hz
          simp only
          omega
        · exact ih _ hm y (List.mem_cons_of_mem _ hy)
    · cases he
    · cases he

/-- The same code, when the awaited senders complete inside of `start()`, with value 0: `start()` of the awaited operation, basic.hpp
line 142, calls `set_value` of the receiver, lines 122-126, before it returns. An example is `invocable`, algorithm.hpp lines 42-45. -/
def execInline (s : St B) : Instr → Bool → Out (St B) Instr
  | .awStart i, _ =>
    if s.phase i ≠ .started then .fault
    else match s.frame i with
    | some (.waiting k .connected r) => .ok { s with frame := upd s.frame i (some (.waiting k .completed r)) } [.emplace i 0]
    | _ => .fault
  | x, b => exec s x b

abbrev inlineMach (B : Body) : Mach := ⟨St B, Instr, Act B, execInline, env⟩

end Verif.Result
