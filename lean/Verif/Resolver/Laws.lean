import Verif.Resolver.Model

/-!
# What a data structure has to guarantee to its resolvers

The header comment of `cancellation_resolver` (cancellation.hpp lines 209-227) is the contract of
the resolver. `Lawful` is the contract of the data structure: in which phase each of its nodes is,
and that its functions respect the phases. The phases exist in proofs only.
-/

namespace Verif.Resolver

/-- Phase of a wait operation as seen by the data structure. -/
inductive Phase (V : Type) where
  /-- `start()` has not run its critical section. -/
  | new
  /-- Fast path taken with this value, receiver not completed yet. -/
  | fast (v : V)
  /-- Fast path taken and receiver completed. -/
  | finFast
  /-- Enqueued. -/
  | waiting
  /-- Removed from the queue by the regular completion path. -/
  | taken
  /-- Removed from the queue by cancellation. -/
  | gone
  /-- Was enqueued once, receiver completed. -/
  | fin

/-- The nodes on which `complete()` is called. -/
def ops {I : Type} : List (OpId ⊕ I) → List OpId
  | [] => []
  | .inl i :: l => i :: ops l
  | .inr _ :: l => ops l

/-- The instructions that follow. -/
def insts {I : Type} : List (OpId ⊕ I) → List I
  | [] => []
  | .inl _ :: l => insts l
  | .inr x :: l => x :: insts l

/-- A data structure that keeps its side of the contract of `cancellation_resolver`.
`Inv d ph log pi`: state, phases of the nodes, history, pending instructions of the structure. -/
structure Lawful (S : DS) (d0 : S.D) where
  Inv : S.D → (OpId → Phase S.V) → List (Ev S) → List S.I → Prop
  init : Inv d0 (fun _ => .new) [] []
  perm : ∀ {d ph log pi pi'}, Inv d ph log pi → pi.Perm pi' → Inv d ph log pi'
  begin : ∀ {d ph log pi i ct p d'}, Inv d ph log pi → ph i = .new →
    (∀ ct p, Ev.begin i ct p ∉ log) → S.admit d i p = some d' →
    Inv d' ph (log ++ [.begin i ct p]) pi
  start : ∀ {d ph log pi i ct p} (b : Bool), Inv d ph log pi → ph i = .new →
    Ev.begin i ct p ∈ log →
    ∃ d' r es, S.start d i b = some (d', r, es) ∧
      Inv d' (upd ph i (match r with | some v => .fast v | none => .waiting))
        (log ++ es.map .ds) pi
  fast : ∀ {d ph log pi i v}, Inv d ph log pi → ph i = .fast v →
    Inv (S.fin d i) (upd ph i .finFast) (log ++ [.done i v]) pi
  tryWaiting : ∀ {d ph log pi i e p}, Inv d ph log pi → ph i = .waiting →
    Ev.begin i (some e) p ∈ log → Ev.cancel e ∈ log →
    ∃ d' es, S.tryCancel d i = some (d', true, es) ∧
      Inv d' (upd ph i .gone) (log ++ es.map .ds) pi
  tryTaken : ∀ {d ph log pi i e p}, Inv d ph log pi → ph i = .taken →
    Ev.begin i (some e) p ∈ log → Ev.cancel e ∈ log →
    ∃ d' es, S.tryCancel d i = some (d', false, es) ∧ Inv d' ph (log ++ es.map .ds) pi
  resume : ∀ {d ph log pi i}, Inv d ph log pi → (ph i = .taken ∨ ph i = .gone) →
    Inv (S.fin d i) (upd ph i .fin) (log ++ [.done i (S.val d i)]) pi
  cancel : ∀ {d ph log pi} (e : EvId), Inv d ph log pi → Inv d ph (log ++ [.cancel e]) pi
  reset : ∀ {d ph log pi} (e : EvId), Inv d ph log pi → Inv d ph (log ++ [.reset e]) pi
  call : ∀ {d ph log pi x d'}, Inv d ph log pi → S.call d x = some d' → Inv d' ph log (x :: pi)
  exec : ∀ {d ph log pi x} (b : Bool), Inv d ph log (x :: pi) →
    ∃ d' ps es, S.exec d x b = some (d', ps, es) ∧ (ops ps).Nodup ∧
      (∀ i ∈ ops ps, ph i = .waiting) ∧
      Inv d' (fun i => if i ∈ ops ps then .taken else ph i) (log ++ es.map .ds) (insts ps ++ pi)

end Verif.Resolver
