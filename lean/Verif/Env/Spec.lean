import Verif.Env.Model

/-!
# Specification of environments (C86, C87)

Which answer `get_env` should give to a leaf, in terms of the expression that the leaf is a part of.
-/

namespace Verif.Env

/-- Operation `p` is a part of operation `a`. -/
def Above (a p : Path) : Prop := a <:+ p ∧ a ≠ p

/-- The receiver passes through an `any_receiver` on its way to leaf `q.path`. -/
def Erased (q : Query) : Prop := ∃ a S dr ph, Above a q.path ∧ q.heap a = some ⟨.erased S, dr, ph⟩

/-- The call is made while a `with_cancel_cb` around the leaf is being connected. -/
def Connecting (q : Query) : Prop := ∃ a S dr ph, Above a q.path ∧ q.heap a = some ⟨.cancelCb S, dr, ph⟩ ∧ a ∈ q.busy

/-- What `get_env` of the receiver of operation `p` returns, if the operations `busy` are being connected: the environment
of the outermost receiver (`spawn_with_allocator`: none); none if an `any_receiver` comes first on the way up; undefined behaviour if a
`with_cancel_cb` that is being connected comes first. -/
def expected (R : Nat → Root) (h : Heap) (busy : List Path) : Path → Res
  | [] => .ub
  | [t] => match R t with
    | .direct e => .env e
    | .spawn _ => .env none
  | _ :: i :: q => match h (i :: q) with
    | some ⟨.erased _, _, _⟩ => .env none
    | some ⟨.cancelCb _, _, _⟩ => if (i :: q) ∈ busy then .ub else expected R h busy (i :: q)
    | _ => expected R h busy (i :: q)

end Verif.Env
