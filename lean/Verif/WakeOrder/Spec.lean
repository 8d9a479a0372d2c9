import Verif.Resolver.Facts

/-!
# What it means that waiting operations are served in the order in which they came

The definitions speak about calls, completions and cancellations only. An operation is suspended
when its `start()` has returned, its receiver was not called, and no running call is dealing with it.
-/

namespace Verif.Resolver

variable {S : DS}

/-- Operation `i` was started, is not completed, and no running call accesses it. -/
def Suspended (c : Conf (mach S)) (i : OpId) : Prop :=
  (∃ ct p, Ev.begin i ct p ∈ c.sh.log) ∧ completions i c.sh.log = 0 ∧
    ∀ x, Pending c.acts x → x.op ≠ some i

/-- Operation `i` was suspended in `c1`, before operation `j` was started, and in the later
configuration `c2` both are suspended. -/
structure InLine (d0 : S.D) (i j : OpId) (c1 c2 : Conf (mach S)) : Prop where
  reach : Reach (mach S) (RSt.init d0) c1
  first : Suspended c1 i
  later : ∀ ct p, Ev.begin j ct p ∉ c1.sh.log
  runs : ∃ ls, (mach S).runs c1 ls = some c2
  still : Suspended c2 i
  second : Suspended c2 j

/-- Between `c2` and the later configuration `c3`, no event whose token was given to operation `k`
is cancelled. -/
def NotCancelled (c2 c3 : Conf (mach S)) (k : OpId) : Prop :=
  ∀ e p, Ev.begin k (some e) p ∈ c2.sh.log → Ev.cancel e ∉ c3.sh.log.drop c2.sh.log.length

/-- Whenever the receiver of `j` is called, the receiver of `i` was called before. -/
def First (i j : OpId) (log : List (Ev S)) : Prop :=
  ∀ l1 v l2, log = l1 ++ Ev.done j v :: l2 → ∃ w, Ev.done i w ∈ l1

/-- Member functions are called only at times when no call is running. -/
def Separate (c : Conf (mach S)) : List (Lbl (mach S)) → Prop
  | [] => True
  | l :: ls => (∀ x, l = .env (.call x) → Quiescent c) ∧
      ∀ c', (mach S).step c l = some c' → Separate c' ls

end Verif.Resolver
