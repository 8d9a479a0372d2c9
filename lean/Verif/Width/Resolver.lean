import Verif.Resolver.Model

/-!
# The word `state_` of `cancellation_resolver` (cancellation.hpp 284-321)

`Verif/Resolver/Model.lean` has three Booleans for the three bits of `state_`. Here is `transition_` with the word of the code: masks and
bitwise operations on numbers.
-/

namespace Verif.Width.Resolver

open Verif.Resolver

/-- `done_listen`, line 314. -/
def doneListen : Nat := 1 <<< 0
/-- `done_completion_path`, line 316. -/
def doneCompletionPath : Nat := 1 <<< 1
/-- `done_cancellation_path`, line 318. -/
def doneCancellationPath : Nat := 1 <<< 2

/-- What `transition_` does after the `fetch_or`. -/
inductive Next where
  /-- It returns, line 294. -/
  | ret
  /-- It goes on with lines 300-306. -/
  | unregister
  /-- It goes on with line 310. -/
  | resume

/-- `transition_(new_bits)` up to line 296 when `state_` is `old`: the new value and what is next. `none`: an assertion fails. -/
def transition (old new : Nat) : Option (Nat × Next) :=
  let all := doneListen ||| doneCompletionPath ||| doneCancellationPath
  if new ||| all ≠ all then none  -- assert, line 285 (some bit outside the mask)
  else if old &&& new ≠ 0 then none  -- assert, line 288
  else
    let st := old ||| new
    if st &&& doneListen = 0 ∨ st &&& doneCompletionPath = 0 then some (st, .ret)  -- lines 293-294
    else if st &&& doneCancellationPath = 0 then some (st, .unregister)  -- line 296
    else some (st, .resume)

/-- The word with these bits. -/
def word (b : Bits) : Nat :=
  (if b.listen then doneListen else 0) ||| (if b.compl then doneCompletionPath else 0) |||
    (if b.canc then doneCancellationPath else 0)

/-- The bits of a word. -/
def bits (w : Nat) : Bits := ⟨w &&& doneListen != 0, w &&& doneCompletionPath != 0, w &&& doneCancellationPath != 0⟩

/-- The next instructions of the model. -/
def Next.instrs {S : DS} (i : OpId) : Next → List (Instr S)
  | .ret => []
  | .unregister => [.unregister i]
  | .resume => [.resume i]

end Verif.Width.Resolver
