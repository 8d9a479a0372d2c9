import Verif.Fields.Proof
import Verif.WakeOrder.Props

/-!
# C92: no data races on the fields of operations

Operations of `recurring_event` (and of `sequenced_event` and `barrier`, which use it), `wait_group` and
`oneshot_event`, `promise`, `post_ack_mechanism` and `queue`. In each example a call is completing operations while
`cancel()` is at work on one of them.
-/

namespace Verif

open Resolver

namespace Recurring

/-- C92, `recurring_event`. -/
theorem C92_recurring_event {X : User} {u0 : X.U} (O : UserOk X u0) {c : Conf (mach (ds X))}
    (h : Reach (mach (ds X)) (RSt.init (init u0)) c) : RaceFree (S := ds X) (fun d : D X => d.queue) c :=
  raceFree (line O) h

/-- Three operations are suspended. `cancel()` has taken operation 2 off the list of its event, and then a call has
taken all operations off the list of the object. -/
def both : List (Lbl M) := [.env (.cancel 7), .run 3 true, .env (.call (.act false)), .run 4 true, .run 4 true]

abbrev bothConf : Conf M := M.after (RSt.init (init true)) (fifo1 ++ fifo2 ++ both)

example : (bothConf.acts[3]?).map (fieldAccesses [] bothConf.sh) = some [⟨2, .eventHook, true, none⟩, ⟨2, .state, true, some .object⟩] := rfl
example : (bothConf.acts[4]?).map (fieldAccesses [] bothConf.sh) = some [⟨2, .hook, true, none⟩, ⟨0, .hook, true, none⟩, ⟨1, .hook, true, none⟩] := rfl
example : RaceFree (fun d : D flag => d.queue) bothConf := C92_recurring_event (flagOk true) (Reach.after _ _ _)

end Recurring

namespace WaitGroup

/-- C92, `wait_group` and `oneshot_event`, used as documented. -/
theorem C92_wait_group {T : Type} {c' : Cfg} {n : Nat} (h1 : c'.safeAdd = true) (h2 : c'.safeDone = true) {c : Conf (mach (ds T c'))}
    (h : Reach (mach (ds T c')) (RSt.init (init n)) c) : RaceFree (S := ds T c') (fun d : D T => d.queue) c :=
  raceFree (line n h1 h2) h

/-- Three operations are suspended. `cancel()` has taken operation 2 off the list of its event, and then a call has
taken all operations off the list of the object. -/
def both : List (Lbl (mach (ds Nat oneshot))) := [.env (.cancel 7), .run 3 true, .env (.call (.ld none)), .run 4 true, .run 4 true]

abbrev bothConf : Conf (mach (ds Nat oneshot)) := (mach (ds Nat oneshot)).after (RSt.init (init 1)) (fifo1 ++ fifo2 ++ both)

example : (bothConf.acts[3]?).map (fieldAccesses [] bothConf.sh) = some [⟨2, .eventHook, true, none⟩, ⟨2, .state, true, some .object⟩] := rfl
example : (bothConf.acts[4]?).map (fieldAccesses [] bothConf.sh) = some [⟨2, .hook, true, none⟩, ⟨0, .hook, true, none⟩, ⟨1, .hook, true, none⟩] := rfl
example : RaceFree (fun d : D Nat => d.queue) bothConf := C92_wait_group (T := Nat) (c' := oneshot) rfl rfl (Reach.after _ _ _)

end WaitGroup

namespace Promise

/-- C92, `promise`. Once there is a value, `get` and its cancellation do not touch the list any more; from then on its
elements count as the local list of `set_value`. -/
theorem C92_promise {T : Type} {c : Conf (mach (ds T))}
    (h : Reach (mach (ds T)) (RSt.init (init)) c) : RaceFree (S := ds T) (fun d : D T => if d.value.isNone then d.queue else []) c :=
  raceFree (line T) h

/-- Three operations are suspended. `cancel()` has taken operation 2 off the list of its event, and then a call has
taken all operations off the list of the object. -/
def both : List (Lbl M) := [.env (.cancel 7), .run 3 true, .env (.call (.set 42)), .run 4 true, .run 4 true]

abbrev bothConf : Conf M := M.after (RSt.init (init)) (fifo1 ++ fifo2 ++ both)

example : (bothConf.acts[3]?).map (fieldAccesses [] bothConf.sh) = some [⟨2, .eventHook, true, none⟩, ⟨2, .state, true, some .object⟩] := rfl
example : (bothConf.acts[4]?).map (fieldAccesses [] bothConf.sh) = some [⟨2, .hook, true, none⟩, ⟨0, .hook, true, none⟩, ⟨1, .hook, true, none⟩] := rfl
example : RaceFree (fun d : D Nat => if d.value.isNone then d.queue else []) bothConf := C92_promise (Reach.after _ _ _)

end Promise

namespace PostAck

/-- C92, `post_ack_mechanism`, operations `poll`. -/
theorem C92_post_ack {T : Type} {c : Conf (mach (ds T))}
    (h : Reach (mach (ds T)) (RSt.init (init)) c) : RaceFree (S := ds T) (fun d : D => d.polls) c :=
  raceFree (line T) h

/-- Three operations are suspended. `cancel()` has taken operation 2 off the list of its event, and then a call has
taken all operations off the list of the object. -/
def both : List (Lbl M) := [.env (.cancel 7), .run 6 true, .env (.call (.post 100)), .run 7 true]

abbrev bothConf : Conf M := M.after (RSt.init (init)) (fifo1 ++ fifo2 ++ both)

example : (bothConf.acts[6]?).map (fieldAccesses [] bothConf.sh) = some [⟨2, .eventHook, true, none⟩, ⟨2, .state, true, some .object⟩] := rfl
example : (bothConf.acts[7]?).map (fieldAccesses [] bothConf.sh) = some [⟨2, .hook, true, none⟩, ⟨0, .hook, true, none⟩, ⟨1, .hook, true, none⟩] := rfl
example : RaceFree (fun d : D => d.polls) bothConf := C92_post_ack (Reach.after _ _ _)

end PostAck

namespace Queue

/-- C92, `queue`. -/
theorem C92_queue {T : Type} {c : Conf (mach (ds T))}
    (h : Reach (mach (ds T)) (RSt.init (init)) c) : RaceFree (S := ds T) (fun d : Q T => d.sinks) c :=
  raceFree (line T) h

/-- Three operations are suspended. `cancel()` has taken operation 2 off the list of its event, and then a call has
taken it off the list of the object. -/
def both : List (Lbl M) := [.env (.cancel 7), .run 3 true, .env (.call (.put 5)), .run 4 true]

abbrev bothConf : Conf M := M.after (RSt.init (init)) (fifo1 ++ fifo2 ++ both)

example : (bothConf.acts[3]?).map (fieldAccesses [] bothConf.sh) = some [⟨2, .eventHook, true, none⟩, ⟨2, .state, true, some .object⟩] := rfl
example : (bothConf.acts[4]?).map (fieldAccesses [] bothConf.sh) = some [⟨2, .hook, true, none⟩] := rfl
example : RaceFree (fun d : Q Nat => d.sinks) bothConf := C92_queue (Reach.after _ _ _)

end Queue

end Verif
