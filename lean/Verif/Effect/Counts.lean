import Verif.Effect.Resolver
import Verif.Queue.Model
import Verif.Sequenced.Model
import Verif.Barrier.Model
import Verif.WaitGroup.Model
import Verif.PostAck.Model
import Verif.Promise.Model

/-! # Weights of the calls of the data structures -/

namespace Verif

open Resolver

theorem countP_cons' {α : Type} (g : α → Bool) (a : α) (l : List α) : (a :: l).countP g = (g a).toNat + l.countP g := by
  cases h : g a <;> simp [h]; omega

theorem wl_fw_inl {I : Type} (w : I → Nat) (l : List OpId) : wl (fw w) (l.map .inl) = 0 := by
  induction l with
  | nil => rfl
  | cons x l ih => simp [fw, ih]

/-! ## queue -/

namespace Queue

variable {T : Type}

/-- `put(x)` with such an item. -/
def callsPut (q : T → Bool) : I T → Bool
  | .put x => q x
  | .maybeGet => false

def hasPut (q : T → Bool) : E T → Bool
  | .put x => q x
  | _ => false

def putW (q : T → Bool) (x : I T) : Nat := (callsPut q x).toNat

theorem put_counts (q : T → Bool) : Counts (ds T) (callsPut q) (hasPut q) (fun _ => false) (putW q) where
  call d x d' h := rfl
  start d i b d' v es h := by
    simp only [start] at h
    split at h
    · split at h <;> simp at h
      obtain ⟨-, -, rfl⟩ := h; simp [hasPut]
    · simp at h; obtain ⟨-, -, rfl⟩ := h; simp [hasPut]
  cancel d i d' r es h := by
    simp only [tryCancel] at h
    repeat' split at h
    all_goals simp at h
    all_goals obtain ⟨-, -, rfl⟩ := h; simp [hasPut]
  exec d x b d' ps es h := by
    simp only [exec] at h
    repeat' split at h
    all_goals simp at h
    all_goals obtain ⟨-, rfl, rfl⟩ := h; simp [hasPut, callsPut, putW, fw, countP_cons']

end Queue

/-! ## recurring_event, sequenced_event, barrier -/

namespace Recurring

variable {X : User}

/-- Such an action. -/
def callsAct (q : X.A → Bool) : I X → Bool
  | .act a => q a
  | .raise => false

def hasAct (q : X.A → Bool) : E X → Bool
  | .act a _ _ => q a
  | _ => false

def callsRaise : I X → Bool
  | .raise => true
  | .act _ => false

/-- `raise()` takes effect. -/
def hasRaise : E X → Bool
  | .raise _ => true
  | _ => false

/-- An action takes effect that is followed by `raise()`. -/
def thenRaise : E X → Bool
  | .act _ f _ => f
  | _ => false

def actW (q : X.A → Bool) (x : I X) : Nat := (callsAct q x).toNat

theorem act_counts (q : X.A → Bool) :
    Counts (ds X) (callsAct q) (hasAct q) (fun _ => false) (actW q) where
  call d x d' h := rfl
  start d i b d' v es h := by
    simp only [start] at h
    repeat' split at h
    all_goals simp at h
    all_goals obtain ⟨-, -, rfl⟩ := h; simp [hasAct]
  cancel d i d' r es h := by
    simp only [tryCancel] at h
    repeat' split at h
    all_goals simp at h
    all_goals obtain ⟨-, -, rfl⟩ := h; simp [hasAct]
  exec d x b d' ps es h := by
    simp only [exec] at h
    repeat' split at h
    all_goals simp at h
    all_goals obtain ⟨-, rfl, rfl⟩ := h; simp [hasAct, callsAct, actW, fw, countP_cons', wl_fw_inl]

def raiseW (x : I X) : Nat := (callsRaise x).toNat

theorem raise_counts : Counts (ds X) callsRaise hasRaise thenRaise raiseW where
  call d x d' h := rfl
  start d i b d' v es h := by
    simp only [start] at h
    repeat' split at h
    all_goals simp at h
    all_goals obtain ⟨-, -, rfl⟩ := h; simp [hasRaise, thenRaise]
  cancel d i d' r es h := by
    simp only [tryCancel] at h
    repeat' split at h
    all_goals simp at h
    all_goals obtain ⟨-, -, rfl⟩ := h; simp [hasRaise, thenRaise]
  exec d x b d' ps es h := by
    simp only [exec] at h
    repeat' split at h
    all_goals simp at h
    all_goals obtain ⟨-, rfl, rfl⟩ := h
    all_goals simp [hasRaise, thenRaise, callsRaise, raiseW, fw, countP_cons', wl_fw_inl]
    all_goals simp_all

end Recurring

/-! ## wait_group -/

namespace WaitGroup

variable {T : Type} {cf : Cfg}

def callsAdd (q : Nat → Bool) : I T → Bool
  | .add n none => q n
  | _ => false

def hasAdd (q : Nat → Bool) : E T → Bool
  | .add n none => q n
  | _ => false

/-- `done()` called by the user. -/
def callsDone : I T → Bool
  | .ld none => true
  | _ => false

def doneW : I T → Nat
  | .ld none | .cas _ none | .lock none => 1
  | _ => 0

/-- `done()` takes effect that was not called by a `wait_in_group` operation. -/
def hasDone : E T → Bool
  | .dec none | .zero none _ => true
  | _ => false

/-- `wait_in_group` operation `j` is started. -/
def callsGroup (j : Nat) : I T → Bool
  | .add _ (some k) => k == j
  | _ => false

def groupW (j : Nat) : I T → Nat
  | .add _ (some k) | .cstart k => (k == j).toNat
  | _ => 0

/-- The sender wrapped by it is started. -/
def hasStart (j : Nat) : E T → Bool
  | .cstart k => k == j
  | _ => false

/-- The sender wrapped by `j` completes with such a value. -/
def callsInner (j : Nat) (q : T → Bool) : I T → Bool
  | .cdone k v => k == j && q v
  | _ => false

def innerW (j : Nat) (q : T → Bool) : I T → Nat
  | .cdone k v | .ld (some (k, v)) | .cas _ (some (k, v)) | .lock (some (k, v)) | .wset k v => (k == j && q v).toNat
  | _ => 0

/-- The `wait_in_group` operation completes with such a value. -/
def hasOuter (j : Nat) (q : T → Bool) : E T → Bool
  | .wdone k v => k == j && q v
  | _ => false

/-- Values of the operations in flight while `done()` runs. -/
theorem start_es {d d' : D T} {i : OpId} {v : Option Bool} {es : List (E T)} (h : start d i = some (d', v, es)) :
    es = [.enq i] ∨ es = [.skip i] := by
  simp only [start] at h
  split at h <;> simp at h <;> simp [h.2.2.symm]

theorem cancel_es {d d' : D T} {i : OpId} {r : Bool} {es : List (E T)} (h : tryCancel d i = some (d', r, es)) :
    es = [.unq i] ∨ es = [] := by
  simp only [tryCancel] at h
  repeat' split at h
  all_goals simp at h
  all_goals simp [h.2.2.symm]

theorem counts_of {f : I T → Bool} {g : E T → Bool} {w : I T → Nat} (hg : ∀ i, g (.enq i) = false ∧ g (.skip i) = false ∧
    g (.unq i) = false) (hc : ∀ d x d', call cf d x = some d' → w x = (f x).toNat)
    (he : ∀ d x d' ps es, exec d x = some (d', ps, es) → es.countP g + wl (fw w) ps = w x) :
    Counts (ds T cf) f g (fun _ => false) w where
  call := hc
  start d i b d' v es h := by
    rcases start_es h with rfl | rfl <;> simp [hg]
  cancel d i d' r es h := by
    rcases cancel_es h with rfl | rfl <;> simp [hg]
  exec d x b d' ps es h := by
    have := he _ _ _ _ _ h
    simpa using this

theorem fw_cont (w : I T → Nat) (o : Option (Nat × T)) : wl (fw w) (cont o) = match o with
    | none => 0
    | some (j, v) => w (.wset j v) := by
  cases o <;> simp [cont, fw]

/-- `done()` after it got a value goes on with one instruction. -/
theorem decide_w {w : I T → Nat} {o : Option (Nat × T)} {n : Nat} (h : ∀ v, w (.cas v o) = n) (h' : w (.lock o) = n) {v : Nat}
    {l : List (OpId ⊕ I T)} (hd : decide_ v o = some l) : wl (fw w) l = n := by
  simp only [decide_] at hd
  repeat' split at hd
  all_goals simp at hd
  all_goals subst hd; simp [fw, h, h']

def addW (q : Nat → Bool) (x : I T) : Nat := (callsAdd q x).toNat

theorem add_counts (q : Nat → Bool) :
    Counts (ds T cf) (callsAdd q) (hasAdd q) (fun _ => false) (addW q) := by
  refine counts_of (by simp [hasAdd]) (fun _ _ _ _ => rfl) ?_
  intro d x d' ps es h
  cases x <;> simp only [exec] at h
  case add n w => cases w <;> simp at h <;> obtain ⟨-, rfl, rfl⟩ := h <;> simp [countP_cons', hasAdd, addW, callsAdd, fw]
  case ld w =>
    simp at h; obtain ⟨hd, -, rfl⟩ := h
    simp [decide_w (n := 0) (w := addW q) (by simp [addW, callsAdd]) (by simp [addW, callsAdd]) hd, addW, callsAdd]
  case cas v w =>
    split at h
    · simp at h; obtain ⟨-, rfl, rfl⟩ := h
      cases w <;> simp [fw_cont, countP_cons', hasAdd, addW, callsAdd]
    · simp at h; obtain ⟨hd, -, rfl⟩ := h
      simp [decide_w (n := 0) (w := addW q) (by simp [addW, callsAdd]) (by simp [addW, callsAdd]) hd, addW, callsAdd]
  case lock w =>
    repeat' split at h
    all_goals simp at h
    all_goals obtain ⟨-, rfl, rfl⟩ := h
    all_goals cases w <;> simp [wl_append, wl_fw_inl, fw_cont, countP_cons', hasAdd, addW, callsAdd]
  all_goals simp at h; obtain ⟨-, rfl, rfl⟩ := h; simp [countP_cons', hasAdd, addW, callsAdd, fw]

theorem done_counts : Counts (ds T cf) callsDone hasDone (fun _ => false) doneW := by
  refine counts_of (by simp [hasDone]) ?_ ?_
  · intro d x d' h
    cases x <;> simp [call, doneW, callsDone] at h ⊢
    rename_i w; cases w <;> simp at h ⊢
  intro d x d' ps es h
  cases x <;> simp only [exec] at h
  case add n w => cases w <;> simp at h <;> obtain ⟨-, rfl, rfl⟩ := h <;> simp [countP_cons', hasDone, doneW, fw]
  case ld w =>
    simp at h; obtain ⟨hd, -, rfl⟩ := h
    cases w
    · simp [decide_w (n := 1) (w := doneW) (by simp [doneW]) (by simp [doneW]) hd, doneW]
    · simp [decide_w (n := 0) (w := doneW) (by simp [doneW]) (by simp [doneW]) hd, doneW]
  case cas v w =>
    split at h
    · simp at h; obtain ⟨-, rfl, rfl⟩ := h
      cases w <;> simp [fw_cont, countP_cons', hasDone, doneW]
    · simp at h; obtain ⟨hd, -, rfl⟩ := h
      cases w
      · simp [decide_w (n := 1) (w := doneW) (by simp [doneW]) (by simp [doneW]) hd, doneW]
      · simp [decide_w (n := 0) (w := doneW) (by simp [doneW]) (by simp [doneW]) hd, doneW]
  case lock w =>
    repeat' split at h
    all_goals simp at h
    all_goals obtain ⟨-, rfl, rfl⟩ := h
    all_goals cases w <;> simp [wl_append, wl_fw_inl, fw_cont, countP_cons', hasDone, doneW]
  all_goals simp at h; obtain ⟨-, rfl, rfl⟩ := h; simp [countP_cons', hasDone, doneW, fw]

theorem group_counts (j : Nat) : Counts (ds T cf) (callsGroup j) (hasStart j) (fun _ => false) (groupW j) := by
  refine counts_of (by simp [hasStart]) ?_ ?_
  · intro d x d' h
    cases x <;> simp [call, groupW, callsGroup] at h ⊢
    rename_i w; cases w <;> simp at h ⊢
  intro d x d' ps es h
  cases x <;> simp only [exec] at h
  case add n w => cases w <;> simp at h <;> obtain ⟨-, rfl, rfl⟩ := h <;> simp [countP_cons', hasStart, groupW, fw]
  case ld w =>
    simp at h; obtain ⟨hd, -, rfl⟩ := h
    simp [decide_w (n := 0) (w := groupW j) (by simp [groupW]) (by simp [groupW]) hd, groupW]
  case cas v w =>
    split at h
    · simp at h; obtain ⟨-, rfl, rfl⟩ := h
      cases w <;> simp [fw_cont, countP_cons', hasStart, groupW]
    · simp at h; obtain ⟨hd, -, rfl⟩ := h
      simp [decide_w (n := 0) (w := groupW j) (by simp [groupW]) (by simp [groupW]) hd, groupW]
  case lock w =>
    repeat' split at h
    all_goals simp at h
    all_goals obtain ⟨-, rfl, rfl⟩ := h
    all_goals cases w <;> simp [wl_append, wl_fw_inl, fw_cont, countP_cons', hasStart, groupW]
  all_goals simp at h; obtain ⟨-, rfl, rfl⟩ := h; simp [countP_cons', hasStart, groupW, fw]

theorem inner_counts (j : Nat) (q : T → Bool) :
    Counts (ds T cf) (callsInner j q) (hasOuter j q) (fun _ => false) (innerW j q) := by
  refine counts_of (by simp [hasOuter]) ?_ ?_
  · intro d x d' h
    cases x <;> simp [call, innerW, callsInner] at h ⊢
    rename_i w; cases w <;> simp at h ⊢
  intro d x d' ps es h
  cases x <;> simp only [exec] at h
  case add n w => cases w <;> simp at h <;> obtain ⟨-, rfl, rfl⟩ := h <;> simp [countP_cons', hasOuter, innerW, fw]
  case ld w =>
    simp at h; obtain ⟨hd, -, rfl⟩ := h
    rcases w with _ | ⟨k, v⟩
    · simp [decide_w (n := 0) (w := innerW j q) (by simp [innerW]) (by simp [innerW]) hd, innerW]
    · simp [decide_w (n := (k == j && q v).toNat) (w := innerW j q) (by simp [innerW]) (by simp [innerW]) hd, innerW]
  case cas v w =>
    split at h
    · simp at h; obtain ⟨-, rfl, rfl⟩ := h
      rcases w with _ | ⟨k, v⟩ <;> simp [fw_cont, countP_cons', hasOuter, innerW]
    · simp at h; obtain ⟨hd, -, rfl⟩ := h
      rcases w with _ | ⟨k, v⟩
      · simp [decide_w (n := 0) (w := innerW j q) (by simp [innerW]) (by simp [innerW]) hd, innerW]
      · simp [decide_w (n := (k == j && q v).toNat) (w := innerW j q) (by simp [innerW]) (by simp [innerW]) hd, innerW]
  case lock w =>
    repeat' split at h
    all_goals simp at h
    all_goals obtain ⟨-, rfl, rfl⟩ := h
    all_goals rcases w with _ | ⟨k, v⟩ <;> simp [wl_append, wl_fw_inl, fw_cont, countP_cons', hasOuter, innerW]
  all_goals simp at h; obtain ⟨-, rfl, rfl⟩ := h; simp [countP_cons', hasOuter, innerW, fw]

end WaitGroup

/-! ## post_ack -/

namespace PostAck

variable {T : Type}

def callsPost (q : T → Bool) : I T → Bool
  | .post x => q x
  | _ => false

/-- A post with such a value takes effect. -/
def hasPost (q : T → Bool) : E T → Bool
  | .posted _ x => q x
  | _ => false

def callsAttach (a : Agent) : I T → Bool
  | .attach b => b == a
  | _ => false

def hasAttach (a : Agent) : E T → Bool
  | .attached b => b == a
  | _ => false

def callsDetach (a : Agent) : I T → Bool
  | .detach b => b == a
  | _ => false

def hasDetaching (a : Agent) : E T → Bool
  | .detaching b => b == a
  | _ => false

/-- `detach` is finished. -/
def hasDetached (a : Agent) : E T → Bool
  | .detached b => b == a
  | _ => false

def detW (a : Agent) : I T → Nat
  | .detach b | .det b _ => (b == a).toNat
  | _ => 0

def callsAck (a : Agent) (n : Nat) : I T → Bool
  | .ack b m => b == a && m == n
  | _ => false

def hasAck (a : Agent) (n : Nat) : E T → Bool
  | .acked b m => b == a && m == n
  | _ => false

theorem counts_of {f : I T → Bool} {g : E T → Bool} {w : I T → Nat} (hg : ∀ i, g (.enq i) = false ∧ g (.skip i) = false ∧
    g (.unq i) = false) (hc : ∀ d x d', call d x = some d' → w x = (f x).toNat)
    (he : ∀ d x d' ps es, exec d x = some (d', ps, es) → es.countP g + wl (fw w) ps = w x) :
    Counts (ds T) f g (fun _ => false) w where
  call := hc
  start d i b d' v es h := by
    simp only [start] at h
    repeat' split at h
    all_goals simp at h
    all_goals obtain ⟨-, -, rfl⟩ := h; simp [hg]
  cancel d i d' r es h := by
    simp only [tryCancel] at h
    repeat' split at h
    all_goals simp at h
    all_goals obtain ⟨-, -, rfl⟩ := h; simp [hg]
  exec d x b d' ps es h := by
    have := he _ _ _ _ _ h
    simpa using this

theorem release_es {d d' : D} {a : Agent} {r : Nat} {ps : List (OpId ⊕ I T)} {es : List (E T)}
    (h : release d a r = some (d', ps, es)) : ∃ n, es = [.released a n] ∧
      (ps = [.inr (.pdone n), .inr (.det a r)] ∨ ps = [.inr (.det a r)]) := by
  simp only [release] at h
  repeat' split at h
  all_goals simp at h
  all_goals obtain ⟨-, rfl, rfl⟩ := h; exact ⟨_, rfl, by simp⟩

def postW (q : T → Bool) (x : I T) : Nat := (callsPost q x).toNat

theorem post_counts (q : T → Bool) : Counts (ds T) (callsPost q) (hasPost q) (fun _ => false) (postW q) := by
  refine counts_of (by simp [hasPost, callsPost, postW]) (fun _ _ _ _ => rfl) ?_
  intro d x d' ps es h
  cases x <;> simp only [exec] at h
  all_goals repeat' split at h
  all_goals try first
    | (obtain ⟨m, he, hps⟩ := release_es h; subst he; clear h)
    | (rename_i hr; obtain ⟨m, he, hps⟩ := release_es hr; subst he; clear hr)
  all_goals try simp at h
  all_goals try (obtain ⟨-, rfl, rfl⟩ := h)
  all_goals try (rcases hps with rfl | rfl)
  all_goals simp [countP_cons', wl_fw_inl, fw, hasPost, callsPost, postW]

def attachW (a : Agent) (x : I T) : Nat := (callsAttach a x).toNat

theorem attach_counts (a : Agent) : Counts (ds T) (callsAttach a) (hasAttach a) (fun _ => false) (attachW a) := by
  refine counts_of (by simp [hasAttach, callsAttach, attachW]) (fun _ _ _ _ => rfl) ?_
  intro d x d' ps es h
  cases x <;> simp only [exec] at h
  all_goals repeat' split at h
  all_goals try first
    | (obtain ⟨m, he, hps⟩ := release_es h; subst he; clear h)
    | (rename_i hr; obtain ⟨m, he, hps⟩ := release_es hr; subst he; clear hr)
  all_goals try simp at h
  all_goals try (obtain ⟨-, rfl, rfl⟩ := h)
  all_goals try (rcases hps with rfl | rfl)
  all_goals simp [countP_cons', wl_fw_inl, fw, hasAttach, callsAttach, attachW]

def detachW (a : Agent) (x : I T) : Nat := (callsDetach a x).toNat

theorem detaching_counts (a : Agent) : Counts (ds T) (callsDetach a) (hasDetaching a) (fun _ => false) (detachW a) := by
  refine counts_of (by simp [hasDetaching, callsDetach, detachW]) (fun _ _ _ _ => rfl) ?_
  intro d x d' ps es h
  cases x <;> simp only [exec] at h
  all_goals repeat' split at h
  all_goals try first
    | (obtain ⟨m, he, hps⟩ := release_es h; subst he; clear h)
    | (rename_i hr; obtain ⟨m, he, hps⟩ := release_es hr; subst he; clear hr)
  all_goals try simp at h
  all_goals try (obtain ⟨-, rfl, rfl⟩ := h)
  all_goals try (rcases hps with rfl | rfl)
  all_goals simp [countP_cons', wl_fw_inl, fw, hasDetaching, callsDetach, detachW]

theorem detached_counts (a : Agent) : Counts (ds T) (callsDetach a) (hasDetached a) (fun _ => false) (detW a) := by
  refine counts_of (by simp [hasDetached, callsDetach, detW]) (by
    intro d x d' h
    cases x <;> simp [call, detW, callsDetach] at h ⊢) ?_
  intro d x d' ps es h
  cases x <;> simp only [exec] at h
  all_goals repeat' split at h
  all_goals try first
    | (obtain ⟨m, he, hps⟩ := release_es h; subst he; clear h)
    | (rename_i hr; obtain ⟨m, he, hps⟩ := release_es hr; subst he; clear hr)
  all_goals try simp at h
  all_goals try (obtain ⟨-, rfl, rfl⟩ := h)
  all_goals try (rcases hps with rfl | rfl)
  all_goals simp [countP_cons', wl_fw_inl, fw, hasDetached, callsDetach, detW]

def ackW (a : Agent) (n : Nat) (x : I T) : Nat := (callsAck a n x).toNat

theorem ack_counts (a : Agent) (n : Nat) : Counts (ds T) (callsAck a n) (hasAck a n) (fun _ => false) (ackW a n) := by
  refine counts_of (by simp [hasAck, callsAck, ackW]) (fun _ _ _ _ => rfl) ?_
  intro d x d' ps es h
  cases x <;> simp only [exec] at h
  all_goals repeat' split at h
  all_goals try first
    | (obtain ⟨m, he, hps⟩ := release_es h; subst he; clear h)
    | (rename_i hr; obtain ⟨m, he, hps⟩ := release_es hr; subst he; clear hr)
  all_goals try simp at h
  all_goals try (obtain ⟨-, rfl, rfl⟩ := h)
  all_goals try (rcases hps with rfl | rfl)
  all_goals simp [countP_cons', wl_fw_inl, fw, hasAck, callsAck, ackW]

end PostAck

/-! ## promise -/

namespace Promise

variable {T : Type}

def callsSet (q : T → Bool) : I T → Bool
  | .set v => q v
  | .wake _ => false

/-- Such a value is published. -/
def hasSet (q : T → Bool) : E T → Bool
  | .set v => q v
  | _ => false

def setW (q : T → Bool) (x : I T) : Nat := (callsSet q x).toNat

theorem set_counts (q : T → Bool) : Counts (ds T) (callsSet q) (hasSet q) (fun _ => false) (setW q) where
  call d x d' h := rfl
  start d i b d' v es h := by
    simp only [start] at h
    repeat' split at h
    all_goals simp at h
    all_goals obtain ⟨-, -, rfl⟩ := h; simp [hasSet]
  cancel d i d' r es h := by
    simp only [tryCancel] at h
    repeat' split at h
    all_goals simp at h
    all_goals obtain ⟨-, -, rfl⟩ := h; simp [hasSet]
  exec d x b d' ps es h := by
    simp only [exec] at h
    repeat' split at h
    all_goals simp at h
    all_goals obtain ⟨-, rfl, rfl⟩ := h; simp [hasSet, callsSet, setW, fw, countP_cons', wl_fw_inl]

end Promise

end Verif
