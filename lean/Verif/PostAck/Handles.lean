import Verif.Base

/-!
# `post_ack_handle` (post-ack.hpp 175-246): who has to acknowledge

Variables of type `post_ack_handle` and the operations on them, one after the other (a variable is used by one thread at
a time). A delivery is one poll that returned a post to an agent; it is identified by a number. `ack` is split in two,
since `complete()` runs code of the user before `acked_` is set (lines 209-223). The memory of the
node exists at least until the delivery is acknowledged (`C32_post_completes`), it may be gone after that.
-/

namespace Verif.PostAck.Handles

/-- What happens. -/
inductive Ev where
  /-- A poll delivers post `n` of mechanism `m`. -/
  | give (m n : Nat)
  /-- Delivery `n` is acknowledged, using the lock and queue of mechanism `m`. -/
  | ack (m n : Nat)
  /-- The operation of the post is destroyed. -/
  | free (n : Nat)
  /-- The object is accessed. -/
  | use (n : Nat)
deriving DecidableEq

/-- Deliveries, in order. -/
def given (log : List Ev) : List Nat := log.filterMap (fun v => match v with | .give _ n => some n | _ => none)

/-- Deliveries that were acknowledged, in order. -/
def acks (log : List Ev) : List Nat := log.filterMap (fun v => match v with | .ack _ n => some n | _ => none)

/-- The data members, lines 241-243. -/
structure Var where
  mech : Option Nat
  nd : Option Nat
  acked : Bool
deriving DecidableEq

/-- `post_ack_handle()`, line 188 with lines 241-243. -/
def Var.empty : Var := ⟨none, none, false⟩

structure St where
  /-- Variables that are constructed and not destroyed. -/
  live : List Nat
  val : Nat → Var
  /-- Variables on which `ack` is running. -/
  running : List Nat
  /-- Nodes that are gone. -/
  gone : List Nat
  log : List Ev

def St.init : St := ⟨[], fun _ => .empty, [], [], []⟩

/-- Operations; `h` is the variable operated on, `g` the argument. -/
inductive Op where
  /-- Line 189. -/
  | new (h : Nat)
  /-- A poll returns a handle, lines 190-191 (called in lines 348 and 365): post `n`, or an empty handle. -/
  | poll (h m : Nat) (n : Option Nat)
  /-- `swap`, lines 181-186. -/
  | swap (h g : Nat)
  /-- Move constructor, lines 195-198. -/
  | move (h g : Nat)
  /-- Assignment from an rvalue, lines 204-207. -/
  | assign (h g : Nat)
  /-- `ack`, lines 209-222. -/
  | ack (h : Nat)
  /-- `ack`, line 223. -/
  | ackEnd (h : Nat)
  /-- `operator->` and `operator*`, lines 230-238. -/
  | deref (h : Nat)
  /-- Destructor, lines 200-202. -/
  | destroy (h : Nat)
  /-- The operation of the post is destroyed. -/
  | free (n : Nat)

/-- Outcome of an operation. -/
inductive Res where
  | ok (s : St)
  /-- Failing assertion, null pointer dereference or access to an object that is gone. -/
  | fault
  /-- Not a program: a variable does not exist or exists already, or a delivery is used twice. -/
  | illTyped

/-- `swap`, lines 181-186. -/
def swap (s : St) (h g : Nat) : St :=
  let a := s.val h
  let b := s.val g
  { s with val := upd (upd s.val h ⟨b.mech, b.nd, b.acked⟩) g ⟨a.mech, a.nd, a.acked⟩ }

/-- The assertion of the destructor, line 201. -/
def Var.done (v : Var) : Bool := v.nd.isNone || v.acked

/-- `operator bool`, lines 226-228. -/
def Var.bool (v : Var) : Bool := v.nd.isSome

/-- One operation. -/
def step (s : St) : Op → Res
  | .new h => if h ∈ s.live then .illTyped else .ok { s with live := h :: s.live, val := upd s.val h .empty }
  | .poll h m n =>
    if h ∈ s.live ∨ n.any (fun k => k ∈ given s.log) then .illTyped
    else .ok { s with live := h :: s.live, val := upd s.val h ⟨some m, n, false⟩,
                      log := s.log ++ (match n with | some k => [.give m k] | none => []) }
  | .swap h g => if h ∈ s.live ∧ g ∈ s.live then .ok (swap s h g) else .illTyped
  | .move h g =>
    if h ∉ s.live ∧ g ∈ s.live then
      .ok (swap { s with live := h :: s.live, val := upd s.val h .empty } h g)
    else .illTyped
  | .assign h g =>
    if h ∈ s.live ∧ g ∈ s.live then
      -- parameter `other` is constructed from `g`; swap; destructor of `other`
      let o := s.val g
      let s1 : St := { s with val := upd s.val g .empty }
      let o' := s1.val h
      if o'.done then .ok { s1 with val := upd s1.val h o } else .fault
    else .illTyped
  | .ack h =>
    if h ∈ s.live then
      match (s.val h).nd with
      | none => .fault  -- assert, line 210
      | some n =>
        if (s.val h).acked then .fault  -- assert, line 211
        else if n ∈ s.gone then .fault
        else match (s.val h).mech with
          | none => .fault
          | some m => .ok { s with running := h :: s.running, log := s.log ++ [.ack m n] }
    else .illTyped
  | .ackEnd h =>
    if h ∈ s.running then
      if h ∈ s.live then
        .ok { s with running := s.running.erase h, val := upd s.val h { s.val h with acked := true } }
      else .fault  -- write to a destroyed variable
    else .illTyped
  | .deref h =>
    if h ∈ s.live then
      match (s.val h).nd with
      | none => .fault  -- asserts, lines 231 and 236
      | some n => if n ∈ s.gone then .fault else .ok { s with log := s.log ++ [.use n] }
    else .illTyped
  | .destroy h =>
    if h ∈ s.live then
      if (s.val h).done then .ok { s with live := s.live.erase h } else .fault
    else .illTyped
  | .free n =>
    -- `C32_post_completes`: not before the delivery is acknowledged
    if n ∈ acks s.log then .ok { s with gone := n :: s.gone, log := s.log ++ [.free n] } else .illTyped

/-- Variables that an operation uses. -/
def Op.vars : Op → List Nat
  | .new h => [h]
  | .poll h _ _ => [h]
  | .swap h g => [h, g]
  | .move h g => [h, g]
  | .assign h g => [h, g]
  | .ack h => [h]
  | .ackEnd _ => []
  | .deref h => [h]
  | .destroy h => [h]
  | .free _ => []

/-- Contract: a variable is not used while `ack` runs on it (not even by the code that `ack` runs), and the object is not
used after it was acknowledged. -/
def Allowed (s : St) (o : Op) : Prop :=
  (∀ h ∈ o.vars, h ∉ s.running) ∧ (∀ h, o = .deref h → (s.val h).acked = false)

/-- Invariant. -/
structure Inv (s : St) : Prop where
  live : s.live.Nodup
  run : s.running.Nodup
  sub : ∀ h ∈ s.running, h ∈ s.live ∧ (s.val h).acked = false ∧ (s.val h).nd ≠ none
  own : ∀ h ∈ s.live, ∀ n, (s.val h).nd = some n → ∃ m, (s.val h).mech = some m ∧ .give m n ∈ s.log ∧
    (n ∈ acks s.log ↔ (s.val h).acked = true ∨ h ∈ s.running)
  uniq : ∀ h ∈ s.live, ∀ g ∈ s.live, ∀ n, (s.val h).nd = some n → (s.val g).nd = some n → h = g
  open_ : ∀ n ∈ given s.log, n ∉ acks s.log → ∃ h ∈ s.live, (s.val h).nd = some n
  gives : (given s.log).Nodup
  one : (acks s.log).Nodup
  ack : ∀ m n, .ack m n ∈ s.log → .give m n ∈ s.log
  gone : ∀ n ∈ s.gone, n ∈ acks s.log

theorem given_append (l l' : List Ev) : given (l ++ l') = given l ++ given l' := by simp [given]
theorem acks_append (l l' : List Ev) : acks (l ++ l') = acks l ++ acks l' := by simp [acks]

theorem mem_given {n : Nat} {l : List Ev} : n ∈ given l ↔ ∃ m, .give m n ∈ l := by
  simp only [given, List.mem_filterMap]
  constructor
  · rintro ⟨v, hv, e⟩
    cases v <;> simp at e
    subst e; exact ⟨_, hv⟩
  · rintro ⟨m, h⟩
    exact ⟨_, h, rfl⟩

theorem mem_acks {n : Nat} {l : List Ev} : n ∈ acks l ↔ ∃ m, .ack m n ∈ l := by
  simp only [acks, List.mem_filterMap]
  constructor
  · rintro ⟨v, hv, e⟩
    cases v <;> simp at e
    subst e; exact ⟨_, hv⟩
  · rintro ⟨m, h⟩
    exact ⟨_, h, rfl⟩

theorem inv_init : Inv .init := by
  constructor <;> simp [St.init, given, acks]

theorem inv_step {s s' : St} {o : Op} (h : Inv s) (ha : Allowed s o) (hs : step s o = .ok s') : Inv s' := by
  obtain ⟨h1, h2, h3, h4, h5, h6, h7, h8, h9, h10⟩ := h
  obtain ⟨a1, a2⟩ := ha
  cases o with
  | new h =>
    simp only [step] at hs
    split at hs <;> simp only [Res.ok.injEq, reduceCtorEq] at hs
    subst hs
    constructor <;> simp only [Op.vars, upd] at * <;> grind [Var.empty]
  | poll h m n =>
    simp only [step] at hs
    split at hs <;> simp only [Res.ok.injEq, reduceCtorEq] at hs
    subst hs
    rename_i hn
    cases n with
    | none => constructor <;> simp only [Op.vars, upd, List.append_nil] at * <;> grind
    | some k =>
      have e1 : given [Ev.give m k] = [k] := rfl
      have e2 : acks [Ev.give m k] = [] := rfl
      have e3 : k ∉ given s.log := by simp at hn; exact hn.2
      have e4 : k ∉ acks s.log := fun hk => by
        obtain ⟨m', hm⟩ := mem_acks.1 hk
        exact e3 (mem_given.2 ⟨m', h9 _ _ hm⟩)
      have e5 : ∀ g ∈ s.live, (s.val g).nd ≠ some k := fun g hg hk => by
        obtain ⟨m', -, hm, -⟩ := h4 g hg k hk
        exact e3 (mem_given.2 ⟨m', hm⟩)
      constructor <;> simp only [Op.vars, upd, given_append, acks_append, e1, e2, List.append_nil] at * <;> grind
  | swap h g =>
    simp only [step] at hs
    split at hs <;> simp only [Res.ok.injEq, reduceCtorEq] at hs
    subst hs
    constructor <;> simp only [Op.vars, upd, swap] at * <;> grind
  | move h g =>
    simp only [step] at hs
    split at hs <;> simp only [Res.ok.injEq, reduceCtorEq] at hs
    subst hs
    constructor <;> simp only [Op.vars, upd, swap] at * <;> grind [Var.empty]
  | assign h g =>
    simp only [step] at hs
    split at hs
    · split at hs <;> simp only [Res.ok.injEq, reduceCtorEq] at hs
      subst hs
      constructor <;> simp only [Op.vars, upd, Var.done] at * <;> grind [Var.empty]
    · cases hs
  | ack h =>
    simp only [step] at hs
    repeat' split at hs
    all_goals first | cases hs | skip
    rename_i n hn _ hg _ m hm
    have e1 : given [Ev.ack m n] = [] := rfl
    have e2 : acks [Ev.ack m n] = [n] := rfl
    constructor <;> simp only [Op.vars, given_append, acks_append, e1, e2, List.append_nil] at * <;> grind
  | ackEnd h =>
    simp only [step] at hs
    repeat' split at hs
    all_goals first | cases hs | skip
    constructor <;> simp only [Op.vars, upd] at * <;> grind
  | deref h =>
    simp only [step] at hs
    repeat' split at hs
    all_goals first | cases hs | skip
    rename_i n hn _
    have e1 : given [Ev.use n] = [] := rfl
    have e2 : acks [Ev.use n] = [] := rfl
    constructor <;> simp only [Op.vars, given_append, acks_append, e1, e2, List.append_nil] at * <;> grind
  | destroy h =>
    simp only [step] at hs
    repeat' split at hs
    all_goals first | cases hs | skip
    constructor <;> simp only [Op.vars, Var.done] at * <;> grind
  | free n =>
    simp only [step] at hs
    split at hs <;> simp only [Res.ok.injEq, reduceCtorEq] at hs
    subst hs
    have e1 : given [Ev.free n] = [] := rfl
    have e2 : acks [Ev.free n] = [] := rfl
    constructor <;> simp only [Op.vars, given_append, acks_append, e1, e2, List.append_nil] at * <;> grind

end Verif.PostAck.Handles
