/-!
# Environments of receivers (execution.hpp, algorithm.hpp, cancellation.hpp, wait-group.hpp, basic.hpp)

`execution::get_env(r)` returns an environment of receiver `r`. The receivers that algorithms pass to the senders they are made
of forward the question: they contain the receiver of the algorithm, or a pointer to the operation that stores it. This file models where
receivers are stored, when they are stored and moved, and what `get_env` reads.

An operation is identified by its path: `[t]` is the outermost operation of expression `t`, and `k :: p` is the operation of child `k` of
operation `p` (`repeat_while`: of iteration `k`). A call of `connect` is one step; the leaves that it connects ask for the environment
while it runs, and the memory at that moment is recorded. All else is one step per event: an operation is started, a leaf asks for its environment, an
operation completes, the next child of `sequence` and `repeat_while` is connected, the user destroys the outermost operation.

Simplifications: an algorithm starts its children, and completes, at any time after the events that make it do so (the code does so at
once). Which branch is taken is left to the schedule. Senders and functors are not stored. Environments are numbers. Argument lists of
`when_all` and `race_and_cancel` are connected from left to right.
-/

namespace Verif.Env

abbrev Path := List Nat

/-- Sender expressions. `seq n f`, `all n f` and `race n f` have the senders `f 0 … f n`. -/
inductive Snd where
  /-- A sender that is not made of other senders. -/
  | leaf
  /-- `transform`, algorithm.hpp 82-173. -/
  | xform (s : Snd)
  /-- `ite`, algorithm.hpp 180-244. -/
  | ite (a b : Snd)
  /-- `let`, algorithm.hpp 450-508. The sender depends on the value. -/
  | letS (f : Nat → Snd)
  /-- `lambda`, algorithm.hpp 754-802. -/
  | lam (s : Snd)
  /-- `sequence`, algorithm.hpp 514-660. -/
  | seq (n : Nat) (f : Nat → Snd)
  /-- `repeat_while`, algorithm.hpp 251-330. `f k` is the sender of iteration `k`. -/
  | rep (f : Nat → Snd)
  /-- `when_all`, algorithm.hpp 667-747. -/
  | all (n : Nat) (f : Nat → Snd)
  /-- `race_and_cancel`, algorithm.hpp 336-443. -/
  | race (n : Nat) (f : Nat → Snd)
  /-- `with_cancel_cb`, cancellation.hpp 482-590. -/
  | cancelCb (s : Snd)
  /-- `wait_in_group`, wait-group.hpp 190-251. -/
  | inGroup (s : Snd)
  /-- A sender of the user that passes its receiver on as an `any_receiver`, basic.hpp 196-246. -/
  | erased (s : Snd)

/-- Receivers. -/
inductive Rcv where
  /-- A receiver of the user, with `get_env` returning `e`, or (`none`) without that member. Those of `run` (basic.hpp 379-389, 409-420),
  `detach` (499-509) and `sender_awaiter` (122-129, 158-164) have none. -/
  | user (e : Option Nat)
  /-- `final_receiver` of `spawn_with_allocator`, basic.hpp 564-576: a pointer to the block that stores the receiver of the user.
  It has no member `get_env`. -/
  | spawned
  /-- `value_transform_receiver` and `void_transform_receiver`, algorithm.hpp 83-127: contains `r`. -/
  | xform (r : Rcv)
  /-- `any_receiver`, basic.hpp 196-246: contains `r`. It has no member `get_env`. -/
  | any (r : Rcv)
  /-- The receivers of `repeat_while` (algorithm.hpp 281-298), `race_and_cancel` (359-380), `sequence` (569-620), `when_all` (669-686),
  `with_cancel_cb` (cancellation.hpp 503-519) and `wait_in_group` (wait-group.hpp 200-216): a pointer to operation `p`. -/
  | ptr (p : Path)
  /-- The contents of a member that stores no receiver. -/
  | garbage

/-- A member that stores a receiver. -/
inductive Fld where
  /-- The operation has no such member. -/
  | absent
  /-- The member is not initialised yet. -/
  | unset
  | val (r : Rcv)
  /-- The receiver was moved away. -/
  | moved

/-- The receiver read from a member. -/
def Fld.get : Fld → Rcv
  | .val r => r
  | _ => .garbage

inductive Phase where
  | conn
  | started
  | done
deriving DecidableEq

/-- An operation: its sender, its member `dr_`, `r_` or `originalr_`, and what happened to it. -/
structure Obj where
  snd : Snd
  dr : Fld
  ph : Phase

abbrev Heap := Path → Option Obj

/-- How the outermost receiver of an expression is given. -/
inductive Root where
  /-- `connect(sender, receiver)`; or `run`, `detach` and `co_await` (`none`). -/
  | direct (e : Option Nat)
  /-- `spawn_with_allocator(allocator, sender, receiver)`, basic.hpp 599-604. -/
  | spawn (e : Option Nat)

/-- The receiver to which the outermost sender is connected (basic.hpp 587-591 for `spawn_with_allocator`). -/
def Root.rcv : Root → Rcv
  | .direct e => .user e
  | .spawn _ => .spawned

/-- A call of `get_env` by leaf `path`, with receiver `rcv`. `busy` are the operations whose `connect` is running. -/
structure Query where
  path : Path
  rcv : Rcv
  heap : Heap
  busy : List Path

structure St where
  heap : Heap
  asked : List Query

def init : St := ⟨fun _ => none, []⟩

/-- Construct or change operation `p`. -/
def St.put (s : St) (p : Path) (o : Obj) : St := { s with heap := fun q => if q = p then some o else s.heap q }

/-- Leaf `p` calls `get_env`. -/
def St.ask (s : St) (p : Path) (r : Rcv) (busy : List Path) : St := { s with asked := s.asked ++ [⟨p, r, s.heap, busy⟩] }

/-- Destroy operation `p` and those inside. -/
def St.drop (s : St) (p : Path) : St := { s with heap := fun q => if p <:+ q then none else s.heap q }

/-- `g 0`, …, `g n`. -/
def upto (g : Nat → St → St) : Nat → St → St
  | 0, s => g 0 s
  | n + 1, s => g (n + 1) (upto g n s)

/-- `connect(sender, r)`, for the operation at `p`. `busy` are the operations whose `connect` is running. -/
def connect (busy : List Path) : Snd → Path → Rcv → St → St
  | .leaf, p, r, s =>
    -- a leaf that calls `get_env` in its `connect`, and keeps the receiver
    (s.ask p r (p :: busy)).put p ⟨.leaf, .val r, .conn⟩
  | .xform S, p, r, s =>
    -- algorithm.hpp 138-141, 157-160
    connect (p :: busy) S (0 :: p) (.xform r) (s.put p ⟨.xform S, .absent, .conn⟩)
  | .ite a b, p, r, s =>
    -- algorithm.hpp 181-183
    s.put p ⟨.ite a b, .val r, .conn⟩
  | .letS f, p, r, s =>
    -- algorithm.hpp 455-456
    s.put p ⟨.letS f, .val r, .conn⟩
  | .lam S, p, r, s =>
    -- algorithm.hpp 755-756
    connect (p :: busy) S (0 :: p) r (s.put p ⟨.lam S, .absent, .conn⟩)
  | .seq n f, p, r, s =>
    -- algorithm.hpp 515-516
    s.put p ⟨.seq n f, .val r, .conn⟩
  | .rep f, p, r, s =>
    -- algorithm.hpp 254-255
    s.put p ⟨.rep f, .val r, .conn⟩
  | .all n f, p, r, s =>
    -- algorithm.hpp 699-702, 688-696; `dr_` (719) is initialised before `ops_` (720)
    upto (fun k => connect (p :: busy) (f k) (k :: p) (.ptr p)) n (s.put p ⟨.all n f, .val r, .conn⟩)
  | .race n f, p, r, s =>
    -- algorithm.hpp 403-404, 393-400; `r_` (426) is initialised before `ops_` (427)
    upto (fun k => connect (p :: busy) (f k) (k :: p) (.ptr p)) n (s.put p ⟨.race n f, .val r, .conn⟩)
  | .cancelCb S, p, r, s =>
    -- cancellation.hpp 487-491; `op_` (542) is initialised before `dr_` (544)
    (connect (p :: busy) S (0 :: p) (.ptr p) (s.put p ⟨.cancelCb S, .unset, .conn⟩)).put p ⟨.cancelCb S, .val r, .conn⟩
  | .inGroup S, p, r, s =>
    -- wait-group.hpp 220-224; `originalr_` (197) is initialised before `originalop_` (218)
    connect (p :: busy) S (0 :: p) (.ptr p) (s.put p ⟨.inGroup S, .val r, .conn⟩)
  | .erased S, p, r, s =>
    -- basic.hpp 204-210, 229-235
    connect (p :: busy) S (0 :: p) (.any r) (s.put p ⟨.erased S, .absent, .conn⟩)

/-- The body of `start()` of operation `p`, as far as it connects senders; `c` is the branch taken. -/
def begin (s : St) (p : Path) (o : Obj) (c : Nat) : St :=
  match o.snd with
  | .ite a b =>
    -- algorithm.hpp 196-208: `dr_` is moved into the operation of the branch
    if c = 0 then connect [] a (0 :: p) o.dr.get (s.put p ⟨o.snd, .moved, .started⟩)
    else connect [] b (1 :: p) o.dr.get (s.put p ⟨o.snd, .moved, .started⟩)
  | .letS f =>
    -- algorithm.hpp 466-470: `r_` is moved
    connect [] (f c) (0 :: p) o.dr.get (s.put p ⟨o.snd, .moved, .started⟩)
  | .seq _ f =>
    -- algorithm.hpp 522-539
    connect [] (f 0) (0 :: p) (.ptr p) (s.put p ⟨o.snd, o.dr, .started⟩)
  | .rep f =>
    -- algorithm.hpp 261-272
    if c = 0 then s.put p ⟨o.snd, o.dr, .started⟩
    else connect [] (f 0) (0 :: p) (.ptr p) (s.put p ⟨o.snd, o.dr, .started⟩)
  | _ => s.put p ⟨o.snd, o.dr, .started⟩

/-- Child `k` of `p` has completed. -/
def kidDone (s : St) (p : Path) (k : Nat) : Prop := ∃ o, s.heap (k :: p) = some o ∧ o.ph = .done

/-- Operation `p`, which is started, may complete: a leaf at any time, others depending on the children. -/
def mayFinish (s : St) (p : Path) : Snd → Prop
  | .leaf => True
  | .ite _ _ => kidDone s p 0 ∨ kidDone s p 1
  | .seq n _ => kidDone s p n
  | .rep _ => ∀ k, s.heap (k :: p) = none
  | .all n _ | .race n _ => ∀ k, k ≤ n → kidDone s p k
  | _ => kidDone s p 0

inductive Lbl where
  /-- Expression `t` is connected. -/
  | connect (t : Nat) (S : Snd)
  /-- Operation `p` is started. -/
  | start (p : Path) (c : Nat)
  /-- Leaf `p` calls `get_env`. -/
  | ask (p : Path)
  /-- Operation `p` completes its receiver. -/
  | finish (p : Path)
  /-- `sequence` (algorithm.hpp 577-586) or `repeat_while` (285-290) at `p`: child `k` has completed. It is destroyed, and (`repeat_while`: if
  `c ≠ 0`) the next one is connected. -/
  | next (p : Path) (k c : Nat)
  /-- The user destroys the outermost operation after its completion. -/
  | destroy (t : Nat)

/-- The parent of `p` is started (the outermost operation is started by the user). -/
def parentStarted (s : St) (p : Path) : Prop := ∀ k i q, p = k :: i :: q → ∃ o, s.heap (i :: q) = some o ∧ o.ph = .started

/-- Steps. `R t` is the receiver of expression `t`. -/
inductive Step (R : Nat → Root) (s : St) : Lbl → St → Prop where
  | connect (t S) : s.heap [t] = none → Step R s (.connect t S) (Env.connect [] S [t] (R t).rcv s)
  | start (p c o) : s.heap p = some o → o.ph = .conn → parentStarted s p → Step R s (.start p c) (begin s p o c)
  | ask (p r ph) : s.heap p = some ⟨.leaf, .val r, ph⟩ → ph ≠ .done → Step R s (.ask p) (s.ask p r [])
  | finish (p o) : s.heap p = some o → o.ph = .started → mayFinish s p o.snd → Step R s (.finish p) (s.put p { o with ph := .done })
  | nextSeq (p k c n f dr) : s.heap p = some ⟨.seq n f, dr, .started⟩ → k < n → kidDone s p k →
      Step R s (.next p k c) (Env.connect [] (f (k + 1)) ((k + 1) :: p) (.ptr p) (s.drop (k :: p)))
  | nextRep (p k c f dr) : s.heap p = some ⟨.rep f, dr, .started⟩ → kidDone s p k →
      Step R s (.next p k c)
        (if c = 0 then s.drop (k :: p) else Env.connect [] (f (k + 1)) ((k + 1) :: p) (.ptr p) (s.drop (k :: p)))
  | destroy (t o) : s.heap [t] = some o → o.ph = .done → Step R s (.destroy t) (s.drop [t])

inductive Reach (R : Nat → Root) : St → Prop where
  | init : Reach R init
  | step {s l s'} : Reach R s → Step R s l s' → Reach R s'

/-- The result of `get_env`: an environment (`none`: `empty_env`), or undefined behaviour. -/
inductive Res where
  | env (e : Option Nat)
  | ub
deriving DecidableEq

/-- `execution::get_env(r)`, execution.hpp 114-130, with the members `get_env` of receivers: algorithm.hpp 97-99, 120-122, 292-294, 374-376,
614-616, 680-682, cancellation.hpp 514-516, wait-group.hpp 213-215. Reading an operation that does not exist, or a member that is not
initialised, or a receiver that was moved away, is undefined behaviour. -/
inductive GetEnv (h : Heap) : Rcv → Res → Prop where
  | user (e) : GetEnv h (.user e) (.env e)
  | spawned : GetEnv h .spawned (.env none)
  | any (r) : GetEnv h (.any r) (.env none)
  | xform {r x} : GetEnv h r x → GetEnv h (.xform r) x
  | ptr {p o r x} : h p = some o → o.dr = .val r → GetEnv h r x → GetEnv h (.ptr p) x
  | dead {p} : h p = none → GetEnv h (.ptr p) .ub
  | invalid {p o} : h p = some o → (∀ r, o.dr ≠ .val r) → GetEnv h (.ptr p) .ub
  | garbage : GetEnv h .garbage .ub

end Verif.Env
