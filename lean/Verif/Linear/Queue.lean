import Verif.Linear.Resolver
import Verif.Queue.Proof

/-!
# C98, `queue`: `put`, `async_get` and `maybe_get` behave like operations on a list

The sequential object is a list. An `async_get` that waits takes effect when it gets its item.
-/

namespace Verif.Queue

open Resolver

variable {T : Type}

/-- Member functions of the sequential queue. -/
inductive Fn (T : Type) where
  | put (x : T)
  | maybeGet

/-- Their results: `put` returns nothing, `maybe_get` an item or nothing. -/
inductive Reply (T : Type) where
  | done
  | answer (v : Option T)

/-- The sequential queue. `async_get` yields the oldest item; if it is cancelled, the queue was empty. `maybe_get` yields the
oldest item, or nothing if and only if the queue is empty. -/
def seq : List T → Opn (Fn T) → Rsl (Reply T) (Option T) → List T → Prop
  | q, .fn (.put x), .ret .done, q' => q' = q ++ [x]
  | q, .fn .maybeGet, .ret (.answer v), q' => v = q.head? ∧ q' = q.tail
  | q, .wait, .got (some x), q' => q = x :: q'
  | q, .wait, .got none, q' => q = [] ∧ q' = []
  | _, _, _, _ => False

/-- The member function that an instruction belongs to. -/
def fnOf : I T → Fn T
  | .put x => .put x
  | .maybeGet => .maybeGet

/-- Reading results: `maybe_get` returned the item that the history assigns to it in its critical section (queue.hpp lines
148-156), or nothing if the history assigns none. -/
def out (ls : List (Lbl (mach (ds T)))) (k : Nat) : I T → Reply T → Prop
  | .put _, y => y = .done
  | .maybeGet, y => ∃ s s', Executes (M := mach (ds T)) (RSt.init init) ls k (.ds .maybeGet) s s' ∧
      ((∃ x, y = .answer (some x) ∧ s'.log = s.log ++ [.ds (.claim none x)]) ∨ (y = .answer none ∧ s'.log = s.log))

theorem stable : Stable (lawful T) where
  admit := by intro d ph log pi i p d' j h ha hj; simp at ha; subst ha; rfl
  call := by intro d ph log pi x d' j h ha hj; simp at ha; subst ha; rfl
  start := by
    intro d ph log pi i b d' v es j h hi hs hj
    have hne : j ≠ i := by rintro rfl; rcases hj with hj | hj <;> rw [hi] at hj <;> simp at hj
    simp only [start] at hs
    repeat' split at hs
    all_goals simp at hs
    all_goals obtain ⟨rfl, -⟩ := hs
    all_goals simp [hne]
  try_ := by
    intro d ph log pi i d' v es j h hi hs hj
    simp only [tryCancel] at hs
    repeat' split at hs
    all_goals simp at hs
    all_goals obtain ⟨rfl, -⟩ := hs
    all_goals rfl
  fin := by intro d i j _; rfl
  exec := by
    intro d ph log pi x b d' ps es j h hs hj
    have h : Inv d ph log := h
    cases x with
    | put x =>
      simp only [exec] at hs
      split at hs
      · rename_i i rest hsi
        have hi : ph i = .waiting := (h.mem i).1 (by simp [hsi])
        have hne : j ≠ i := by rintro rfl; rcases hj with hj | hj <;> rw [hi] at hj <;> simp at hj
        split at hs
        · simp at hs; obtain ⟨rfl, -⟩ := hs; simp [hne]
        · simp at hs
      · simp at hs; obtain ⟨rfl, -⟩ := hs; rfl
    | maybeGet =>
      simp only [exec] at hs
      split at hs <;> simp at hs <;> obtain ⟨rfl, -⟩ := hs <;> rfl

/-- `put` and `maybe_get` take effect in their critical section. -/
def points : Points (lawful T) seq fnOf where
  abs d := d.buffer
  pt d
    | .put _ => some .done
    | .maybeGet => some (.answer d.buffer.head?)
  post _ := false
  stable := stable
  admit := by intro d i p d' h; simp at h; subst h; rfl
  call := by intro d x d' h; simp at h; subst h; exact ⟨rfl, rfl⟩
  fin := rfl
  fast := by
    intro d ph log pi i b d' v es h hi hs
    simp only [start] at hs
    split at hs
    · rename_i x rest hb
      split at hs
      · simp at hs; obtain ⟨rfl, rfl, -⟩ := hs; simp [seq, hb]
      · simp at hs
    · simp at hs
  slow := by
    intro d ph log pi i b d' es h hi hs
    simp only [start] at hs
    split at hs
    · split at hs <;> simp at hs
    · simp at hs; obtain ⟨rfl, -⟩ := hs; rfl
  gone := by
    intro d ph log pi i d' es h hi hs
    have h : Inv d ph log := h
    simp only [tryCancel] at hs
    split at hs
    · rename_i hv
      split at hs
      · rename_i hm
        simp at hs; obtain ⟨rfl, -⟩ := hs
        have : d.buffer = [] := by
          rcases h.excl with h1 | h1
          · simp [h1] at hm
          · exact h1
        simp [seq, hv, this]
      · simp at hs
    · simp at hs
  lost := by
    intro d ph log pi i d' es h hs
    simp only [tryCancel] at hs
    repeat' split at hs
    all_goals simp at hs
    obtain ⟨rfl, -⟩ := hs; rfl
  point := by
    intro d ph log pi x b d' ps es r h hs hr
    cases x with
    | put x =>
      simp at hr; subst hr
      simp only [exec] at hs
      split at hs
      · split at hs
        · rename_i i rest hsi hb
          simp at hs; obtain ⟨rfl, rfl, -⟩ := hs
          refine ⟨rfl, by simp [insts], [x], by simp [seq, fnOf, hb], ?_⟩
          simp [ops, Accepts, seq, hb]
        · simp at hs
      · simp at hs; obtain ⟨rfl, rfl, -⟩ := hs
        exact ⟨rfl, by simp [insts], d.buffer ++ [x], by simp [seq, fnOf], rfl⟩
    | maybeGet =>
      simp at hr; subst hr
      simp only [exec] at hs
      split at hs
      · rename_i hb
        simp at hs; obtain ⟨rfl, rfl, -⟩ := hs
        exact ⟨rfl, by simp [insts], d.buffer, by simp [seq, fnOf, hb], rfl⟩
      · rename_i x rest hb
        simp at hs; obtain ⟨rfl, rfl, -⟩ := hs
        exact ⟨rfl, by simp [insts], rest, by simp [seq, fnOf, hb], rfl⟩
  silent := by intro d ph log pi x b d' ps es h hs hr; cases x <;> simp at hr

/-- In one order no call has two results. -/
theorem unique_result {C O R : Type} {A : List (C × O × R)} (h : (A.map (·.1)).Nodup) {x : C} {o o' : O} {r r' : R}
    (h1 : (x, o, r) ∈ A) (h2 : (x, o', r') ∈ A) : o = o' ∧ r = r' := by
  induction A with
  | nil => simp at h1
  | cons e A ih =>
    simp only [List.map_cons, List.nodup_cons, List.mem_map] at h
    rcases List.mem_cons.1 h1 with g1 | g1 <;> rcases List.mem_cons.1 h2 with g2 | g2
    · rw [← g1] at g2; simp at g2; exact ⟨g2.1.symm, g2.2.symm⟩
    · exact absurd ⟨_, g2, by rw [← g1]⟩ h.1
    · exact absurd ⟨_, g1, by rw [← g2]⟩ h.1
    · exact ih h.2 g1 g2

/-- **C98** (queue). The queue is strongly linearizable with respect to the sequential queue: in every execution, with any number
of threads, puts, gets, `maybe_get`s and cancellations, all calls that have returned appear to take effect one after the other at
some moment between their invocation and their return, and the order is never revised. -/
theorem C98_queue_linearizable :
    StronglyLinearizable (M := mach (ds T)) (RSt.init init) (watch init fnOf out) seq [] := by
  refine points.stronglyLinearizable ?_
  intro ls c k x y r hr hk ho hm
  have h := points.tie hr
  cases x with
  | put x =>
    simp only [out] at ho; subst ho
    -- the order is possible for the sequential queue
    have key : ∀ (A : List (Call × Opn (Fn T) × Rsl (Reply T) (Option T))) q q', Accepts seq q A q' →
        (Call.fn k, Opn.fn (Fn.put x), Rsl.ret r) ∈ A → .done = r := by
      intro A
      induction A with
      | nil => intro q q' _ hm; simp at hm
      | cons e A ih =>
        rintro q q' ⟨u, h1, h2⟩ hm
        rcases List.mem_cons.1 hm with hm | hm
        · subst hm
          cases r with
          | done => rfl
          | answer v => simp [seq] at h1
        · exact ih _ _ h2 hm
    exact key _ _ _ h.acc hm
  | maybeGet =>
    obtain ⟨s, s', ⟨l1, b, l2, c1, rr, p, rfl, h1, h2, hb, rfl, he⟩, ho⟩ := ho
    have hst : (mach (ds T)).step c1 (.run k b) = some ⟨s', c1.acts.set k (p ++ rr), false⟩ := by
      have he' : Resolver.exec c1.sh (.ds I.maybeGet) b = .ok s' p := he
      simp [Mach.step, hb, h2, he']
    have hin : ((Call.fn k, Opn.fn Fn.maybeGet, Rsl.ret (Reply.answer c1.sh.d.buffer.head?)) :
        Call × Opn (Fn T) × Rsl (Reply T) (Option T)) ∈ points.lin (l1 ++ .run k b :: l2) := by
      refine mem_linRun (M := mach (ds T)) h1 hst ?_
      simp [Points.at, h2, Points.fns, points, fnOf]
    have hu := (unique_result h.once hm hin).2
    simp at hu; subst hu
    have he' : Resolver.exec c1.sh (.ds I.maybeGet) b = .ok s' p := he
    simp only [Resolver.exec, exec] at he'
    split at he'
    · simp at he'
    · rename_i d' ps es hx
      simp at he'; obtain ⟨rfl, -⟩ := he'
      split at hx
      · rename_i hbuf
        simp at hx; obtain ⟨-, -, rfl⟩ := hx
        rcases ho with ⟨x, -, ho⟩ | ⟨rfl, -⟩
        · simp at ho
        · simp [hbuf]
      · rename_i x rest hbuf
        simp at hx; obtain ⟨-, -, rfl⟩ := hx
        rcases ho with ⟨x', rfl, ho⟩ | ⟨-, ho⟩
        · simp at ho; simp [hbuf, ho]
        · simp at ho

/-- **C98** (queue), in the classical form: calls that do not overlap keep their order. -/
theorem C98_queue_real_time : Linearizable (M := mach (ds T)) (RSt.init init) (watch init fnOf out) seq [] :=
  C98_queue_linearizable.linearizable

/-- **C98** (queue). Every call of `put` and `maybe_get` that has returned has a result, so that the theorems above say something
about all of them. -/
theorem C98_queue_results {ls : List (Lbl (mach (ds T)))} {c : Conf (mach (ds T))} {k : Nat} {x : I T}
    (hr : (mach (ds T)).runs ((mach (ds T)).init (RSt.init init)) ls = some c) (hk : (envs ls)[k]? = some (.call x))
    (ha : c.acts[k]? = some []) : ∃ r, (watch init fnOf out).returned ls (.fn k) r := by
  cases x with
  | put x => exact ⟨_, c, _, .done, hr, ha, hk, rfl, rfl⟩
  | maybeGet =>
    have h := points.tie hr
    rcases h.act k _ _ hk ha with ⟨y, hy, -⟩ | ⟨-, r, hm⟩
    · simp [dsl] at hy
    · obtain ⟨l1, l, l2, c1, c2, rfl, h1, h2, h3⟩ := of_mem_linRun hm
      cases l with
      | env a => simp [Points.at] at h3
      | run k' b =>
        simp only [Points.at] at h3
        split at h3
        · rename_i z rr hz
          rcases List.mem_append.1 h3 with h3 | h3
          · cases z with
            | ds z =>
              cases z with
              | put v => simp [Points.fns, points, fnOf] at h3
              | maybeGet =>
                simp [Points.fns, points, fnOf] at h3
                obtain ⟨rfl, -⟩ := h3
                have hb : c1.bad = false := by
                  cases hb : c1.bad with
                  | false => rfl
                  | true => simp [Mach.step, hb] at h2
                cases hbuf : c1.sh.d.buffer with
                | nil =>
                  have he : Resolver.exec c1.sh (.ds I.maybeGet) b = .ok { c1.sh with log := c1.sh.log ++ [] } [] := by
                    simp [Resolver.exec, exec, hbuf]
                  exact ⟨_, c, _, .answer none, hr, ha, hk, ⟨c1.sh, _, ⟨l1, b, l2, c1, rr, _, rfl, h1, hz, hb, rfl, he⟩,
                    .inr ⟨rfl, by simp⟩⟩, rfl⟩
                | cons v rest =>
                  have he : Resolver.exec c1.sh (.ds I.maybeGet) b = .ok { c1.sh with
                      d := { c1.sh.d with buffer := rest }, log := c1.sh.log ++ [.ds (.claim none v)] } [] := by
                    simp [Resolver.exec, exec, hbuf]
                  exact ⟨_, c, _, .answer (some v), hr, ha, hk, ⟨c1.sh, _, ⟨l1, b, l2, c1, rr, _, rfl, h1, hz, hb, rfl, he⟩,
                    .inl ⟨v, rfl, rfl⟩⟩, rfl⟩
            | _ => simp [Points.fns] at h3
          · simp at h3
        · simp at h3

/-! An execution in which a get waits, is served by a put, a second get is cancelled while it waits, and `maybe_get` finds one item
and then none. -/

def linDemo : List (Lbl (mach (ds Nat))) :=
  [.env (.newOp 0 none ()), .run 0 true, .run 0 true, .env (.call (.put 7)), .run 1 true, .run 0 true, .run 1 true, .run 1 true,
    .run 1 true, .env (.newOp 1 (some 0) ()), .run 2 true, .run 2 true, .run 2 true, .run 2 true, .env (.cancel 0), .run 3 true,
    .run 3 true, .run 3 true, .run 3 true, .env (.call (.put 8)), .run 4 true, .env (.call .maybeGet), .run 5 true,
    .env (.call .maybeGet), .run 6 true]

example : ((mach (ds Nat)).runs ((mach (ds Nat)).init (RSt.init init)) linDemo).map
    (fun c => (c.bad, c.acts.all (·.isEmpty))) = some (false, true) := by decide

example : points.lin linDemo = [(.fn 1, .fn (.put 7), .ret .done), (.wait 0, .wait, .got (some 7)), (.wait 1, .wait, .got none),
    (.fn 4, .fn (.put 8), .ret .done), (.fn 5, .fn .maybeGet, .ret (.answer (some 8))),
    (.fn 6, .fn .maybeGet, .ret (.answer none))] := rfl

end Verif.Queue
