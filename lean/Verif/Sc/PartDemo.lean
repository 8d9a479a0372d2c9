import Verif.Sc.PartProps

/-!
# Examples of executions for C93

Programs with two objects: two copies of the executions of `Verif/Sc/Demo.lean`, which have nothing to do with each other.
-/

namespace Verif

variable {K : Type}

/-- Two copies of an execution. -/
def copies (X : CExec K) : CExec (Bool × K) where
  E := Bool × X.E
  acc e := (X.acc e.2).map (e.1, ·)
  hb a b := a.1 = b.1 ∧ X.hb a.2 b.2
  rd e := X.rd e.2
  wr e := X.wr e.2

section
variable {X : CExec K}

theorem map_facts (o : Bool) (a : Acc K) : (a.map (o, ·)).loc = (o, a.loc) ∧ (a.map (o, ·)).reads = a.reads ∧
    (a.map (o, ·)).writes = a.writes ∧ (a.map (o, ·)).isAcq = a.isAcq ∧ (a.map (o, ·)).isRel = a.isRel := by
  cases a <;> refine ⟨rfl, rfl, rfl, ?_, ?_⟩ <;> first | rfl | (rename_i r _; cases r <;> rfl)

theorem copies_same (a b : (copies X).E) : (copies X).same a b ↔ a.1 = b.1 ∧ X.same a.2 b.2 := by
  simp only [CExec.same, copies, (map_facts _ _).1, Prod.mk.injEq]

theorem copies_valid (V : X.Valid) : (copies X).Valid := by
  have R : ∀ a, ((copies X).acc a).reads = (X.acc a.2).reads := fun a => (map_facts _ _).2.1
  have W : ∀ a, ((copies X).acc a).writes = (X.acc a.2).writes := fun a => (map_facts _ _).2.2.1
  have A : ∀ a, ((copies X).acc a).isAcq = (X.acc a.2).isAcq := fun a => (map_facts _ _).2.2.2.1
  have L : ∀ a, ((copies X).acc a).isRel = (X.acc a.2).isRel := fun a => (map_facts _ _).2.2.2.2
  constructor <;> (try simp only [R, W, A, L, copies_same])
  · intro a h; exact V.irrefl _ h.2
  · intro a b c h1 h2; exact ⟨h1.1.trans h2.1, V.trans _ _ _ h1.2 h2.2⟩
  · intro a b h1 h2 h3 h4; exact Prod.ext h3.1 (V.uniq _ _ h1 h2 h3.2 h4)
  · intro a h; exact V.pos _ h
  · intro a h1 h2
    obtain ⟨b, h3, h4, h5⟩ := V.gap a.2 h1 h2
    exact ⟨(a.1, b), h3, ⟨rfl, h4⟩, h5⟩
  · intro a h1 h2; exact V.rmw _ h1 h2
  · intro a b h1 h2; exact V.ww _ _ h1.2 h2.2
  · intro a b h1 h2; exact V.wr_ _ _ h1.2 h2.2
  · intro a b h1 h2; exact V.rw_ _ _ h1.2 h2.2
  · intro a b h1 h2; exact V.rr _ _ h1.2 h2.2
  · intro a b h1 h2 h3 h4; exact ⟨h1.1, V.sw _ _ h1.2 h2 h3 h4⟩

theorem copies_acc (o : Bool) (e : ((copies X).part (nameIn o)).E) :
    ((copies X).part (nameIn o)).acc e = X.acc e.1.2 ∧ e.1.1 = o := by
  have h := CExec.part_acc e
  have h1 := (Acc.part_eq h).1
  have h2 : e.1.1 = o := by
    simp only [copies, (map_facts _ _).1, nameIn] at h1
    split at h1
    · assumption
    · simp at h1
  refine ⟨Option.some.inj (h.symm.trans ?_), h2⟩
  simp only [copies]
  cases X.acc e.1.2 <;> simp [Acc.map, Acc.part, nameIn, h2]

theorem copies_of {M : Mach} {A : Ann M} {X : CExec A.L} (h : X.Of A) (o : Bool) : ((copies X).part (nameIn o)).Of A := by
  intro e
  obtain ⟨s, y, b, he⟩ := h e.1.2
  exact ⟨s, y, b, by rw [(copies_acc o e).1]; exact he⟩

end

/-- Two mutexes, each as in `staleMutex`. -/
example (o : Bool) : ((copies staleMutex).part (nameIn o)).Interleaved :=
  C93_mutex (copies_valid staleMutex_valid) (nameIn_names o) (copies_of staleMutex_of o)

example (o : Bool) : ((copies staleShared).part (nameIn o)).Interleaved :=
  C93_shared_mutex (copies_valid staleShared_valid) (nameIn_names o) (copies_of staleShared_of o)

example (o : Bool) : ((copies (stale () .acq)).part (nameIn o)).Interleaved :=
  C93_oneshot_primitive (copies_valid (stale_valid _ _)) (nameIn_names o)
    (copies_of (A := OneshotPrim.ann fun _ _ _ => false) (stale_of
      ⟨OneshotPrim.init, .raise, true, List.Mem.head _⟩ ⟨OneshotPrim.init, .start 0, true, List.Mem.head _⟩) o)

example (o : Bool) : ((copies (twice ())).part (nameIn o)).Interleaved :=
  C93_refcount (copies_valid (twice_valid _)) (nameIn_names o)
    (copies_of (A := Promise.RefCount.ann Promise.RefCount.dentry) (fun _ => ⟨.init, .unref 0, true, List.Mem.head _⟩) o)

example (o : Bool) : ((copies (twice ([] : Tree.Path))).part (nameIn o)).Interleaved :=
  C93_senders (copies_valid (twice_valid _)) (nameIn_names o)
    (copies_of (A := Tree.ann fun _ _ _ => false) (fun _ => ⟨Tree.init, .trail [], true, List.Mem.head _⟩) o)

example (o : Bool) : ((copies (meet (WithCancel.Loc.ev 1) (.cst 0))).part (nameIn o)).Interleaved :=
  C93_with_cancel_cb (copies_valid (meet_valid _ _)) (nameIn_names o) (copies_of (A := WithCancel.ann) (meet_of
    ⟨WithCancel.init, .cancelCS 1, true, List.Mem.head _⟩
    ⟨WithCancel.init, .cancelCS 1, true, List.Mem.tail _ (List.Mem.head _)⟩
    ⟨WithCancel.init, .sub 0 false, true, List.Mem.head _⟩) o)

example (o : Bool) : ((copies (meet (Suspend.Loc.ev 1) (.st 0))).part (nameIn o)).Interleaved :=
  C93_suspend_indefinitely (copies_valid (meet_valid _ _)) (nameIn_names o) (copies_of (A := Suspend.ann) (meet_of
    ⟨Suspend.init, .cancelCS 1, true, List.Mem.head _⟩
    ⟨Suspend.init, .cancelCS 1, true, List.Mem.tail _ (List.Mem.head _)⟩
    ⟨Suspend.init, .sub 0 1, true, List.Mem.head _⟩) o)

section
variable {entry : ∀ S : Resolver.DS, Resolver.RSt S → Resolver.Act S → Nat → Bool}

example (o : Bool) : ((copies (meet (Resolver.Loc.ds : Resolver.Loc (Queue.ords Nat).A) (.bits 0))).part
    (nameIn o)).Interleaved :=
  C93_queue (copies_valid (meet_valid _ _)) (nameIn_names o)
    (copies_of (A := Resolver.ann (Queue.ords Nat) (entry _)) (meet_resolver Queue.init _ (entry _)) o)

example (o : Bool) : ((copies (meet (Resolver.Loc.ds : Resolver.Loc (Promise.ords Nat).A) (.bits 0))).part
    (nameIn o)).Interleaved :=
  C93_promise (copies_valid (meet_valid _ _)) (nameIn_names o)
    (copies_of (A := Resolver.ann (Promise.ords Nat) (entry _)) (meet_resolver Promise.init _ (entry _)) o)

example (o : Bool) : ((copies (stale (Resolver.Loc.at () : Resolver.Loc Unit) .rlx)).part (nameIn o)).Interleaved :=
  C93_wait_group (copies_valid (stale_valid _ _)) (nameIn_names o)
    (copies_of (A := Resolver.ann (WaitGroup.ords Nat ⟨true, true, true⟩) (entry _)) (stale_of
      ⟨Resolver.RSt.init (WaitGroup.init 1), .ds (.add 1 none), true, List.Mem.head _⟩
      ⟨Resolver.RSt.init (WaitGroup.init 1), .ds (.ld none), true, List.Mem.head _⟩) o)

example (o : Bool) : ((copies (stale (Resolver.Loc.at () : Resolver.Loc Unit) .acq)).part (nameIn o)).Interleaved :=
  C93_sequenced_event (copies_valid (stale_valid _ _)) (nameIn_names o)
    (copies_of (A := Resolver.ann (Recurring.ords Sequenced.W) (entry _)) (stale_of
      ⟨Resolver.RSt.init (Recurring.init (X := Sequenced.prog) (0 : Nat)), .ds (.act ()), true, List.Mem.head _⟩
      ⟨Resolver.RSt.init (Recurring.init (X := Sequenced.prog) (0 : Nat)), .setFast 0 .conditionFailed, true,
        List.Mem.head _⟩) o)

end

example (o : Bool) : ((copies staleBarrier).part (nameIn o)).Interleaved :=
  C93_barrier (copies_valid staleBarrier_valid) (nameIn_names o) (copies_of staleBarrier_of o)

example (o : Bool) : ((copies posted).part (nameIn o)).Interleaved := by
  refine C93_post_ack (copies_valid posted_valid) (nameIn_names o) (copies_of posted_of o) ?_
  intro a r l h b hb hn
  have ha := copies_acc o a
  have hb' := copies_acc o b
  refine ⟨ha.2.trans hb'.2.symm, posted_built a.1.2 r l (ha.1.symm.trans h) b.1.2 ?_ ?_⟩
  · simp only [CExec.same, ha.1, hb'.1] at hb; exact hb
  · intro h1; exact hn (Subtype.ext (Prod.ext (hb'.2.trans ha.2.symm) h1))

end Verif
