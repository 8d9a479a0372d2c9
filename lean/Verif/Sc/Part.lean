import Verif.Sc.Demo
import Verif.Hb.Result

/-!
# Outdated values in programs with several objects

C66 is about the accesses to one object. This file is about programs with any number of objects: the accesses to each
object form an execution of their own (`CExec.part`), in which happens-before is the one of the whole program, so that
C66 applies to each of them. It adds `result<T>`, where each coroutine is an object.
-/

namespace Verif

variable {L K : Type}

/-- The access with its location replaced, if it is an access to the object. `f` yields the name that a location has within
the object, and `none` if it does not belong to it. -/
def Acc.part (f : L → Option K) : Acc L → Option (Acc K)
  | .lock l => (f l).map .lock
  | .unlock l => (f l).map .unlock
  | .load o l => (f l).map (.load o)
  | .store o l => (f l).map (.store o)
  | .rmw o l => (f l).map (.rmw o)

/-- The accesses to one object, with happens-before of the whole program. -/
def CExec.part (X : CExec L) (f : L → Option K) : CExec K where
  E := { e : X.E // ((X.acc e).part f).isSome }
  acc e := ((X.acc e.1).part f).get e.2
  hb a b := X.hb a.1 b.1
  rd e := X.rd e.1
  wr e := X.wr e.1

/-- No two locations have the same name within the object. -/
def Names (f : L → Option K) : Prop := ∀ l m k, f l = some k → f m = some k → l = m

/-! ## Proof -/

theorem Acc.part_eq {f : L → Option K} {a : Acc L} {b : Acc K} (h : a.part f = some b) :
    f a.loc = some b.loc ∧ b.reads = a.reads ∧ b.writes = a.writes ∧ b.isAcq = a.isAcq ∧ b.isRel = a.isRel := by
  cases a <;> simp only [Acc.part, Option.map_eq_some_iff] at h <;> obtain ⟨k, h1, rfl⟩ := h <;>
    refine ⟨h1, rfl, rfl, ?_, ?_⟩ <;> first | rfl | (rename_i o _; cases o <;> rfl)

theorem Acc.part_isSome (f : L → Option K) (a : Acc L) : (a.part f).isSome = (f a.loc).isSome := by
  cases a <;> simp [Acc.part, Acc.loc]

section
variable {X : CExec L} {f : L → Option K}

theorem CExec.part_acc (e : (X.part f).E) : (X.acc e.1).part f = some ((X.part f).acc e) := by
  simp [CExec.part]

theorem CExec.part_same (hf : Names f) (a b : (X.part f).E) : (X.part f).same a b ↔ X.same a.1 b.1 := by
  have ha := (Acc.part_eq (CExec.part_acc a)).1
  have hb := (Acc.part_eq (CExec.part_acc b)).1
  simp only [CExec.same]
  constructor
  · intro h; rw [h] at ha; exact hf _ _ _ ha hb
  · intro h; rw [h, hb] at ha; exact (Option.some.inj ha).symm

theorem CExec.part_reads (e : (X.part f).E) : ((X.part f).acc e).reads = (X.acc e.1).reads :=
  (Acc.part_eq (CExec.part_acc e)).2.1

theorem CExec.part_writes (e : (X.part f).E) : ((X.part f).acc e).writes = (X.acc e.1).writes :=
  (Acc.part_eq (CExec.part_acc e)).2.2.1

theorem CExec.Valid.part (V : X.Valid) (hf : Names f) : (X.part f).Valid where
  irrefl a := V.irrefl a.1
  trans a b c := V.trans a.1 b.1 c.1
  uniq a b h1 h2 h3 h4 := by
    rw [CExec.part_writes] at h1 h2
    exact Subtype.ext (V.uniq a.1 b.1 h1 h2 ((CExec.part_same hf a b).1 h3) h4)
  pos a h := by rw [CExec.part_writes] at h; exact V.pos a.1 h
  gap a h1 h2 := by
    rw [CExec.part_writes] at h1
    obtain ⟨b, h3, h4, h5⟩ := V.gap a.1 h1 h2
    have hb : ((X.acc b).part f).isSome = true := by
      rw [Acc.part_isSome, h4, ← Acc.part_isSome]; exact a.2
    exact ⟨⟨b, hb⟩, (CExec.part_writes (X := X) (f := f) ⟨b, hb⟩).trans h3, (CExec.part_same hf _ _).2 h4, h5⟩
  rmw a h1 h2 := by rw [CExec.part_reads] at h1; rw [CExec.part_writes] at h2; exact V.rmw a.1 h1 h2
  ww a b h h3 h1 h2 := by
    rw [CExec.part_writes] at h1 h2
    exact V.ww a.1 b.1 h ((CExec.part_same hf a b).1 h3) h1 h2
  wr_ a b h h3 h1 h2 := by
    rw [CExec.part_writes] at h1; rw [CExec.part_reads] at h2
    exact V.wr_ a.1 b.1 h ((CExec.part_same hf a b).1 h3) h1 h2
  rw_ a b h h3 h1 h2 := by
    rw [CExec.part_reads] at h1; rw [CExec.part_writes] at h2
    exact V.rw_ a.1 b.1 h ((CExec.part_same hf a b).1 h3) h1 h2
  rr a b h h3 h1 h2 := by
    rw [CExec.part_reads] at h1 h2
    exact V.rr a.1 b.1 h ((CExec.part_same hf a b).1 h3) h1 h2
  sw a b h3 h1 h2 h4 := by
    rw [(Acc.part_eq (CExec.part_acc a)).2.2.2.2] at h1
    rw [(Acc.part_eq (CExec.part_acc b)).2.2.2.1] at h2
    exact V.sw a.1 b.1 ((CExec.part_same hf a b).1 h3) h1 h2 h4

end

/-! ## Several objects -/

/-- The names of the locations of object `o`, in a program whose locations are pairs of an object and a name. -/
def nameIn {O : Type} [DecidableEq O] (o : O) : O × K → Option K := fun l => if l.1 = o then some l.2 else none

theorem nameIn_names {O : Type} [DecidableEq O] (o : O) : Names (nameIn (K := K) o) := by
  rintro ⟨a, l⟩ ⟨b, m⟩ k h1 h2
  simp only [nameIn] at h1 h2
  split at h1 <;> split at h2 <;> simp at *
  simp_all

end Verif
