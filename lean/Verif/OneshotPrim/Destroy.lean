import Verif.OneshotPrim.Props
import Verif.Induct

/-! # When a `oneshot_primitive` may be destroyed -/

namespace Verif.OneshotPrim

/-- C79. A wait has completed and no wait is outstanding. Then `raise()` accesses neither the primitive nor an operation any
more (if it is still running, all it has to do is to leave its loop), and no other call is running. -/
theorem C79_oneshot_primitive {c : Conf mach} (h : Reach mach init c) {k : Id} (hk : .done k ∈ c.sh.log)
    (ho : ∀ i, .begin i ∈ c.sh.log → .done i ∈ c.sh.log) : ∀ x, Pending c.acts x → x = .walk .null := by
  obtain ⟨l, hI⟩ := reach_inv h
  have hr : Ev.raise ∈ c.sh.log := by
    obtain ⟨a, b, e⟩ := List.append_of_mem hk
    have := hI.hist a (.done k) b e k rfl
    rw [e]; simp [this]
  have hc := List.count_pos_iff.2 hr
  have h1 : ∀ i, ws (cw ops (· == i)) c.acts = 0 ∧ l.count i = 0 := by
    intro i
    have h2 := hI.place (· == i)
    have h3 := hI.once i
    have h5 : 0 < (begun c.sh.log).count i → 0 < (dones c.sh.log).count i := by
      intro hb
      obtain ⟨v, hv, e⟩ := List.mem_filterMap.1 (List.count_pos_iff.1 hb)
      cases v <;> simp [isBegin] at e
      subst e
      exact List.count_pos_iff.2 (List.mem_filterMap.2 ⟨_, ho _ hv, rfl⟩)
    have e1 : l.countP (· == i) = l.count i := rfl
    have e2 : (begun c.sh.log).countP (· == i) = (begun c.sh.log).count i := rfl
    have e3 : (dones c.sh.log).countP (· == i) = (dones c.sh.log).count i := rfl
    rw [e1, e2, e3] at h2
    rcases Nat.eq_zero_or_pos ((begun c.sh.log).count i) with h6 | h6
    · omega
    · have := h5 h6
      split at h3 <;> omega
  have hl : l = [] := by
    rw [List.eq_nil_iff_forall_not_mem]
    intro i hi
    have := List.count_pos_iff.2 hi
    have := (h1 i).2
    omega
  intro x hx
  have e1 := hx.le isRaise
  have e2 := hI.calls
  have e7 : ∀ i, i ∈ ops x → False := by
    intro i hi
    have := hx.le (cw ops (· == i))
    rw [(h1 i).1] at this
    have h5 : 0 < (ops x).countP (· == i) := List.countP_pos_iff.2 ⟨i, hi, by simp⟩
    simp only [cw] at this
    omega
  cases x with
  | walk p =>
    have := hI.wchain _ p hx rfl
    rw [hl] at this
    rw [show p = .null from this]
  | raise =>
    simp only [isRaise] at e1
    split at e2 <;> omega
  | _ => exact (e7 _ (by simp [ops]; try rfl)).elim

end Verif.OneshotPrim
