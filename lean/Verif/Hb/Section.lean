import Verif.Hb.WithCancel

/-!
# Knowledge protected by a lock

An event is `Prot`ected if the lock passes it on: whoever is inside a critical section knows it, and while nobody is, the
lock carries it.
-/

namespace Verif

variable {L : Type} {ι : Type} {crit : ι → Prop} {l : L} {acts : List (List ι)} {m : Mem L} {e : Nat}

/-- `crit` are the instructions inside of critical sections, `mtx` tells whether lock `l` is taken. -/
structure Prot (crit : ι → Prop) (l : L) (mtx : Bool) (acts : List (List ι)) (m : Mem L) (e : Nat) : Prop where
  know : AllKnow crit acts m e
  free : mtx = false → m.msg l e = true

variable [DecidableEq L]

theorem Mem.release_unlock {v : Nat → Bool} {msg : L → Nat → Bool} {as : List (Acc L)}
    (hs : ∀ a ∈ as, a.stores l = false) (h : .unlock l ∈ as) (hv : v e = true) : Mem.release v msg as l e = true := by
  induction as generalizing msg with
  | nil => simp at h
  | cons a as ih =>
    rcases List.mem_cons.1 h with rfl | h
    · simp only [Mem.release]
      exact Mem.release_mono (fun a ha => hs a (by simp [ha])) (by simp [hv])
    · have := fun msg => ih (msg := msg) (fun a ha => hs a (by simp [ha])) h
      cases a with
      | lock _ | unlock _ => simp only [Mem.release]; exact this _
      | load o _ | store o _ | rmw o _ => cases o <;> simp only [Mem.release] <;> exact this _

theorem Prot.run {mtx mtx' : Bool} (h : Prot crit l mtx acts m e) {k : Nat} {x : ι} {r p : List ι}
    (hk : acts[k]? = some (x :: r)) {as : List (Acc L)} {a b : Nat} (hs : ∀ a ∈ as, a.stores l = false)
    (hp : (∃ y ∈ p, crit y) → crit x ∨ (mtx = false ∧ .lock l ∈ as))
    (hf : mtx' = false → mtx = false ∨ (crit x ∧ .unlock l ∈ as)) :
    Prot crit l mtx' (acts.set k (p ++ r)) (m.act k (m.view k) as a b) e where
  know := h.know.run hk fun hy => by
    rcases hp hy with hx | ⟨hm, ha⟩
    · exact m.acquire_mono _ (h.know k _ hk x (by simp) hx)
    · exact m.acquire_msg ha (l := l) (by simp [Acc.acquires]) (h.free hm)
  free hm := by
    rcases hf hm with hm | ⟨hx, ha⟩
    · exact Mem.keep hs (h.free hm)
    · rw [Mem.act_msg]
      exact Mem.release_unlock hs ha (by simp [m.acquire_mono as (h.know k _ hk x (by simp) hx)])

theorem Prot.env {mtx : Bool} (h : Prot crit l mtx acts m e) {p : List ι} {v : Nat → Bool} {a b : Nat}
    (hp : ∀ y ∈ p, ¬ crit y) : Prot crit l mtx (acts ++ [p]) (m.act acts.length v [] a b) e where
  know := h.know.env fun ⟨y, hy, hc⟩ => absurd hc (hp y hy)
  free hm := Mem.keep (by simp) (h.free hm)

/-- What is learnt or done inside of a critical section is protected. -/
theorem Prot.new {w : ι → Nat} (hw : ∀ x, crit x → 0 < w x) (h1 : ws w acts ≤ 1) {k : Nat} {x : ι} {r p : List ι}
    (hk : acts[k]? = some (x :: r)) (hx : crit x) {as : List (Acc L)} {a b : Nat}
    (hv : m.acquire (m.view k) as e = true ∨ (a ≤ e ∧ e < b)) :
    Prot crit l true (acts.set k (p ++ r)) (m.act k (m.view k) as a b) e where
  know := by
    intro j c hj y hy hc
    rw [List.getElem?_set] at hj
    split at hj
    · rename_i hjk; subst hjk; exact Mem.act_view_self hv
    · rename_i hjk
      exact absurd (ws_only h1 hk (List.mem_cons_self ..) (hw x hx) hj hy (hw y hc)).symm hjk
  free h := by simp at h

end Verif
