import Verif.Resolver.Terminates
import Verif.Queue.Proof
import Verif.Recurring.Proof
import Verif.Promise.Proof
import Verif.WaitGroup.Proof
import Verif.PostAck.Proof

/-!
# Measures for the data structures that use `cancellation_resolver`

For queue, recurring_event and promise every instruction has a fixed cost. `wait_group::done`
repeats its compare-exchange when another call changed the count, and `post_ack_agent::detach` has
a loop over the posts that the agent has not polled; their measures look at the state.
-/

namespace Verif

theorem wl_perm {ι : Type u} (w : ι → Nat) {l l' : List ι} (h : l.Perm l') : wl w l = wl w l' := by
  induction h with
  | nil => rfl
  | cons x _ ih => simp [ih]
  | swap x y l => simp; omega
  | trans _ _ ih1 ih2 => rw [ih1, ih2]

theorem wl_bound {ι : Type u} {w : ι → Nat} {m : Nat} {l : List ι} (h : ∀ x ∈ l, w x ≤ m) :
    wl w l ≤ m * l.length := by
  induction l with
  | nil => simp
  | cons x l ih =>
    have h1 := h x (by simp)
    have h2 := ih (fun y hy => h y (by simp [hy]))
    simp only [wl_cons, List.length_cons, Nat.mul_add]; omega

theorem wl_le {ι : Type u} {w w' : ι → Nat} {l : List ι} (h : ∀ x ∈ l, w x ≤ w' x) :
    wl w l ≤ wl w' l := by
  induction l with
  | nil => simp
  | cons x l ih =>
    have h1 := h x (by simp)
    have h2 := ih (fun y hy => h y (by simp [hy]))
    simp only [wl_cons]; omega

open Resolver

/-! ## queue -/

namespace Queue

def costs (T : Type) : Costs (lawful T) where
  μ _ pi := pi.length
  perm h := h.length_eq
  start _ _ := Nat.le_refl _
  tryCancel _ _ := Nat.le_refl _
  fin _ _ := Nat.le_refl _
  exec := by
    intro d ph log pi x b d' ps es _ he
    cases x with
    | put x =>
      simp only [exec] at he
      split at he
      · split at he <;> simp at he
        obtain ⟨_, rfl, _⟩ := he; simp [insts]
      · simp at he; obtain ⟨_, rfl, _⟩ := he; simp [insts]
    | maybeGet =>
      simp only [exec] at he
      split at he <;> simp at he <;> obtain ⟨_, rfl, _⟩ := he <;> simp [insts]

end Queue

/-! ## recurring_event and its users -/

namespace Recurring

variable {X : User} {u0 : X.U}

/-- Cost of an instruction. -/
def cost : I X → Nat
  | .raise => 1
  | .act _ => 2

theorem insts_inl {J : Type} (l : List OpId) : insts (I := J) (l.map .inl) = [] := by
  induction l with
  | nil => rfl
  | cons i l ih => simpa [insts] using ih

def costs (O : UserOk X u0) : Costs (lawful O) where
  μ _ pi := wl cost pi
  perm h := wl_perm _ h
  start _ _ := Nat.le_refl _
  tryCancel _ _ := Nat.le_refl _
  fin _ _ := Nat.le_refl _
  exec := by
    intro d ph log pi x b d' ps es _ he
    cases x with
    | raise =>
      simp only [exec] at he
      split at he <;> simp at he
      obtain ⟨_, rfl, _⟩ := he
      rw [insts_inl]; simp [cost]; omega
    | act a =>
      simp only [exec] at he
      split at he
      · simp at he
      · simp at he
        obtain ⟨_, rfl, _⟩ := he
        split <;> simp [insts, cost] <;> omega

end Recurring

/-! ## promise -/

namespace Promise

/-- Cost of an instruction. -/
def cost {T : Type} : I T → Nat
  | .set _ => 2
  | .wake _ => 1

def costs (T : Type) : Costs (lawful T) where
  μ _ pi := wl cost pi
  perm h := wl_perm _ h
  start _ _ := Nat.le_refl _
  tryCancel _ _ := Nat.le_refl _
  fin _ _ := Nat.le_refl _
  exec := by
    intro d ph log pi x b d' ps es _ he
    cases x with
    | set v =>
      simp only [exec] at he
      split at he <;> simp at he
      obtain ⟨_, rfl, _⟩ := he
      simp [insts, Recurring.insts_inl, cost]; omega
    | wake l =>
      simp only [exec] at he
      split at he
      · simp at he
      split at he <;> simp at he
      obtain ⟨_, rfl, _⟩ := he
      simp [insts, cost]; omega

end Promise

/-! ## wait_group -/

namespace WaitGroup

variable {T : Type} {c : Cfg}

/-- Calls that will change the count. -/
def chg : I T → Nat
  | .add _ _ | .ld _ | .cas _ _ | .lock _ | .cdone _ _ => 1
  | .cstart _ | .wset _ _ => 0

/-- Cost of an instruction while the count is `n`: a compare-exchange that is going to fail costs
one more. -/
def small (n : Nat) : I T → Nat
  | .cas v _ => if n = v then 2 else 3
  | .add _ _ => 3
  | .ld _ => 4
  | .lock _ => 2
  | .cdone _ _ => 5
  | .cstart _ => 1
  | .wset _ _ => 1

def μ (d : D T) (pi : List (I T)) : Nat := 4 * (wl chg pi * wl chg pi) + wl (small d.ctr) pi

/-- A change of the count makes at most every pending compare-exchange fail once. -/
theorem small_other (n n' : Nat) (pi : List (I T)) :
    wl (small n') pi ≤ wl (small n) pi + wl chg pi := by
  induction pi with
  | nil => simp
  | cons x pi ih =>
    simp only [wl_cons]
    have : small n' x ≤ small n x + chg x := by
      cases x <;> simp [small, chg]
      repeat' split
      all_goals omega
    omega

/-- The step changes the count. -/
theorem μ_chg {d d' : D T} {x : I T} {pi : List (I T)} {ps : List (OpId ⊕ I T)} (hx : chg x = 1)
    (hs : 1 ≤ small d.ctr x) (h1 : wl chg (insts ps) = 0) (h2 : wl (small d'.ctr) (insts ps) ≤ 1) :
    μ d' (insts ps ++ pi) + 1 ≤ μ d (x :: pi) := by
  have := small_other d.ctr d'.ctr pi
  simp only [μ, wl_append, wl_cons, h1, hx, Nat.zero_add]
  have e : (1 + wl chg pi) * (1 + wl chg pi) = wl chg pi * wl chg pi + 2 * wl chg pi + 1 := by
    simp only [Nat.add_mul, Nat.mul_add]; omega
  rw [e]
  omega

/-- The step does not change the count. -/
theorem μ_same {d d' : D T} {x : I T} {pi : List (I T)} {ps : List (OpId ⊕ I T)}
    (hc : d'.ctr = d.ctr) (h1 : wl chg (insts ps) ≤ chg x)
    (h2 : wl (small d.ctr) (insts ps) + 1 ≤ small d.ctr x) :
    μ d' (insts ps ++ pi) + 1 ≤ μ d (x :: pi) := by
  simp only [μ, wl_append, wl_cons, hc]
  have := Nat.mul_le_mul (Nat.add_le_add_right h1 (wl chg pi)) (Nat.add_le_add_right h1 (wl chg pi))
  omega

theorem insts_append {J : Type} (a b : List (OpId ⊕ J)) : insts (a ++ b) = insts a ++ insts b := by
  induction a with
  | nil => rfl
  | cons x a ih => cases x <;> simp [insts, ih]

def costs (n : Nat) (h1 : c.safeAdd = true) (h2 : c.safeDone = true) :
    Costs (lawful (T := T) n h1 h2) where
  μ := μ
  perm h := by simp only [μ]; rw [wl_perm _ h, wl_perm _ h]
  start := by
    intro d ph log pi i b d' r es _ he
    simp only [start] at he
    split at he <;> simp at he <;> obtain ⟨rfl, _⟩ := he <;> exact Nat.le_refl _
  tryCancel := by
    intro d ph log pi i d' r es _ he
    simp only [tryCancel] at he
    split at he
    · split at he <;> simp at he
      obtain ⟨rfl, _⟩ := he; exact Nat.le_refl _
    · simp at he; obtain ⟨rfl, _⟩ := he; exact Nat.le_refl _
  fin _ _ := Nat.le_refl _
  exec := by
    intro d ph log pi x b d' ps es _ he
    have dec : ∀ {k w l}, decide_ (T := T) k w = some l →
        wl chg (insts l) = 1 ∧ wl (small k) (insts l) = 2 := by
      intro k w l h
      simp only [decide_] at h
      split at h
      · simp at h; subst h; simp [insts, chg, small]
      split at h
      · simp at h
      · simp at h; subst h; simp [insts, chg, small]
    have ct : ∀ (w : Option (Nat × T)) (k : Nat), wl chg (insts (cont w)) = 0 ∧
        wl (small k) (insts (cont w)) ≤ 1 := by
      intro w k
      cases w <;> simp [cont, insts, chg, small]
    cases x with
    | add m w =>
      cases w with
      | none =>
        simp [exec] at he; obtain ⟨rfl, rfl, _⟩ := he
        exact μ_chg rfl (by simp [small]) rfl (by simp [insts])
      | some j =>
        simp [exec] at he; obtain ⟨rfl, rfl, _⟩ := he
        exact μ_chg rfl (by simp [small]) rfl (by simp [insts, small])
    | ld w =>
      simp [exec] at he
      obtain ⟨hl, rfl, _⟩ := he
      have := dec hl
      exact μ_same rfl (by simp [this, chg]) (by simp [this, small])
    | cas v w =>
      simp only [exec] at he
      split at he
      · rename_i hv
        simp at he; obtain ⟨rfl, rfl, _⟩ := he
        exact μ_chg rfl (by simp [small, hv]) (ct w 0).1 (ct w _).2
      · rename_i hv
        simp at he
        obtain ⟨hl, rfl, _⟩ := he
        have := dec hl
        exact μ_same rfl (by simp [this, chg]) (by simp [this, small, hv])
    | lock w =>
      simp only [exec] at he
      split at he
      · simp at he
      split at he
      · simp at he; obtain ⟨rfl, rfl, _⟩ := he
        exact μ_chg rfl (by simp [small]) (ct w 0).1 (ct w _).2
      · simp at he; obtain ⟨rfl, rfl, _⟩ := he
        refine μ_chg rfl (by simp [small]) ?_ ?_
        · rw [insts_append, Recurring.insts_inl]; exact (ct w 0).1
        · rw [insts_append, Recurring.insts_inl]; exact (ct w _).2
    | cstart j =>
      simp [exec] at he; obtain ⟨rfl, rfl, _⟩ := he
      exact μ_same rfl (by simp [insts]) (by simp [insts, small])
    | cdone j v =>
      simp [exec] at he; obtain ⟨rfl, rfl, _⟩ := he
      exact μ_same rfl (by simp [insts, chg]) (by simp [insts, small])
    | wset j v =>
      simp [exec] at he; obtain ⟨rfl, rfl, _⟩ := he
      exact μ_same rfl (by simp [insts]) (by simp [insts, small])

theorem μ_le (d : D T) (pi : List (I T)) : μ d pi ≤ (4 * pi.length + 5) * pi.length := by
  have h1 : wl chg pi ≤ 1 * pi.length := wl_bound (fun x _ => by cases x <;> simp [chg])
  have h2 : wl (small d.ctr) pi ≤ 5 * pi.length := wl_bound (fun x _ => by
    cases x <;> simp [small]
    split <;> omega)
  rw [Nat.one_mul] at h1
  have h3 := Nat.mul_le_mul h1 h1
  simp only [μ, Nat.add_mul, Nat.mul_assoc]
  omega

end WaitGroup

/-! ## post_ack -/

namespace PostAck

variable {T : Type}

/-- Calls of `async_post` that have not taken effect. -/
def isPost : I T → Nat
  | .post _ => 1
  | _ => 0

/-- Cost of an instruction; `N` bounds the number of posts. -/
def cost (N : Nat) (seq : Agent → Nat) : I T → Nat
  | .post _ => 2
  | .pdone _ => 1
  | .attach _ => 1
  | .ack _ _ => 3
  | .erase _ => 2
  | .det a r => 3 * (r - seq a)
  | .detach _ => 3 * N + 2

def μ (d : D) (pi : List (I T)) : Nat := wl (cost (d.posts + wl isPost pi) d.pollSeq) pi

/-- Instructions of others do not get more expensive if the posts are counted and no agent goes
back. -/
theorem cost_le {N N' : Nat} {f f' : Agent → Nat} {x : I T} (hN : N' ≤ N)
    (hf : ∀ a r, x = .det a r → r - f' a ≤ r - f a) : cost N' f' x ≤ cost N f x := by
  cases x <;> simp only [cost] <;> try omega
  rename_i a r
  have := hf a r rfl
  omega

theorem μ_step {d d' : D} {x : I T} {pi : List (I T)} {l : List (I T)}
    (hp : d'.posts + wl isPost l ≤ d.posts + isPost x)
    (hf : ∀ a r, .det a r ∈ pi → r - d'.pollSeq a ≤ r - d.pollSeq a)
    (hx : ∀ N, d.posts + isPost x ≤ N → wl (cost N d'.pollSeq) l + 1 ≤ cost N d.pollSeq x) :
    μ d' (l ++ pi) + 1 ≤ μ d (x :: pi) := by
  simp only [μ, wl_append, wl_cons]
  have h1 := hx (d.posts + (isPost x + wl isPost pi)) (by omega)
  have h2 : wl (cost (d'.posts + (wl isPost l + wl isPost pi)) d'.pollSeq) pi ≤
      wl (cost (d.posts + (isPost x + wl isPost pi)) d.pollSeq) pi :=
    wl_le (fun y hy => cost_le (by omega) (fun a r e => hf a r (e ▸ hy)))
  have h3 : wl (cost (d'.posts + (wl isPost l + wl isPost pi)) d'.pollSeq) l ≤
      wl (cost (d.posts + (isPost x + wl isPost pi)) d'.pollSeq) l :=
    wl_le (fun y _ => cost_le (by omega) (fun _ _ _ => Nat.le_refl _))
  omega

theorem μ_mono {d d' : D} {pi : List (I T)} (hp : d'.posts = d.posts)
    (hf : ∀ a, d.pollSeq a ≤ d'.pollSeq a) : μ d' pi ≤ μ d pi := by
  simp only [μ, hp]
  exact wl_le (fun y _ => cost_le (Nat.le_refl _) (fun a r _ => by have := hf a; omega))

theorem take_keeps {n : Nat} {l : List OpId} {d d' : D} (h : take d n l = some d') :
    d'.posts = d.posts ∧ d'.pollSeq = d.pollSeq := by
  induction l generalizing d with
  | nil => simp [take] at h; subst h; exact ⟨rfl, rfl⟩
  | cons i l ih =>
    simp only [take] at h
    split at h
    · simp at h
    · obtain ⟨h1, h2⟩ := ih h
      exact ⟨h1, h2⟩

theorem release_keeps {d d' : D} {a r : Nat} {ps : List (OpId ⊕ I T)} {es : List (E T)}
    (h : release d a r = some (d', ps, es)) :
    d'.posts = d.posts ∧ d'.pollSeq = d.pollSeq ∧ wl isPost (insts ps) = 0 ∧
    ∀ N f, wl (cost N f) (insts ps) ≤ 3 * (r - f a) + 1 := by
  simp only [release] at h
  split at h
  · split at h
    · simp at h
    split at h
    · simp at h; obtain ⟨rfl, rfl, _⟩ := h
      refine ⟨rfl, rfl, rfl, fun N f => ?_⟩
      simp [insts, cost]; omega
    · simp at h; obtain ⟨rfl, rfl, _⟩ := h
      refine ⟨rfl, rfl, rfl, fun N f => ?_⟩
      simp [insts, cost]
  · simp at h

def costs (T : Type) : Costs (lawful T) where
  μ := μ
  perm h := by simp only [μ]; rw [wl_perm _ h, wl_perm _ h]
  start := by
    intro d ph log pi i b d' r es _ he
    simp only [start] at he
    split at he
    · simp at he
    split at he
    · simp at he
    split at he
    · split at he <;> simp at he
      obtain ⟨rfl, _⟩ := he; exact Nat.le_refl _
    · simp at he; obtain ⟨rfl, _⟩ := he; exact Nat.le_refl _
  tryCancel := by
    intro d ph log pi i d' r es _ he
    simp only [tryCancel] at he
    split at he
    · simp at he; obtain ⟨rfl, _⟩ := he; exact Nat.le_refl _
    split at he
    · simp at he
    split at he <;> simp at he
    obtain ⟨rfl, _⟩ := he; exact Nat.le_refl _
  fin := by
    intro d ph log pi i _
    simp only [fin]
    split
    · refine μ_mono rfl (fun a => ?_)
      simp only [upd]; split
      · rename_i e; rw [e]; omega
      · exact Nat.le_refl _
    · exact μ_mono rfl (fun a => Nat.le_refl _)
  exec := by
    intro d ph log pi x b d' ps es hI he
    have hdet := hI.B.det
    cases x with
    | post x =>
      simp only [exec] at he
      split at he
      · split at he <;> simp at he
        obtain ⟨rfl, rfl, _⟩ := he
        exact μ_step (by simp [insts, isPost]) (fun _ _ _ => Nat.le_refl _)
          (fun N _ => by simp [insts, cost])
      · split at he <;> simp at he
        rename_i d1 ht
        obtain ⟨rfl, rfl, _⟩ := he
        obtain ⟨t1, t2⟩ := take_keeps ht
        rw [Recurring.insts_inl]
        exact μ_step (by simp [t1, isPost]) (fun _ _ _ => by rw [t2]; exact Nat.le_refl _)
          (fun N _ => by simp [cost])
    | pdone n =>
      simp [exec] at he; obtain ⟨rfl, rfl, _⟩ := he
      exact μ_step (by simp [insts]) (fun _ _ _ => Nat.le_refl _) (fun N _ => by simp [insts, cost])
    | attach a =>
      simp only [exec] at he
      split at he <;> simp at he
      obtain ⟨rfl, rfl, _⟩ := he
      refine μ_step (by simp [insts]) (fun a' r hr => ?_) (fun N _ => by simp [insts, cost])
      have h1 := hdet a' r (by simp [hr])
      have h2 := hI.A.posts
      simp only [upd]; split
      · rename_i e; subst e; omega
      · exact Nat.le_refl _
    | detach a =>
      simp only [exec] at he
      split at he
      · simp at he
      split at he
      · split at he <;> simp at he
        rename_i d1 ps1 es1 hr
        obtain ⟨rfl, rfl, _⟩ := he
        obtain ⟨r1, r2, r3, r4⟩ := release_keeps hr
        refine μ_step (by rw [r1, r3]; simp) (fun _ _ _ => by rw [r2]; exact Nat.le_refl _)
          (fun N hN => ?_)
        have := r4 N d1.pollSeq
        simp only [cost, isPost] at hN ⊢
        omega
      · simp at he; obtain ⟨rfl, rfl, _⟩ := he
        exact μ_step (by simp [insts, off]) (fun _ _ _ => Nat.le_refl _)
          (fun N _ => by simp [insts, cost])
    | det a r =>
      have h0 := hdet a r (by simp)
      simp only [exec] at he
      split at he
      · simp at he; obtain ⟨rfl, rfl, _⟩ := he
        refine μ_step (by simp [insts, off]) (fun a' r' _ => ?_) (fun N _ => ?_)
        · simp only [off, upd]; split
          · rename_i e; subst e; omega
          · exact Nat.le_refl _
        · simp [insts, cost]; omega
      · rename_i hne
        obtain ⟨r1, r2, r3, r4⟩ := release_keeps he
        refine μ_step (by rw [r1, r3]; simp) (fun a' r' _ => ?_) (fun N _ => ?_)
        · rw [r2]; simp only [upd]; split
          · rename_i e; subst e; omega
          · exact Nat.le_refl _
        · have := r4 N d'.pollSeq
          rw [r2] at this ⊢
          simp only [upd, if_true] at this hne
          simp only [cost]
          omega
    | ack a n =>
      simp only [exec] at he
      split at he
      · simp at he
      · simp at he; obtain ⟨rfl, rfl, _⟩ := he
        split
        · exact μ_step (by simp [insts, isPost]) (fun _ _ _ => Nat.le_refl _)
            (fun N _ => by simp [insts, cost])
        · exact μ_step (by simp [insts]) (fun _ _ _ => Nat.le_refl _)
            (fun N _ => by simp [insts, cost])
    | erase n =>
      simp only [exec] at he
      split at he <;> simp at he
      obtain ⟨rfl, rfl, _⟩ := he
      exact μ_step (by simp [insts, isPost]) (fun _ _ _ => Nat.le_refl _)
        (fun N _ => by simp [insts, cost])

theorem μ_le {d : D} {ph : OpId → Phase (Agent × Option Nat)} {log : List (Event T)}
    {pi : List (I T)} (h : Inv d ph log pi) :
    μ d pi ≤ (3 * ((spec log).posts + pi.length) + 3) * pi.length := by
  have h1 : wl isPost pi ≤ 1 * pi.length := wl_bound (fun x _ => by cases x <;> simp [isPost])
  have h2 := h.A.posts
  refine wl_bound (fun x hx => ?_)
  cases x <;> simp only [cost] <;> try omega
  rename_i a r
  have := h.B.det a r hx
  omega

end PostAck

end Verif
