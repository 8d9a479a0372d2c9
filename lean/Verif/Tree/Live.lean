import Verif.Tree.Once

/-! # Faults, and completion -/

namespace Verif.Tree

theorem alive_of {s : St} {w : Wt} (h : InvW s w) {p : Path} (hp : s.phase p = .conn ∨ s.phase p = .started) :
    alive s p = true := by
  induction p with
  | nil => rfl
  | cons k q ih =>
    simp only [alive, Bool.and_eq_true, bne_iff_ne, ne_eq]
    refine ⟨by rcases hp with hp | hp <;> simp [hp], ?_⟩
    by_cases hq : q = []
    · subst hq; rfl
    · exact ih (.inr (h.par q k hq hp))

/-- Why an instruction may access destroyed memory, or trip an assertion. -/
theorem fault_cause {s : St} {acts : List (List Instr)} (h : Inv s acts) (h2 : Inv2 s acts) (h3 : Inv3 s acts)
    (h4 : Inv4 s acts) (hh : Hist (Ok s.snd) s.log)
    {k : Nat} {x : Instr} {r : List Instr} {b : Bool} (hk : acts[k]? = some (x :: r)) (he : exec s x b = .fault) :
    (∃ p n f, x = .trail p ∧ s.snd p = some (.all n f) ∧ ∀ k, k ≤ n → ∃ v, .done (k :: p) v ∈ s.log) ∨
    (∃ p j n f v, x = .cancel p j ∧ s.snd p = some (.race n f) ∧ j ≤ n ∧ .done p v ∈ s.log) := by
  have pr := pre h hk
  cases x with
  | start p =>
    exfalso
    have h4 := ws_pos (w := stw p) hk
    simp only [stw, if_true] at h4
    have h5 := h2.st p h4
    simp [exec, h5, alive_of h (.inl h5)] at he
  | begin p =>
    exfalso
    have h5 := (pr.bg p rfl).1
    have h6 := alive_of h (.inr h5)
    cases hs : s.snd p with
    | none => rw [h.sn] at hs; rw [hs] at h5; cases h5
    | some S =>
      cases S <;> simp [exec, h6, hs] at he
      split at he <;> cases he
  | setv p v =>
    exfalso
    have h4 := ws_pos (w := svw p v) hk
    simp only [svw, and_self, if_true] at h4
    have h5 := h2.sv p v h4
    simp [exec, h5, alive_of h (.inr h5)] at he
  | recv p v =>
    exfalso
    have hd := (pre2 h h2 h3 hk).rc p v rfl
    match p, hd, pr, hk, he with
    | [], hd, pr, hk, he => rw [h.root] at hd; cases hd.2
    | [_], hd, pr, hk, he => simp [exec] at he
    | k :: i :: q, hd, pr, hk, he =>
      obtain ⟨S, h5, h6⟩ := h3.kd (i :: q) k (by simp) (by rw [hd.2]; simp)
      have h7 := pr.rc k i q v rfl (by simp [h5])
      have h8 := alive_of h (.inr h7)
      have h9 := h.sta _ (by simp) h7 _ h5
      have h10 := ws_pos (w := recw (i :: q)) hk
      simp [recw] at h10
      cases S <;> simp only [exec, h8, h5] at he <;> simp only [KidOk] at h6 <;>
        simp only [Load, Wt.of] at h9 <;> (try (simp at he; done)) <;> (try (simp at he; omega))
      split at he <;> (try split at he) <;> simp_all
  | loop p j =>
    exfalso
    have h4 := ws_pos (w := low p) hk
    simp only [low, if_true] at h4
    obtain ⟨c, f, h5⟩ := h2.lo p h4
    have h6 := alive_of h (.inr (pr.lp p j rfl).1)
    simp only [exec, h5, h6] at he
    split at he
    · simp_all
    · split at he <;> cases he
  | trail p =>
    left
    have h6 := ws_pos (w := trw p) hk
    simp only [trw, if_true] at h6
    obtain ⟨n, f, h5⟩ := h2.tr p h6
    refine ⟨p, n, f, rfl, h5, ?_⟩
    have hn := h4.tn p h6
    have hp : p ≠ [] := by intro e; subst e; have := (h.sn []).2 h.root; rw [h5] at this; cases this
    cases hph : s.phase p with
    | none => rw [(h.fre p hp (.inl hph)).1] at hn; omega
    | conn => rw [(h.fre p hp (.inr hph)).1] at hn; omega
    | done =>
      obtain ⟨v, hv⟩ := h2.s3 p hph
      obtain ⟨l1, l2, e, _, _, _, S, hS, hD⟩ := hh.mem hv
      rw [h5] at hS
      cases hS
      intro k hk
      obtain ⟨u, hu⟩ := hD k hk
      exact ⟨u, by rw [e]; simp [hu]⟩
    | started =>
      have hc : s.ctr p = 0 := by
        have := alive_of h (.inr hph)
        simp only [exec, this] at he
        split at he
        · simp_all
        · cases he
      have h7 := h.sta p hp hph _ h5
      simp only [Load, hc] at h7
      intro k hk
      apply h2.s3
      have h6 := @kids_pos s.phase p k (n + 1) (by omega)
      rcases h3.fan p n f (.inl h5) (.inl hph) with h8 | ⟨_, h8⟩
      · have := (h.bg _ h8).2.1
        omega
      · have := h8 k hk
        cases hph : s.phase (k :: p) <;> simp [hph] at h6 this ⊢ <;> omega
  | cancel p j =>
    right
    have h4 := ws_pos (w := cnw p j) hk
    simp only [cnw, and_self, if_true] at h4
    obtain ⟨n, f, h5, h6⟩ := h2.cn p j h4
    have h7 : s.phase p = .done := by
      cases hp : s.phase p with
      | done => rfl
      | none => rw [← h.sn, h5] at hp; cases hp
      | conn => simp [exec, alive_of h (.inl hp)] at he
      | started => simp [exec, alive_of h (.inr hp)] at he
    obtain ⟨v, h8⟩ := h2.s3 p h7
    exact ⟨p, j, n, f, v, rfl, h5, h6, h8⟩

theorem exec_not_block (s : St) (x : Instr) (b : Bool) : exec s x b ≠ .block := by
  cases x with
  | recv p v =>
    match p with
    | [] => simp [exec]
    | [_] => simp [exec]
    | k :: i :: q =>
      simp only [exec]
      split
      · simp
      · split <;> (try simp) <;> split <;> simp
  | begin p =>
    simp only [exec]
    split
    · simp
    · split <;> (try simp) <;> split <;> simp
  | loop p k =>
    simp only [exec]
    split
    · split
      · simp
      · split <;> simp
    · simp
  | _ => simp only [exec]; split <;> simp

theorem quiet {acts : List (List Instr)} (hq : ∀ a ∈ acts, a = []) (p : Path) :
    (Wt.of acts).o p = 0 ∧ (Wt.of acts).r p = 0 := ⟨ws_quiescent _ hq, ws_quiescent _ hq⟩

theorem waits0 {s : St} {acts : List (List Instr)} (h : Inv s acts) (hq : ∀ a ∈ acts, a = []) :
    ∀ p, p ≠ [] → s.phase p = .conn ∨ s.phase p = .started → s.phase p = .started := by
  intro p hp hph
  rcases hph with hph | hph
  · have := (h.con p hp hph).1
    rw [(quiet hq p).1] at this
    cases this
  · exact hph

/-- The child an operation waits for. -/
theorem waits1 {s : St} {acts : List (List Instr)} (h : Inv s acts) (h3 : Inv3 s acts) (hq : ∀ a ∈ acts, a = []) :
    ∀ p, p ≠ [] → s.phase p = .started → ∀ S, s.snd p = some S →
      S = .leaf ∧ s.rdy p = true ∨
      ∃ k, (s.phase (k :: p) = .conn ∨ s.phase (k :: p) = .started) ∧ KidOk s.snd s.log k p S := by
  have z := quiet hq
  intro p hp hph S hs
  have h1 := h.sta p hp hph S hs
  rw [(z p).1, (z p).2] at h1
  have kid : ∀ k, s.phase (k :: p) = .conn ∨ s.phase (k :: p) = .started → KidOk s.snd s.log k p S := by
    intro k hk
    obtain ⟨S', h4, h5⟩ := h3.kd p k hp (by rcases hk with hk | hk <;> simp [hk])
    rw [hs] at h4
    cases h4
    exact h5
  have sing : s.cur p ≠ none → ∃ k, (s.phase (k :: p) = .conn ∨ s.phase (k :: p) = .started) ∧
      KidOk s.snd s.log k p S := by
    intro hc
    obtain ⟨k, hk⟩ := Option.ne_none_iff_exists'.1 hc
    exact ⟨k, (h.cur p k hk).2.1, kid k (h.cur p k hk).2.1⟩
  have many : ∀ n, kids s.phase p n ≠ 0 → ∃ k, (s.phase (k :: p) = .conn ∨ s.phase (k :: p) = .started) ∧
      KidOk s.snd s.log k p S := by
    intro n hn
    obtain ⟨k, _, hk⟩ := exists_kid (Nat.pos_of_ne_zero hn)
    exact ⟨k, act_pos.1 hk, kid k (act_pos.1 hk)⟩
  cases S <;> simp only [Load] at h1
  case leaf => left; refine ⟨rfl, ?_⟩; cases hr : s.rdy p <;> simp [hr] at h1 ⊢
  case inv => omega
  case all n f => right; apply many (n + 1); split at h1 <;> omega
  case race n f => right; apply many (n + 1); split at h1 <;> omega
  all_goals
    right
    apply sing
    intro hc
    simp [hc] at h1

theorem kids_le {ph : Path → Phase} {q : Path} {m k : Nat} (hk : k < m + 1) (h : (ph (k :: q)).act = 0) :
    kids ph q (m + 1) ≤ m := by
  have h1 : ∀ j, kids ph q j ≤ j := by
    intro j
    induction j with
    | zero => exact Nat.le_refl 0
    | succ j ih => cases hp : ph (j :: q) <;> simp [kids, hp] <;> omega
  have h2 : ∀ j, k < j → kids ph q j < j := by
    intro j
    induction j with
    | zero => intro hj; omega
    | succ j ih =>
      intro hj
      by_cases e : k = j
      · subst e
        have := h1 k
        simp only [kids, h]
        omega
      · have := ih (by omega)
        cases hp : ph (j :: q) <;> simp [kids, hp] <;> omega
  have := h2 (m + 1) hk
  omega

/-- If nothing is pending, an operation that has not completed waits for one of its leaves. -/
theorem waits {s : St} {acts : List (List Instr)} (h : Inv s acts) (h3 : Inv3 s acts)
    (hq : ∀ a ∈ acts, a = []) (S : Snd) :
    ∀ p, p ≠ [] → s.snd p = some S → s.phase p = .conn ∨ s.phase p = .started →
      ∃ q, p <:+ q ∧ s.snd q = some .leaf ∧ s.phase q = .started ∧ s.rdy q = true := by
  have hst := waits0 h hq
  have one := waits1 h h3 hq
  have up : ∀ p k (S' : Snd), (∀ p, p ≠ [] → s.snd p = some S' → s.phase p = .conn ∨ s.phase p = .started →
      ∃ q, p <:+ q ∧ s.snd q = some .leaf ∧ s.phase q = .started ∧ s.rdy q = true) →
      s.snd (k :: p) = some S' → s.phase (k :: p) = .conn ∨ s.phase (k :: p) = .started →
      ∃ q, p <:+ q ∧ s.snd q = some .leaf ∧ s.phase q = .started ∧ s.rdy q = true := by
    intro p k S' ih h1 h2
    obtain ⟨q, h4, h5⟩ := ih (k :: p) (by simp) h1 h2
    exact ⟨q, (List.suffix_cons k p).trans h4, h5⟩
  induction S with
  | leaf =>
    intro p hp hs hph
    have hph := hst p hp hph
    rcases one p hp hph _ hs with ⟨_, h1⟩ | ⟨k, _, h1⟩
    · exact ⟨p, List.suffix_refl p, hs, hph, h1⟩
    · cases h1
  | inv f =>
    intro p hp hs hph
    rcases one p hp (hst p hp hph) _ hs with ⟨h1, _⟩ | ⟨k, _, h1⟩
    · cases h1
    · cases h1
  | xform S f ih | lam S ih =>
    intro p hp hs hph
    rcases one p hp (hst p hp hph) _ hs with ⟨h1, _⟩ | ⟨k, h1, h2⟩
    · cases h1
    · obtain ⟨rfl, h4⟩ := h2
      exact up p 0 S ih h4 h1
  | ite c a b iha ihb =>
    intro p hp hs hph
    rcases one p hp (hst p hp hph) _ hs with ⟨h1, _⟩ | ⟨k, h1, h2⟩
    · cases h1
    · rcases h2 with ⟨rfl, _, h4⟩ | ⟨rfl, _, h4⟩
      · exact up p 0 a iha h4 h1
      · exact up p 1 b ihb h4 h1
  | letS g f ih =>
    intro p hp hs hph
    rcases one p hp (hst p hp hph) _ hs with ⟨h1, _⟩ | ⟨k, h1, h2⟩
    · cases h1
    · obtain ⟨rfl, v, _, h4⟩ := h2
      exact up p 0 (f v) (ih v) h4 h1
  | seq n f ih | all n f ih | race n f ih =>
    intro p hp hs hph
    rcases one p hp (hst p hp hph) _ hs with ⟨h1, _⟩ | ⟨k, h1, h2⟩
    · cases h1
    · simp only [KidOk] at h2
      exact up p k (f k) (ih k) (by grind) h1
  | rep c f ih =>
    intro p hp hs hph
    rcases one p hp (hst p hp hph) _ hs with ⟨h1, _⟩ | ⟨k, h1, h2⟩
    · cases h1
    · obtain ⟨l1, l2, _, h4⟩ := h2
      exact up p k _ (ih _) h4 h1

/-- The expression does not contain `when_all` and `race_and_cancel`. -/
def Snd.plain : Snd → Prop
  | .leaf | .inv _ => True
  | .xform S _ | .lam S => S.plain
  | .ite _ a b => a.plain ∧ b.plain
  | .letS _ f => ∀ v, (f v).plain
  | .seq _ f => ∀ k, (f k).plain
  | .rep _ f => ∀ l, (f l).plain
  | .all _ _ | .race _ _ => False

theorem plain_sub {snd : Path → Option Snd} {log : List Ev} {k : Nat} {q : Path} {S S' : Snd}
    (h : KidOk snd log k q S) (hp : S.plain) (hs : snd (k :: q) = some S') : S'.plain := by
  cases S <;> simp only [KidOk, Snd.plain] at h hp
  case ite => rcases h with ⟨rfl, _, h⟩ | ⟨rfl, _, h⟩ <;> rw [h] at hs <;> cases hs <;> simp [hp]
  case xform | lam => obtain ⟨rfl, h⟩ := h; rw [h] at hs; cases hs; exact hp
  case letS => obtain ⟨rfl, v, _, h⟩ := h; rw [h] at hs; cases hs; exact hp v
  case seq => rw [h.2.1] at hs; cases hs; exact hp k
  case rep => obtain ⟨l1, l2, _, h⟩ := h; rw [h] at hs; cases hs; exact hp _

theorem plain_all {s : St} {acts : List (List Instr)} (h : Inv s acts) (h3 : Inv3 s acts)
    (hr : ∀ t S, s.snd [t] = some S → S.plain) : ∀ p S, s.snd p = some S → S.plain := by
  intro p
  induction p with
  | nil => intro S hs; have := (h.sn []).2 h.root; rw [hs] at this; cases this
  | cons k q ih =>
    intro S hs
    by_cases hq : q = []
    · subst hq; exact hr k S hs
    · have : s.phase (k :: q) ≠ .none := by rw [Ne, ← h.sn, hs]; simp
      obtain ⟨S', h4, h5⟩ := h3.kd q k hq this
      exact plain_sub h5 (ih S' h4) hs

end Verif.Tree
