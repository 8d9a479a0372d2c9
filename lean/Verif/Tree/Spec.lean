import Verif.Tree.Model

/-!
# What the sender algorithms promise

`DoneOk log p v S`: operation `p`, whose sender is `S`, may complete with `v` after the history `log`.
`KidOk snd log k q S`: child `k` of operation `q`, whose sender is `S`, may be started after the history `log`; `snd`
gives the senders of all operations.
`Ok snd before e`: event `e` may happen after the history `before`.
-/

namespace Verif.Tree

def DoneOk (log : List Ev) (p : Path) (v : Nat) : Snd → Prop
  | .leaf => True
  | .inv _ => .invoke p v ∈ log
  | .xform _ _ => ∃ w, .call p w v ∈ log
  | .ite _ _ _ => ∃ b, .cond p 0 b ∈ log ∧ .done ((if b then 0 else 1) :: p) v ∈ log
  | .letS _ _ | .lam _ => .done (0 :: p) v ∈ log
  | .seq n _ => .done (n :: p) v ∈ log
  | .rep _ _ => ∃ k, .cond p k false ∈ log
  | .all n _ | .race n _ => ∀ k, k ≤ n → ∃ u, .done (k :: p) u ∈ log

def KidOk (snd : Path → Option Snd) (log : List Ev) (k : Nat) (q : Path) : Snd → Prop
  | .leaf | .inv _ => False
  | .xform S _ | .lam S => k = 0 ∧ snd (0 :: q) = some S
  | .ite _ a b => (k = 0 ∧ .cond q 0 true ∈ log ∧ snd (0 :: q) = some a) ∨
      (k = 1 ∧ .cond q 0 false ∈ log ∧ snd (1 :: q) = some b)
  | .letS _ f => k = 0 ∧ ∃ v, .bind q v ∈ log ∧ snd (0 :: q) = some (f v)
  | .seq n f => k ≤ n ∧ snd (k :: q) = some (f k) ∧ ∀ j, k = j + 1 → ∃ v, .done (j :: q) v ∈ log
  | .rep _ f => ∃ l1 l2, log = l1 ++ .cond q k true :: l2 ∧ snd (k :: q) = some (f (l1 ++ [.cond q k true]))
  | .all n f | .race n f => k ≤ n ∧ snd (k :: q) = some (f k)

def Ok (snd : Path → Option Snd) (before : List Ev) : Ev → Prop
  | .start p => .start p ∉ before ∧ ∀ k q, p = k :: q → q ≠ [] →
      .start q ∈ before ∧ (∀ w, .done q w ∉ before) ∧ ∃ S, snd q = some S ∧ KidOk snd before k q S
  | .done p v => .start p ∈ before ∧ (∀ w, .done p w ∉ before) ∧
      (∀ k q w, p = k :: q → q ≠ [] → .done q w ∉ before) ∧ ∃ S, snd p = some S ∧ DoneOk before p v S
  | .call p w v => (∀ w' v', .call p w' v' ∉ before) ∧ .done (0 :: p) w ∈ before ∧ (∀ u, .done p u ∉ before) ∧
      ∃ S f, snd p = some (.xform S f) ∧ v = f before w
  | .invoke p v => (∀ v', .invoke p v' ∉ before) ∧ .start p ∈ before ∧ (∀ u, .done p u ∉ before) ∧
      ∃ f, snd p = some (.inv f) ∧ v = f before
  | .cond p k b => (∀ b', .cond p k b' ∉ before) ∧ .start p ∈ before ∧ (∀ u, .done p u ∉ before) ∧
      ((∃ c A B, snd p = some (.ite c A B) ∧ k = 0 ∧ b = c before) ∨
        ∃ c f, snd p = some (.rep c f) ∧ b = c before ∧
          ∀ j, k = j + 1 → .cond p j true ∈ before ∧ ∃ v, .done (j :: p) v ∈ before)
  | .bind p v => (∀ v', .bind p v' ∉ before) ∧ .start p ∈ before ∧ (∀ u, .done p u ∉ before) ∧
      ∃ g f, snd p = some (.letS g f) ∧ v = g before
  | .cancel p => .cancel p ∉ before ∧ ∃ j q n f, p = j :: q ∧ snd q = some (.race n f) ∧ j ≤ n ∧
      (∀ u, .done q u ∉ before) ∧ ∃ k v, k ≤ n ∧ k ≠ j ∧ .done (k :: q) v ∈ before

theorem DoneOk.mono {log l : List Ev} {p : Path} {v : Nat} {S : Snd} (h : DoneOk log p v S) :
    DoneOk (log ++ l) p v S := by
  cases S <;> simp only [DoneOk] at * <;> grind

theorem KidOk.mono {snd snd' : Path → Option Snd} {log l : List Ev} {k : Nat} {q : Path} {S : Snd}
    (hs : ∀ p S, snd p = some S → snd' p = some S) (h : KidOk snd log k q S) : KidOk snd' (log ++ l) k q S := by
  cases S <;> simp only [KidOk] at * <;> try grind
  · refine ⟨h.1, hs _ _ h.2.1, fun j hj => ?_⟩
    obtain ⟨v, hv⟩ := h.2.2 j hj
    exact ⟨v, by simp [hv]⟩

/-- Later senders do not change earlier facts. -/
theorem Ok.mono {snd snd' : Path → Option Snd} (hs : ∀ p S, snd p = some S → snd' p = some S) {before : List Ev}
    {e : Ev} (h : Ok snd before e) : Ok snd' before e := by
  cases e <;> simp only [Ok] at *
  · refine ⟨h.1, fun k q hp hq => ?_⟩
    obtain ⟨h1, h2, S, h3, h4⟩ := h.2 k q hp hq
    refine ⟨h1, h2, S, hs _ _ h3, ?_⟩
    have := KidOk.mono (l := []) hs h4
    simpa using this
  · grind
  · grind
  · grind
  · obtain ⟨h1, h2, h3, h4⟩ := h
    refine ⟨h1, h2, h3, ?_⟩
    rcases h4 with ⟨c, A, B, h5, h6⟩ | ⟨c, f, h5, h6⟩
    · exact .inl ⟨c, A, B, hs _ _ h5, h6⟩
    · exact .inr ⟨c, f, hs _ _ h5, h6⟩
  · grind
  · obtain ⟨h1, j, q, n, f, h2, h3, h4⟩ := h
    exact ⟨h1, j, q, n, f, h2, hs _ _ h3, h4⟩

end Verif.Tree
