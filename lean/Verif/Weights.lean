import Verif.Base

/-! # More facts about weights: weights that count elements of a list -/

namespace Verif

variable {ι : Type u} {α : Type v}

theorem wl_mono {w w' : ι → Nat} (h : ∀ x, w x ≤ w' x) (l : List ι) : wl w l ≤ wl w' l := by
  induction l with
  | nil => simp
  | cons x l ih => simp only [wl_cons]; have := h x; omega

theorem ws_mono {w w' : ι → Nat} (h : ∀ x, w x ≤ w' x) (acts : List (List ι)) :
    ws w acts ≤ ws w' acts := by
  induction acts with
  | nil => simp
  | cons a acts ih => simp only [ws_cons]; have := wl_mono h a; omega

theorem ws_add {w w' w'' : ι → Nat} (h : ∀ x, w x = w' x + w'' x) (acts : List (List ι)) :
    ws w acts = ws w' acts + ws w'' acts := by
  have hl : ∀ l : List ι, wl w l = wl w' l + wl w'' l := by
    intro l
    induction l with
    | nil => simp
    | cons x l ih => simp only [wl_cons]; have := h x; omega
  induction acts with
  | nil => simp
  | cons a acts ih => simp only [ws_cons]; have := hl a; omega

/-- How many elements of `f x` satisfy `q`. -/
def cw (f : ι → List α) (q : α → Bool) (x : ι) : Nat := (f x).countP q

theorem wl_cw (f : ι → List α) (q : α → Bool) (p : List ι) :
    wl (cw f q) p = (p.flatMap f).countP q := by
  induction p with
  | nil => rfl
  | cons x p ih => simp [ih, cw, List.countP_append]

/-- Effect of one instruction on the elements. -/
theorem cw_set (f : ι → List α) (q : α → Bool) {acts : List (List ι)} {k : Nat} {x : ι} {r : List ι}
    (p : List ι) (hk : acts[k]? = some (x :: r)) :
    ws (cw f q) (acts.set k (p ++ r)) + (f x).countP q = ws (cw f q) acts + (p.flatMap f).countP q := by
  have := ws_set (cw f q) p hk
  rwa [wl_cw] at this

theorem cw_app (f : ι → List α) (q : α → Bool) (acts : List (List ι)) (p : List ι) :
    ws (cw f q) (acts ++ [p]) = ws (cw f q) acts + (p.flatMap f).countP q := by
  simp [wl_cw]

theorem cw_pos {f : ι → List α} {q : α → Bool} {acts : List (List ι)} {k : Nat} {x : ι} {r : List ι}
    (hk : acts[k]? = some (x :: r)) : (f x).countP q ≤ ws (cw f q) acts :=
  ws_pos (w := cw f q) hk

end Verif
