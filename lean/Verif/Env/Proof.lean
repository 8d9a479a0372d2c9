import Verif.Env.Spec

/-! # Invariant of environments -/

namespace Verif.Env

/-- The answer of `get_env` is determined by the code. -/
theorem GetEnv.det {h : Heap} {r : Rcv} {x y : Res} (hx : GetEnv h r x) (hy : GetEnv h r y) : x = y := by
  induction hx with
  | xform _ ih => cases hy with | xform h2 => exact ih h2
  | ptr h1 h2 _ ih =>
    cases hy with
    | ptr g1 g2 g3 => rw [h1] at g1; cases g1; rw [h2] at g2; cases g2; exact ih g3
    | dead g => rw [h1] at g; cases g
    | invalid g1 g2 => rw [h1] at g1; cases g1; exact absurd h2 (g2 _)
  | dead h1 =>
    cases hy with
    | ptr g1 => rw [h1] at g1; cases g1
    | dead => rfl
    | invalid => rfl
  | invalid h1 h2 =>
    cases hy with
    | ptr g1 g2 => rw [h1] at g1; cases g1; exact absurd g2 (h2 _)
    | dead => rfl
    | invalid => rfl
  | _ => cases hy; rfl

/-- The receiver that the operation at `p` was connected to. -/
def rcvOf (R : Nat → Root) (h : Heap) : Path → Rcv
  | [] => .garbage
  | [t] => (R t).rcv
  | _ :: i :: q => match (h (i :: q)).map Obj.snd with
    | none | some .leaf => .garbage
    | some (.xform _) => .xform (rcvOf R h (i :: q))
    | some (.ite _ _) | some (.letS _) | some (.lam _) => rcvOf R h (i :: q)
    | some (.erased _) => .any (rcvOf R h (i :: q))
    | some (.seq _ _) | some (.rep _) | some (.all _ _) | some (.race _ _) | some (.cancelCb _) | some (.inGroup _) => .ptr (i :: q)

def defers : Snd → Bool
  | .ite _ _ | .letS _ | .seq _ _ | .rep _ => true
  | _ => false

def single : Snd → Bool
  | .ite _ _ | .seq _ _ | .rep _ => true
  | _ => false

def kidOK : Snd → Nat → Prop
  | .leaf, _ => False
  | .ite _ _, k => k ≤ 1
  | .seq n _, k | .all n _, k | .race n _, k => k ≤ n
  | .rep _, _ => True
  | _, k => k = 0

def FldOK (B : List Path) (p : Path) (o : Obj) (r : Rcv) : Prop :=
  match o.snd with
  | .xform _ | .lam _ | .erased _ => True
  | .ite _ _ | .letS _ => o.ph = .conn → o.dr = .val r
  | .cancelCb _ => if p ∈ B then o.dr = .unset else o.dr = .val r
  | _ => o.dr = .val r

structure Inv (R : Nat → Root) (B : List Path) (h : Heap) : Prop where
  root0 : h [] = none
  par : ∀ k i a o, h (k :: i :: a) = some o → ∃ o', h (i :: a) = some o' ∧ kidOK o'.snd k ∧ (o'.ph = .done → o.ph = .done) ∧
    (defers o'.snd = true → o'.ph ≠ .conn)
  uniq : ∀ j k a o, h a = some o → single o.snd = true → h (j :: a) ≠ none → h (k :: a) ≠ none → j = k
  fld : ∀ p o, h p = some o → FldOK B p o (rcvOf R h p)

/-- Heaps that contain the same senders. -/
def SameSnd (h h' : Heap) (p : Path) : Prop := ∀ a, a <:+ p → a ≠ p → (h a).map Obj.snd = (h' a).map Obj.snd

theorem rcvOf_congr {R : Nat → Root} {h h' : Heap} : ∀ {p : Path}, SameSnd h h' p → rcvOf R h p = rcvOf R h' p
  | [], _ => rfl
  | [_], _ => rfl
  | k :: i :: q, hs => by
    have h1 := hs (i :: q) (List.suffix_cons _ _) (by simp)
    have ih := rcvOf_congr (R := R) (h := h) (h' := h') (p := i :: q) (fun a ha hne => hs a (ha.trans (List.suffix_cons _ _)) (by
      rintro rfl
      have := ha.length_le
      simp only [List.length_cons] at this
      omega))
    simp only [rcvOf, h1, ih]

def putH (h : Heap) (p : Path) (o : Obj) : Heap := fun q => if q = p then some o else h q
def dropH (h : Heap) (p : Path) : Heap := fun q => if p <:+ q then none else h q

theorem putH_self (h : Heap) (p : Path) (o : Obj) : putH h p o p = some o := by simp [putH]
theorem putH_ne (h : Heap) {p q : Path} (o : Obj) (hq : q ≠ p) : putH h p o q = h q := by simp [putH, hq]

theorem not_suffix_tail (k : Nat) (q : Path) : ¬ (k :: q) <:+ q := fun hs => by
  have := hs.length_le
  simp only [List.length_cons] at this
  omega

/-- The parent of `p` exists and may have `p` as a child. -/
def ParOK (h : Heap) (p : Path) : Prop :=
  p ≠ [] ∧ ∀ k i a, p = k :: i :: a → ∃ o', h (i :: a) = some o' ∧ kidOK o'.snd k ∧ o'.ph ≠ .done ∧
    (defers o'.snd = true → o'.ph ≠ .conn) ∧ (single o'.snd = true → ∀ j, h (j :: i :: a) = none)

def Fresh (h : Heap) (p : Path) : Prop := ∀ q, p <:+ q → h q = none

/-- Everything above a live operation is live. -/
theorem Inv.up {R : Nat → Root} {B : List Path} {h : Heap} (hi : Inv R B h) {p : Path} (hn : h p = none) (hp : p ≠ []) : Fresh h p := by
  intro q
  induction q with
  | nil => intro _; exact hi.root0
  | cons k q ih =>
    intro hs
    rcases List.suffix_cons_iff.1 hs with rfl | h1
    · exact hn
    · cases q with
      | nil =>
        rw [List.suffix_nil] at h1; exact absurd h1 hp
      | cons i a =>
        cases hk : h (k :: i :: a) with
        | none => rfl
        | some o =>
          obtain ⟨o', ho', _⟩ := hi.par _ _ _ _ hk
          rw [ih h1] at ho'; cases ho'

theorem Inv.put_fresh {R : Nat → Root} {B : List Path} {h : Heap} (hi : Inv R B h) {p : Path} {o : Obj} (hf : Fresh h p)
    (hp : ParOK h p) (ho : FldOK B p o (rcvOf R h p)) : Inv R B (putH h p o) := by
  have hrc : ∀ q, (q = p ∨ h q ≠ none) → rcvOf R (putH h p o) q = rcvOf R h q := by
    intro q hq
    refine rcvOf_congr fun a ha hne => ?_
    by_cases hap : a = p
    · subst hap
      exfalso
      rcases hq with rfl | hq
      · exact hne rfl
      · exact hq (hf _ ha)
    · rw [putH_ne _ _ hap]
  refine ⟨?_, ?_, ?_, ?_⟩
  · rw [putH_ne _ _ (fun hc => hp.1 hc.symm)]; exact hi.root0
  · intro k i a x hx
    by_cases hk : k :: i :: a = p
    · obtain ⟨o', h1, h2, h3, h4, h5⟩ := hp.2 k i a hk.symm
      refine ⟨o', ?_, h2, fun hd => absurd hd h3, h4⟩
      rw [putH_ne _ _ (fun hc => by rw [← hk] at hc; simp at hc)]; exact h1
    · rw [putH_ne _ _ hk] at hx
      obtain ⟨o', h1, h2⟩ := hi.par k i a x hx
      refine ⟨o', ?_, h2⟩
      rw [putH_ne _ _ (fun hc => by rw [hc, hf p (List.suffix_refl _)] at h1; cases h1)]
      exact h1
  · intro j k a x hx hs hj hk
    by_cases ha : a = p
    · subst ha
      exfalso
      rw [putH_ne _ _ (by simp)] at hj
      exact hj (hf _ (List.suffix_cons _ _))
    · rw [putH_ne _ _ ha] at hx
      have main : ∀ m l, m :: a = p → l ≠ m → h (l :: a) ≠ none → False := by
        intro m l hm _ hl2
        cases a with
        | nil => rw [hi.root0] at hx; cases hx
        | cons i a =>
          obtain ⟨o', h1, _, _, _, h5⟩ := hp.2 m i a hm.symm
          rw [h1] at hx; cases hx
          exact hl2 (h5 hs l)
      by_cases hjp : j :: a = p
      · by_cases hkp : k :: a = p
        · have := hjp.trans hkp.symm; simpa using this
        · rw [putH_ne _ _ hkp] at hk
          exact Classical.byContradiction fun hne => main j k hjp (fun e => hne e.symm) hk
      · rw [putH_ne _ _ hjp] at hj
        by_cases hkp : k :: a = p
        · exact Classical.byContradiction fun hne => main k j hkp hne hj
        · rw [putH_ne _ _ hkp] at hk
          exact hi.uniq j k a x hx hs hj hk
  · intro q x hx
    by_cases hq : q = p
    · subst hq
      rw [putH_self] at hx; cases hx
      rw [hrc _ (.inl rfl)]; exact ho
    · rw [putH_ne _ _ hq] at hx
      rw [hrc _ (.inr (by rw [hx]; simp))]; exact hi.fld q x hx

/-- Changes of an operation that leave its sender alone. -/
theorem Inv.put_same {R : Nat → Root} {B B' : List Path} {h : Heap} (hi : Inv R B h) {p : Path} {o x : Obj} (hx : h p = some x)
    (hsnd : o.snd = x.snd) (hph : o.ph = .conn → x.ph = .conn)
    (hup : x.ph = .done → o.ph = .done) (hdn : o.ph = .done → ∀ k y, h (k :: p) = some y → y.ph = .done)
    (ho : FldOK B' p o (rcvOf R h p)) (hB : ∀ q, q ≠ p → (q ∈ B' ↔ q ∈ B)) : Inv R B' (putH h p o) := by
  have hrc : ∀ q, rcvOf R (putH h p o) q = rcvOf R h q := by
    intro q
    refine rcvOf_congr fun a _ _ => ?_
    by_cases hap : a = p
    · subst hap; rw [putH_self, hx]; simp [hsnd]
    · rw [putH_ne _ _ hap]
  refine ⟨?_, ?_, ?_, ?_⟩
  · by_cases hp : [] = p
    · subst hp; rw [hi.root0] at hx; cases hx
    · rw [putH_ne _ _ hp]; exact hi.root0
  · intro k i a y hy
    by_cases hk : k :: i :: a = p
    · subst hk
      rw [putH_self] at hy; cases hy
      obtain ⟨o', h1, h2, h3, h4⟩ := hi.par k i a x hx
      refine ⟨o', ?_, h2, fun hd => hup (h3 hd), h4⟩
      rw [putH_ne _ _ (by simp)]; exact h1
    · rw [putH_ne _ _ hk] at hy
      obtain ⟨o', h1, h2, h3, h4⟩ := hi.par k i a y hy
      by_cases ha : i :: a = p
      · subst ha
        rw [hx] at h1; cases h1
        refine ⟨o, putH_self _ _ _, by rw [hsnd]; exact h2, fun hd => hdn hd _ _ hy, fun hd hc => ?_⟩
        rw [hsnd] at hd
        exact h4 hd (hph hc)
      · exact ⟨o', by rw [putH_ne _ _ ha]; exact h1, h2, h3, h4⟩
  · intro j k a y hy hs hj hk
    have live : ∀ q, putH h p o q ≠ none → h q ≠ none := by
      intro q hq
      by_cases hqp : q = p
      · subst hqp; rw [hx]; simp
      · rw [putH_ne _ _ hqp] at hq; exact hq
    by_cases ha : a = p
    · subst ha
      rw [putH_self] at hy; cases hy
      exact hi.uniq j k a x hx (by rw [← hsnd]; exact hs) (live _ hj) (live _ hk)
    · rw [putH_ne _ _ ha] at hy
      exact hi.uniq j k a y hy hs (live _ hj) (live _ hk)
  · intro q y hy
    rw [hrc]
    by_cases hq : q = p
    · subst hq
      rw [putH_self] at hy; cases hy; exact ho
    · rw [putH_ne _ _ hq] at hy
      have := hi.fld q y hy
      unfold FldOK at this ⊢
      simp only [hB q hq]
      exact this

theorem Inv.drop {R : Nat → Root} {B : List Path} {h : Heap} (hi : Inv R B h) (p : Path) : Inv R B (dropH h p) := by
  have sub : ∀ q x, dropH h p q = some x → h q = some x ∧ ¬ p <:+ q := by
    intro q x hx
    unfold dropH at hx
    split at hx
    · cases hx
    · exact ⟨hx, by assumption⟩
  have sub' : ∀ q, dropH h p q ≠ none → h q ≠ none := by
    intro q hq
    unfold dropH at hq
    split at hq
    · exact absurd rfl hq
    · exact hq
  refine ⟨?_, ?_, ?_, ?_⟩
  · unfold dropH; split
    · rfl
    · exact hi.root0
  · intro k i a o ho
    obtain ⟨h1, h2⟩ := sub _ _ ho
    obtain ⟨o', h3, h4⟩ := hi.par k i a o h1
    refine ⟨o', ?_, h4⟩
    unfold dropH
    rw [if_neg (fun hc => h2 (hc.trans (List.suffix_cons _ _)))]; exact h3
  · intro j k a o ho hs hj hk
    exact hi.uniq j k a o (sub _ _ ho).1 hs (sub' _ hj) (sub' _ hk)
  · intro q o ho
    obtain ⟨h1, h2⟩ := sub _ _ ho
    have := hi.fld q o h1
    rwa [rcvOf_congr (h' := h)]
    intro a ha _
    unfold dropH
    rw [if_neg (fun hc => h2 (hc.trans ha))]

/-- Only `with_cancel_cb` matters among the operations that are being connected. -/
theorem Inv.busy {R : Nat → Root} {B : List Path} {h : Heap} {p : Path} {x : Obj} (hx : h p = some x) (hn : ∀ S, x.snd ≠ .cancelCb S) :
    Inv R (p :: B) h ↔ Inv R B h := by
  have key : ∀ q o, h q = some o → (FldOK (p :: B) q o (rcvOf R h q) ↔ FldOK B q o (rcvOf R h q)) := by
    intro q o ho
    by_cases hq : q = p
    · subst hq
      rw [hx] at ho; cases ho
      unfold FldOK
      split <;> simp_all
    · unfold FldOK
      simp [hq]
  constructor
  · intro hi; exact ⟨hi.root0, hi.par, hi.uniq, fun q o ho => (key q o ho).1 (hi.fld q o ho)⟩
  · intro hi; exact ⟨hi.root0, hi.par, hi.uniq, fun q o ho => (key q o ho).2 (hi.fld q o ho)⟩

/-- What the receiver of an operation answers. -/
theorem Inv.answer {R : Nat → Root} {B : List Path} {h : Heap} (hi : Inv R B h) : ∀ {p : Path}, p ≠ [] →
    (∀ k i a, p = k :: i :: a → ∃ o, h (i :: a) = some o ∧ o.snd ≠ .leaf) → GetEnv h (rcvOf R h p) (expected R h B p)
  | [], hp, _ => absurd rfl hp
  | [t], _, _ => by
    simp only [rcvOf, expected]
    cases R t with
    | direct e => exact .user e
    | spawn e => exact .spawned
  | k :: i :: a, _, hpar => by
    obtain ⟨o, ho, hl⟩ := hpar k i a rfl
    have ih := Inv.answer hi (p := i :: a) (by simp) (fun k' i' a' he => by
      rw [he] at ho
      obtain ⟨o', h1, h2, _⟩ := hi.par _ _ _ _ ho
      refine ⟨o', h1, fun hc => ?_⟩
      rw [hc] at h2; exact h2)
    have hf := hi.fld _ _ ho
    obtain ⟨S, dr, ph⟩ := o
    unfold FldOK at hf
    cases S <;> simp only [rcvOf, expected, ho, Option.map_some] at hf ⊢
    case leaf => exact absurd rfl hl
    case xform => exact .xform ih
    case ite => exact ih
    case letS => exact ih
    case lam => exact ih
    case erased => exact .any _
    case cancelCb =>
      split
      · rename_i hb
        rw [if_pos hb] at hf
        exact .invalid ho (fun r hr => by simp only at hr; rw [hf] at hr; cases hr)
      · rename_i hb
        rw [if_neg hb] at hf
        exact .ptr ho hf ih
    all_goals exact .ptr ho hf ih

theorem expected_busy {R : Nat → Root} {h : Heap} {B : List Path} {p : Path} : ∀ {q : Path}, ¬ (p <:+ q ∧ p ≠ q) →
    expected R h (p :: B) q = expected R h B q
  | [], _ => rfl
  | [_], _ => rfl
  | k :: i :: a, hn => by
    have hne : i :: a ≠ p := fun hc => hn ⟨by rw [← hc]; exact List.suffix_cons _ _, by rw [← hc]; simp⟩
    have ih := expected_busy (R := R) (h := h) (B := B) (p := p) (q := i :: a) (fun hc => hn ⟨hc.1.trans (List.suffix_cons _ _), fun e => by
      rw [e] at hc
      exact not_suffix_tail _ _ hc.1⟩)
    simp only [expected, List.mem_cons, hne, false_or, ih]

/-- The answer to a recorded question. -/
def Good (R : Nat → Root) (q : Query) : Prop :=
  GetEnv q.heap q.rcv (expected R q.heap q.busy q.path) ∧ q.heap [] = none ∧ q.path ≠ []

/-- What `connect` at `p` does. -/
structure Connected (R : Nat → Root) (B : List Path) (S : Snd) (p : Path) (s s' : St) : Prop where
  inv : Inv R B s'.heap
  out : ∀ q, ¬ p <:+ q → s'.heap q = s.heap q
  obj : ∃ dr, s'.heap p = some ⟨S, dr, .conn⟩
  asked : ∀ q ∈ s'.asked, q ∈ s.asked ∨ Good R q

theorem ParOK.kid {h : Heap} {p : Path} {k : Nat} {o : Obj} (hp : p ≠ []) (ho : h p = some o) (hk : kidOK o.snd k) (hph : o.ph ≠ .done)
    (hd : defers o.snd = true → o.ph ≠ .conn) (hs : single o.snd = true → ∀ j, h (j :: p) = none) : ParOK h (k :: p) :=
  ⟨by simp, fun k' i a he => by
    simp only [List.cons.injEq] at he
    obtain ⟨rfl, rfl⟩ := he
    exact ⟨o, ho, hk, hph, hd, hs⟩⟩

theorem ParOK.notLeaf {h : Heap} {p : Path} (hp : ParOK h p) : ∀ k i a, p = k :: i :: a → ∃ o, h (i :: a) = some o ∧ o.snd ≠ .leaf := by
  intro k i a he
  obtain ⟨o, h1, h2, _⟩ := hp.2 k i a he
  exact ⟨o, h1, fun hc => by rw [hc] at h2; exact h2⟩

theorem put_heap (s : St) (p : Path) (o : Obj) : (s.put p o).heap = putH s.heap p o := rfl
theorem drop_heap (s : St) (p : Path) : (s.drop p).heap = dropH s.heap p := rfl

theorem fresh_kid {h : Heap} {p : Path} {o : Obj} (hf : Fresh h p) (k : Nat) : Fresh (putH h p o) (k :: p) := by
  intro q hq
  rw [putH_ne]
  · exact hf q ((List.suffix_cons _ _).trans hq)
  · rintro rfl; exact not_suffix_tail _ _ hq

theorem rcv_put {R : Nat → Root} {h : Heap} {p : Path} {o : Obj} : rcvOf R (putH h p o) p = rcvOf R h p :=
  rcvOf_congr fun a _ hne => by rw [putH_ne _ _ hne]

theorem rcv_kid {R : Nat → Root} {h : Heap} {p : Path} {o : Obj} (hp : p ≠ []) (k : Nat) : rcvOf R (putH h p o) (k :: p) =
    match some o.snd with
    | none | some .leaf => .garbage
    | some (.xform _) => .xform (rcvOf R h p)
    | some (.ite _ _) | some (.letS _) | some (.lam _) => rcvOf R h p
    | some (.erased _) => .any (rcvOf R h p)
    | some (.seq _ _) | some (.rep _) | some (.all _ _) | some (.race _ _) | some (.cancelCb _) | some (.inGroup _) => .ptr p := by
  cases p with
  | nil => exact absurd rfl hp
  | cons i a =>
    have : rcvOf R (putH h (i :: a) o) (i :: a) = rcvOf R h (i :: a) := rcv_put
    simp only [rcvOf, putH_self, Option.map_some, this]

theorem deeper {B : List Path} {p : Path} (hB : ∀ b ∈ B, b.length < p.length) (k : Nat) : ∀ b ∈ p :: B, b.length < (k :: p).length := by
  intro b hb
  simp only [List.mem_cons] at hb
  rcases hb with rfl | hb
  · simp
  · have := hB b hb
    simp only [List.length_cons]
    omega

/-- One child. -/
theorem connect_one {R : Nat → Root} {B : List Path} {p : Path} {s : St} {S T : Snd} {dr : Fld} {s' : St}
    (hnc : ∀ S, T ≠ .cancelCb S) (hc : Connected R (p :: B) S (0 :: p) (s.put p ⟨T, dr, .conn⟩) s') : Connected R B T p s s' := by
  have hp : s'.heap p = some ⟨T, dr, .conn⟩ := by
    rw [hc.out _ (not_suffix_tail _ _), put_heap, putH_self]
  refine ⟨(Inv.busy hp hnc).1 hc.inv, ?_, ⟨dr, hp⟩, hc.asked⟩
  intro q hq
  rw [hc.out q (fun h1 => hq ((List.suffix_cons _ _).trans h1)), put_heap, putH_ne _ _ (fun e => hq (by rw [e]; exact List.suffix_refl _))]

/-- The children of `when_all` and `race_and_cancel`. -/
theorem connect_many {R : Nat → Root} {B : List Path} {p : Path} {s : St} {T : Snd} {dr : Fld} {n : Nat} {f : Nat → Snd}
    (hpn : p ≠ []) (hnc : ∀ S, T ≠ .cancelCb S) (hk : ∀ k, k ≤ n → kidOK T k) (hd : defers T = false) (hs : single T = false)
    (hr : ∀ h ph k, rcvOf R (putH h p ⟨T, dr, ph⟩) (k :: p) = .ptr p)
    (hB : ∀ b ∈ B, b.length < p.length)
    (ih : ∀ k B q r s, (∀ b ∈ B, b.length < q.length) → Inv R B s.heap → Fresh s.heap q → ParOK s.heap q → r = rcvOf R s.heap q →
      Connected R B (f k) q s (connect B (f k) q r s))
    (hi : Inv R B (s.put p ⟨T, dr, .conn⟩).heap) (hf : Fresh s.heap p) :
    Connected R B T p s (upto (fun k => connect (p :: B) (f k) (k :: p) (.ptr p)) n (s.put p ⟨T, dr, .conn⟩)) := by
  have h0 : (s.put p ⟨T, dr, .conn⟩).heap p = some ⟨T, dr, .conn⟩ := by rw [put_heap, putH_self]
  have main : ∀ m, m ≤ n → ∀ s', s' = upto (fun k => connect (p :: B) (f k) (k :: p) (.ptr p)) m (s.put p ⟨T, dr, .conn⟩) →
      Inv R (p :: B) s'.heap ∧ (∀ q, ¬ p <:+ q → s'.heap q = s.heap q) ∧ s'.heap p = some ⟨T, dr, .conn⟩ ∧
      (∀ q ∈ s'.asked, q ∈ s.asked ∨ Good R q) ∧ ∀ j, m < j → Fresh s'.heap (j :: p) := by
    have one : ∀ k s1, k ≤ n → Inv R (p :: B) s1.heap → (∀ q, ¬ p <:+ q → s1.heap q = s.heap q) →
        s1.heap p = some ⟨T, dr, .conn⟩ → (∀ q ∈ s1.asked, q ∈ s.asked ∨ Good R q) → (∀ j, k ≤ j → Fresh s1.heap (j :: p)) →
        ∀ s', s' = connect (p :: B) (f k) (k :: p) (.ptr p) s1 →
        Inv R (p :: B) s'.heap ∧ (∀ q, ¬ p <:+ q → s'.heap q = s.heap q) ∧ s'.heap p = some ⟨T, dr, .conn⟩ ∧
        (∀ q ∈ s'.asked, q ∈ s.asked ∨ Good R q) ∧ ∀ j, k < j → Fresh s'.heap (j :: p) := by
      intro k s1 hkn hi1 ho1 hp1 ha1 hf1 s' hs'
      have hrr : Rcv.ptr p = rcvOf R s1.heap (k :: p) := by
        have he : s1.heap = putH s1.heap p ⟨T, dr, .conn⟩ := by
          funext q
          by_cases hq : q = p
          · subst hq; rw [putH_self, hp1]
          · rw [putH_ne _ _ hq]
        rw [he, hr]
      have hc := ih k (p :: B) (k :: p) (.ptr p) s1 (deeper hB k) hi1 (hf1 k (Nat.le_refl _))
        (ParOK.kid hpn hp1 (hk k hkn) (by simp) (by simp [hd]) (by simp [hs])) hrr
      rw [← hs'] at hc
      refine ⟨hc.inv, ?_, ?_, ?_, ?_⟩
      · intro q hq
        rw [hc.out q (fun h1 => hq ((List.suffix_cons _ _).trans h1)), ho1 q hq]
      · rw [hc.out p (not_suffix_tail _ _), hp1]
      · intro q hq
        rcases hc.asked q hq with h1 | h1
        · exact ha1 q h1
        · exact .inr h1
      · intro j hj q hq
        rw [hc.out q, hf1 j (by omega) q hq]
        intro h1
        have e1 : j :: p = k :: p := by
          rcases List.suffix_or_suffix_of_suffix hq h1 with h2 | h2
          · exact h2.eq_of_length (by simp)
          · exact (h2.eq_of_length (by simp)).symm
        simp at e1; omega
    intro m
    induction m with
    | zero =>
      intro hm s' hs'
      refine one 0 (s.put p ⟨T, dr, .conn⟩) (by omega) ((Inv.busy h0 hnc).2 hi) ?_ h0 (fun q hq => .inl hq) ?_ s' (by rw [hs', upto])
      · intro q hq
        rw [put_heap, putH_ne _ _ (fun e => hq (by rw [e]; exact List.suffix_refl _))]
      · intro j _
        rw [put_heap]; exact fresh_kid hf j
    | succ m ihm =>
      intro hm s' hs'
      rw [upto] at hs'
      obtain ⟨g1, g2, g3, g4, g5⟩ := ihm (by omega) _ rfl
      exact one (m + 1) _ hm g1 g2 g3 g4 (fun j hj => g5 j (by omega)) s' hs'
  obtain ⟨g1, g2, g3, g4, _⟩ := main n (Nat.le_refl _) _ rfl
  exact ⟨(Inv.busy g3 hnc).1 g1, g2, ⟨dr, g3⟩, g4⟩

theorem connect_spec {R : Nat → Root} (S : Snd) : ∀ (B : List Path) (p : Path) (r : Rcv) (s : St), (∀ b ∈ B, b.length < p.length) →
    Inv R B s.heap → Fresh s.heap p → ParOK s.heap p → r = rcvOf R s.heap p → Connected R B S p s (connect B S p r s) := by
  have simple : ∀ (T : Snd) (B : List Path) (p : Path) (r : Rcv) (s : St), Inv R B s.heap → Fresh s.heap p → ParOK s.heap p →
      r = rcvOf R s.heap p → FldOK B p ⟨T, .val r, .conn⟩ r → Connected R B T p s (s.put p ⟨T, .val r, .conn⟩) := by
    intro T B p r s hi hf hp hr ho
    refine ⟨hi.put_fresh hf hp (by rw [← hr]; exact ho), ?_, ⟨_, putH_self _ _ _⟩, fun q hq => .inl hq⟩
    intro q hq
    rw [put_heap, putH_ne _ _ (fun e => hq (by rw [e]; exact List.suffix_refl _))]
  induction S with
  | leaf =>
    intro B p r s hB hi hf hp hr
    have h1 := simple .leaf B p r (s.ask p r (p :: B)) hi hf hp hr (by simp [FldOK])
    rw [connect]
    refine ⟨h1.inv, h1.out, h1.obj, ?_⟩
    intro q hq
    simp only [St.put, St.ask, List.mem_append, List.mem_singleton] at hq
    rcases hq with hq | rfl
    · exact .inl hq
    · right
      refine ⟨?_, hi.root0, hp.1⟩
      show GetEnv s.heap r (expected R s.heap (p :: B) p)
      rw [expected_busy (by simp), hr]
      exact hi.answer hp.1 hp.notLeaf
  | ite a b _ _ => intro B p r s _ hi hf hp hr; exact simple _ B p r s hi hf hp hr (by simp [FldOK])
  | letS f _ => intro B p r s _ hi hf hp hr; exact simple _ B p r s hi hf hp hr (by simp [FldOK])
  | seq n f _ => intro B p r s _ hi hf hp hr; exact simple _ B p r s hi hf hp hr (by simp [FldOK])
  | rep f _ => intro B p r s _ hi hf hp hr; exact simple _ B p r s hi hf hp hr (by simp [FldOK])
  | xform S ih =>
    intro B p r s hB hi hf hp hr
    have hi1 : Inv R B (s.put p ⟨.xform S, .absent, .conn⟩).heap := hi.put_fresh hf hp (by simp [FldOK])
    refine connect_one (by simp) (ih _ _ _ _ (deeper hB 0) ((Inv.busy (putH_self _ _ _) (by simp)).2 hi1) (fresh_kid hf 0)
      (ParOK.kid hp.1 (putH_self _ _ _) (by simp [kidOK]) (by simp) (by simp [defers]) (by simp [single])) ?_)
    rw [put_heap, rcv_kid hp.1, hr]
  | lam S ih =>
    intro B p r s hB hi hf hp hr
    have hi1 : Inv R B (s.put p ⟨.lam S, .absent, .conn⟩).heap := hi.put_fresh hf hp (by simp [FldOK])
    refine connect_one (by simp) (ih _ _ _ _ (deeper hB 0) ((Inv.busy (putH_self _ _ _) (by simp)).2 hi1) (fresh_kid hf 0)
      (ParOK.kid hp.1 (putH_self _ _ _) (by simp [kidOK]) (by simp) (by simp [defers]) (by simp [single])) ?_)
    rw [put_heap, rcv_kid hp.1, hr]
  | erased S ih =>
    intro B p r s hB hi hf hp hr
    have hi1 : Inv R B (s.put p ⟨.erased S, .absent, .conn⟩).heap := hi.put_fresh hf hp (by simp [FldOK])
    refine connect_one (by simp) (ih _ _ _ _ (deeper hB 0) ((Inv.busy (putH_self _ _ _) (by simp)).2 hi1) (fresh_kid hf 0)
      (ParOK.kid hp.1 (putH_self _ _ _) (by simp [kidOK]) (by simp) (by simp [defers]) (by simp [single])) ?_)
    rw [put_heap, rcv_kid hp.1, hr]
  | inGroup S ih =>
    intro B p r s hB hi hf hp hr
    have hi1 : Inv R B (s.put p ⟨.inGroup S, .val r, .conn⟩).heap := hi.put_fresh hf hp (by simp [FldOK, hr])
    refine connect_one (by simp) (ih _ _ _ _ (deeper hB 0) ((Inv.busy (putH_self _ _ _) (by simp)).2 hi1) (fresh_kid hf 0)
      (ParOK.kid hp.1 (putH_self _ _ _) (by simp [kidOK]) (by simp) (by simp [defers]) (by simp [single])) ?_)
    rw [put_heap, rcv_kid hp.1]
  | cancelCb S ih =>
    intro B p r s hB hi hf hp hr
    have hi0 : Inv R (p :: B) s.heap := by
      refine ⟨hi.root0, hi.par, hi.uniq, fun q o ho => ?_⟩
      have hq : q ≠ p := fun e => by rw [e, hf p (List.suffix_refl _)] at ho; cases ho
      have := hi.fld q o ho
      unfold FldOK at this ⊢
      simpa [hq] using this
    have hi1 : Inv R (p :: B) (s.put p ⟨.cancelCb S, .unset, .conn⟩).heap := hi0.put_fresh hf hp (by simp [FldOK])
    have hc := ih (p :: B) (0 :: p) (.ptr p) (s.put p ⟨.cancelCb S, .unset, .conn⟩) (deeper hB 0) hi1 (fresh_kid hf 0)
      (ParOK.kid hp.1 (putH_self _ _ _) (by simp [kidOK]) (by simp) (by simp [defers]) (by simp [single])) (by rw [put_heap, rcv_kid hp.1])
    rw [connect]
    generalize connect (p :: B) S (0 :: p) (.ptr p) (s.put p ⟨.cancelCb S, .unset, .conn⟩) = s' at hc ⊢
    have hp' : s'.heap p = some ⟨.cancelCb S, .unset, .conn⟩ := by rw [hc.out _ (not_suffix_tail _ _), put_heap, putH_self]
    have hout : ∀ q, ¬ p <:+ q → s'.heap q = s.heap q := by
      intro q hq
      rw [hc.out q (fun h1 => hq ((List.suffix_cons _ _).trans h1)), put_heap, putH_ne _ _ (fun e => hq (by rw [e]; exact List.suffix_refl _))]
    have hrc : rcvOf R s'.heap p = r := by
      rw [hr]
      refine rcvOf_congr fun a ha hne => ?_
      rw [hout]
      intro h1
      exact hne (ha.eq_of_length (Nat.le_antisymm ha.length_le h1.length_le))
    refine ⟨?_, ?_, ⟨_, putH_self _ _ _⟩, hc.asked⟩
    · refine hc.inv.put_same (x := ⟨.cancelCb S, .unset, .conn⟩) hp' rfl (fun _ => rfl) (by simp) (by simp) ?_ (by simp_all)
      have : p ∉ B := fun hb => Nat.lt_irrefl _ (hB p hb)
      simp [FldOK, this, hrc]
    · intro q hq
      rw [put_heap, putH_ne _ _ (fun e => hq (by rw [e]; exact List.suffix_refl _)), hout q hq]
  | all n f ih =>
    intro B p r s hB hi hf hp hr
    have hi1 : Inv R B (s.put p ⟨.all n f, .val r, .conn⟩).heap := hi.put_fresh hf hp (by simp [FldOK, hr])
    exact connect_many hp.1 (by simp) (fun k hk => hk) rfl rfl (fun h ph k => by rw [rcv_kid hp.1]) hB (fun k => ih k) hi1 hf
  | race n f ih =>
    intro B p r s hB hi hf hp hr
    have hi1 : Inv R B (s.put p ⟨.race n f, .val r, .conn⟩).heap := hi.put_fresh hf hp (by simp [FldOK, hr])
    exact connect_many hp.1 (by simp) (fun k hk => hk) rfl rfl (fun h ph k => by rw [rcv_kid hp.1]) hB (fun k => ih k) hi1 hf


structure Glob (R : Nat → Root) (s : St) : Prop where
  inv : Inv R [] s.heap
  asked : ∀ q ∈ s.asked, Good R q

theorem Connected.glob {R : Nat → Root} {S : Snd} {p : Path} {s s' : St} (hc : Connected R [] S p s s') (ha : ∀ q ∈ s.asked, Good R q) :
    Glob R s' :=
  ⟨hc.inv, fun q hq => (hc.asked q hq).elim (ha q) id⟩

/-- The children of an operation that may complete have completed. -/
theorem kids_done {R : Nat → Root} {s : St} (hi : Inv R [] s.heap) {p : Path} {o : Obj} (ho : s.heap p = some o)
    (hm : mayFinish s p o.snd) : ∀ k y, s.heap (k :: p) = some y → y.ph = .done := by
  intro k y hy
  have hp : p ≠ [] := fun e => by rw [e, hi.root0] at ho; cases ho
  obtain ⟨i, a, rfl⟩ := List.exists_cons_of_ne_nil hp
  obtain ⟨o', h1, h2, _, _⟩ := hi.par k i a y hy
  rw [ho] at h1; cases h1
  have fin : ∀ j, kidDone s (i :: a) j → j = k → y.ph = .done := by
    rintro j ⟨z, hz, hd⟩ rfl
    rw [hy] at hz; cases hz; exact hd
  have sing : ∀ j, kidDone s (i :: a) j → single o.snd = true → y.ph = .done := by
    intro j hj hs
    obtain ⟨z, hz, hd⟩ := hj
    exact fin j ⟨z, hz, hd⟩ (hi.uniq j k _ o ho hs (by rw [hz]; simp) (by rw [hy]; simp))
  obtain ⟨S, dr, ph⟩ := o
  cases S <;> simp only [mayFinish, kidOK] at hm h2
  case ite => rcases hm with hm | hm <;> exact sing _ hm rfl
  case seq => exact sing _ hm rfl
  case rep => rw [hm k] at hy; cases hy
  case all => exact fin k (hm k h2) rfl
  case race => exact fin k (hm k h2) rfl
  all_goals exact fin 0 hm h2.symm

/-- What a step does: besides changing phases, the things that matter below. -/
theorem Glob.step {R : Nat → Root} {s s' : St} {l : Lbl} (hg : Glob R s) (hs : Step R s l s') : Glob R s' ∧
    ∀ p r ph, s.heap p = some ⟨.leaf, .val r, ph⟩ → ph ≠ .done → l ≠ .finish p →
      ∃ ph', s'.heap p = some ⟨.leaf, .val r, ph'⟩ ∧ ph' ≠ .done := by
  have hi := hg.inv
  -- connecting in fresh memory
  have conn : ∀ (S : Snd) (q : Path) (r : Rcv) (s1 : St), Inv R [] s1.heap → s1.asked = s.asked → s1.heap q = none → ParOK s1.heap q →
      r = rcvOf R s1.heap q →
      Glob R (Env.connect [] S q r s1) ∧ ∀ p x, s1.heap p = some x → (Env.connect [] S q r s1).heap p = some x := by
    intro S q r s1 hi1 ha1 hn hp hr
    have hc := connect_spec S [] q r s1 (by simp) hi1 (hi1.up hn hp.1) hp hr
    refine ⟨hc.glob (by rw [ha1]; exact hg.asked), fun p x hx => ?_⟩
    rw [hc.out p (fun hq => by rw [hi1.up hn hp.1 p hq] at hx; cases hx)]; exact hx
  -- a leaf is not inside an operation that has completed
  have notin : ∀ q o, s.heap q = some o → o.ph = .done → ∀ p x, q <:+ p → s.heap p = some x → x.ph = .done := by
    intro q o ho hd p
    induction p with
    | nil => intro x _ hx; rw [hi.root0] at hx; cases hx
    | cons k p ih =>
      intro x hq hx
      rcases List.suffix_cons_iff.1 hq with rfl | hq
      · rw [ho] at hx; cases hx; exact hd
      · cases p with
        | nil => rw [List.suffix_nil] at hq; subst hq; rw [hi.root0] at ho; cases ho
        | cons i a =>
          obtain ⟨o', h1, _, h3, _⟩ := hi.par k i a x hx
          exact h3 (ih o' hq h1)
  have keep : ∀ q o, s.heap q = some o → o.ph = .done → ∀ p r ph, s.heap p = some ⟨.leaf, .val r, ph⟩ → ph ≠ .done →
      (s.drop q).heap p = some ⟨.leaf, .val r, ph⟩ := by
    intro q o ho hd p r ph hp hn
    rw [drop_heap]; unfold dropH
    rw [if_neg (fun hq => hn (notin q o ho hd p _ hq hp))]; exact hp
  cases hs with
  | connect t S hn =>
    obtain ⟨h1, h2⟩ := conn S [t] (R t).rcv s hi rfl hn ⟨by simp, by simp⟩ (by simp [rcvOf])
    exact ⟨h1, fun p r ph hp hd _ => ⟨ph, h2 _ _ hp, hd⟩⟩
  | start p c o ho hph hps =>
    have hp : p ≠ [] := fun e => by rw [e, hi.root0] at ho; cases ho
    have hfld := hi.fld p o ho
    have nokids : defers o.snd = true → ∀ k, s.heap (k :: p) = none := by
      intro hd k
      cases hk : s.heap (k :: p) with
      | none => rfl
      | some y =>
        obtain ⟨i, a, rfl⟩ := List.exists_cons_of_ne_nil hp
        obtain ⟨o', h1, _, _, h4⟩ := hi.par k i a y hk
        rw [ho] at h1; cases h1
        exact absurd hph (h4 hd)
    have put : ∀ dr, FldOK [] p ⟨o.snd, dr, .started⟩ (rcvOf R s.heap p) → Inv R [] (s.put p ⟨o.snd, dr, .started⟩).heap := by
      intro dr hdr
      exact hi.put_same ho rfl (by simp) (by rw [hph]; simp) (by simp) hdr (by simp)
    have leafs : ∀ dr q r ph, (∀ r, dr = .val r ∨ o.snd ≠ .leaf ∨ o.dr ≠ .val r) → s.heap q = some ⟨.leaf, .val r, ph⟩ → ph ≠ .done →
        ∃ ph', (s.put p ⟨o.snd, dr, .started⟩).heap q = some ⟨.leaf, .val r, ph'⟩ ∧ ph' ≠ .done := by
      intro dr q r ph hdr hq hn
      by_cases he : q = p
      · subst he
        rw [ho] at hq; cases hq
        have := hdr r
        simp only [ne_eq, not_true_eq_false, or_false] at this
        subst this
        exact ⟨.started, putH_self _ _ _, by simp⟩
      · exact ⟨ph, by rw [put_heap, putH_ne _ _ he]; exact hq, hn⟩
    have child : ∀ S dr r k, defers o.snd = true → FldOK [] p ⟨o.snd, dr, .started⟩ (rcvOf R s.heap p) → kidOK o.snd k →
        r = rcvOf R (s.put p ⟨o.snd, dr, .started⟩).heap (k :: p) → o.snd ≠ .leaf →
        Glob R (Env.connect [] S (k :: p) r (s.put p ⟨o.snd, dr, .started⟩)) ∧
        ∀ q r' ph, s.heap q = some ⟨.leaf, .val r', ph⟩ → ph ≠ .done → Lbl.start p c ≠ .finish q →
          ∃ ph', (Env.connect [] S (k :: p) r (s.put p ⟨o.snd, dr, .started⟩)).heap q = some ⟨.leaf, .val r', ph'⟩ ∧ ph' ≠ .done := by
      intro S dr r k hd hdr hk hr hl
      obtain ⟨h1, h2⟩ := conn S (k :: p) r (s.put p ⟨o.snd, dr, .started⟩) (put dr hdr) rfl
        (by rw [put_heap, putH_ne _ _ (by simp)]; exact nokids hd k)
        (ParOK.kid hp (putH_self _ _ _) hk (by simp) (by simp) (fun _ j => by rw [put_heap, putH_ne _ _ (by simp)]; exact nokids hd j)) hr
      refine ⟨h1, fun q r' ph hq hn _ => ?_⟩
      obtain ⟨ph', h3, h4⟩ := leafs dr q r' ph (fun _ => .inr (.inl hl)) hq hn
      exact ⟨ph', h2 _ _ h3, h4⟩
    have plain : FldOK [] p ⟨o.snd, o.dr, .started⟩ (rcvOf R s.heap p) → Glob R (s.put p ⟨o.snd, o.dr, .started⟩) ∧
        ∀ q r' ph, s.heap q = some ⟨.leaf, .val r', ph⟩ → ph ≠ .done → Lbl.start p c ≠ .finish q →
          ∃ ph', (s.put p ⟨o.snd, o.dr, .started⟩).heap q = some ⟨.leaf, .val r', ph'⟩ ∧ ph' ≠ .done :=
      fun hdr => ⟨⟨put _ hdr, hg.asked⟩, fun q r' ph hq hn _ => leafs _ q r' ph (fun r => by
        by_cases h : o.dr = .val r
        · exact .inl h
        · exact .inr (.inr h)) hq hn⟩
    obtain ⟨S, dr, ph⟩ := o
    simp only at hph
    subst hph
    cases S <;> simp only [begin, FldOK, forall_const, List.not_mem_nil, if_false] at hfld plain child ⊢
    case ite a b =>
      subst hfld
      split
      · exact child a .moved _ 0 rfl (by simp) (by simp [kidOK]) (by rw [put_heap, rcv_kid hp]; rfl) (by simp)
      · exact child b .moved _ 1 rfl (by simp) (by simp [kidOK]) (by rw [put_heap, rcv_kid hp]; rfl) (by simp)
    case letS f =>
      subst hfld
      exact child (f c) .moved _ 0 rfl (by simp) (by simp [kidOK]) (by rw [put_heap, rcv_kid hp]; rfl) (by simp)
    case seq n f =>
      exact child (f 0) dr _ 0 rfl hfld (by simp [kidOK]) (by rw [put_heap, rcv_kid hp]) (by simp)
    case rep f =>
      split
      · exact plain hfld
      · exact child (f 0) dr _ 0 rfl hfld (by simp [kidOK]) (by rw [put_heap, rcv_kid hp]) (by simp)
    case xform => exact plain
    case lam => exact plain
    case erased => exact plain
    all_goals exact plain hfld
  | ask p r ph hp hn =>
    refine ⟨⟨hi, ?_⟩, fun q r' ph' hq hd _ => ⟨ph', hq, hd⟩⟩
    intro q hq
    simp only [St.ask, List.mem_append, List.mem_singleton] at hq
    rcases hq with hq | rfl
    · exact hg.asked q hq
    · refine ⟨?_, hi.root0, fun e => by simp only at e; rw [e, hi.root0] at hp; cases hp⟩
      show GetEnv s.heap r (expected R s.heap [] p)
      have hf := hi.fld p _ hp
      simp only [FldOK, Fld.val.injEq] at hf
      rw [hf]
      refine hi.answer (fun e => by rw [e, hi.root0] at hp; cases hp) (fun k i a he => ?_)
      subst he
      obtain ⟨o', h1, h2, _⟩ := hi.par k i a _ hp
      exact ⟨o', h1, fun hc => by rw [hc] at h2; exact h2⟩
  | finish p o ho hph hm =>
    refine ⟨⟨hi.put_same ho rfl (by simp) (by simp) (fun _ => kids_done hi ho hm) ?_ (by simp), hg.asked⟩, ?_⟩
    · have hf := hi.fld p o ho
      unfold FldOK at hf ⊢
      obtain ⟨S, dr, ph⟩ := o
      simp only at hph
      subst hph
      cases S <;> simp_all
    · intro q r ph hq hn hl
      by_cases he : q = p
      · subst he; exact absurd rfl hl
      · exact ⟨ph, by rw [put_heap, putH_ne _ _ he]; exact hq, hn⟩
  | nextSeq p k c n f dr hp hk hd =>
    obtain ⟨y, hy, hyd⟩ := hd
    have hpn : p ≠ [] := fun e => by rw [e, hi.root0] at hp; cases hp
    have hpd : (s.drop (k :: p)).heap p = some ⟨.seq n f, dr, .started⟩ := by
      rw [drop_heap]; unfold dropH; rw [if_neg (not_suffix_tail _ _)]; exact hp
    have none : ∀ j, (s.drop (k :: p)).heap (j :: p) = none := by
      intro j
      rw [drop_heap]; unfold dropH
      split
      · rfl
      · rename_i hj
        refine Classical.byContradiction fun hc => hj ?_
        rw [hi.uniq j k p _ hp rfl hc (by rw [hy]; simp)]
        exact List.suffix_refl _
    obtain ⟨h1, h2⟩ := conn (f (k + 1)) ((k + 1) :: p) (.ptr p) (s.drop (k :: p)) (hi.drop _) rfl (none _)
      (ParOK.kid hpn hpd (by simp only [kidOK]; omega) (by simp) (by simp) (fun _ => none))
      (by
        obtain ⟨i, a, rfl⟩ := List.exists_cons_of_ne_nil hpn
        simp only [rcvOf, hpd, Option.map_some])
    exact ⟨h1, fun q r ph hq hn _ => ⟨ph, h2 _ _ (keep _ y hy hyd q r ph hq hn), hn⟩⟩
  | nextRep p k c f dr hp hd =>
    obtain ⟨y, hy, hyd⟩ := hd
    have hpn : p ≠ [] := fun e => by rw [e, hi.root0] at hp; cases hp
    have hpd : (s.drop (k :: p)).heap p = some ⟨.rep f, dr, .started⟩ := by
      rw [drop_heap]; unfold dropH; rw [if_neg (not_suffix_tail _ _)]; exact hp
    have none : ∀ j, (s.drop (k :: p)).heap (j :: p) = none := by
      intro j
      rw [drop_heap]; unfold dropH
      split
      · rfl
      · rename_i hj
        refine Classical.byContradiction fun hc => hj ?_
        rw [hi.uniq j k p _ hp rfl hc (by rw [hy]; simp)]
        exact List.suffix_refl _
    split
    · exact ⟨⟨hi.drop _, hg.asked⟩, fun q r ph hq hn _ => ⟨ph, keep _ y hy hyd q r ph hq hn, hn⟩⟩
    · obtain ⟨h1, h2⟩ := conn (f (k + 1)) ((k + 1) :: p) (.ptr p) (s.drop (k :: p)) (hi.drop _) rfl (none _)
        (ParOK.kid hpn hpd (by simp [kidOK]) (by simp) (by simp) (fun _ => none))
        (by
          obtain ⟨i, a, rfl⟩ := List.exists_cons_of_ne_nil hpn
          simp only [rcvOf, hpd, Option.map_some])
      exact ⟨h1, fun q r ph hq hn _ => ⟨ph, h2 _ _ (keep _ y hy hyd q r ph hq hn), hn⟩⟩
  | destroy t o ho hd =>
    exact ⟨⟨hi.drop _, hg.asked⟩, fun q r ph hq hn _ => ⟨ph, keep _ o ho hd q r ph hq hn, hn⟩⟩

theorem glob {R : Nat → Root} {s : St} (h : Reach R s) : Glob R s := by
  induction h with
  | init => exact ⟨⟨rfl, by simp [init], by simp [init], by simp [init]⟩, by simp [init]⟩
  | step _ hs ih => exact (ih.step hs).1

end Verif.Env
