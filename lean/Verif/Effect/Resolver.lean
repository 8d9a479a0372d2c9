import Verif.CallCount
import Verif.Resolver.Facts

/-! # Counting calls and effects in the resolver machine -/

namespace Verif.Resolver

variable {S : DS}

/-- A call of such a member function. -/
def Act.member (f : S.I → Bool) : Act S → Bool
  | .call x => f x
  | _ => false

/-- A call of `cancel()` on event `e`. -/
def Act.cancels (e : EvId) : Act S → Bool
  | .cancel f => f == e
  | _ => false

/-- Such an effect on the data structure. -/
def Ev.effect (g : S.E → Bool) : Ev S → Bool
  | .ds x => g x
  | _ => false

/-- `cancel()` takes effect on event `e`. -/
def Ev.cancels (e : EvId) : Ev S → Bool
  | .cancel f => f == e
  | _ => false

/-- Weight of the instructions of the data structure. -/
def iw (w : S.I → Nat) : Instr S → Nat
  | .ds x => w x
  | _ => 0

def fw {I : Type} (w : I → Nat) : OpId ⊕ I → Nat
  | .inl _ => 0
  | .inr x => w x

theorem wl_follow (w : S.I → Nat) (l : List (OpId ⊕ S.I)) : wl (iw w) (l.map follow) = wl (fw w) l := by
  induction l with
  | nil => rfl
  | cons x l ih => cases x <;> simp [follow, iw, fw, ih]

theorem count_ds (g : S.E → Bool) (l : List S.E) : (l.map Ev.ds).countP (Ev.effect g) = l.countP g := by
  induction l with
  | nil => rfl
  | cons x l ih => cases hg : g x <;> simp [-List.countP_map, Ev.effect, hg, ih]

theorem wl_map_zero {α : Type} {w : Instr S → Nat} {f : α → Instr S} (h : ∀ x, w (f x) = 0) (l : List α) :
    wl w (l.map f) = 0 := by
  induction l with
  | nil => rfl
  | cons x l ih => simp [h, ih]

/-- What a data structure has to satisfy so that calls `f` have effects `g`, where effects `m` cause further ones. -/
structure Counts (S : DS) (f : S.I → Bool) (g m : S.E → Bool) (w : S.I → Nat) : Prop where
  call : ∀ d x d', S.call d x = some d' → w x = (f x).toNat
  start : ∀ d i b d' v es, S.start d i b = some (d', v, es) → es.countP g = 0 ∧ es.countP m = 0
  cancel : ∀ d i d' r es, S.tryCancel d i = some (d', r, es) → es.countP g = 0 ∧ es.countP m = 0
  exec : ∀ d x b d' ps es, S.exec d x b = some (d', ps, es) → es.countP g + wl (fw w) ps = es.countP m + w x

theorem runs_counts {f : S.I → Bool} {g m : S.E → Bool} {w : S.I → Nat} (H : Counts S f g m w) {d0 : S.D}
    {ls : List (Lbl (mach S))} {c : Conf (mach S)} (h : (mach S).runs ((mach S).init (RSt.init d0)) ls = some c) :
    Matches c (c.sh.log.countP (Ev.effect g)) (c.sh.log.countP (Ev.effect m) + calls (Act.member f) ls) := by
  have := runs_count (M := mach S) (f := Act.member f) (n := fun s => s.log.countP (Ev.effect g))
    (m := fun s => s.log.countP (Ev.effect m)) (w := iw w) ?_ ?_ h
  · simp [Mach.init, RSt.init] at this
    exact ⟨by omega, fun hq => by rw [ws_quiescent _ hq] at this; omega⟩
  · intro s acts a s' p he
    simp only [env] at he
    cases a with
    | newOp i ct p =>
      simp only at he
      split at he
      · simp at he
      · split at he
        · simp at he; obtain ⟨rfl, rfl⟩ := he
          simp [Ev.effect, iw, Act.member]; try omega
        · simp at he
    | cancel e => simp at he; obtain ⟨rfl, rfl⟩ := he; simp [iw, Act.member]; try omega
    | call x =>
      simp only at he
      split at he
      · rename_i d' hd
        simp at he; obtain ⟨rfl, rfl⟩ := he
        have := H.call _ _ _ hd
        simp [iw, Act.member, this]; try omega
      · simp at he
    | reset e =>
      simp only at he
      split at he
      · simp at he; obtain ⟨rfl, rfl⟩ := he
        simp [Ev.effect, Act.member]; try omega
      · simp at he
  · intro s x b s' p he
    cases x <;> simp only [exec] at he
    case start i =>
      split at he
      · simp at he
      all_goals
        rename_i hs
        have := H.start _ _ _ _ _ _ hs
        simp at he; obtain ⟨rfl, rfl⟩ := he
        simp [-List.countP_map, count_ds, iw, this]; try omega
    case setFast i v =>
      simp at he; obtain ⟨rfl, rfl⟩ := he
      simp [Ev.effect, iw]; try omega
    case listen i => split at he <;> simp at he <;> obtain ⟨rfl, rfl⟩ := he <;> simp [iw] <;> try omega
    case register i =>
      split at he
      · simp at he
      · split at he <;> simp at he <;> obtain ⟨rfl, rfl⟩ := he <;> simp [iw] <;> try omega
    case tryCancel i l =>
      split at he
      · simp at he
      · rename_i hs
        have := H.cancel _ _ _ _ _ hs
        simp at he; obtain ⟨rfl, rfl⟩ := he
        simp [-List.countP_map, count_ds, iw, this]; try omega
    case transition i nb =>
      split at he
      · simp at he
      · split at he
        · simp at he; obtain ⟨rfl, rfl⟩ := he; simp [iw]; try omega
        · split at he <;> simp at he <;> obtain ⟨rfl, rfl⟩ := he <;> simp [iw] <;> try omega
    case unregister i =>
      split at he
      · simp at he
      · split at he
        · simp at he; obtain ⟨rfl, rfl⟩ := he; simp [iw]; try omega
        · split at he
          · simp at he; obtain ⟨rfl, rfl⟩ := he; simp [iw]; try omega
          · simp at he
    case resume i => simp at he; obtain ⟨rfl, rfl⟩ := he; simp [Ev.effect, iw]; try omega
    case complete i => simp at he; obtain ⟨rfl, rfl⟩ := he; simp [iw]; try omega
    case cancel e =>
      simp at he; obtain ⟨rfl, rfl⟩ := he
      rw [wl_map_zero (fun _ => rfl)]
      simp [Ev.effect, iw]; try omega
    case ds x =>
      split at he
      · simp at he
      · rename_i hs
        have := H.exec _ _ _ _ _ _ hs
        simp at he; obtain ⟨rfl, rfl⟩ := he
        simp [-List.countP_map, count_ds, wl_follow, iw]; try omega

def kw (e : EvId) : Instr S → Nat
  | .cancel f => if f = e then 1 else 0
  | _ => 0

theorem count_cancels (e : EvId) (l : List S.E) : (l.map Ev.ds).countP (Ev.cancels (S := S) e) = 0 := by
  induction l with
  | nil => rfl
  | cons x l ih => simp [-List.countP_map, Ev.cancels, ih]

theorem runs_cancels {d0 : S.D} (e : EvId) {ls : List (Lbl (mach S))} {c : Conf (mach S)}
    (h : (mach S).runs ((mach S).init (RSt.init d0)) ls = some c) :
    Matches c (c.sh.log.countP (Ev.cancels e)) (calls (Act.cancels e) ls) := by
  refine runs_matches (M := mach S) (f := Act.cancels e) (n := fun s => s.log.countP (Ev.cancels e)) (kw e) rfl ?_ ?_ h
  · intro s acts a s' p he
    simp only [env] at he
    cases a with
    | newOp i ct p =>
      simp only at he
      split at he
      · simp at he
      · split at he
        · simp at he; obtain ⟨rfl, rfl⟩ := he
          simp [Ev.cancels, kw, Act.cancels]
        · simp at he
    | cancel e1 => simp at he; obtain ⟨rfl, rfl⟩ := he; by_cases h : e1 = e <;> simp [kw, Act.cancels, h]
    | call x =>
      simp only at he
      split at he
      · simp at he; obtain ⟨rfl, rfl⟩ := he
        simp [kw, Act.cancels]
      · simp at he
    | reset e =>
      simp only at he
      split at he
      · simp at he; obtain ⟨rfl, rfl⟩ := he
        simp [Ev.cancels, Act.cancels]
      · simp at he
  · intro s x b s' p he
    cases x <;> simp only [exec] at he
    case start i =>
      split at he
      · simp at he
      all_goals
        simp at he; obtain ⟨rfl, rfl⟩ := he
        simp [-List.countP_map, count_cancels, kw]
    case setFast i v =>
      simp at he; obtain ⟨rfl, rfl⟩ := he
      simp [Ev.cancels, kw]
    case listen i => split at he <;> simp at he <;> obtain ⟨rfl, rfl⟩ := he <;> simp [kw]
    case register i =>
      split at he
      · simp at he
      · split at he <;> simp at he <;> obtain ⟨rfl, rfl⟩ := he <;> simp [kw]
    case tryCancel i l =>
      split at he
      · simp at he
      · simp at he; obtain ⟨rfl, rfl⟩ := he
        simp [-List.countP_map, count_cancels, kw]
    case transition i nb =>
      split at he
      · simp at he
      · split at he
        · simp at he; obtain ⟨rfl, rfl⟩ := he; simp [kw]
        · split at he <;> simp at he <;> obtain ⟨rfl, rfl⟩ := he <;> simp [kw]
    case unregister i =>
      split at he
      · simp at he
      · split at he
        · simp at he; obtain ⟨rfl, rfl⟩ := he; simp [kw]
        · split at he
          · simp at he; obtain ⟨rfl, rfl⟩ := he; simp [kw]
          · simp at he
    case resume i => simp at he; obtain ⟨rfl, rfl⟩ := he; simp [Ev.cancels, kw]
    case complete i => simp at he; obtain ⟨rfl, rfl⟩ := he; simp [kw]
    case cancel e' =>
      simp at he; obtain ⟨rfl, rfl⟩ := he
      rw [wl_map_zero (fun _ => rfl)]
      simp [Ev.cancels, kw]
    case ds x =>
      split at he
      · simp at he
      · simp at he; obtain ⟨rfl, rfl⟩ := he
        rw [show wl (kw e) (List.map follow _) = 0 from wl_map_zero (fun x => by cases x <;> rfl) _]
        simp [-List.countP_map, count_cancels, kw]

end Verif.Resolver
