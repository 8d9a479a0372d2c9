import Verif.Hb.Marks
import Verif.Resolver.Also
import Verif.PostAck.Props

/-!
# Happens-before for `post_ack`

`post_operation::start` (post-ack.hpp lines 87-107), `attach` (line 264), the iterations of the loop in `detach`
(lines 275-298), `poll_operation::start` (line 327), `try_cancel` (line 58) and the second part of `ack` (line 217) are
critical sections of `mutex_`. `acks_left` is stored with relaxed order (line 97) and decremented with acquire and release
order (lines 213, 288).
-/

namespace Verif.PostAck

open Resolver

variable {T : Type}

/-- Memory accesses. The atomic variables are the `acks_left` of the posts. -/
abbrev ords (T : Type) : Ords (ds T) where
  A := Nat
  dec := inferInstance
  start _ _ _ := []
  tryCancel _ _ := []
  locked d x _ := match x with
    | .post _ | .attach _ | .detach _ | .erase _ => true
    | .det a r => r ≠ d.pollSeq a + 1
    | .ack _ _ | .pdone _ => false
  exec d x _ := match x with
    | .post _ => if d.active = 0 then [] else [.store .rlx d.posts]
    | .detach a => if d.pollSeq a < d.posts then [.rmw .acqRel (d.pollSeq a)] else []
    | .det a r => if r = d.pollSeq a + 1 then [] else [.rmw .acqRel (d.pollSeq a + 1)]
    | .ack _ n => [.rmw .acqRel n]
    | .attach _ | .erase _ | .pdone _ => []

/-! ## The polls -/

/-- The polls that are suspended after a history. -/
def Waiting.step (w : List OpId) : Event T → List OpId
  | .ds (.enq i) => w ++ [i]
  | .ds (.unq i) => w.erase i
  | .ds (.posted _ _) => []
  | _ => w

def waiting (log : List (Event T)) : List OpId := log.foldl Waiting.step []

@[simp] theorem waiting_append (log : List (Event T)) (v : Event T) : waiting (log ++ [v]) = Waiting.step (waiting log) v := by
  simp [waiting, List.foldl_append]

/-- What the events say about the post that a poll gets. -/
def gets (d : D) (before : List (Event T)) : Event T → Prop
  | .ds (.posted n _) => ∀ i ∈ waiting before, d.nd i = some n
  | .ds (.skip i) => ∃ n, d.nd i = some n ∧ n < (spec before).posts
  | .done i (_, some n) => d.nd i = some n
  | _ => True

theorem gets_mono {d d' : D} (h : ∀ i n, d.nd i = some n → d'.nd i = some n) {log : List (Event T)}
    (hg : Hist (gets d) log) : Hist (gets d') log := by
  intro l1 v l2 e
  have := hg l1 v l2 e
  match v with
  | .ds (.posted n x) => exact fun i hi => h i n (this i hi)
  | .ds (.skip i) => obtain ⟨n, h1, h2⟩ := this; exact ⟨n, h i n h1, h2⟩
  | .done i (a, some n) => exact h i n this
  | .done i (a, none) => trivial
  | .ds (.attached b) | .ds (.detaching b) | .ds (.acked b n) | .ds (.released b n) | .ds (.pdone n) | .ds (.detached n)
  | .ds (.enq n) | .ds (.unq n) | .begin _ _ _ | .cancel _ | .reset _ => trivial

structure J (d : D) (log : List (Event T)) : Prop where
  polls : d.polls = waiting log
  gets : Hist (gets d) log

theorem J.snoc {d d' : D} {log : List (Event T)} (h : J d log) {v : Event T}
    (h1 : ∀ i n, d.nd i = some n → d'.nd i = some n) (h2 : d'.polls = Waiting.step d.polls v)
    (h3 : PostAck.gets d' log v) : J d' (log ++ [v]) :=
  ⟨by rw [waiting_append, h2, h.polls], by rw [Hist.snoc]; exact ⟨gets_mono h1 h.gets, h3⟩⟩

/-- Events that concern neither the polls nor the posts. -/
def quiet : E T → Prop
  | .posted _ _ | .enq _ | .unq _ | .skip _ => False
  | _ => True

theorem J.quiet {d d' : D} {log : List (Event T)} (h : J d log) {es : List (E T)} (he : ∀ v ∈ es, quiet v)
    (h1 : d'.nd = d.nd) (h2 : d'.polls = d.polls) : J d' (log ++ es.map (Ev.ds (S := ds T))) := by
  have h0 : J d' log := ⟨by rw [h2, h.polls], gets_mono (by rw [h1]; simp) h.gets⟩
  clear h h1 h2
  induction es generalizing log with
  | nil => simpa using h0
  | cons v es ih =>
    rw [List.map_cons, ← List.singleton_append, ← List.append_assoc]
    apply ih (fun w hw => he w (by simp [hw]))
    have := he v (by simp)
    refine h0.snoc (by simp) ?_ ?_ <;> cases v <;> simp_all [PostAck.quiet, Waiting.step, PostAck.gets]

theorem release_quiet {d d' : D} {a : Agent} {r : Nat} {ps : List (OpId ⊕ I T)} {es : List (E T)}
    (h : release d a r = some (d', ps, es)) : d'.nd = d.nd ∧ d'.polls = d.polls ∧ es = [.released a (d.pollSeq a)] ∧
      ops ps = [] := by
  simp only [release] at h
  repeat' split at h
  all_goals simp at h
  all_goals obtain ⟨rfl, rfl, rfl⟩ := h
  all_goals simp [ops]

/-- The new post in the queue, lines 96-98 of post-ack.hpp. -/
def enter (d : D) : D :=
  { d with posts := d.posts + 1, acks := upd d.acks d.posts d.active, queue := d.queue ++ [d.posts], polls := [] }

/-- What the instructions do, apart from posts. -/
theorem exec_quiet {d d' : D} {x : I T} {ps : List (OpId ⊕ I T)} {es : List (E T)} (h : exec d x = some (d', ps, es)) :
    (∃ y, x = .post y ∧ es = [.posted d.posts y] ∧ ((ps = [.inr (.pdone d.posts)] ∧ d.polls = [] ∧
        d' = { d with posts := d.posts + 1 }) ∨
      (ps = d.polls.map .inl ∧ take (enter d) d.posts d.polls = some d'))) ∨
    ((∀ y, x ≠ .post y) ∧ (∀ v ∈ es, quiet v) ∧ d'.nd = d.nd ∧ d'.polls = d.polls ∧ ops ps = []) := by
  cases x <;> simp only [exec] at h
  case post y =>
    left
    split at h
    · split at h
      · rename_i hp
        simp at h; obtain ⟨rfl, rfl, rfl⟩ := h
        exact ⟨y, rfl, rfl, .inl ⟨rfl, hp, rfl⟩⟩
      · simp at h
    · split at h
      · rename_i ht
        simp at h; obtain ⟨rfl, rfl, rfl⟩ := h
        exact ⟨y, rfl, rfl, .inr ⟨rfl, ht⟩⟩
      · simp at h
  case pdone n => simp at h; obtain ⟨rfl, rfl, rfl⟩ := h; right; simp [quiet, ops]
  case attach a =>
    split at h <;> simp at h
    obtain ⟨rfl, rfl, rfl⟩ := h; right; simp [quiet, ops]
  case detach a =>
    right
    split at h
    · simp at h
    · split at h
      · split at h
        · rename_i hr
          simp at h; obtain ⟨rfl, rfl, rfl⟩ := h
          obtain ⟨h1, h2, rfl, h4⟩ := release_quiet hr
          simp [quiet, h1, h2, h4]
        · simp at h
      · simp at h; obtain ⟨rfl, rfl, rfl⟩ := h; simp [quiet, ops, off]
  case det a r =>
    right
    split at h
    · simp at h; obtain ⟨rfl, rfl, rfl⟩ := h; simp [quiet, ops, off]
    · obtain ⟨h1, h2, rfl, h4⟩ := release_quiet h
      simp [quiet, h1, h2, h4]
  case ack a n =>
    split at h <;> simp at h
    obtain ⟨rfl, rfl, rfl⟩ := h; right; simp [quiet]; split <;> simp [ops]
  case erase n =>
    split at h <;> simp at h
    obtain ⟨rfl, rfl, rfl⟩ := h; right; simp [ops]

theorem also (T : Type) : Also (lawful T) (fun d _ log => J d log) where
  init := ⟨rfl, Hist.nil⟩
  begin {d ph log pi i ct p d'} hI h hp ha := by
    simp only [admit] at ha
    split at ha <;> simp at ha
    subst ha
    exact h.snoc (by simp) rfl trivial
  start {d ph log pi i b d' r es} hI h hp hs := by
    have hA := hI.A.new i hp
    have hpo := hI.A.posts
    simp only [start] at hs
    split at hs
    · simp at hs
    · split at hs
      · simp at hs
      · split at hs
        · rename_i hlt
          split at hs <;> simp at hs
          obtain ⟨rfl, rfl, rfl⟩ := hs
          refine h.snoc (v := .ds (.skip i)) ?_ rfl ⟨d.pollSeq (d.agOf i), by simp, by rw [← hpo]; exact hlt⟩
          intro j n hj
          have : j ≠ i := by rintro rfl; rw [hA.1] at hj; simp at hj
          simp [upd_ne _ _ this, hj]
        · simp at hs
          obtain ⟨rfl, rfl, rfl⟩ := hs
          exact h.snoc (v := .ds (.enq i)) (by simp) rfl trivial
  fin {d ph log pi i v f} hI h hp hf := by
    have hv : v = (d.agOf i, d.nd i) := by
      rcases hp with hp | hp
      · exact (hI.A.fast i v hp).1
      · exact hp.2
    subst hv
    have hnd : (fin d i).nd = d.nd := by unfold fin; split <;> rfl
    have hpl : (fin d i).polls = d.polls := by unfold fin; split <;> rfl
    refine h.snoc (by rw [hnd]; simp) (by rw [hpl]; rfl) ?_
    cases hn : d.nd i with
    | none => trivial
    | some n => show (fin d i).nd i = some n; rw [hnd, hn]
  try_ {d ph log pi i d' r es ph'} hI h hs hc := by
    simp only [tryCancel] at hs
    split at hs
    · simp at hs; obtain ⟨rfl, rfl, rfl⟩ := hs; simpa using h
    · split at hs
      · simp at hs
      · split at hs <;> simp at hs
        obtain ⟨rfl, rfl, rfl⟩ := hs
        exact h.snoc (v := .ds (.unq i)) (by simp) rfl trivial
  other {d ph log pi v} hI h hv := by
    rcases hv with ⟨e, rfl⟩ | ⟨e, rfl⟩ <;> exact h.snoc (by simp) rfl trivial
  call {d ph log pi x d'} hI h hc := by
    have hd : d'.nd = d.nd ∧ d'.polls = d.polls := by
      cases x <;> simp only [call] at hc <;> (try split at hc) <;> simp at hc <;> subst hc <;> simp
    exact ⟨by rw [hd.2, h.polls], gets_mono (by rw [hd.1]; simp) h.gets⟩
  exec {d ph log pi x b d' ps es} hI h hs hp := by
    rcases exec_quiet hs with ⟨y, rfl, rfl, hc⟩ | ⟨h1, h2, h3, h4, h5⟩
    · rcases hc with ⟨rfl, hpl, rfl⟩ | ⟨rfl, ht⟩
      · refine h.snoc (v := .ds (.posted d.posts y)) (by simp) (by simp [Waiting.step, hpl]) ?_
        intro i hi
        rw [← h.polls, hpl] at hi
        simp at hi
      · have hw : ∀ i ∈ d.polls, d.nd i = none ∧ d.pend i = false := fun i hi =>
          ⟨(hI.A.waiting i ((hI.A.mem i).2 hi)).1, (hI.A.waiting i ((hI.A.mem i).2 hi)).2.1⟩
        rw [take_eq hI.A.pollsN (by simpa [enter] using hw)] at ht
        simp at ht; subst ht
        refine h.snoc (v := .ds (.posted d.posts y)) ?_ rfl ?_
        · intro i n hn
          have : i ∉ d.polls := fun hi => by rw [(hw i hi).1] at hn; simp at hn
          simp [this, hn, enter]
        · intro i hi
          rw [← h.polls] at hi
          simp [hi]
    · exact h.quiet h2 h3 h4

/-- The contract with the additional invariant. -/
abbrev lawful' (T : Type) : Lawful (ds T) init := (also T).lawful

theorem split_at {α : Type} {l : List α} {n : Nat} {v : α} (h : l[n]? = some v) : l = l.take n ++ v :: l.drop (n + 1) := by
  have hl := (List.getElem?_eq_some_iff.1 h).1
  have hw := (List.getElem?_eq_some_iff.1 h).2
  rw [← hw, List.getElem_cons_drop, List.take_append_drop]

/-- Critical sections. -/
def section_ : E T → Prop
  | .posted _ _ | .attached _ | .detaching _ | .released _ _ | .enq _ | .skip _ | .unq _ => True
  | _ => False

/-- The events that decide the fate of a poll. -/
def decides (before : List (Event T)) : E T → OpId → Prop
  | .posted _ _, i => i ∈ waiting before
  | .skip j, i | .unq j, i => j = i
  | _, _ => False

theorem quiet_decides {v : E T} (h : quiet v) (before : List (Event T)) (i : OpId) : ¬ decides before v i := by
  cases v <;> simp [quiet, decides] at *

theorem start_cases {d d' : D} {i : OpId} {r : Option (Agent × Option Nat)} {es : List (E T)}
    (h : start d i = some (d', r, es)) : (r = none ∧ es = [.enq i]) ∨ (∃ a n, r = some (a, some n) ∧ es = [.skip i]) := by
  simp only [start] at h
  repeat' split at h
  all_goals simp at h
  all_goals obtain ⟨_, rfl, rfl⟩ := h
  all_goals simp

theorem tryCancel_cases {d d' : D} {i : OpId} {r : Bool} {es : List (E T)} (h : tryCancel d i = some (d', r, es)) :
    (r = true ∧ es = [.unq i]) ∨ (r = false ∧ es = []) := by
  simp only [tryCancel] at h
  repeat' split at h
  all_goals simp at h
  all_goals obtain ⟨_, rfl, rfl⟩ := h
  all_goals simp

theorem hlaw (T : Type) : HLaw (ords T) (lawful' T) section_ decides where
  unlocked {d x b d' ps es} h hl := by
    cases x <;> simp at hl
    case pdone n => simp [exec] at h; obtain ⟨rfl, rfl, rfl⟩ := h; simp [ops, section_]
    case det a r =>
      simp only [exec] at h
      split at h
      · simp at h; obtain ⟨rfl, rfl, rfl⟩ := h; simp [ops, section_]
      · rename_i hne; simp at hne; omega
    case ack a n =>
      simp only [exec] at h
      split at h <;> simp at h
      obtain ⟨rfl, rfl, rfl⟩ := h; refine ⟨by split <;> simp [ops], by simp [section_]⟩
  start {d i b d' r es v j log} h hv hd := by
    rcases start_cases h with ⟨rfl, rfl⟩ | ⟨a, n, rfl, rfl⟩ <;> simp at hv <;> subst hv <;> simp [decides] at hd
    exact ⟨hd.symm, _, rfl⟩
  cancel {d i d' r es v j log} h hv hd := by
    rcases tryCancel_cases h with ⟨rfl, rfl⟩ | ⟨rfl, rfl⟩ <;> simp at hv
    subst hv; simp [decides] at hd
    exact ⟨hd.symm, rfl⟩
  exec {d ph log pi x b d' ps l1 v l2 j} hI h hd := by
    have hv : v ∈ l1 ++ v :: l2 := by simp
    rcases exec_quiet h with ⟨y, rfl, he, hc⟩ | ⟨h1, h2, h3, h4, h5⟩
    · have hl : l1 = [] := by
        cases l1 with
        | nil => rfl
        | cons a l => simp at he
      subst hl
      simp at he
      obtain ⟨rfl, rfl⟩ := he
      simp [decides] at hd
      rw [← hI.2.polls] at hd
      rcases hc with ⟨rfl, hpl, rfl⟩ | ⟨rfl, ht⟩
      · rw [hpl] at hd; simp at hd
      · rw [ops_inl]; exact hd
    · exact absurd hd (quiet_decides (h2 v hv) _ _)

theorem hcanc (T : Type) : HCanc (ds T) (fun v i => v = .unq i) where
  start {d i b d' r es} h e he j hc := by
    subst hc
    rcases start_cases h with ⟨rfl, rfl⟩ | ⟨a, n, rfl, rfl⟩ <;> simp at he
  exec {d x b d' ps es} h e he j hc := by
    subst hc
    rcases exec_quiet h with ⟨y, rfl, rfl, -⟩ | ⟨h1, h2, -⟩
    · simp at he
    · exact h2 _ he
  cancel {d i d' r es} h e he j hc := by
    subst hc
    rcases tryCancel_cases h with ⟨rfl, rfl⟩ | ⟨rfl, rfl⟩ <;> simp at he
    exact he

/-- Polls that complete with a post found it or were woken by it; the others were withdrawn. -/
def marks (T : Type) : Marks (lawful' T) where
  F v i x := v = .skip i ∧ ∃ a n, x = (a, some n)
  T b v i x := ∃ n y, v = .posted n y ∧ i ∈ waiting b ∧ x.2 = some n
  G v i x := v = .unq i ∧ x.2 = none
  start {d i b d' x es} h := by
    rcases start_cases h with ⟨hr, rfl⟩ | ⟨a, n, hr, rfl⟩ <;> simp at hr
    exact ⟨_, by simp, rfl, _, _, hr⟩
  cancel {d i d' es} h := by
    rcases tryCancel_cases h with ⟨hr, rfl⟩ | ⟨hr, rfl⟩ <;> simp at hr
    exact ⟨_, by simp, (0, none), rfl, rfl⟩
  exec {d ph log pi x b d' ps es i} hI h hi := by
    rcases exec_quiet h with ⟨y, rfl, rfl, hc⟩ | ⟨h1, h2, h3, h4, h5⟩
    · refine ⟨[], _, [], rfl, (0, some d.posts), _, _, rfl, ?_, rfl⟩
      rcases hc with ⟨rfl, hpl, rfl⟩ | ⟨rfl, ht⟩
      · simp [ops] at hi
      · rw [ops_inl] at hi
        simp only [List.map_nil, List.append_nil]
        rw [← hI.2.polls]; exact hi
    · rw [h5] at hi; simp at hi
  valT {d ph log pi i x} h hp ho := by
    obtain ⟨q, v, hq, n, y, rfl, hi, -⟩ := ho
    have := h.2.gets _ _ _ (split_at hq) i hi
    exact ⟨q, _, hq, n, y, rfl, hi, this⟩
  valG {d ph log pi i x} h hp ho := by
    obtain ⟨q, v, hq, rfl, -⟩ := ho
    exact ⟨q, _, hq, rfl, (h.1.A.gone i hp).1⟩

/-! ## Acknowledgments -/

theorem mem_dsPend {S : DS} {acts : List (List (Instr S))} {x : S.I} (h : Pending acts (.ds x)) : x ∈ dsPend acts := by
  obtain ⟨a, ha, hx⟩ := h
  simp only [dsPend, List.mem_flatten, List.mem_map]
  refine ⟨dsl a, ⟨a, ha, rfl⟩, ?_⟩
  clear ha
  induction a with
  | nil => simp at hx
  | cons y a ih =>
    rcases List.mem_cons.1 hx with rfl | hm
    · simp [dsl]
    · cases y <;> simp [dsl, ih hm]

/-- The rest of the completion of post `n`. -/
def Fin_ (n : Nat) : Instr (ds T) → Prop := fun x => x = .ds (.erase n) ∨ x = .ds (.pdone n)

/-- Acknowledgments of post `n`. -/
def acks (n : Nat) (v : Event T) : Prop := ∃ a, v = .ds (.acked a n) ∨ v = .ds (.released a n)

theorem posts_mono (l1 l2 : List (Event T)) : (spec l1).posts ≤ (spec (l1 ++ l2)).posts := by
  induction l2 using List.reverseRecOn with
  | nil => simp
  | append_singleton l v ih =>
    rw [← List.append_assoc, spec_append]
    refine Nat.le_trans ih ?_
    unfold Spec.step; split <;> simp

theorem owe_lt {log : List (Event T)} (h : Hist hist log) {a n : Nat} (ha : a ∈ (spec log).owe n) : n < (spec log).posts := by
  induction log using List.reverseRecOn generalizing a with
  | nil => simp [spec] at ha
  | append_singleton log v ih =>
    rw [Hist.snoc] at h
    have ih := fun a ha => ih h.1 (a := a) ha
    have hv := h.2
    rw [spec_append] at ha ⊢
    have er : ∀ b n', a ∈ (upd (spec log).owe n' (((spec log).owe n').erase b)) n → a ∈ (spec log).owe n := by
      intro b n' hm
      by_cases hn : n = n'
      · subst hn; rw [upd_same] at hm; exact List.mem_of_mem_erase hm
      · rwa [upd_ne _ _ hn] at hm
    unfold Spec.step at ha ⊢
    split at ha
    · rename_i n' y
      simp only at ha ⊢
      by_cases hn : n = n'
      · subst hn; have : n = (spec log).posts := hv
        omega
      · rw [upd_ne _ _ hn] at ha
        have := ih a ha; omega
    · exact ih a ha
    · exact ih a ha
    · exact ih a (er _ _ ha)
    · exact ih a (er _ _ ha)
    · exact ih a ha
    · exact ih a ha

theorem owe_sub {l l1 : List (Event T)} {a n : Nat} (h : a ∈ (spec (l ++ l1)).owe n)
    (hp : ∀ y, .ds (.posted n y) ∉ l1) : a ∈ (spec l).owe n := by
  induction l1 using List.reverseRecOn with
  | nil => simpa using h
  | append_singleton l1 v ih =>
    apply ih _ (fun y hy => hp y (by simp [hy]))
    rw [← List.append_assoc, spec_append] at h
    have er : ∀ b n', a ∈ (upd (spec (l ++ l1)).owe n' (((spec (l ++ l1)).owe n').erase b)) n →
        a ∈ (spec (l ++ l1)).owe n := by
      intro b n' hm
      by_cases hn : n = n'
      · subst hn; rw [upd_same] at hm; exact List.mem_of_mem_erase hm
      · rwa [upd_ne _ _ hn] at hm
    unfold Spec.step at h
    split at h
    · rename_i n' y
      by_cases hn : n = n'
      · subst hn; exact absurd (by simp) (hp y)
      · simpa only [upd_ne _ _ hn] using h
    · exact h
    · exact h
    · exact er _ _ h
    · exact er _ _ h
    · exact h
    · exact h

theorem hist_take {α : Type} {P : List α → α → Prop} {l : List α} (h : Hist P l) (k : Nat) : Hist P (l.take k) := by
  intro l1 w l2 e
  exact h l1 w (l2 ++ l.drop k) (by rw [← List.cons_append, ← List.append_assoc, ← e, List.take_append_drop])

theorem hist_left {α : Type} {P : List α → α → Prop} {l l' : List α} (h : Hist P (l ++ l')) : Hist P l := by
  intro l1 w l2 e
  exact h l1 w (l2 ++ l') (by rw [e]; simp)

/-- The number of an acknowledged or delivered post. -/
theorem posts_gt {d : D} {ph : OpId → Phase (Agent × Option Nat)} {log : List (Event T)} {pi : List (I T)}
    (h : Inv d ph log pi) {n : Nat} {v : Event T} (hv : v ∈ log)
    (hn : acks n v ∨ ∃ i a, v = .done i (a, some n)) : n < d.posts := by
  rw [h.A.posts]
  obtain ⟨l1, l2, rfl⟩ := List.append_of_mem hv
  have hh := h.hist l1 v l2 rfl
  rcases hn with ⟨a, rfl | rfl⟩ | ⟨i, a, rfl⟩
  · exact Nat.lt_of_lt_of_le (owe_lt (hist_left h.hist) hh.1) (posts_mono _ _)
  · exact Nat.lt_of_lt_of_le (owe_lt (hist_left h.hist) hh.1) (posts_mono _ _)
  · exact Nat.lt_of_lt_of_le hh.2.2.2 (posts_mono _ _)

/-- While somebody has to acknowledge a post, it is not completed. -/
theorem no_fin {s : RSt (ds T)} {acts : List (List (Instr (ds T)))} (h : RInv (lawful' T) s acts) {n : Nat}
    (ho : (spec s.log).owe n ≠ []) : ∀ a ∈ acts, ∀ x ∈ a, ¬ Fin_ n x := by
  obtain ⟨ph, ⟨hI, _⟩, _⟩ := h
  have := hI.B.post n
  rw [if_neg (by simp [ho])] at this
  rintro a ha x hx (rfl | rfl)
  · have h1 := List.countP_pos_iff.2 ⟨_, mem_dsPend ⟨a, ha, hx⟩, (by simp [isErase] : isErase n (.erase n : I T) = true)⟩
    omega
  · have h1 := List.countP_pos_iff.2 ⟨_, mem_dsPend ⟨a, ha, hx⟩, (by simp [isPdone] : isPdone n (.pdone n : I T) = true)⟩
    omega

theorem owe_ne {s : RSt (ds T)} {acts : List (List (Instr (ds T)))} (h : RInv (lawful' T) s acts) {a n : Nat}
    (ho : (a, n) ∈ s.d.handles ∨ Pending acts (.ds (.ack a n))) : (spec s.log).owe n ≠ [] := by
  obtain ⟨ph, ⟨hI, _⟩, _⟩ := h
  have := hI.B.owe a n
  intro h0
  rw [h0] at this
  rcases ho with h1 | h1
  · have h1 : 0 < s.d.handles.count (a, n) := List.count_pos_iff.2 h1
    simp only [List.count_nil] at this; omega
  · have h1 := List.countP_pos_iff.2 ⟨_, mem_dsPend h1, (by simp [isAck] : isAck a n (.ack a n : I T) = true)⟩
    simp only [List.count_nil] at this; omega

/-- One step of the completion of post `n`. -/
structure StepF (n : Nat) (s s' : RSt (ds T)) (x : Instr (ds T)) (b : Bool) (p : List (Instr (ds T)))
    (evs : List (Event T)) : Prop where
  push : (∃ y ∈ p, Fin_ n y) → Fin_ n x ∨ .rmw .acqRel (.at n) ∈ eff (ords T) s x b ∨ n = s.d.posts
  store : ∀ a ∈ eff (ords T) s x b, a.stores (.at n) = true → n = s.d.posts
  pdone : .ds (.pdone n) ∈ evs → x = .ds (.pdone n)
  acks : (∃ w ∈ evs, acks n w) → .rmw .acqRel (.at n) ∈ eff (ords T) s x b
  ack : ∀ a, x = .ds (.ack a n) → .rmw .acqRel (.at n) ∈ eff (ords T) s x b
  pushA : ∀ a, .ds (.ack a n) ∉ p
  nopost : (∃ w ∈ evs, PostAck.acks n w) → ∀ n' y, .ds (.posted n' y) ∉ evs

theorem release_ps {d d' : D} {a : Agent} {r : Nat} {ps : List (OpId ⊕ I T)} {es : List (E T)}
    (h : release d a r = some (d', ps, es)) : (∀ y ∈ ps, y = .inr (.pdone (d.pollSeq a)) ∨ y = .inr (.det a r)) ∧
      d'.handles = d.handles := by
  simp only [release] at h
  repeat' split at h
  all_goals simp at h
  all_goals obtain ⟨rfl, rfl, rfl⟩ := h
  all_goals simp

theorem take_handles {n : Nat} {l : List OpId} {d d' : D} (h : take d n l = some d') : d'.handles = d.handles := by
  induction l generalizing d with
  | nil => simp [take] at h; rw [h]
  | cons i l ih =>
    simp only [take] at h
    split at h
    · simp at h
    · have := ih h; exact this

/-- The same for the data structure. -/
theorem exec_fin {n : Nat} {d d' : D} {x : I T} {b : Bool} {ps : List (OpId ⊕ I T)} {es : List (E T)}
    (h : exec d x = some (d', ps, es)) :
    ((.inr (.erase n) ∈ ps ∨ .inr (.pdone n) ∈ ps) → x = .erase n ∨ .rmw .acqRel n ∈ (ords T).exec d x b ∨ n = d.posts) ∧
    (.pdone n ∈ es → x = .pdone n) ∧
    ((∃ a, .acked a n ∈ es ∨ .released a n ∈ es) → .rmw .acqRel n ∈ (ords T).exec d x b) ∧
    (∀ a, .inr (.ack a n) ∉ ps) ∧ d'.handles = d.handles := by
  cases x <;> simp only [exec] at h
  case post y =>
    split at h
    · split at h <;> simp at h
      obtain ⟨rfl, rfl, rfl⟩ := h
      simp
    · split at h <;> simp at h
      rename_i ht
      obtain ⟨rfl, rfl, rfl⟩ := h
      simp
      have := take_handles ht; exact this
  case pdone n => simp at h; obtain ⟨rfl, rfl, rfl⟩ := h; simp; exact fun h => h.symm
  case attach a =>
    split at h <;> simp at h
    obtain ⟨rfl, rfl, rfl⟩ := h; simp
  case detach a =>
    split at h
    · simp at h
    · split at h
      · rename_i hlt
        split at h
        · rename_i hr
          simp at h; obtain ⟨rfl, rfl, rfl⟩ := h
          obtain ⟨h1, h5⟩ := release_ps hr
          obtain ⟨h2, h3, rfl, h4⟩ := release_quiet hr
          have hlt : d.pollSeq a < d.posts := hlt
          refine ⟨?_, by simp, ?_, ?_, h5⟩
          · intro hm
            have : n = d.pollSeq a := by
              rcases hm with hm | hm <;> rcases h1 _ hm with h | h <;> simp at h
              exact h
            subst this
            exact .inr (.inl (by simp [hlt]))
          · rintro ⟨a', hm⟩
            simp at hm
            simp [hm, hlt]
          · intro a' hm
            rcases h1 _ hm with h | h <;> simp at h
        · simp at h
      · simp at h; obtain ⟨rfl, rfl, rfl⟩ := h; simp [off]
  case det a r =>
    split at h
    · simp at h; obtain ⟨rfl, rfl, rfl⟩ := h; simp [off]
    · rename_i hne
      obtain ⟨h1, h5⟩ := release_ps h
      obtain ⟨h2, h3, rfl, h4⟩ := release_quiet h
      simp only [upd_same] at hne h1
      refine ⟨?_, by simp, ?_, ?_, h5⟩
      · intro hm
        have : n = d.pollSeq a + 1 := by
          rcases hm with hm | hm <;> rcases h1 _ hm with h | h <;> simp at h
          exact h
        subst this
        exact .inr (.inl (by simp [hne]))
      · rintro ⟨a', hm⟩
        simp at hm
        simp [hm, hne]
      · intro a' hm
        rcases h1 _ hm with h | h <;> simp at h
  case ack a n' =>
    split at h <;> simp at h
    obtain ⟨rfl, rfl, rfl⟩ := h
    refine ⟨?_, by simp, by simp, ?_, rfl⟩
    · intro hm; split at hm <;> simp at hm
      exact .inr (.inl (by simp [hm]))
    · intro a' hm; split at hm <;> simp at hm
  case erase n =>
    split at h <;> simp at h
    obtain ⟨rfl, rfl, rfl⟩ := h; simp; exact fun h => .inl h.symm

theorem eff_stores_at {n : Nat} {s : RSt (ds T)} {x : Instr (ds T)} {b : Bool} (hx : ∀ y, x ≠ .ds y) :
    ∀ a ∈ eff (ords T) s x b, a.stores (.at n) = false := by
  intro a h
  cases x <;> simp only [eff] at h
  case ds y => exact absurd rfl (hx y)
  all_goals first
    | exact evSect_stores h
    | exact sect_stores_at (by simp) h
    | (simp at h; done)
    | (simp at h; subst h; rfl)

/-- Instructions of the resolver. -/
theorem exec_other {s s' : RSt (ds T)} {x : Instr (ds T)} {b : Bool} {p : List (Instr (ds T))} (hx : ∀ y, x ≠ .ds y)
    (he : Resolver.exec s x b = .ok s' p) : (∀ y, .ds y ∉ p) ∧
      ∀ v, .ds v ∈ s'.log.drop s.log.length → ∃ i, v = .enq i ∨ v = .skip i ∨ v = .unq i := by
  cases x <;> simp only [Resolver.exec] at he
  case ds y => exact absurd rfl (hx y)
  case start i =>
    split at he <;> simp at he <;> obtain ⟨rfl, rfl⟩ := he <;> rename_i hs <;> refine ⟨by simp, ?_⟩ <;> intro v hv <;>
      simp at hv <;> rcases start_cases hs with ⟨_, rfl⟩ | ⟨a, n, _, rfl⟩ <;> simp at hv <;> simp [hv]
  case tryCancel i l =>
    split at he
    · simp at he
    · rename_i hs
      simp at he; obtain ⟨rfl, rfl⟩ := he
      refine ⟨by simp, fun v hv => ?_⟩
      simp at hv
      rcases tryCancel_cases hs with ⟨_, rfl⟩ | ⟨_, rfl⟩ <;> simp at hv
      simp [hv]
  all_goals
    repeat' split at he
    all_goals simp at he
    all_goals obtain ⟨rfl, rfl⟩ := he
    all_goals simp

theorem stepF {n : Nat} {s s' : RSt (ds T)} {x : Instr (ds T)} {b : Bool} {p : List (Instr (ds T))}
    {evs : List (Event T)} (he : Resolver.exec s x b = .ok s' p) (hl : s'.log = s.log ++ evs) : StepF n s s' x b p evs := by
  have hnd : ∀ w ∈ evs, w ∈ s'.log.drop s.log.length := by rw [hl]; simp
  by_cases hx : ∃ y, x = .ds y
  · obtain ⟨y, rfl⟩ := hx
    simp only [Resolver.exec] at he
    split at he
    · simp at he
    · rename_i d' ps es hs
      simp at he; obtain ⟨rfl, rfl⟩ := he
      obtain ⟨h1, h2, h3, h4, h5⟩ := exec_fin (n := n) (b := b) hs
      have hps : ∀ z, .ds z ∈ ps.map (follow (S := ds T)) → .inr z ∈ ps := by
        intro z hz
        obtain ⟨u, hu, hf⟩ := List.mem_map.1 hz
        cases u <;> simp [follow] at hf
        subst hf; exact hu
      have hev : ∀ v, .ds v ∈ evs → v ∈ es := fun v hv => by simpa using hnd _ hv
      have hm : .rmw .acqRel n ∈ (ords T).exec s.d y b → .rmw .acqRel (.at n) ∈ eff (ords T) s (.ds y) b := sect_mem
      refine ⟨?_, ?_, ?_, ?_, ?_, ?_, ?_⟩
      · rintro ⟨z, hz, hF⟩
        rcases h1 (by rcases hF with rfl | rfl; exacts [.inl (hps _ hz), .inr (hps _ hz)]) with rfl | h | h
        · exact .inl (.inl rfl)
        · exact .inr (.inl (hm h))
        · exact .inr (.inr h)
      · intro a ha hst
        apply Classical.byContradiction
        intro hne
        have := sect_stores_at (l := n) (as := (ords T).exec s.d y b) ?_ ha
        · rw [this] at hst; simp at hst
        · intro u hu
          cases y <;> simp at hu
          all_goals try (obtain ⟨_, rfl⟩ := hu; simp [Acc.stores])
          exact fun h => hne h.symm
      · intro hm; rw [h2 (hev _ hm)]
      · rintro ⟨w, hw, a, rfl | rfl⟩
        · exact hm (h3 ⟨a, .inl (hev _ hw)⟩)
        · exact hm (h3 ⟨a, .inr (hev _ hw)⟩)
      · intro a hx; simp at hx; subst hx; exact hm (by simp)
      · intro a hx; exact h4 a (hps _ hx)
      · rintro ⟨w, hw, ha⟩ n' z hz
        rcases exec_quiet hs with ⟨_, _, rfl, _⟩ | ⟨_, hq, _⟩
        · obtain ⟨a, rfl | rfl⟩ := ha <;> simpa using hev _ hw
        · exact hq _ (hev _ hz)
  · have hx' : ∀ y, x ≠ .ds y := fun y h => hx ⟨y, h⟩
    obtain ⟨h1, h2⟩ := exec_other hx' he
    refine ⟨?_, ?_, ?_, ?_, ?_, fun a => h1 _, ?_⟩
    · rintro ⟨z, hz, rfl | rfl⟩ <;> exact absurd hz (h1 _)
    · intro a ha hst; rw [eff_stores_at hx' a ha] at hst; simp at hst
    · intro hm; obtain ⟨i, h⟩ := h2 _ (hnd _ hm); simp at h
    · rintro ⟨w, hw, a, rfl | rfl⟩ <;> obtain ⟨i, h⟩ := h2 _ (hnd _ hw) <;> simp at h
    · intro a h; exact absurd h (hx' _)
    · rintro - n' z hz; obtain ⟨i, h⟩ := h2 _ (hnd _ hz); simp at h

theorem env_push {s s' : RSt (ds T)} {acts' : List (List (Instr (ds T)))} {a : Act (ds T)} {p : List (Instr (ds T))}
    (he : Resolver.env s acts' a = some (s', p)) {y : I T} (hy : .ds y ∈ p) : a = .call y ∧ call s.d y = some s'.d := by
  cases a <;> simp only [Resolver.env] at he <;> repeat' split at he
  all_goals simp at he
  all_goals obtain ⟨rfl, rfl⟩ := he
  all_goals simp at hy
  subst hy
  refine ⟨rfl, ?_⟩
  assumption

theorem env_fin {n : Nat} {s s' : RSt (ds T)} {acts' : List (List (Instr (ds T)))} {a : Act (ds T)}
    {p : List (Instr (ds T))} (he : Resolver.env s acts' a = some (s', p)) (y : Instr (ds T)) (hy : y ∈ p) : ¬ Fin_ n y := by
  rintro (rfl | rfl) <;> have := (env_push he hy).2 <;> simp [call] at this

variable {entry : RSt (ds T) → Act (ds T) → Nat → Bool} {k : Conf (mach (ds T))} {m : Mem (Loc (ords T).A)}

/-- C62. Acknowledgments of a post happen before the completion of the post. -/
theorem C62_acks_before_completion (h : HReach (ann (ords T) entry) (RSt.init init) k m) {e q a n : Nat}
    (he : k.sh.log[e]? = some (.ds (.acked a n)) ∨ k.sh.log[e]? = some (.ds (.released a n)))
    (hq : k.sh.log[q]? = some (.ds (.pdone n))) (heq : e < q) : m.hb e q := by
  have key : ∀ e v, k.sh.log[e]? = some v → acks n v → m.msg (.at n) e = true ∧ AllKnow (Fin_ n) k.acts m e ∧
      Done (fun v => v = .ds (.pdone n)) k.sh.log m e := by
    refine HReach.inv (A := ann (ords T) entry) (P := fun c => RInv (lawful' T) c.sh c.acts)
      (Q := fun s acts' m => ∀ e v, s.log[e]? = some v → acks n v → m.msg (.at n) e = true ∧ AllKnow (Fin_ n) acts' m e ∧
        Done (fun v => v = .ds (.pdone n)) s.log m e)
      (fun c hc => reach_inv (lawful' T) hc) ?_ ?_ ?_ h
    · intro e v hv; simp [RSt.init] at hv
    · intro c m a s' p hP _ hQ he e v hv hA
      obtain ⟨h1, h2, evs, h3, h4, h5⟩ := env_log (acts := c.acts) he
      have hlt : e < c.sh.log.length := by
        apply Classical.byContradiction
        intro hn
        rw [h3, List.getElem?_append_right (by omega)] at hv
        obtain ⟨a, rfl | rfl⟩ := hA <;> exact h5 _ (List.mem_of_getElem? hv)
      rw [h3, List.getElem?_append_left hlt] at hv
      obtain ⟨g1, g2, g3⟩ := hQ e v hv hA
      refine ⟨Mem.keep (by simp) g1, g2.env ?_, g3.step h3 ?_⟩
      · rintro ⟨y, hy, hF⟩
        exfalso
        exact env_fin he y hy hF
      · rintro ⟨w, hw, rfl⟩; exact absurd hw (h5 _)
    · intro c m k x r b s' p hP hP' hQ hk he e v hv hA
      obtain ⟨evs, h3⟩ := exec_log he
      have F := stepF (n := n) he h3
      by_cases hlt : e < c.sh.log.length
      · rw [h3, List.getElem?_append_left hlt] at hv
        obtain ⟨g1, g2, g3⟩ := hQ e v hv hA
        have hn : n ≠ c.sh.d.posts := by
          obtain ⟨ph, ⟨hI, _⟩, _⟩ := hP
          have := posts_gt hI (List.mem_of_getElem? hv) (.inl hA)
          omega
        refine ⟨Mem.keep (fun a ha => ?_) g1, g2.run hk ?_, g3.step h3 ?_⟩
        · cases hs : a.stores (.at n) with
          | false => rfl
          | true => exact absurd (F.store a ha hs) hn
        · intro hp
          rcases F.push hp with h | h | h
          · exact m.acquire_mono _ (g2 k _ hk x (by simp) h)
          · exact m.acquire_msg h (by simp [Acc.acquires]) g1
          · exact absurd h hn
        · rintro ⟨w, hw, rfl⟩
          exact m.acquire_mono _ (g2 k _ hk x (by simp) (.inr (F.pdone hw)))
      · have hlt' := (List.getElem?_eq_some_iff.1 hv).1
        have hge := Nat.le_of_not_lt hlt
        have hw : ∃ w ∈ evs, acks n w := by
          rw [h3, List.getElem?_append_right (by omega)] at hv
          exact ⟨_, List.mem_of_getElem? hv, hA⟩
        obtain ⟨a, ha⟩ : ∃ a, a ∈ (spec c.sh.log).owe n := by
          obtain ⟨ph, ⟨hI, _⟩, _⟩ := hP'
          have hs := split_at hv
          have hh := hI.hist _ _ _ hs
          have ht : s'.log.take e = c.sh.log ++ evs.take (e - c.sh.log.length) := by
            rw [h3, List.take_append, List.take_of_length_le (by omega)]
          obtain ⟨a, ha⟩ : ∃ a, a ∈ (spec (s'.log.take e)).owe n := by
            obtain ⟨a, rfl | rfl⟩ := hA
            · exact ⟨a, hh.1⟩
            · exact ⟨a, hh.1⟩
          rw [ht] at ha
          exact ⟨a, owe_sub ha fun y hy => F.nopost hw _ _ (List.mem_of_mem_take hy)⟩
        have ho : (spec c.sh.log).owe n ≠ [] := List.ne_nil_of_mem ha
        have hn : n ≠ c.sh.d.posts := by
          obtain ⟨ph, ⟨hI, _⟩, _⟩ := hP
          have := owe_lt hI.hist ha
          rw [hI.A.posts]; omega
        refine ⟨?_, AllKnow.fresh (no_fin hP ho) hk ⟨hge, hlt'⟩, ?_⟩
        · refine Mem.publish (fun a ha => ?_) (F.acks hw) (by simp [Acc.releases]) (.inr ⟨hge, hlt'⟩)
          cases hs : a.stores (.at n) with
          | false => rfl
          | true => exact absurd (F.store a ha hs) hn
        · intro n w hn _ hen
          have := (List.getElem?_eq_some_iff.1 hn).1
          rw [Mem.act_past_new _ _ _ _ _ _ (Nat.le_trans hge (Nat.le_of_lt hen)) this]
          simp [hge, hen]
  rcases he with he | he
  · exact (key e _ he ⟨a, .inl rfl⟩).2.2 q _ hq rfl heq
  · exact (key e _ he ⟨a, .inr rfl⟩).2.2 q _ hq rfl heq

theorem env_handles {s s' : RSt (ds T)} {acts' : List (List (Instr (ds T)))} {a : Act (ds T)} {p : List (Instr (ds T))}
    (he : Resolver.env s acts' a = some (s', p)) {b n : Nat} (hh : (b, n) ∈ s.d.handles) :
    (b, n) ∈ s'.d.handles ∨ .ds (.ack b n) ∈ p := by
  cases a with
  | newOp i ct a =>
    simp only [Resolver.env, admit] at he
    split at he
    · simp at he
    · split at he <;> simp at he
      rename_i ha
      obtain ⟨rfl, rfl⟩ := he
      split at ha <;> simp at ha
      subst ha
      exact .inl hh
  | cancel e => simp only [Resolver.env] at he; simp at he; obtain ⟨rfl, rfl⟩ := he; exact .inl hh
  | reset e =>
    simp only [Resolver.env] at he
    split at he <;> simp at he
    obtain ⟨rfl, rfl⟩ := he; exact .inl hh
  | call x =>
    simp only [Resolver.env] at he
    split at he <;> simp at he
    rename_i hc
    obtain ⟨rfl, rfl⟩ := he
    cases x <;> simp only [call] at hc
    case ack a' n' =>
      split at hc <;> simp at hc
      subst hc
      by_cases hab : (b, n) = (a', n')
      · simp at hab; simp [hab]
      · exact .inl ((List.mem_erase_of_ne hab).2 hh)
    all_goals first
      | (simp at hc; done)
      | (simp at hc; subst hc; exact .inl hh)
      | (split at hc <;> simp at hc; subst hc; exact .inl hh)

theorem run_handles {s s' : RSt (ds T)} {x : Instr (ds T)} {b : Bool} {p : List (Instr (ds T))}
    (he : Resolver.exec s x b = .ok s' p) : ∀ h ∈ s.d.handles, h ∈ s'.d.handles := by
  intro h hh
  have hfin : ∀ i, h ∈ (PostAck.fin s.d i).handles := by
    intro i; unfold PostAck.fin; split <;> simp [hh]
  cases x <;> simp only [Resolver.exec] at he
  case ds y =>
    split at he <;> simp at he
    rename_i hs
    obtain ⟨rfl, rfl⟩ := he
    rw [(exec_fin (n := 0) (b := b) hs).2.2.2.2]; exact hh
  case start i =>
    split at he <;> simp at he <;> obtain ⟨rfl, rfl⟩ := he <;> rename_i hs <;> simp only [start] at hs <;>
      (repeat' split at hs) <;> simp at hs <;> obtain ⟨rfl, _⟩ := hs <;> exact hh
  case tryCancel i l =>
    split at he <;> simp at he
    rename_i hs
    obtain ⟨rfl, rfl⟩ := he
    simp only [tryCancel] at hs
    (repeat' split at hs) <;> simp at hs <;> obtain ⟨rfl, _⟩ := hs <;> exact hh
  all_goals
    repeat' split at he
    all_goals simp at he
    all_goals obtain ⟨rfl, rfl⟩ := he
    all_goals first
      | exact hh
      | exact hfin _

/-- A completion is a step of the operation. -/
theorem run_done {s s' : RSt (ds T)} {x : Instr (ds T)} {b : Bool} {p : List (Instr (ds T))}
    (he : Resolver.exec s x b = .ok s' p) {i : OpId} {v : Agent × Option Nat} {w : Event T}
    (hw : w ∈ s'.log.drop s.log.length) (hv : w = .done i v) : s'.d = PostAck.fin s.d i := by
  subst hv
  cases x <;> simp only [Resolver.exec] at he
  all_goals
    repeat' split at he
    all_goals simp at he
    all_goals obtain ⟨rfl, rfl⟩ := he
    all_goals simp at hw
  all_goals rw [hw.1]

theorem pending_keep {ι : Type} {l : List (List ι)} {k : Nat} {x : ι} {r p : List ι} {y : ι} (hk : l[k]? = some (x :: r))
    (h : Pending l y) : Pending (l.set k (p ++ r)) y ∨ y = x := by
  obtain ⟨a, ha, hy⟩ := h
  obtain ⟨j, hj⟩ := List.getElem?_of_mem ha
  by_cases hjk : j = k
  · subst hjk
    have hl := (List.getElem?_eq_some_iff.1 hk).1
    rw [hk] at hj; simp at hj; subst hj
    rcases List.mem_cons.1 hy with rfl | hy
    · exact .inr rfl
    · exact .inl ⟨p ++ r, List.mem_of_getElem? (i := j) (by simp [hl]), by simp [hy]⟩
  · exact .inl ⟨a, List.mem_of_getElem? (i := j) (by rw [List.getElem?_set_ne (Ne.symm hjk)]; exact hj), hy⟩

/-- Whoever acknowledges a post knows of the completion of the poll that returned the handle. -/
def Ordered (entry : RSt (ds T) → Act (ds T) → Nat → Bool) : Prop :=
  ∀ s a n e i, s.log[e]? = some (.done i (a, some n)) → entry s (.call (.ack a n)) e = true

/-- A poll by agent `a` returned post `n` in event `e`. -/
structure Got (a n e : Nat) (s : RSt (ds T)) (acts' : List (List (Instr (ds T)))) (m : Mem (Loc (ords T).A)) : Prop where
  fin : AllKnow (Fin_ n) acts' m e
  done : Done (fun v => v = .ds (.pdone n)) s.log m e
  ack : AllKnow (fun x => x = .ds (.ack a n)) acts' m e
  st : (a, n) ∈ s.d.handles ∨ Pending acts' (.ds (.ack a n)) ∨ m.msg (.at n) e = true

/-- C62. The completion of each poll that returned a post happens before the completion of the post. -/
theorem C62_polls_before_completion (ho : Ordered entry) (h : HReach (ann (ords T) entry) (RSt.init init) k m)
    {e q i a n : Nat} (he : k.sh.log[e]? = some (.done i (a, some n))) (hq : k.sh.log[q]? = some (.ds (.pdone n)))
    (heq : e < q) : m.hb e q := by
  have key : ∀ e i, k.sh.log[e]? = some (.done i (a, some n)) → Got a n e k.sh k.acts m := by
    refine HReach.inv (A := ann (ords T) entry) (P := fun c => RInv (lawful' T) c.sh c.acts)
      (Q := fun s acts' m => ∀ e i, s.log[e]? = some (.done i (a, some n)) → Got a n e s acts' m)
      (fun c hc => reach_inv (lawful' T) hc) ?_ ?_ ?_ h
    · intro e v hv; simp [RSt.init] at hv
    · intro c m act s' p hP _ hQ he e i hv
      obtain ⟨h1, h2, evs, h3, h4, h5⟩ := env_log (acts := c.acts) he
      have hlt : e < c.sh.log.length := by
        apply Classical.byContradiction
        intro hn
        rw [h3, List.getElem?_append_right (by omega)] at hv
        exact h4 _ _ (List.mem_of_getElem? hv)
      rw [h3, List.getElem?_append_left hlt] at hv
      obtain ⟨g1, g2, g3, g4⟩ := hQ e i hv
      refine ⟨g1.env ?_, g2.step h3 ?_, g3.env ?_, ?_⟩
      · rintro ⟨y, hy, hF⟩; exact absurd hF (env_fin he y hy)
      · rintro ⟨w, hw, rfl⟩; exact absurd hw (h5 _)
      · rintro ⟨y, hy, rfl⟩
        obtain ⟨rfl, hc⟩ := env_push he hy
        exact .inl (m.acquire_mono _ (Mem.known_of hlt (ho _ _ _ _ _ hv) (.inl rfl)))
      · rcases g4 with g | g | g
        · rcases env_handles he g with g | g
          · exact .inl g
          · exact .inr (.inl ⟨p, by simp, g⟩)
        · obtain ⟨l, hl, hm⟩ := g
          exact .inr (.inl ⟨l, by simp [hl], hm⟩)
        · exact .inr (.inr (Mem.keep (by simp) g))
    · intro c m k x r b s' p hP hP' hQ hk he e i hv
      obtain ⟨evs, h3⟩ := exec_log he
      have F := stepF (n := n) he h3
      by_cases hlt : e < c.sh.log.length
      · rw [h3, List.getElem?_append_left hlt] at hv
        obtain ⟨g1, g2, g3, g4⟩ := hQ e i hv
        have hn : n ≠ c.sh.d.posts := by
          obtain ⟨ph, ⟨hI, _⟩, _⟩ := hP
          have := posts_gt hI (List.mem_of_getElem? hv) (.inr ⟨i, a, rfl⟩)
          omega
        have hst : ∀ a ∈ eff (ords T) c.sh x b, a.stores (.at n) = false := by
          intro a ha
          cases hs : a.stores (.at n) with
          | false => rfl
          | true => exact absurd (F.store a ha hs) hn
        have hx : x = .ds (.ack a n) → m.acquire (m.view k) (eff (ords T) c.sh x b) e = true := fun hx =>
          m.acquire_mono _ (g3 k _ hk x (by simp) hx)
        have hsub : ∀ h ∈ c.sh.d.handles, h ∈ s'.d.handles := run_handles he
        have hst' : (a, n) ∈ s'.d.handles ∨ Pending (c.acts.set k (p ++ r)) (.ds (.ack a n)) ∨
            x = .ds (.ack a n) ∨ m.msg (.at n) e = true := by
          rcases g4 with g | g | g
          · exact .inl (hsub _ g)
          · rcases pending_keep (p := p) hk g with g | g
            · exact .inr (.inl g)
            · exact .inr (.inr (.inl g.symm))
          · exact .inr (.inr (.inr g))
        refine ⟨g1.run hk ?_, g2.step h3 ?_, g3.run hk ?_, ?_⟩
        · intro hp
          rcases F.push hp with h | h | h
          · exact m.acquire_mono _ (g1 k _ hk x (by simp) h)
          · have hno : ¬ ((a, n) ∈ s'.d.handles ∨ Pending (c.acts.set k (p ++ r)) (.ds (.ack a n))) := by
              intro ho
              obtain ⟨y, hy, hF⟩ := hp
              refine no_fin hP' (owe_ne hP' ho) (p ++ r) ?_ y (by simp [hy]) hF
              have := (List.getElem?_eq_some_iff.1 hk).1
              exact List.mem_of_getElem? (i := k) (by simp [this])
            rcases hst' with g | g | g | g
            · exact absurd (.inl g) hno
            · exact absurd (.inr g) hno
            · exact hx g
            · exact m.acquire_msg h (by simp [Acc.acquires]) g
          · exact absurd h hn
        · rintro ⟨w, hw, rfl⟩
          exact m.acquire_mono _ (g1 k _ hk x (by simp) (.inr (F.pdone hw)))
        · rintro ⟨y, hy, rfl⟩; exact absurd hy (F.pushA a)
        · rcases hst' with g | g | g | g
          · exact .inl g
          · exact .inr (.inl g)
          · exact .inr (.inr (Mem.publish hst (F.ack a g) (by simp [Acc.releases]) (.inl (hx g))))
          · exact .inr (.inr (Mem.keep hst g))
      · have hlt' := (List.getElem?_eq_some_iff.1 hv).1
        have hge := Nat.le_of_not_lt hlt
        have hh : (a, n) ∈ s'.d.handles := by
          have hw : Ev.done i (a, some n) ∈ evs := by
            have hv := hv
            rw [h3, List.getElem?_append_right (by omega)] at hv
            exact List.mem_of_getElem? hv
          have hd := run_done he (w := .done i (a, some n)) (by rw [h3]; simpa using hw) rfl
          obtain ⟨ph, ⟨hI, hJ⟩, _⟩ := hP'
          have hs := split_at hv
          have h1 : s'.d.nd i = some n := hJ.gets _ _ _ hs
          obtain ⟨ct, h2⟩ := (hI.hist _ _ _ hs).1
          have h3 := (hI.A.run i ct a (List.mem_of_mem_take h2)).1
          have hd1 : s'.d.nd = c.sh.d.nd := by rw [hd]; unfold PostAck.fin; split <;> rfl
          have hd2 : s'.d.agOf = c.sh.d.agOf := by rw [hd]; unfold PostAck.fin; split <;> rfl
          rw [hd1] at h1; rw [hd2] at h3
          rw [hd]; unfold PostAck.fin
          rw [h1, h3]; simp
        refine ⟨?_, ?_, ?_, .inl hh⟩
        · intro j a' hj y hy hF
          exact absurd hF (no_fin hP' (owe_ne hP' (.inl hh)) a' (List.mem_of_getElem? hj) y hy)
        · intro n w hn _ hen
          have := (List.getElem?_eq_some_iff.1 hn).1
          rw [Mem.act_past_new _ _ _ _ _ _ (Nat.le_trans hge (Nat.le_of_lt hen)) this]
          simp [hge, hen]
        · rintro j a' hj y hy rfl
          exfalso
          obtain ⟨ph, ⟨hI, _⟩, _⟩ := hP'
          have hI : PostAck.Inv s'.d ph s'.log (dsPend (c.acts.set k (p ++ r))) := hI
          have h1 := hI.B.owe a n
          have h2 := List.count_pos_iff.2 hh
          have h3 := List.countP_pos_iff.2 ⟨_, mem_dsPend ⟨a', List.mem_of_getElem? hj, hy⟩,
            (by simp [isAck] : isAck a n (.ack a n : I T) = true)⟩
          have h4 := List.nodup_iff_count.1 (hI.B.oweN n) a
          omega
  exact (key e i he).done q _ hq rfl heq

/-! ## Posts -/

theorem posted_exists {log : List (Event T)} (h : Hist hist log) {n : Nat} (hn : n < (spec log).posts) :
    ∃ (p : Nat) (y : T), log[p]? = some (.ds (.posted n y)) := by
  induction log using List.reverseRecOn with
  | nil => simp [spec] at hn
  | append_singleton log v ih =>
    rw [Hist.snoc] at h
    rw [spec_append] at hn
    have old : n < (spec log).posts → ∃ (p : Nat) (y : T), (log ++ [v])[p]? = some (.ds (.posted n y)) := by
      intro hn
      obtain ⟨p, y, hp⟩ := ih h.1 hn
      exact ⟨p, y, by rw [List.getElem?_append_left (List.getElem?_eq_some_iff.1 hp).1]; exact hp⟩
    by_cases hv : ∃ n' y, v = .ds (.posted n' y)
    · obtain ⟨n', y, rfl⟩ := hv
      have : n' = (spec log).posts := h.2
      simp only [Spec.step] at hn
      by_cases hnn : n = (spec log).posts
      · exact ⟨log.length, y, by simp [hnn, this]⟩
      · exact old (by omega)
    · apply old
      unfold Spec.step at hn
      split at hn <;> first | exact hn | exact absurd ⟨_, _, rfl⟩ hv

theorem posted_unique {log : List (Event T)} (h : Hist hist log) {n p q : Nat} {y z : T}
    (hp : log[p]? = some (.ds (.posted n y))) (hq : log[q]? = some (.ds (.posted n z))) : p = q := by
  have key : ∀ (p q : Nat) y z, log[p]? = some (.ds (.posted n y)) → log[q]? = some (.ds (.posted n z)) → ¬ p < q := by
    intro p q y z hp hq hlt
    have h1 : n = (spec (log.take p)).posts := h _ _ _ (split_at hp)
    have h2 : n = (spec (log.take q)).posts := h _ _ _ (split_at hq)
    have h3 : log.take (p + 1) = log.take p ++ [.ds (.posted n y)] := by rw [List.take_add_one, hp]; rfl
    have h4 := posts_mono (log.take (p + 1)) ((log.take q).drop (p + 1))
    have h5 : log.take (p + 1) ++ (log.take q).drop (p + 1) = log.take q := by
      have := List.take_append_drop (p + 1) (log.take q)
      rwa [List.take_take, Nat.min_eq_left (by omega)] at this
    rw [h5, h3, spec_append] at h4
    simp only [Spec.step] at h4
    omega
  have := key p q y z hp hq
  have := key q p z y hq hp
  omega

theorem hist_of (h : Reach (mach (ds T)) (RSt.init init) k) : Hist hist k.sh.log := by
  obtain ⟨ph, ⟨hI, _⟩, _⟩ := reach_inv (lawful' T) h
  exact hI.hist

theorem gets_of (h : Reach (mach (ds T)) (RSt.init init) k) : Hist (gets k.sh.d) k.sh.log := by
  obtain ⟨ph, ⟨_, hJ⟩, _⟩ := reach_inv (lawful' T) h
  exact hJ.gets

/-- C62. If a poll returns a post then the call of `post` happens before the completion of the poll. -/
theorem C62_post_before_poll (h : HReach (ann (ords T) entry) (RSt.init init) k m) {b i a n : Nat}
    (hb : k.sh.log[b]? = some (.done i (a, some n))) : ∃ p y, k.sh.log[p]? = some (.ds (.posted n y)) ∧ m.hb p b := by
  have hH := hist_of h.reach
  have hG := gets_of h.reach
  obtain ⟨q, v, hq, hv, hD⟩ := (marks T).decided h.reach hb
  rcases hD with ⟨rfl, -⟩ | ⟨n', y, rfl, hi, hx⟩ | ⟨_, hx⟩
  · obtain ⟨n', h1, h2⟩ := hG _ _ _ (split_at hv)
    have h3 : k.sh.d.nd i = some n := hG _ _ _ (split_at hb)
    obtain rfl : n' = n := by rw [h1] at h3; simpa using h3
    obtain ⟨p, y, hp⟩ := posted_exists (hist_take hH q) h2
    have hpq := (List.getElem?_eq_some_iff.1 hp).1
    rw [List.length_take] at hpq
    rw [List.getElem?_take_of_lt (by omega)] at hp
    exact ⟨p, y, hp, h.hb_trans (grows _ _ entry) (sections_ordered (hlaw T) h hp trivial hv trivial (by omega))
      (completes_after (hlaw T) h hv rfl hb)⟩
  · simp at hx; subst hx
    exact ⟨q, y, hv, completes_after (hlaw T) h hv hi hb⟩
  · simp at hx

/-- The completion of a post is caused by the last acknowledgment, or by the post itself. -/
theorem dcarry (T : Type) : DCarry (ds T) (fun v n => (∃ y, v = .posted n y) ∨ ∃ a, v = .acked a n ∨ v = .released a n)
    (fun x n => x = .erase n ∨ x = .pdone n) (fun v n => v = .pdone n) where
  call {d x d' q} h hi := by rcases hi with rfl | rfl <;> simp [call] at h
  start {d i b d' r es v q} h hv ht := by
    subst ht
    rcases start_cases h with ⟨_, rfl⟩ | ⟨a, n, _, rfl⟩ <;> simp at hv
  cancel {d i d' r es v q} h hv ht := by
    subst ht
    rcases tryCancel_cases h with ⟨_, rfl⟩ | ⟨_, rfl⟩ <;> simp at hv
  exec {d x b d' ps es} h := by
    refine ⟨?_, fun v hv q hq => .inr ((exec_fin (b := b) h).2.1 (by rw [← hq]; exact hv))⟩
    intro y q hy hq
    cases x <;> simp only [exec] at h
    case post z =>
      split at h
      · split at h <;> simp at h
        obtain ⟨rfl, rfl, rfl⟩ := h
        simp at hy; subst hy
        simp at hq; subst hq
        exact .inr ⟨_, by simp, .inl ⟨z, rfl⟩⟩
      · split at h <;> simp at h
        obtain ⟨rfl, rfl, rfl⟩ := h
        simp at hy
    case pdone n => simp at h; obtain ⟨rfl, rfl, rfl⟩ := h; simp at hy
    case attach a =>
      split at h <;> simp at h
      obtain ⟨rfl, rfl, rfl⟩ := h; simp at hy
    case detach a =>
      split at h
      · simp at h
      · split at h
        · split at h
          · rename_i hr
            simp at h; obtain ⟨rfl, rfl, rfl⟩ := h
            obtain ⟨h1, _⟩ := release_ps hr
            obtain ⟨_, _, rfl, _⟩ := release_quiet hr
            rcases h1 _ hy with h | h <;> simp at h <;> subst h <;> simp at hq
            subst hq
            exact .inr ⟨_, by simp, .inr ⟨a, .inr rfl⟩⟩
          · simp at h
        · simp at h; obtain ⟨rfl, rfl, rfl⟩ := h; simp at hy
    case det a r =>
      split at h
      · simp at h; obtain ⟨rfl, rfl, rfl⟩ := h; simp at hy
      · obtain ⟨h1, _⟩ := release_ps h
        obtain ⟨_, _, rfl, _⟩ := release_quiet h
        rcases h1 _ hy with h | h <;> simp at h <;> subst h <;> simp at hq
        subst hq
        exact .inr ⟨_, by simp, .inr ⟨a, .inr rfl⟩⟩
    case ack a n =>
      split at h <;> simp at h
      obtain ⟨rfl, rfl, rfl⟩ := h
      split at hy <;> simp at hy
      subst hy; simp at hq; subst hq
      exact .inr ⟨_, by simp, .inr ⟨a, .inl rfl⟩⟩
    case erase n =>
      split at h <;> simp at h
      obtain ⟨rfl, rfl, rfl⟩ := h; simp at hy
      subst hy; simp at hq; subst hq
      exact .inl (.inl rfl)

/-- C62. The call of `post` happens before its completion. -/
theorem C62_post_before_completion (ho : Ordered entry) (h : HReach (ann (ords T) entry) (RSt.init init) k m)
    {e q n : Nat} {y : T} (he : k.sh.log[e]? = some (.ds (.posted n y))) (hq : k.sh.log[q]? = some (.ds (.pdone n))) :
    m.hb e q := by
  have hH := hist_of h.reach
  obtain ⟨p, v, hp, hv, hpq⟩ := (dcarry T).knows h hq rfl
  rcases hv with ⟨z, rfl⟩ | ⟨a, rfl | rfl⟩
  · rw [posted_unique hH he hp]; exact hpq
  · have hlt := h.hb_lt (grows _ _ entry) hpq
    obtain ⟨i, hi⟩ := (hH _ _ _ (split_at hp)).2
    obtain ⟨b, hb⟩ := List.getElem?_of_mem hi
    have hbp := (List.getElem?_eq_some_iff.1 hb).1
    rw [List.length_take] at hbp
    rw [List.getElem?_take_of_lt (by omega)] at hb
    obtain ⟨e', z, he', hbe⟩ := C62_post_before_poll h hb
    rw [posted_unique hH he he']
    exact h.hb_trans (grows _ _ entry) hbe (C62_polls_before_completion ho h hb hq (by omega))
  · obtain ⟨e', z, he'⟩ := posted_exists (hist_take hH p) (owe_lt (hist_take hH p) (hH _ _ _ (split_at hp)).1)
    have hep := (List.getElem?_eq_some_iff.1 he').1
    rw [List.length_take] at hep
    rw [List.getElem?_take_of_lt (by omega)] at he'
    rw [posted_unique hH he he']
    exact h.hb_trans (grows _ _ entry) (sections_ordered (hlaw T) h he' trivial hp trivial (by omega)) hpq

/-- C62. If a poll is cancelled then a cancellation of its event happens before its completion. -/
theorem C62_cancel_before_completion (h : HReach (ann (ords T) entry) (RSt.init init) k m) {b i a : Nat}
    (hb : k.sh.log[b]? = some (.done i (a, none))) :
    ∃ ev e, k.sh.ct i = some ev ∧ k.sh.log[e]? = some (.cancel ev) ∧ m.hb e b := by
  obtain ⟨q, v, hq, hv, hD⟩ := (marks T).decided h.reach hb
  rcases hD with ⟨rfl, _, _, hx⟩ | ⟨n', y, rfl, hi, hx⟩ | ⟨rfl, -⟩
  · simp at hx
  · simp at hx
  · obtain ⟨ev, e, h2, h3, h4⟩ := withdrawn_after_cancel (lawful' T) (hcanc T) h hv rfl
    exact ⟨ev, e, h2, h3, h.hb_trans (grows _ _ entry) h4 (completes_after (hlaw T) h hv rfl hb)⟩

/-- C62. Creating and starting a poll happens before its completion. -/
theorem C62_created_before_completion (h : HReach (ann (ords T) entry) (RSt.init init) k m) {a n i : Nat}
    {ct : Option EvId} {g : Agent} {x : Agent × Option Nat} (ha : k.sh.log[a]? = some (.begin i ct g))
    (hn : k.sh.log[n]? = some (.done i x)) (han : a < n) : m.hb a n :=
  created_before_completion (hlaw T) h ha hn han

/-! ## Example -/

/-- Those who acknowledge know everything. -/
def entryD : RSt (ds Nat) → Act (ds Nat) → Nat → Bool
  | _, .call (.ack _ _), _ => true
  | _, _, _ => false

theorem entryD_ordered : Ordered entryD := fun _ _ _ _ _ _ => rfl

/-- The schedule of `run1`. -/
def hdemo : Conf (mach (ds Nat)) × Mem (Loc (ords Nat).A) := (ann (ords Nat) entryD).go (RSt.init init) run1

theorem hdemo_reach : HReach (ann (ords Nat) entryD) (RSt.init init) hdemo.1 hdemo.2 := HReach.go _ _ _

set_option maxRecDepth 10000 in
theorem hdemo_log : hdemo.1.sh.log = log1 := rfl

example : hdemo.2.hb 14 19 :=
  C62_acks_before_completion hdemo_reach (a := 0) (n := 1) (.inl (by rw [hdemo_log]; rfl)) (by rw [hdemo_log]; rfl) (by omega)
example : hdemo.2.hb 13 19 :=
  C62_polls_before_completion entryD_ordered hdemo_reach (i := 1) (a := 0) (n := 1) (by rw [hdemo_log]; rfl)
    (by rw [hdemo_log]; rfl) (by omega)
example : hdemo.2.hb 9 19 :=
  C62_post_before_completion entryD_ordered hdemo_reach (n := 1) (y := 101) (by rw [hdemo_log]; rfl) (by rw [hdemo_log]; rfl)
example : ∃ p y, hdemo.1.sh.log[p]? = some (.ds (.posted 1 y)) ∧ hdemo.2.hb p 13 :=
  C62_post_before_poll hdemo_reach (i := 1) (a := 0) (by rw [hdemo_log]; rfl)
example : ∃ ev e, hdemo.1.sh.ct 0 = some ev ∧ hdemo.1.sh.log[e]? = some (.cancel ev) ∧ hdemo.2.hb e 8 :=
  C62_cancel_before_completion hdemo_reach (a := 0) (by rw [hdemo_log]; rfl)
example : hdemo.2.hb 4 8 :=
  C62_created_before_completion hdemo_reach (i := 0) (ct := some 7) (g := 0) (x := (0, none)) (by rw [hdemo_log]; rfl)
    (by rw [hdemo_log]; rfl) (by omega)

set_option maxRecDepth 10000 in
/-- Events of different threads that are not ordered: the completion of poll 0 and post 1. -/
example : ¬ hdemo.2.hb 8 9 := by decide

end Verif.PostAck
