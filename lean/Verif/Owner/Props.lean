import Verif.Owner.Model
import Verif.Induct

/-!
# Properties of `generator` and `result` objects (C65)

Specification: a table says which coroutine each object owns. It does not mention handles, swapping or temporaries,
and is the same for both classes.
-/

namespace Verif.Owner

/-- For each object that exists, the coroutine that it owns, if any. -/
abbrev Table := Obj → Option (Option Id)

/-- What a call does to the table. -/
def Table.after (t : Table) : Call → Table
  | .make o g => fun x => if x = o then some (some g) else t x
  | .empty o => fun x => if x = o then some none else t x
  | .move o src => fun x => if x = o then t src else if x = src then some none else t x
  | .assign o src _ =>
    if o = src then t else fun x => if x = o then t src else if x = src then some none else t x
  | .del o => fun x => if x = o then none else t x

/-- Destroying the coroutine that is owned. -/
def dropped : Option (Option Id) → List Ev
  | some (some g) => [.destroy g]
  | _ => []

/-- The coroutines that a call creates and destroys. -/
def Table.events (t : Table) : Call → List Ev
  | .make _ g => [.create g]
  | .assign o src _ => if o = src then [] else dropped (t o)
  | .del o => dropped (t o)
  | .empty _ | .move _ _ => []

/-- The table and all coroutine events after a sequence of calls. -/
def spec : List Call → Table × List Ev :=
  List.foldl (fun a c => (a.1.after c, a.2 ++ a.1.events c)) (fun _ => none, [])

theorem spec_snoc (cs : List Call) (c : Call) :
    spec (cs ++ [c]) = ((spec cs).1.after c, (spec cs).2 ++ (spec cs).1.events c) := by
  simp [spec, List.foldl_append]

/-! ## Invariant -/

structure Inv (s : St) : Prop where
  own : ∀ o g, s.obj o = some (some g) → s.live g = true
  uniq : ∀ o o' g, s.obj o = some (some g) → s.obj o' = some (some g) → o = o'
  held : ∀ g, s.live g = true → ∃ o, s.obj o = some (some g)
  cr : ∀ g, s.live g = true → .create g ∈ s.log
  ds : ∀ g, .create g ∈ s.log → s.live g = true ∨ .destroy g ∈ s.log
  dl : ∀ g, s.live g = true → .destroy g ∉ s.log
  ok : Hist (fun before e => match e with
    | .create g => .create g ∉ before ∧ .destroy g ∉ before
    | .destroy g => .create g ∈ before ∧ .destroy g ∉ before) s.log

theorem destroyed_made {s : St} (h : Inv s) {g : Id} (hd : .destroy g ∈ s.log) : .create g ∈ s.log := by
  obtain ⟨l1, l2, e, h1⟩ := h.ok.mem hd
  rw [e]; exact List.mem_append_left _ h1.1

/-- Ownership moves from `src` to `o`, which owned `old`. -/
theorem Inv.xfer {s : St} (h : Inv s) {o src : Obj} {hs : Option Id} (hne : o ≠ src) (h1 : s.obj src = some hs)
    (h2 : s.obj o = none ∨ s.obj o = some none) :
    Inv { s with obj := fun x => if x = o then some hs else if x = src then some none else s.obj x } := by
  obtain ⟨own, uniq, held, cr, ds, dl, ok⟩ := h
  refine ⟨?_, ?_, ?_, cr, ds, dl, ok⟩
  · grind
  · grind
  · intro g hg
    obtain ⟨x, hx⟩ := held g hg
    by_cases e : x = src
    · exact ⟨o, by grind⟩
    · exact ⟨x, by grind⟩

/-- The owner of `g` lets go of it and destroys it. -/
theorem Inv.drop {s : St} (h : Inv s) {o : Obj} {g : Id} {v : Option (Option Id)} (h1 : s.obj o = some (some g))
    (hv : v = none ∨ v = some none) :
    Inv { obj := fun x => if x = o then v else s.obj x, live := upd s.live g false, log := s.log ++ [.destroy g] } := by
  have hm := fun g => @destroyed_made s h g
  obtain ⟨own, uniq, held, cr, ds, dl, ok⟩ := h
  refine ⟨?_, ?_, ?_, ?_, ?_, ?_, ?_⟩
  · grind
  · grind
  · intro g' hg
    obtain ⟨x, hx⟩ := held g' (by grind)
    exact ⟨x, by grind⟩
  · grind
  · grind
  · grind
  · rw [Hist.snoc]; exact ⟨ok, by grind⟩

/-- An object that owns nothing begins or ends. -/
theorem Inv.idle {s : St} (h : Inv s) {o : Obj} {v : Option (Option Id)} (h1 : s.obj o = none ∨ s.obj o = some none)
    (hv : v = none ∨ v = some none) : Inv { s with obj := fun x => if x = o then v else s.obj x } := by
  obtain ⟨own, uniq, held, cr, ds, dl, ok⟩ := h
  refine ⟨?_, ?_, ?_, cr, ds, dl, ok⟩
  · grind
  · grind
  · intro g' hg
    obtain ⟨x, hx⟩ := held g' hg
    exact ⟨x, by grind⟩

theorem Inv.make {s : St} (h : Inv s) {o : Obj} {g : Id} (h1 : s.obj o = none) (hg : .create g ∉ s.log) :
    Inv { obj := fun x => if x = o then some (some g) else s.obj x, live := upd s.live g true, log := s.log ++ [.create g] } := by
  have hm := fun g => @destroyed_made s h g
  obtain ⟨own, uniq, held, cr, ds, dl, ok⟩ := h
  refine ⟨?_, ?_, ?_, ?_, ?_, ?_, ?_⟩
  · grind
  · grind
  · intro g' hg'
    by_cases e : g' = g
    · exact ⟨o, by grind⟩
    · obtain ⟨x, hx⟩ := held g' (by grind)
      exact ⟨x, by grind⟩
  · grind
  · grind
  · grind
  · rw [Hist.snoc]; exact ⟨ok, by grind⟩

/-- One call: no undefined behaviour, the table and the events are those of the specification. -/
theorem call_ok {k : Kind} {s : St} {c : Call} (h : Inv s) (ha : allowed k s c = true) :
    ∃ s', call k s c = some s' ∧ Inv s' ∧ s'.obj = Table.after s.obj c ∧ s'.log = s.log ++ Table.events s.obj c := by
  cases c with
  | make o g =>
    simp [allowed] at ha
    exact ⟨_, rfl, h.make ha.1 ha.2, rfl, rfl⟩
  | empty o =>
    simp [allowed] at ha
    exact ⟨_, rfl, h.idle (.inl ha.1) (.inr rfl), rfl, by simp [Table.events]⟩
  | del o =>
    simp [allowed] at ha
    obtain ⟨hs, h1⟩ := Option.ne_none_iff_exists'.1 ha
    cases hs with
    | none =>
      refine ⟨_, by simp [call, dtor, St.get, h1, St.clean, St.finish]; rfl, h.idle (.inr h1) (.inl rfl), rfl, ?_⟩
      simp [Table.events, dropped, h1]
    | some g =>
      refine ⟨_, by simp [call, dtor, St.get, h1, St.clean, St.finish, St.destroy, h.own o g h1]; rfl, h.drop h1 (.inl rfl), rfl, ?_⟩
      simp [Table.events, dropped, h1]
  | move o src =>
    simp [allowed] at ha
    obtain ⟨h0, ha⟩ := ha
    obtain ⟨hs, h1⟩ := Option.ne_none_iff_exists'.1 ha
    have hne : o ≠ src := by rintro rfl; rw [h0] at h1; cases h1
    refine ⟨_, ?_, h.xfer hne h1 (.inl h0), ?_, ?_⟩
    · cases k
      · simp [call, moveGen, St.get, h1, St.put, St.begin]
        funext x; simp only [upd_apply]
      · simp [call, moveRes, St.get, h1, St.put, St.begin, hne, Ne.symm hne]
        funext x; simp only [upd_apply]; grind
    · funext x; simp [Table.after, h1]
    · simp [Table.events]
  | assign o src tmp =>
    simp [allowed] at ha
    obtain ⟨⟨h0, h1⟩, h2⟩ := ha
    obtain ⟨ho, h0⟩ := Option.ne_none_iff_exists'.1 h0
    obtain ⟨hs, h1⟩ := Option.ne_none_iff_exists'.1 h1
    have ht1 : o ≠ tmp := by rintro rfl; rw [h0] at h2; cases h2
    have ht2 : src ≠ tmp := by rintro rfl; rw [h1] at h2; cases h2
    by_cases he : o = src
    · subst he
      rw [h0] at h1; cases h1
      refine ⟨s, ?_, h, by simp [Table.after], by simp [Table.events]⟩
      cases k
      · simp [call, assignGen, St.get, h0, St.put, St.clean]
        cases s; simp; funext x; grind
      · simp [call, assignRes, moveRes, St.get, h0, St.put, St.begin, ht1, Ne.symm ht1, dtor, St.clean, St.finish]
        cases s; simp; funext x; grind
    · cases ho with
      | none =>
        refine ⟨_, ?_, h.xfer he h1 (.inr h0), ?_, by simp [Table.events, he, h0, dropped]⟩
        · cases k
          · simp [call, assignGen, St.get, h1, St.put, he, h0, St.clean]
            funext x; grind
          · simp [call, assignRes, moveRes, St.get, h0, h1, St.put, St.begin, ht1, ht2, Ne.symm ht1, Ne.symm ht2, dtor, St.clean, St.finish, he, Ne.symm he]
            funext x; grind
        · simp [Table.after, he, h1]
      | some g =>
        have hi := (h.drop h0 (.inr rfl)).xfer he (hs := hs) (by simp [Ne.symm he, h1]) (.inr (by simp))
        refine ⟨_, ?_, hi, ?_, by simp [Table.events, he, h0, dropped]⟩
        · cases k
          · simp [call, assignGen, St.get, h1, St.put, he, h0, St.clean, St.destroy, h.own o g h0]
            funext x; grind
          · simp [call, assignRes, moveRes, St.get, h0, h1, St.put, St.begin, ht1, ht2, Ne.symm ht1, Ne.symm ht2, dtor, St.clean, St.finish, he, Ne.symm he, St.destroy, h.own o g h0]
            funext x; grind
        · simp [Table.after, he, h1]; grind

theorem runs_ok {k : Kind} {cs : List Call} {r : Option St} (h : Runs k cs r) :
    ∃ s, r = some s ∧ Inv s ∧ s.obj = (spec cs).1 ∧ s.log = (spec cs).2 := by
  induction h with
  | nil =>
    refine ⟨init, rfl, ⟨?_, ?_, ?_, ?_, ?_, ?_, .nil⟩, rfl, rfl⟩ <;> simp [init]
  | @snoc cs s c hr ha ih =>
    obtain ⟨s', e, hi, h1, h2⟩ := ih
    cases e
    obtain ⟨s'', e, hi', h3, h4⟩ := call_ok hi ha
    refine ⟨s'', e, hi', ?_, ?_⟩
    · rw [h3, spec_snoc, h1]
    · rw [h4, spec_snoc, h1, h2]

/-! ## Properties -/

variable {k : Kind} {cs : List Call} {r : Option St}

/-- C65. No sequence of constructions, moves, assignments (including self-assignment) and destructions leads to
undefined behaviour: no frame is destroyed twice, no object is used outside of its lifetime. -/
theorem C65_no_fault (h : Runs k cs r) : r ≠ none := by
  obtain ⟨s, rfl, _⟩ := runs_ok h; simp

/-- C65. Both classes transfer ownership as the table says: a move leaves the source empty, assignment destroys what
the target owned, self-assignment does nothing, and coroutines are destroyed at no other time. -/
theorem C65_ownership {s : St} (h : Runs k cs (some s)) : s.obj = (spec cs).1 ∧ s.log = (spec cs).2 := by
  obtain ⟨s, e, _, h⟩ := runs_ok h; cases e; exact h

/-- C65. A coroutine has at most one owner. -/
theorem C65_unique_owner {s : St} (h : Runs k cs (some s)) {o o' : Obj} {g : Id} (h1 : s.obj o = some (some g))
    (h2 : s.obj o' = some (some g)) : o = o' := by
  obtain ⟨s, e, hi, _⟩ := runs_ok h; cases e; exact hi.uniq o o' g h1 h2

/-- C65. A coroutine is destroyed at most once, and it is destroyed if and only if it has no owner any more. -/
theorem C65_destroyed_iff {s : St} (h : Runs k cs (some s)) {g : Id} (hc : .create g ∈ s.log) :
    s.log.count (.destroy g) ≤ 1 ∧ (.destroy g ∈ s.log ↔ ∀ o, s.obj o ≠ some (some g)) := by
  obtain ⟨s, e, hi, _⟩ := runs_ok h
  cases e
  refine ⟨hi.ok.count_le_one (fun before hb => hb.2), fun hd o ho => hi.dl g (hi.own o g ho) hd, fun ho => ?_⟩
  rcases hi.ds g hc with h2 | h2
  · obtain ⟨o, h3⟩ := hi.held g h2
    exact absurd h3 (ho o)
  · exact h2

/-- C65. No leak: when all objects are gone, each coroutine was destroyed exactly once. -/
theorem C65_no_leak {s : St} (h : Runs k cs (some s)) (hg : ∀ o, s.obj o = none) {g : Id} (hc : .create g ∈ s.log) :
    s.log.count (.destroy g) = 1 := by
  obtain ⟨h1, h2⟩ := C65_destroyed_iff h hc
  have := List.count_pos_iff.2 (h2.2 (by simp [hg]))
  omega

/-! ## Examples -/

/-- A program that moves, assigns over an owner, assigns to itself and destroys everything. -/
def prog : List Call :=
  [.make 0 10, .make 1 11, .move 2 0, .assign 1 2 9, .assign 1 1 9, .make 3 12, .assign 0 3 9, .del 0, .del 1, .del 2,
   .del 3]

/-- The state after a program (`none` if it breaks the contract or has undefined behaviour). -/
def exec (k : Kind) (cs : List Call) : Option St :=
  cs.foldl (fun r c => match r with
    | some s => if allowed k s c then call k s c else none
    | none => none) (some init)

theorem exec_snoc (k : Kind) (cs : List Call) (c : Call) : exec k (cs ++ [c]) = match exec k cs with
    | some s => if allowed k s c then call k s c else none
    | none => none := by
  simp [exec, List.foldl_append]

theorem exec_runs {k : Kind} : ∀ (n : Nat) (cs : List Call) {s : St}, cs.length = n → exec k cs = some s → Runs k cs (some s)
  | 0, cs, s, hn, h => by
    cases List.eq_nil_of_length_eq_zero hn
    cases h; exact .nil
  | n + 1, cs, s, hn, h => by
    have hne : cs ≠ [] := by rintro rfl; simp at hn
    have e := List.dropLast_concat_getLast hne
    rw [← e] at h ⊢
    rw [exec_snoc] at h
    split at h
    · rename_i s0 h0
      split at h
      · rename_i ha
        rw [← h]; exact .snoc (exec_runs n _ (by simp [hn]) h0) ha
      · cases h
    · cases h

/-- Both classes run it. -/
theorem prog_runs (k : Kind) : ∃ s, Runs k prog (some s) ∧ s.log = [.create 10, .create 11, .destroy 11, .create 12,
    .destroy 12, .destroy 10] ∧ ∀ o, s.obj o = none := by
  have : ∃ s, exec k prog = some s ∧ s.log = [.create 10, .create 11, .destroy 11, .create 12, .destroy 12,
      .destroy 10] := by
    cases k
    · exact ⟨_, rfl, rfl⟩
    · exact ⟨_, rfl, rfl⟩
  obtain ⟨s, h1, h2⟩ := this
  have h3 := exec_runs _ _ rfl h1
  refine ⟨s, h3, h2, fun o => ?_⟩
  rw [(C65_ownership h3).1]
  simp only [prog, spec, List.foldl, Table.after]
  simp
  grind

example (k : Kind) : ∃ s, Runs k prog (some s) ∧ s.log.count (.destroy 11) = 1 := by
  obtain ⟨s, h1, h2, h3⟩ := prog_runs k
  exact ⟨s, h1, C65_no_leak h1 h3 (by simp [h2])⟩

/-- In the middle of the program, object 1 owns coroutine 10, and coroutine 11 is gone. -/
example (k : Kind) : ∃ s, Runs k (prog.take 5) (some s) ∧ s.obj 1 = some (some 10) ∧ s.obj 2 = some none ∧
    (.destroy 11 ∈ s.log ↔ ∀ o, s.obj o ≠ some (some 11)) := by
  have : ∃ s, exec k (prog.take 5) = some s ∧ s.obj 1 = some (some 10) ∧ s.obj 2 = some none ∧
      s.log = [.create 10, .create 11, .destroy 11] := by
    cases k
    · exact ⟨_, rfl, rfl, rfl, rfl⟩
    · exact ⟨_, rfl, rfl, rfl, rfl⟩
  obtain ⟨s, h1, h2, h3, h4⟩ := this
  have h5 := exec_runs _ _ rfl h1
  exact ⟨s, h5, h2, h3, (C65_destroyed_iff h5 (by simp [h4])).2⟩

/-- The end of the program: everything is as the table says. -/
example (k : Kind) : ∃ s, Runs k prog (some s) ∧ s.obj = (spec prog).1 ∧ s.log = (spec prog).2 := by
  obtain ⟨s, h1, -, -⟩ := prog_runs k
  exact ⟨s, h1, C65_ownership h1⟩
example : (spec prog).2 = [.create 10, .create 11, .destroy 11, .create 12, .destroy 12, .destroy 10] := by rfl
example (k : Kind) (r : Option St) (h : Runs k prog r) : r ≠ none := C65_no_fault h
example (k : Kind) : ∃ s, Runs k (prog.take 5) (some s) ∧ ∀ o, s.obj o = some (some 10) → o = 1 := by
  have : ∃ s, exec k (prog.take 5) = some s ∧ s.obj 1 = some (some 10) := by
    cases k
    · exact ⟨_, rfl, rfl⟩
    · exact ⟨_, rfl, rfl⟩
  obtain ⟨s, h1, h2⟩ := this
  have h5 := exec_runs _ _ rfl h1
  exact ⟨s, h5, fun o ho => C65_unique_owner h5 ho h2⟩

end Verif.Owner
