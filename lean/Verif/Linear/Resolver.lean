import Verif.Linear.Spec
import Verif.Linear.Due

/-!
# Strong linearizability of data structures that use `cancellation_resolver`

Generic in the data structure. This file does not model code of `/repo`.
-/

namespace Verif.Resolver

variable {S : DS} {d0 : S.D}

/-- Calls: member function started by environment action number `k`, or wait operation `i`. -/
inductive Call where
  | fn (k : Nat)
  | wait (i : OpId)
deriving DecidableEq

/-- Operations of the sequential object: member functions and the wait operation. -/
inductive Opn (O : Type) where
  | fn (o : O)
  | wait
deriving DecidableEq

/-- Results: of member functions and of the wait operation. -/
inductive Rsl (R V : Type) where
  | ret (r : R)
  | got (v : V)
deriving DecidableEq

/-- How to watch the calls. A member function is invoked by an action of the environment and has returned when its activity has
nothing left to do; `out` reads its result. A wait operation is invoked by starting it and has returned when its receiver is
completed. -/
def watch (d0 : S.D) {O R : Type} (op : S.I → O) (out : List (Lbl (mach S)) → Nat → S.I → R → Prop) :
    Watch (mach S) Call (Opn O) (Rsl R S.V) where
  invoked ls
    | .fn k, o => ∃ x, (envs ls)[k]? = some (.call x) ∧ o = .fn (op x)
    | .wait i, o => o = .wait ∧ ∃ ct p, .newOp i ct p ∈ envs ls
  returned ls
    | .fn k, r => ∃ c x y, (mach S).runs ((mach S).init (RSt.init d0)) ls = some c ∧ c.acts[k]? = some [] ∧
        (envs ls)[k]? = some (.call x) ∧ out ls k x y ∧ r = .ret y
    | .wait i, r => ∃ c v, (mach S).runs ((mach S).init (RSt.init d0)) ls = some c ∧ Ev.done i v ∈ c.sh.log ∧ r = .got v

/-- Where the calls take effect. `abs` is the state of the sequential object. `pt d x`: instruction `x`, executed in state `d`,
is where its call takes effect, with this result. `post`: instructions of a call that has taken effect. -/
structure Points (L : Lawful S d0) {Q O R : Type} (spec : Q → Opn O → Rsl R S.V → Q → Prop) (op : S.I → O) where
  abs : S.D → Q
  pt : S.D → S.I → Option R
  post : S.I → Bool
  stable : Stable L
  admit : ∀ {d i p d'}, S.admit d i p = some d' → abs d' = abs d
  call : ∀ {d x d'}, S.call d x = some d' → abs d' = abs d ∧ post x = false
  fin : ∀ {d i}, abs (S.fin d i) = abs d
  fast : ∀ {d ph log pi i b d' v es}, L.Inv d ph log pi → ph i = .new → S.start d i b = some (d', some v, es) →
    spec (abs d) .wait (.got v) (abs d')
  slow : ∀ {d ph log pi i b d' es}, L.Inv d ph log pi → ph i = .new → S.start d i b = some (d', none, es) → abs d' = abs d
  gone : ∀ {d ph log pi i d' es}, L.Inv d ph log pi → ph i = .waiting → S.tryCancel d i = some (d', true, es) →
    spec (abs d) .wait (.got (S.val d' i)) (abs d')
  lost : ∀ {d ph log pi i d' es}, L.Inv d ph log pi → S.tryCancel d i = some (d', false, es) → abs d' = abs d
  point : ∀ {d ph log pi x b d' ps es r}, L.Inv d ph log (x :: pi) → S.exec d x b = some (d', ps, es) → pt d x = some r →
    post x = false ∧ (∀ y ∈ insts ps, post y = true) ∧ ∃ q, spec (abs d) (.fn (op x)) (.ret r) q ∧
      Accepts (C := Call) spec q ((ops ps).map fun i => (.wait i, .wait, .got (S.val d' i))) (abs d')
  silent : ∀ {d ph log pi x b d' ps es}, L.Inv d ph log (x :: pi) → S.exec d x b = some (d', ps, es) → pt d x = none →
    abs d' = abs d ∧ ops ps = [] ∧ (post x = true → ∀ y ∈ insts ps, post y = true) ∧
      (post x = false → ∃ y, insts ps = [y] ∧ post y = false ∧ op y = op x)

variable {L : Lawful S d0} {Q O R : Type} {spec : Q → Opn O → Rsl R S.V → Q → Prop} {op : S.I → O}

/-- The member function that takes effect. -/
def Points.fns (P : Points L spec op) (s : RSt S) (k : Nat) : Instr S → List (Call × Opn O × Rsl R S.V)
  | .ds x => match P.pt s.d x with
    | some r => [(.fn k, .fn (op x), .ret r)]
    | none => []
  | _ => []

/-- What takes effect at a step: the member function, then the wait operations. -/
def Points.at (P : Points L spec op) (c : Conf (mach S)) : Lbl (mach S) → List (Call × Opn O × Rsl R S.V)
  | .env _ => []
  | .run k b => match c.acts[k]? with
    | some (x :: _) => P.fns c.sh k x ++ (news c.sh x b).map fun e => (.wait e.1, .wait, .got e.2)
    | _ => []

/-- The order of the calls of an execution. -/
def Points.lin (P : Points L spec op) (ls : List (Lbl (mach S))) : List (Call × Opn O × Rsl R S.V) :=
  linRun P.at ((mach S).init (RSt.init d0)) ls

/-- State of activity `a`, started by action `e` as number `k`. -/
def Points.Act (P : Points L spec op) (A : List (Call × Opn O × Rsl R S.V)) (k : Nat) (e : Resolver.Act S) (a : List (Instr S)) :
    Prop :=
  match e with
  | .call x => (∃ y, dsl a = [y] ∧ P.post y = false ∧ op y = op x ∧ ∀ o r, (Call.fn k, o, r) ∉ A) ∨
      ((∀ y ∈ dsl a, P.post y = true) ∧ ∃ r, (Call.fn k, Opn.fn (op x), Rsl.ret r) ∈ A)
  | _ => dsl a = []

/-- The invariant that ties the order to the configuration. -/
structure Points.Tie (P : Points L spec op) (es : List (Resolver.Act S)) (s : RSt S) (acts : List (List (Instr S)))
    (A : List (Call × Opn O × Rsl R S.V)) : Prop where
  acc : Accepts spec (P.abs d0) A (P.abs s.d)
  once : (A.map (·.1)).Nodup
  len : es.length = acts.length
  fnOp : ∀ k o r, (Call.fn k, o, r) ∈ A → ∃ x r', es[k]? = some (.call x) ∧ o = .fn (op x) ∧ r = .ret r'
  act : ∀ k e a, es[k]? = some e → acts[k]? = some a → P.Act A k e a
  wait : ∀ i o r, (Call.wait i, o, r) ∈ A ↔ o = .wait ∧ ∃ v, r = .got v ∧ Due s acts i v
  beg : ∀ i ct p, Ev.begin i ct p ∈ s.log → .newOp i ct p ∈ es

/-- Only instructions of the data structure are followed by such. -/
theorem dsl_push {s s' : RSt S} {x : Instr S} {b : Bool} {p : List (Instr S)} (he : exec s x b = .ok s' p)
    (hx : ∀ y, x ≠ .ds y) : dsl p = [] := by
  cases x with
  | ds y => exact absurd rfl (hx y)
  | cancel e =>
    simp only [exec, Out.ok.injEq] at he; obtain ⟨-, rfl⟩ := he
    induction s.cbs e with
    | nil => rfl
    | cons _ _ ih => simpa [dsl] using ih
  | _ =>
    simp only [exec] at he
    repeat' split at he
    all_goals first
      | (simp at he; done)
      | (simp only [Out.ok.injEq] at he; obtain ⟨-, rfl⟩ := he; rfl)

/-- The log grows by events other than `begin` when an instruction runs. -/
theorem begin_run {s s' : RSt S} {x : Instr S} {b : Bool} {p : List (Instr S)} (he : exec s x b = .ok s' p)
    {i : OpId} {ct : Option EvId} {q : S.P} (h : Ev.begin i ct q ∈ s'.log) : Ev.begin i ct q ∈ s.log := by
  cases x <;> simp only [exec] at he
  all_goals
    repeat' split at he
    all_goals first
      | (simp at he; done)
      | (simp only [Out.ok.injEq] at he; obtain ⟨rfl, -⟩ := he; simpa using h)

/-- What is settled at a step follows the specification, and the member function comes first. -/
theorem Points.step_accepts (P : Points L spec op) {s s' : RSt S} {acts : List (List (Instr S))} {ph : OpId → Phase S.V}
    {k : Nat} {x : Instr S} {r p : List (Instr S)} {b : Bool} (hI : L.Inv s.d ph s.log (dsPend acts)) (hC : Core s acts ph)
    (hk : acts[k]? = some (x :: r)) (he : exec s x b = .ok s' p) :
    Accepts spec (P.abs s.d) (P.fns s k x ++ (news s x b).map fun e => (.wait e.1, .wait, .got e.2)) (P.abs s'.d) := by
  cases x with
  | start j =>
    have hph := phase_start hC hk
    simp only [exec] at he
    cases hs : S.start s.d j b with
    | none => simp [hs] at he
    | some t =>
      obtain ⟨d', o, es⟩ := t
      cases o with
      | none =>
        simp only [hs, Out.ok.injEq] at he; obtain ⟨rfl, -⟩ := he
        simp only [Points.fns, news, hs, List.map_nil, List.append_nil, Accepts]
        exact (P.slow hI hph hs).symm
      | some w =>
        simp only [hs, Out.ok.injEq] at he; obtain ⟨rfl, -⟩ := he
        simp only [Points.fns, news, hs, List.map_cons, List.map_nil, List.nil_append, Accepts]
        exact ⟨_, P.fast hI hph hs, rfl⟩
  | tryCancel j l =>
    simp only [exec] at he
    cases hs : S.tryCancel s.d j with
    | none => simp [hs] at he
    | some t =>
      obtain ⟨d', o, es⟩ := t
      simp only [hs, Out.ok.injEq] at he; obtain ⟨rfl, -⟩ := he
      cases o with
      | false =>
        simp only [Points.fns, news, hs, List.map_nil, List.append_nil, Accepts]
        exact (P.lost hI hs).symm
      | true =>
        simp only [Points.fns, news, hs, List.map_cons, List.map_nil, List.nil_append, Accepts]
        exact ⟨_, P.gone hI (try_waiting hC hI hk hs) hs, rfl⟩
  | ds x =>
    simp only [exec] at he
    cases hs : S.exec s.d x b with
    | none => simp [hs] at he
    | some t =>
      obtain ⟨d', ps, es⟩ := t
      simp only [hs, Out.ok.injEq] at he; obtain ⟨rfl, -⟩ := he
      obtain ⟨rest, hp1, _⟩ := dsPend_set [] hk
      have hI' := L.perm hI hp1
      cases hp : P.pt s.d x with
      | none =>
        obtain ⟨h1, h2, -⟩ := P.silent hI' hs hp
        simp [Points.fns, news, hs, hp, h2, Accepts, h1]
      | some w =>
        obtain ⟨-, -, q, h1, h2⟩ := P.point hI' hs hp
        simp only [Points.fns, news, hs, hp, List.cons_append, List.nil_append, List.map_map]
        exact ⟨q, h1, h2⟩
  | setFast j w => simp only [exec, Out.ok.injEq] at he; obtain ⟨rfl, -⟩ := he; simp [Points.fns, news, Accepts, P.fin]
  | resume j => simp only [exec, Out.ok.injEq] at he; obtain ⟨rfl, -⟩ := he; simp [Points.fns, news, Accepts, P.fin]
  | _ =>
    simp only [exec] at he
    repeat' split at he
    all_goals first
      | (simp at he; done)
      | (simp only [Out.ok.injEq] at he; obtain ⟨rfl, -⟩ := he; simp [Points.fns, news, Accepts])

/-- The operations settled at a step are settled once, and were not settled before. -/
theorem news_fresh {s s' : RSt S} {acts : List (List (Instr S))} {ph : OpId → Phase S.V}
    {k : Nat} {x : Instr S} {r p : List (Instr S)} {b : Bool} (hI : L.Inv s.d ph s.log (dsPend acts)) (hC : Core s acts ph)
    (hk : acts[k]? = some (x :: r)) (he : exec s x b = .ok s' p) :
    ((news s x b).map (·.1)).Nodup ∧ ∀ i ∈ (news s x b).map (·.1), ∀ v, ¬ Due s acts i v := by
  cases x with
  | start j =>
    have hph := phase_start hC hk
    simp only [news]
    split <;> simp
    exact not_due hC (.inl hph)
  | tryCancel j l =>
    simp only [news]
    split
    · rename_i d' es hs
      simp
      exact not_due hC (.inr (try_waiting hC hI hk hs))
    · simp
  | ds x =>
    simp only [news]
    split
    · rename_i d' ps es hs
      obtain ⟨h1, h2⟩ := exec_waiting hI hk hs
      have : ((ops ps).map fun i => (i, S.val d' i)).map (·.1) = ops ps := by simp [Function.comp_def]
      rw [this]
      exact ⟨h1, fun i hi v => not_due hC (.inr (h2 i hi)) v⟩
    · simp
  | _ => simp [news]

theorem Points.tie_run (P : Points L spec op) {es : List (Resolver.Act S)} {s s' : RSt S} {acts : List (List (Instr S))}
    {ph : OpId → Phase S.V} {A : List (Call × Opn O × Rsl R S.V)}
    {k : Nat} {x : Instr S} {r p : List (Instr S)} {b : Bool} (hI : L.Inv s.d ph s.log (dsPend acts)) (hC : Core s acts ph)
    (hk : acts[k]? = some (x :: r)) (he : exec s x b = .ok s' p) (h : P.Tie es s acts A) :
    P.Tie es s' (acts.set k (p ++ r)) (A ++ (P.fns s k x ++ (news s x b).map fun e => (.wait e.1, .wait, .got e.2))) := by
  obtain ⟨hn1, hn2⟩ := news_fresh hI hC hk he
  have hdue := due_run P.stable hI hC hk he
  obtain ⟨hlt, hke⟩ := List.getElem?_eq_some_iff.1 hk
  have hel : k < es.length := by rw [h.len]; exact hlt
  have hek : es[k]? = some es[k] := List.getElem?_eq_getElem hel
  have hact := h.act k _ _ hek hk
  -- the member function, if any
  have hfn : (∃ y z w, x = .ds y ∧ P.pt s.d y = some w ∧ es[k] = .call z ∧ op y = op z ∧ dsl r = [] ∧
        (∀ o r, (Call.fn k, o, r) ∉ A) ∧ (∀ y ∈ dsl p, P.post y = true) ∧ P.fns s k x = [(.fn k, .fn (op z), .ret w)]) ∨
      (P.fns s k x = [] ∧ ∀ A', (∀ o r, (Call.fn k, o, r) ∈ A' ↔ (Call.fn k, o, r) ∈ A) → P.Act A' k es[k] (p ++ r)) := by
    by_cases hx : ∃ y, x = .ds y
    · obtain ⟨y, rfl⟩ := hx
      simp only [exec] at he
      cases hs : S.exec s.d y b with
      | none => simp [hs] at he
      | some t =>
        obtain ⟨d', ps, es'⟩ := t
        simp only [hs, Out.ok.injEq] at he; obtain ⟨rfl, rfl⟩ := he
        obtain ⟨rest, hp1, _⟩ := dsPend_set [] hk
        have hI' := L.perm hI hp1
        cases hp : P.pt s.d y with
        | some w =>
          obtain ⟨h1, h2, -⟩ := P.point hI' hs hp
          refine .inl ?_
          cases hz : es[k] with
          | call z =>
            rw [hz] at hact
            rcases hact with ⟨y', g1, g2, g3, g4⟩ | ⟨g1, -⟩
            · simp only [dsl, List.cons.injEq] at g1
              obtain ⟨rfl, g1⟩ := g1
              refine ⟨y, z, w, rfl, hp, rfl, g3, g1, g4, by rw [dsl_follow]; exact h2, ?_⟩
              simp [Points.fns, hp, g3]
            · have := g1 y (by simp [dsl]); rw [h1] at this; simp at this
          | _ => rw [hz] at hact; simp [Points.Act, dsl] at hact
        | none =>
          obtain ⟨-, -, h1, h2⟩ := P.silent hI' hs hp
          refine .inr ⟨by simp [Points.fns, hp], fun A' hA => ?_⟩
          cases hz : es[k] with
          | call z =>
            rw [hz] at hact
            rcases hact with ⟨y', g1, g2, g3, g4⟩ | ⟨g1, w, g2⟩
            · simp only [dsl, List.cons.injEq] at g1
              obtain ⟨rfl, g1⟩ := g1
              obtain ⟨y2, i1, i2, i3⟩ := h2 g2
              refine .inl ⟨y2, ?_, i2, i3.trans g3, fun o r => by rw [hA]; exact g4 o r⟩
              rw [dsl_append, dsl_follow, i1, g1]; rfl
            · refine .inr ⟨?_, w, by rw [hA]; exact g2⟩
              intro y2 hy
              rw [dsl_append, dsl_follow] at hy
              rcases List.mem_append.1 hy with hy | hy
              · exact h1 (g1 y (by simp [dsl])) y2 hy
              · exact g1 y2 (by simp [dsl, hy])
          | _ => rw [hz] at hact; simp [Points.Act, dsl] at hact
    · have hx' : ∀ y, x ≠ .ds y := fun y hy => hx ⟨y, hy⟩
      have hd := dsl_push he hx'
      have e1 : dsl (p ++ r) = dsl (x :: r) := by
        rw [dsl_append, hd]; cases x <;> simp_all [dsl]
      refine .inr ⟨by cases x <;> simp_all [Points.fns], fun A' hA => ?_⟩
      cases hz : es[k] with
      | call z =>
        rw [hz] at hact
        rcases hact with ⟨y', g1, g2, g3, g4⟩ | ⟨g1, w, g2⟩
        · exact .inl ⟨y', e1.trans g1, g2, g3, fun o r => by rw [hA]; exact g4 o r⟩
        · exact .inr ⟨by rw [e1]; exact g1, w, by rw [hA]; exact g2⟩
      | _ => rw [hz] at hact; simp only [Points.Act] at hact ⊢; exact e1.trans hact
  have hset : ∀ n a, (acts.set k (p ++ r))[n]? = some a → n ≠ k → acts[n]? = some a := by
    intro n a hn hne; rwa [List.getElem?_set_ne (Ne.symm hne)] at hn
  have hsk : ∀ a, (acts.set k (p ++ r))[k]? = some a → a = p ++ r := by
    intro a ha; rw [List.getElem?_set_self hlt] at ha; simpa using ha.symm
  -- entries for other activities
  have hoth : ∀ n, n ≠ k → ∀ o t, (Call.fn n, o, t) ∈
      A ++ (P.fns s k x ++ (news s x b).map fun e => (Call.wait e.1, Opn.wait, Rsl.got e.2)) ↔ (Call.fn n, o, t) ∈ A := by
    intro n hn o t
    rcases hfn with ⟨y, z, w, -, -, -, -, -, -, -, hf⟩ | ⟨hf, -⟩ <;> simp [hf, hn]
  have hframe : ∀ n e a A', P.Act A n e a → (∀ o t, (Call.fn n, o, t) ∈ A' ↔ (Call.fn n, o, t) ∈ A) → P.Act A' n e a := by
    intro n e a A' hA hi
    cases e with
    | call z =>
      rcases hA with ⟨y', g1, g2, g3, g4⟩ | ⟨g1, w, g2⟩
      · exact .inl ⟨y', g1, g2, g3, fun o r => by rw [hi]; exact g4 o r⟩
      · exact .inr ⟨g1, w, by rw [hi]; exact g2⟩
    | _ => exact hA
  have hwm : ∀ i o t, (Call.wait i, o, t) ∈
      A ++ (P.fns s k x ++ (news s x b).map fun e => (Call.wait e.1, Opn.wait, Rsl.got e.2)) ↔
      (Call.wait i, o, t) ∈ A ∨ (o = .wait ∧ ∃ v, t = .got v ∧ (i, v) ∈ news s x b) := by
    intro i o t
    have hnf : (Call.wait i, o, t) ∉ P.fns s k x := by
      rcases hfn with ⟨y, z, w, -, -, -, -, -, -, -, hf⟩ | ⟨hf, -⟩ <;> simp [hf]
    simp only [List.mem_append, hnf, false_or, List.mem_map, Prod.mk.injEq, Call.wait.injEq]
    constructor
    · rintro (h | ⟨e, he, rfl, rfl, rfl⟩)
      · exact .inl h
      · exact .inr ⟨rfl, e.2, rfl, he⟩
    · rintro (h | ⟨rfl, v, rfl, hv⟩)
      · exact .inl h
      · exact .inr ⟨(i, v), hv, rfl, rfl, rfl⟩
  refine ⟨h.acc.append (P.step_accepts hI hC hk he), ?_, by simp [h.len], ?_, ?_, ?_, ?_⟩
  · have hw : ∀ i ∈ (news s x b).map (·.1), Call.wait i ∉ A.map (·.1) := by
      intro i hi hm
      rw [List.mem_map] at hm
      obtain ⟨⟨c, o, t⟩, hc, rfl⟩ := hm
      obtain ⟨-, v, -, hd⟩ := (h.wait _ _ _).1 hc
      exact hn2 i hi v hd
    have e1 : ((news s x b).map fun e => ((Call.wait e.1, Opn.wait, Rsl.got e.2) : Call × Opn O × Rsl R S.V)).map (·.1) =
        ((news s x b).map (·.1)).map Call.wait := by simp [Function.comp_def]
    have nd2 : (((news s x b).map (·.1)).map Call.wait).Nodup := by
      rw [List.nodup_iff_pairwise_ne, List.pairwise_map]
      exact hn1.imp (fun hne h => hne (by simpa using h))
    rw [List.map_append, List.map_append, e1]
    rcases hfn with ⟨y, z, w, -, -, -, -, -, hnA, -, hf⟩ | ⟨hf, -⟩
    · rw [hf, List.map_cons, List.map_nil, List.nodup_append]
      refine ⟨h.once, ?_, ?_⟩
      · rw [List.cons_append, List.nil_append, List.nodup_cons]
        exact ⟨by simp, nd2⟩
      · intro c hc c' hc' hcc
        subst hcc
        simp only [List.cons_append, List.nil_append, List.mem_cons] at hc'
        rcases hc' with rfl | hc'
        · rw [List.mem_map] at hc; obtain ⟨⟨c, o, t⟩, h1, h2⟩ := hc
          simp at h2; subst h2; exact hnA _ _ h1
        · rw [List.mem_map] at hc'; obtain ⟨i, hi, rfl⟩ := hc'; exact hw i hi hc
    · rw [hf, List.map_nil, List.nil_append, List.nodup_append]
      refine ⟨h.once, nd2, ?_⟩
      intro c hc c' hc' hcc
      subst hcc
      rw [List.mem_map] at hc'; obtain ⟨i, hi, rfl⟩ := hc'; exact hw i hi hc
  · intro n o t hm
    by_cases hn : n = k
    · subst hn
      rcases hfn with ⟨y, z, w, -, -, hz, -, -, -, -, hf⟩ | ⟨hf, -⟩
      · simp [hf] at hm
        rcases hm with hm | ⟨rfl, rfl⟩
        · exact h.fnOp _ _ _ hm
        · exact ⟨z, w, by rw [hek, hz], rfl, rfl⟩
      · simp [hf] at hm; exact h.fnOp _ _ _ hm
    · exact h.fnOp _ _ _ ((hoth n hn o t).1 hm)
  · intro n e a hne hna
    by_cases hn : n = k
    · subst hn
      have := hsk a hna; subst this
      rw [hek] at hne; simp at hne; subst hne
      rcases hfn with ⟨y, z, w, -, -, hz, hop, hr, -, hpp, hf⟩ | ⟨hf, hA⟩
      · rw [hz]
        refine .inr ⟨?_, w, by simp [hf]⟩
        intro y2 hy; rw [dsl_append, hr, List.append_nil] at hy; exact hpp y2 hy
      · exact hA _ (fun o t => by simp [hf])
    · exact hframe _ _ _ _ (h.act n e a hne (hset n a hna hn)) (hoth n hn)
  · intro i o t
    rw [hwm, h.wait]
    constructor
    · rintro (⟨rfl, v, rfl, hd⟩ | ⟨rfl, v, rfl, hv⟩)
      · exact ⟨rfl, v, rfl, (hdue i v).2 (.inl hd)⟩
      · exact ⟨rfl, v, rfl, (hdue i v).2 (.inr hv)⟩
    · rintro ⟨rfl, v, rfl, hd⟩
      rcases (hdue i v).1 hd with hd | hd
      · exact .inl ⟨rfl, v, rfl, hd⟩
      · exact .inr ⟨rfl, v, rfl, hd⟩
  · intro i ct q hb; exact h.beg i ct q (begin_run he hb)

theorem Points.tie_env (P : Points L spec op) {es : List (Resolver.Act S)} {s s' : RSt S} {acts : List (List (Instr S))}
    {ph : OpId → Phase S.V} {A : List (Call × Opn O × Rsl R S.V)} {a : Resolver.Act S} {p : List (Instr S)}
    (hI : L.Inv s.d ph s.log (dsPend acts)) (hC : Core s acts ph)
    (he : env s acts a = some (s', p)) (h : P.Tie es s acts A) : P.Tie (es ++ [a]) s' (acts ++ [p]) A := by
  have hdue := due_env P.stable hI hC he
  have hnew : ∀ o t, (Call.fn es.length, o, t) ∉ A := by
    intro o t hm
    obtain ⟨x, -, hx, -⟩ := h.fnOp _ _ _ hm
    simp at hx
  have hact : P.Act A es.length a p := by
    cases a with
    | call x =>
      simp only [env] at he
      split at he
      · rename_i d' hc
        simp at he; obtain ⟨-, rfl⟩ := he
        exact .inl ⟨x, rfl, (P.call hc).2, rfl, hnew⟩
      · simp at he
    | newOp j ct q =>
      simp only [env] at he
      repeat' split at he
      all_goals first
        | (simp at he; done)
        | (simp at he; obtain ⟨-, rfl⟩ := he; rfl)
    | cancel e => simp only [env] at he; simp at he; obtain ⟨-, rfl⟩ := he; rfl
    | reset e =>
      simp only [env] at he
      split at he
      · simp at he; obtain ⟨-, rfl⟩ := he; rfl
      · simp at he
  have habs : P.abs s'.d = P.abs s.d := by
    cases a with
    | call x =>
      simp only [env] at he
      split at he
      · rename_i d' hc
        simp at he; obtain ⟨rfl, -⟩ := he
        exact (P.call hc).1
      · simp at he
    | newOp j ct q =>
      simp only [env] at he
      split at he
      · simp at he
      split at he
      · rename_i d' hc
        simp at he; obtain ⟨rfl, -⟩ := he; exact P.admit hc
      · simp at he
    | cancel e => simp only [env] at he; simp at he; obtain ⟨rfl, -⟩ := he; rfl
    | reset e =>
      simp only [env] at he
      split at he
      · simp at he; obtain ⟨rfl, -⟩ := he; rfl
      · simp at he
  have hget : ∀ {n : Nat} {x}, es[n]? = some x → (es ++ [a])[n]? = some x := by
    intro n x hn
    rw [List.getElem?_append_left (List.getElem?_eq_some_iff.1 hn).1]; exact hn
  refine ⟨by rw [habs]; exact h.acc, h.once, by simp [h.len], ?_, ?_, ?_, ?_⟩
  · intro k o t hm
    obtain ⟨x, r', h1, h2, h3⟩ := h.fnOp k o t hm
    exact ⟨x, r', hget h1, h2, h3⟩
  · intro k e b hk hb
    by_cases hlt : k < es.length
    · rw [List.getElem?_append_left hlt] at hk
      rw [List.getElem?_append_left (by rw [← h.len]; exact hlt)] at hb
      exact h.act k e b hk hb
    · have : k = es.length := by
        have := (List.getElem?_eq_some_iff.1 hk).1
        simp at this; omega
      subst this
      simp at hk; subst hk
      rw [h.len] at hb; simp at hb; subst hb
      exact hact
  · intro i o t; rw [h.wait]; simp only [hdue]
  · intro i ct q hb
    cases a with
    | newOp j ct' q' =>
      simp only [env] at he
      split at he
      · simp at he
      split at he
      · simp at he; obtain ⟨rfl, -⟩ := he
        simp only [List.mem_append, List.mem_singleton, Ev.begin.injEq] at hb
        rcases hb with hb | ⟨rfl, rfl, rfl⟩
        · exact List.mem_append_left _ (h.beg _ _ _ hb)
        · simp
      · simp at he
    | call x =>
      simp only [env] at he
      split at he
      · simp at he; obtain ⟨rfl, -⟩ := he; exact List.mem_append_left _ (h.beg _ _ _ hb)
      · simp at he
    | cancel e => simp only [env] at he; simp at he; obtain ⟨rfl, -⟩ := he; exact List.mem_append_left _ (h.beg _ _ _ hb)
    | reset e =>
      simp only [env] at he
      split at he
      · simp at he; obtain ⟨rfl, -⟩ := he; simp at hb; exact List.mem_append_left _ (h.beg _ _ _ hb)
      · simp at he

/-- The order is tied to the configuration in every execution. -/
theorem Points.tie (P : Points L spec op) {ls : List (Lbl (mach S))} {c : Conf (mach S)}
    (h : (mach S).runs ((mach S).init (RSt.init d0)) ls = some c) : P.Tie (envs ls) c.sh c.acts (P.lin ls) := by
  refine runs_ind (M := mach S) (P := fun ls c => P.Tie (envs ls) c.sh c.acts (P.lin ls)) ?_ ?_ h
  · refine ⟨rfl, by simp [Points.lin, linRun], rfl, by simp [Points.lin, linRun], by simp [envs], ?_, by simp [Mach.init, RSt.init]⟩
    intro i o r
    simp [Points.lin, linRun, Due, Pending, Mach.init, RSt.init, took]
  · intro ls c l c' hr ih hs
    have hreach : Reach (mach S) (RSt.init d0) c := Reach.of_runs .init hr
    obtain ⟨ph, hI, hC⟩ := reach_inv L hreach
    have hl := linRun_snoc (M := mach S) P.at hr hs
    show P.Tie _ _ _ (linRun P.at _ (ls ++ [l]))
    rw [hl]
    cases l with
    | env a =>
      simp only [Mach.step] at hs
      split at hs
      · simp at hs
      split at hs
      · rename_i s' p he
        simp at hs; subst hs
        rw [envs_snoc_env]
        have := P.tie_env hI hC he ih
        simp only [Points.at, List.append_nil]; exact this
      · simp at hs
    | run k b =>
      have hb := bad_false L hreach
      simp only [Mach.step, hb] at hs
      simp only [Bool.false_eq_true, if_false] at hs
      split at hs
      · rename_i x r hk
        obtain ⟨s', p, hx, -⟩ := good b ⟨ph, hI, hC⟩ hk
        rw [hx] at hs
        simp at hs; subst hs
        rw [envs_snoc_run]
        simp only [Points.at, hk]
        exact P.tie_run hI hC hk hx ih
      · simp at hs

/-- Strong linearizability, for any data structure with such points. The results of member functions have to be read correctly. -/
theorem Points.stronglyLinearizable (P : Points L spec op) {out : List (Lbl (mach S)) → Nat → S.I → R → Prop}
    (hout : ∀ ls c k x y r, (mach S).runs ((mach S).init (RSt.init d0)) ls = some c → (envs ls)[k]? = some (.call x) →
      out ls k x y → (Call.fn k, Opn.fn (op x), Rsl.ret r) ∈ P.lin ls → y = r) :
    StronglyLinearizable (M := mach S) (RSt.init d0) (watch d0 op out) spec (P.abs d0) := by
  refine ⟨P.lin, fun ls ls' => linRun_prefix _ _ _ _, ?_⟩
  intro ls c hr
  have h := P.tie hr
  obtain ⟨ph, -, hC⟩ := reach_inv L (Reach.of_runs .init hr)
  refine ⟨⟨_, h.acc⟩, h.once, ?_, ?_⟩
  · rintro ⟨x, o, r⟩ he
    cases x with
    | fn k =>
      obtain ⟨x, r', h1, h2, -⟩ := h.fnOp k o r he
      exact ⟨x, h1, h2⟩
    | wait i =>
      obtain ⟨h1, v, -, hd⟩ := (h.wait i o r).1 he
      obtain ⟨p, hp⟩ := hC.gl.g4 i (started_of_due hC hd)
      exact ⟨h1, _, p, h.beg _ _ _ hp⟩
  · intro x r hx
    cases x with
    | fn k =>
      obtain ⟨c', x, y, h1, h2, h3, h4, rfl⟩ := hx
      have h1' : some c' = some c := h1.symm.trans hr
      simp at h1'; subst h1'
      rcases h.act k _ _ h3 h2 with ⟨y, hy, -⟩ | ⟨-, r, hr'⟩
      · simp [dsl] at hy
      · have := hout ls c' k x y r hr h3 h4 hr'
        subst this; exact ⟨_, hr'⟩
    | wait i =>
      obtain ⟨c', v, h1, h2, rfl⟩ := hx
      have h1' : some c' = some c := h1.symm.trans hr
      simp at h1'; subst h1'
      exact ⟨.wait, (h.wait i _ _).2 ⟨rfl, v, rfl, .inr (.inl h2)⟩⟩

end Verif.Resolver
