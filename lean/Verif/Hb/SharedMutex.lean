import Verif.Hb.SharedMutexProof2

/-!
# Happens-before between critical sections of `shared_mutex`
-/

namespace Verif.SharedMutex

/-- Readers 0 and 1 hold the mutex, writer 2 is queued. Reader 0 releases first; reader 1 hands the mutex over to 2. -/
def readerLost : Conf mach × Mem Loc := ann.go init
  [.env (.lock (0, false)), .run 0 true, .run 0 true, .run 0 true,
   .env (.lock (1, false)), .run 1 true, .run 1 true, .run 1 true,
   .env (.lock (2, true)), .run 2 true, .run 2 true, .run 2 true, .run 2 true, .run 2 true, .run 2 true,
   .env (.unlock (0, false)), .run 3 true, .run 3 true,
   .env (.unlock (1, false)), .run 4 true, .run 4 true, .run 4 true, .run 4 true, .run 4 true, .run 4 true,
   .run 4 true]

set_option maxRecDepth 20000 in
theorem readerLost_log : readerLost.1.sh.log =
    [.lock (0, false), .fast (0, false), .acq (0, false), .lock (1, false), .fast (1, false), .acq (1, false),
     .lock (2, true), .enq (2, true)] ++ .unlock (0, false) ::
    [.rel (0, false), .unlock (1, false), .grant (1, false) [(2, true)]] ++ .acq (2, true) :: [] := by decide

set_option maxRecDepth 20000 in
/-- C51 is false. What a reader did before `unlock_shared` need not happen before the next writer: if another reader is
the last one, it hands the mutex over to the writer without having synchronised with the first reader. -/
theorem C51_reader_before_writer_false : ∃ (c : Conf mach) (m : Mem Loc), HReach ann init c m ∧ ¬ Ordered c.sh.log m := by
  refine ⟨readerLost.1, readerLost.2, HReach.go ann init _, fun h => ?_⟩
  have := h _ _ _ _ _ readerLost_log (by decide)
  revert this
  decide

/-- Writer 0 hands the mutex over to reader 1; reader 2 joins without waiting. -/
def writerLost : Conf mach × Mem Loc := ann.go init
  [.env (.lock (0, true)), .run 0 true, .run 0 true,
   .env (.lock (1, false)), .run 1 true, .run 1 true, .run 1 true, .run 1 true, .run 1 true, .run 1 true, .run 1 true,
   .env (.unlock (0, true)), .run 2 true, .run 2 true, .run 2 true, .run 2 true, .run 2 true, .run 2 true,
   .env (.tryLock (2, false)), .run 3 true, .run 3 true, .run 3 true]

set_option maxRecDepth 20000 in
theorem writerLost_log : writerLost.1.sh.log =
    [.lock (0, true), .fast (0, true), .acq (0, true), .lock (1, false), .enq (1, false)] ++ .unlock (0, true) ::
    [.grant (0, true) [(1, false)], .acq (1, false), .tryLock (2, false), .fast (2, false)] ++
    .acq (2, false) :: [] := by decide

set_option maxRecDepth 20000 in
/-- C51 is false in a second way. What a writer did before `unlock` need not happen before a reader that joins the readers
to whom the mutex was handed over: `unlock` publishes the new state with a relaxed store. -/
theorem C51_writer_before_reader_false : ∃ (c : Conf mach) (m : Mem Loc), HReach ann init c m ∧ ¬ Ordered c.sh.log m := by
  refine ⟨writerLost.1, writerLost.2, HReach.go ann init _, fun h => ?_⟩
  have := h _ _ _ _ _ writerLost_log (by decide)
  revert this
  decide

theorem at_pos {l1 l2 l3 log : List Ev} {t u : Req} (e : log = l1 ++ .unlock t :: l2 ++ .acq u :: l3) :
    log[l1.length]? = some (.unlock t) ∧ log[l1.length + 1 + l2.length]? = some (.acq u) := by
  subst e
  refine ⟨by simp, ?_⟩
  rw [List.getElem?_append_right (by simp; omega)]
  simp [show l1.length + 1 + l2.length - (l1.length + (l2.length + 1)) = 0 by omega]

/-- C51, part: what a writer did before `unlock` happens before every later acquisition, exclusive or shared, in executions
in which no reader joins readers to whom the mutex was handed over. (`JoinsHandover`; see
`C51_writer_before_reader_false`.) -/
theorem C51_after_writer_partial {c : Conf mach} {m : Mem Loc} (h : HReach ann init c m) (hJ : ¬ JoinsHandover c.sh.log)
    {l1 l2 l3 : List Ev} {i : Id} {u : Req} (e : c.sh.log = l1 ++ .unlock (i, true) :: l2 ++ .acq u :: l3) :
    m.hb l1.length (l1.length + 1 + l2.length) := by
  obtain ⟨h1, h2⟩ := at_pos e
  exact (reach_wi h hJ ⟨i, h1⟩).done _ _ h2 ⟨u, rfl⟩ (by omega)

/-- C51, part: what a reader or a writer did before `unlock_shared` or `unlock` happens before every later exclusive
acquisition, in executions in which `unlock_shared` hands the mutex over to nobody. (`ReaderHandsOver`; see
`C51_reader_before_writer_false`.) -/
theorem C51_before_writer_partial {c : Conf mach} {m : Mem Loc} (h : HReach ann init c m)
    (hJ : ¬ ReaderHandsOver c.sh.log) {l1 l2 l3 : List Ev} {t : Req} {j : Id}
    (e : c.sh.log = l1 ++ .unlock t :: l2 ++ .acq (j, true) :: l3) :
    m.hb l1.length (l1.length + 1 + l2.length) := by
  obtain ⟨h1, h2⟩ := at_pos e
  exact (reach_ri h hJ ⟨t, h1⟩).done _ _ h2 ⟨j, rfl⟩ (by omega)

/-- C51, part: all conflicting sections are ordered if neither of the two kinds of hand-over occurs. -/
theorem C51_ordered_partial {c : Conf mach} {m : Mem Loc} (h : HReach ann init c m) (hJ : ¬ JoinsHandover c.sh.log)
    (hR : ¬ ReaderHandsOver c.sh.log) : Ordered c.sh.log m := by
  rintro l1 l2 l3 ⟨i, q⟩ ⟨j, q'⟩ e h'
  simp at h'
  rcases h' with rfl | rfl
  · exact C51_after_writer_partial h hJ e
  · exact C51_before_writer_partial h hR e

theorem grows : Grows ann init where
  init := rfl
  env s acts a s' p he := by
    obtain ⟨v, hv⟩ := env_log (acts := acts) he
    simp [hv]
  run s x b s' p he := by
    rcases exec_log he with h | ⟨v, h, _⟩ <;> simp [h]

/-! ## Example -/

/-- Writer 0 hands over to reader 1, which frees the mutex; writer 2 takes it. -/
def hdemo : Conf mach × Mem Loc := ann.go init
  [.env (.lock (0, true)), .run 0 true, .run 0 true,
   .env (.lock (1, false)), .run 1 true, .run 1 true, .run 1 true, .run 1 true, .run 1 true, .run 1 true, .run 1 true,
   .env (.unlock (0, true)), .run 2 true, .run 2 true, .run 2 true, .run 2 true, .run 2 true, .run 2 true,
   .env (.unlock (1, false)), .run 3 true, .run 3 true,
   .env (.lock (2, true)), .run 4 true, .run 4 true]

theorem hdemo_log : hdemo.1.sh.log =
    [.lock (0, true), .fast (0, true), .acq (0, true), .lock (1, false), .enq (1, false), .unlock (0, true),
     .grant (0, true) [(1, false)], .acq (1, false), .unlock (1, false), .rel (1, false), .lock (2, true),
     .fast (2, true), .acq (2, true)] := by decide
example : hdemo.2.hb 5 7 ∧ hdemo.2.hb 5 12 ∧ hdemo.2.hb 8 12 ∧ ¬ hdemo.2.hb 3 2 := by decide
theorem hdemo_noReader : ¬ ReaderHandsOver hdemo.1.sh.log := by rw [hdemo_log]; simp [ReaderHandsOver]

theorem hdemo_noJoin : ¬ JoinsHandover hdemo.1.sh.log := by
  rw [hdemo_log]
  rintro ⟨l1, i, l2, e, _⟩
  have : Ev.fast (i, false) ∈ l1 ++ .fast (i, false) :: l2 := by simp
  rw [← e] at this
  simp at this

example : Ordered hdemo.1.sh.log hdemo.2 := C51_ordered_partial (HReach.go _ _ _) hdemo_noJoin hdemo_noReader
/-- Writer 0 unlocks at 5, reader 1 acquires at 7. -/
example : hdemo.2.hb 5 7 :=
  C51_after_writer_partial (HReach.go _ _ _) hdemo_noJoin (i := 0) (u := (1, false)) (l1 := hdemo.1.sh.log.take 5)
    (l2 := (hdemo.1.sh.log.drop 6).take 1) (l3 := hdemo.1.sh.log.drop 8) (by decide)
/-- Reader 1 unlocks at 8, writer 2 acquires at 12. -/
example : hdemo.2.hb 8 12 :=
  C51_before_writer_partial (HReach.go _ _ _) hdemo_noReader (t := (1, false)) (j := 2) (l1 := hdemo.1.sh.log.take 8)
    (l2 := (hdemo.1.sh.log.drop 9).take 3) (l3 := []) (by decide)

end Verif.SharedMutex
