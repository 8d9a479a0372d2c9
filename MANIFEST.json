{
 "claims": [
  {
   "property": "C01",
   "status": "proved",
   "theorems": [
    "Verif.Callback.C01_at_most_once",
    "Verif.Callback.C01_only_if_cancelled",
    "Verif.Callback.C01_exactly_once",
    "Verif.Callback.C01_cancel_reaches_all",
    "Verif.Callback.C01_constructor",
    "Verif.Callback.C01_order",
    "Verif.Callback.C01_query",
    "Verif.Callback.C01_progress",
    "Verif.Callback.C01_terminates",
    "Verif.Callback.C01_can_finish"
   ],
   "note": "Progress and termination under the strict contract of C02 and for functors that return."
  },
  {
   "property": "C02",
   "status": "partial",
   "theorems": [
    "Verif.Callback.C02_unbound_is_called",
    "Verif.Callback.C02_destroyed_is_used",
    "Verif.Callback.C02_unbind_then_destroy",
    "Verif.Callback.C02_silent_partial",
    "Verif.Callback.C02_no_fault_partial",
    "Verif.Callback.C02_before_cancel_partial"
   ],
   "note": "False of the code in three ways (witnesses: invoked after unbind() returned, destroyed callback accessed by cancel(), unbind() followed by destruction erases twice). Proved for callbacks that are unbound or destroyed before cancel(), and under a contract that excludes unbind/destruction while cancel() has not reached the callback."
  },
  {
   "property": "C03",
   "status": "proved",
   "theorems": [
    "Verif.Callback.C01_at_most_once",
    "Verif.Callback.C03_reset_wins",
    "Verif.Callback.C03_cancel_wins",
    "Verif.Callback.C03_exactly_once",
    "Verif.Callback.C03_refused",
    "Verif.Callback.C03_no_fault"
   ],
   "note": ""
  },
  {
   "property": "C04",
   "status": "proved",
   "theorems": [
    "Verif.Resolver.C04_exactly_once",
    "Verif.Queue.C04_queue",
    "Verif.Recurring.C04_recurring_event",
    "Verif.WaitGroup.C04_wait_group",
    "Verif.Promise.C04_promise",
    "Verif.PostAck.C04_post_ack"
   ],
   "note": "Generic theorem for every lawful data structure; instantiated for queue, recurring_event (hence sequenced_event and barrier), wait_group (hence oneshot_event), future and post_ack polls."
  },
  {
   "property": "C05",
   "status": "partial",
   "theorems": [
    "Verif.Queue.C05_queue_false",
    "Verif.Resolver.C05_not_touched_after_completion_partial",
    "Verif.Resolver.C05_only_unregister_partial",
    "Verif.Queue.C05_queue_partial",
    "Verif.Recurring.C05_recurring_event_partial",
    "Verif.WaitGroup.C05_wait_group_partial",
    "Verif.Promise.C05_promise_partial",
    "Verif.PostAck.C05_post_ack_partial"
   ],
   "note": "False of the code under preemption (witness C05_queue_false). Proved: schedules without preemption at one point, and that this is the only such access."
  },
  {
   "property": "C06",
   "status": "proved",
   "theorems": [
    "Verif.Resolver.C06_cancellation_prompt",
    "Verif.Resolver.C06_calls_make_progress",
    "Verif.Queue.C06_queue",
    "Verif.Recurring.C06_recurring_event",
    "Verif.WaitGroup.C06_wait_group",
    "Verif.Promise.C06_promise",
    "Verif.PostAck.C06_post_ack"
   ],
   "note": "Generic and instantiated for each structure."
  },
  {
   "property": "C07",
   "status": "proved",
   "theorems": [
    "Verif.Queue.C07_queue",
    "Verif.Recurring.C07_recurring_event",
    "Verif.WaitGroup.C07_wait_group",
    "Verif.Promise.C07_promise",
    "Verif.PostAck.C07_post_ack"
   ],
   "note": ""
  },
  {
   "property": "C10",
   "status": "proved",
   "theorems": [
    "Verif.Queue.C10_queue_fifo"
   ],
   "note": ""
  },
  {
   "property": "C11",
   "status": "proved",
   "theorems": [
    "Verif.Queue.C11_no_stranded_item",
    "Verif.Queue.C11_served_in_order",
    "Verif.Queue.C11_served_receives"
   ],
   "note": ""
  },
  {
   "property": "C12",
   "status": "proved",
   "theorems": [
    "Verif.Queue.C12_cancel_consumes_nothing"
   ],
   "note": ""
  },
  {
   "property": "C13",
   "status": "proved",
   "theorems": [
    "Verif.Mutex.C13_mutual_exclusion",
    "Verif.Mutex.C13_at_most_one_holder"
   ],
   "note": ""
  },
  {
   "property": "C14",
   "status": "proved",
   "theorems": [
    "Verif.Mutex.C14_fifo",
    "Verif.Mutex.C14_no_barging"
   ],
   "note": ""
  },
  {
   "property": "C15",
   "status": "proved",
   "theorems": [
    "Verif.Mutex.C15_waiting_is_held",
    "Verif.Mutex.C15_free_means_served",
    "Verif.Mutex.C15_at_most_once",
    "Verif.Mutex.C15_no_assertion",
    "Verif.Mutex.C15_progress",
    "Verif.Mutex.C15_terminates",
    "Verif.Mutex.C15_can_finish"
   ],
   "note": ""
  },
  {
   "property": "C16",
   "status": "proved",
   "theorems": [
    "Verif.SharedMutex.C16_exclusion",
    "Verif.SharedMutex.C16_holders"
   ],
   "note": ""
  },
  {
   "property": "C17",
   "status": "proved",
   "theorems": [
    "Verif.SharedMutex.C17_no_barging",
    "Verif.SharedMutex.C17_fifo",
    "Verif.SharedMutex.C17_queue",
    "Verif.SharedMutex.C17_batch",
    "Verif.SharedMutex.C17_fast"
   ],
   "note": ""
  },
  {
   "property": "C18",
   "status": "proved",
   "theorems": [
    "Verif.SharedMutex.C18_head_is_blocked",
    "Verif.SharedMutex.C18_waiting_is_held",
    "Verif.SharedMutex.C18_free_means_served",
    "Verif.SharedMutex.C18_at_most_once",
    "Verif.SharedMutex.C18_no_assertion",
    "Verif.SharedMutex.C18_progress",
    "Verif.SharedMutex.C18_terminates",
    "Verif.SharedMutex.C18_can_finish"
   ],
   "note": ""
  },
  {
   "property": "C19",
   "status": "proved",
   "theorems": [
    "Verif.WaitGroup.C19_true_only_if_zero",
    "Verif.WaitGroup.C19_zero_iff_wake"
   ],
   "note": ""
  },
  {
   "property": "C20",
   "status": "proved",
   "theorems": [
    "Verif.WaitGroup.C20_zero_wakes_all",
    "Verif.WaitGroup.C20_nobody_waits_at_zero"
   ],
   "note": ""
  },
  {
   "property": "C21",
   "status": "partial",
   "theorems": [
    "Verif.WaitGroup.C21_reuse_false",
    "Verif.WaitGroup.C21_reuse_partial"
   ],
   "note": "False of the code: try_cancel of a woken waiter after add() erases a node that is not in the list (witness). Proved if add() is not called between the wakeup and the completion of the woken waiters."
  },
  {
   "property": "C22",
   "status": "partial",
   "theorems": [
    "Verif.WaitGroup.C22_second_raise_false",
    "Verif.WaitGroup.C22_only_if_raised",
    "Verif.WaitGroup.C22_raised_completes"
   ],
   "note": "The documented no-op of a second raise() is false (assertion, witness); the rest is proved."
  },
  {
   "property": "C23",
   "status": "proved",
   "theorems": [
    "Verif.WaitGroup.C23_brackets",
    "Verif.WaitGroup.C23_at_rest",
    "Verif.WaitGroup.C23_waiters_not_woken"
   ],
   "note": ""
  },
  {
   "property": "C24",
   "status": "proved",
   "theorems": [
    "Verif.OneshotPrim.C24_at_most_once",
    "Verif.OneshotPrim.C24_not_before_raise",
    "Verif.OneshotPrim.C24_raise_called",
    "Verif.OneshotPrim.C24_raise_completes",
    "Verif.OneshotPrim.C24_nobody_lost",
    "Verif.OneshotPrim.C24_no_fault",
    "Verif.OneshotPrim.C24_wait_free",
    "Verif.OneshotPrim.C24_terminates"
   ],
   "note": "Contract: raise() is called at most once."
  },
  {
   "property": "C25",
   "status": "proved",
   "theorems": [
    "Verif.Recurring.C25_raise_wakes_waiters",
    "Verif.Recurring.C25_awaited_was_raised",
    "Verif.Recurring.C25_woken_completes"
   ],
   "note": ""
  },
  {
   "property": "C26",
   "status": "proved",
   "theorems": [
    "Verif.Recurring.C26_no_missed_wakeup",
    "Verif.Recurring.C26_condition_checked",
    "Verif.Recurring.C26_no_early_wakeup"
   ],
   "note": ""
  },
  {
   "property": "C27",
   "status": "partial",
   "theorems": [
    "Verif.Sequenced.C27_strictly_greater_false",
    "Verif.Sequenced.C27_outdated_completes",
    "Verif.Sequenced.C27_no_missed_raise",
    "Verif.Sequenced.C27_result_not_smaller",
    "Verif.Sequenced.C27_strictly_greater_partial"
   ],
   "note": "No missed raise is proved. 'Strictly greater' is false under preemption inside raise() (witness); proved for waits that do not suspend during another raise()."
  },
  {
   "property": "C28",
   "status": "partial",
   "theorems": [
    "Verif.Barrier.C28_nobody_early_false",
    "Verif.Barrier.C28_nobody_early_partial"
   ],
   "note": "False under preemption between phase update and wakeup (witness with two participants); proved for waits that do not suspend in such a window."
  },
  {
   "property": "C29",
   "status": "proved",
   "theorems": [
    "Verif.Barrier.C29_nobody_stays_behind"
   ],
   "note": ""
  },
  {
   "property": "C30",
   "status": "proved",
   "theorems": [
    "Verif.Barrier.C30_accounting"
   ],
   "note": ""
  },
  {
   "property": "C31",
   "status": "proved",
   "theorems": [
    "Verif.PostAck.C31_in_order",
    "Verif.PostAck.C31_next_post",
    "Verif.PostAck.C31_suspended_has_seen_all"
   ],
   "note": "Contract: at most one running poll per agent, no detach during a poll."
  },
  {
   "property": "C32",
   "status": "proved",
   "theorems": [
    "Verif.PostAck.C32_post_completes",
    "Verif.PostAck.C32_completed_iff"
   ],
   "note": ""
  },
  {
   "property": "C33",
   "status": "proved",
   "theorems": [
    "Verif.PostAck.C33_cancelled_poll_loses_nothing",
    "Verif.PostAck.C33_empty_handle"
   ],
   "note": ""
  },
  {
   "property": "C34",
   "status": "proved",
   "theorems": [
    "Verif.PostAck.C34_detach_releases",
    "Verif.PostAck.C34_no_assertion"
   ],
   "note": ""
  },
  {
   "property": "C35",
   "status": "proved",
   "theorems": [
    "Verif.Promise.C35_value",
    "Verif.Promise.C35_nobody_suspended",
    "Verif.Promise.C35_no_late_cancel",
    "Verif.Promise.C04_promise"
   ],
   "note": ""
  },
  {
   "property": "C36",
   "status": "partial",
   "theorems": [
    "Verif.Promise.Handles.C36_assign_empty_false",
    "Verif.Promise.Handles.C36_self_assign_false",
    "Verif.Promise.Handles.C36_state_lifetime_partial",
    "Verif.Promise.Handles.C36_no_leak",
    "Verif.Promise.Handles.C36_copy_assign_faults_iff"
   ],
   "note": "Copy assignment of futures is wrong in exactly two cases (witnesses, and theorem that these are the only ones); otherwise proved for all programs."
  },
  {
   "property": "C08",
   "status": "proved",
   "theorems": [
    "Verif.Suspend.C08_at_most_once",
    "Verif.Suspend.C08_only_if_cancelled",
    "Verif.Suspend.C08_completes",
    "Verif.Suspend.C08_cancel_completes",
    "Verif.Suspend.C08_no_fault",
    "Verif.Suspend.C08_wait_free",
    "Verif.Suspend.C08_terminates"
   ],
   "note": "Contract: cancellation_event::reset only when the operations using its tokens are done."
  },
  {
   "property": "C09",
   "status": "proved",
   "theorems": [
    "Verif.WithCancel.C09_at_most_once",
    "Verif.WithCancel.C09_value",
    "Verif.WithCancel.C09_cb_at_most_once",
    "Verif.WithCancel.C09_cb_only_if_cancelled",
    "Verif.WithCancel.C09_completes",
    "Verif.WithCancel.C09_cb_invoked",
    "Verif.WithCancel.C09_no_fault",
    "Verif.WithCancel.C09_wait_free",
    "Verif.WithCancel.C09_terminates"
   ],
   "note": "Contract: cancellation_event::reset only when the operations using its token are done."
  },
  {
   "property": "C41",
   "status": "proved",
   "theorems": [
    "Verif.Tree.C41_transform",
    "Verif.Tree.C41_transform_completes",
    "Verif.Tree.C41_invocable",
    "Verif.Tree.C41_invocable_completes"
   ],
   "note": "transform and invocable, in arbitrarily nested expressions, leaves completing at any time on any thread"
  },
  {
   "property": "C42",
   "status": "proved",
   "theorems": [
    "Verif.Tree.C42_ite",
    "Verif.Tree.C42_starts",
    "Verif.Tree.C42_value",
    "Verif.Tree.C42_completes"
   ],
   "note": ""
  },
  {
   "property": "C43",
   "status": "proved",
   "theorems": [
    "Verif.Tree.C43_let",
    "Verif.Tree.C43_value",
    "Verif.Tree.C43_completes",
    "Verif.Tree.C43_lambda",
    "Verif.Tree.C48_children_first"
   ],
   "note": "the variable is part of the let operation, which completes after its child; lambda included"
  },
  {
   "property": "C44",
   "status": "proved",
   "theorems": [
    "Verif.Tree.C44_order",
    "Verif.Tree.C44_value",
    "Verif.Tree.C44_completes",
    "Verif.Tree.C48_at_most_once",
    "Verif.Tree.C48_no_fault"
   ],
   "note": ""
  },
  {
   "property": "C45",
   "status": "proved",
   "theorems": [
    "Verif.Tree.C45_condition",
    "Verif.Tree.C45_body",
    "Verif.Tree.C45_value",
    "Verif.Tree.C45_completes",
    "Verif.Tree.C48_at_most_once",
    "Verif.Tree.C48_no_fault"
   ],
   "note": ""
  },
  {
   "property": "C46",
   "status": "partial",
   "theorems": [
    "Verif.Tree.C46_violated",
    "Verif.Tree.C46_starts_all",
    "Verif.Tree.C46_after_all",
    "Verif.Tree.C46_completes",
    "Verif.Tree.C46_safe_partial",
    "Verif.Tree.fault_kinds"
   ],
   "note": "False of the code: if all senders complete before start() executes its trailing fetch_sub, start() accesses a completed operation and its assertion fails (C46_violated). Otherwise it holds; fault_kinds shows that this is the only way it goes wrong"
  },
  {
   "property": "C47",
   "status": "partial",
   "theorems": [
    "Verif.Tree.C47_violated",
    "Verif.Tree.C47_starts_all",
    "Verif.Tree.C47_after_all",
    "Verif.Tree.C47_completes",
    "Verif.Tree.C47_cancels_others",
    "Verif.Tree.C47_cancel_only",
    "Verif.Tree.C47_safe_partial",
    "Verif.Tree.fault_kinds"
   ],
   "note": "False of the code: the cancellation loop of the first sender to complete accesses the operation after other senders have completed it (C47_violated). All other parts hold; fault_kinds shows that this is the only way it goes wrong"
  },
  {
   "property": "C48",
   "status": "proved",
   "theorems": [
    "Verif.Tree.C48_order",
    "Verif.Tree.C48_at_most_once",
    "Verif.Tree.C48_started_once",
    "Verif.Tree.C48_exactly_once",
    "Verif.Tree.C48_children_first",
    "Verif.Tree.C48_waits_for_child",
    "Verif.Tree.C48_never_blocks",
    "Verif.Tree.C48_no_fault"
   ],
   "note": "order of effects is the specification Ok in Verif/Tree/Spec.lean; for expressions with when_all or race_and_cancel the faults of C46 and C47 remain"
  },
  {
   "property": "C37",
   "status": "proved",
   "theorems": [
    "Verif.Result.C37_at_most_once",
    "Verif.Result.C37_value",
    "Verif.Result.C37_completes",
    "Verif.Result.C37_waits",
    "Verif.Result.C37_no_fault",
    "Verif.Result.C37_terminates"
   ],
   "note": "for arbitrary coroutine bodies that await senders and return"
  },
  {
   "property": "C38",
   "status": "proved",
   "theorems": [
    "Verif.Generator.C38_results",
    "Verif.Generator.C38_end_is_last",
    "Verif.Generator.C38_at_most_once",
    "Verif.Generator.C38_completes",
    "Verif.Generator.C38_no_fault",
    "Verif.Generator.C38_exclusive",
    "Verif.Generator.C38_terminates",
    "Verif.Generator.C38_destroyed"
   ],
   "note": "for arbitrary bodies. Contract: one next() at a time, none after the end"
  },
  {
   "property": "C39",
   "status": "proved",
   "theorems": [
    "Verif.Run.C39_value",
    "Verif.Run.C39_waits",
    "Verif.Run.C39_waits_during",
    "Verif.Run.C39_waits_false",
    "Verif.Run.C39_returns",
    "Verif.Run.C39_progress",
    "Verif.Run.C39_terminates",
    "Verif.Run.C39_panics_only_if",
    "Verif.Run.C39_no_fault"
   ],
   "note": "Contract for C39_waits, C39_terminates and C39_panics_only_if: the sender completes inside start() or wait() (the flag is a plain bool, so completing on another thread is a data race unless the I/O service synchronises); C39_waits_false shows that this is needed. The rest holds for completion on any thread"
  },
  {
   "property": "C40",
   "status": "proved",
   "theorems": [
    "Verif.Detach.C40_freed",
    "Verif.Detach.C40_continuation",
    "Verif.Detach.C40_receiver",
    "Verif.Detach.C40_completes",
    "Verif.Detach.C40_not_early",
    "Verif.Detach.C40_no_fault",
    "Verif.Detach.C40_terminates"
   ],
   "note": "detach and spawn"
  },
  {
   "property": "C49",
   "status": "proved",
   "theorems": [
    "Verif.Result.C49_value",
    "Verif.Result.C49_resumes",
    "Verif.Result.C49_order",
    "Verif.Result.C37_no_fault"
   ],
   "note": ""
  },
  {
   "property": "C50",
   "status": "proved",
   "theorems": [
    "Verif.Mutex.C50_critical_sections_ordered",
    "Verif.HReach.hb_trans",
    "Verif.HReach.hb_lt"
   ],
   "note": "happens-before layer in Verif/Hb/Base; Verif/Hb/Order proves that it is a strict order"
  },
  {
   "property": "C51",
   "status": "partial",
   "theorems": [
    "Verif.SharedMutex.C51_reader_before_writer_false",
    "Verif.SharedMutex.C51_writer_before_reader_false",
    "Verif.SharedMutex.C51_after_writer_partial",
    "Verif.SharedMutex.C51_before_writer_partial",
    "Verif.SharedMutex.C51_ordered_partial"
   ],
   "note": "False of the code in two ways (witnesses): hand-over by the last reader, and readers joining after a hand-over by a writer. Proved for executions without these two kinds of hand-over."
  },
  {
   "property": "C52",
   "status": "proved",
   "theorems": [
    "Verif.Queue.C52_put_before_claim",
    "Verif.Queue.C52_put_before_get",
    "Verif.Queue.C52_cancel_before_completion",
    "Verif.Queue.C52_created_before_completion"
   ],
   "note": ""
  },
  {
   "property": "C53",
   "status": "proved",
   "theorems": [
    "Verif.WaitGroup.C53_done_before_wait",
    "Verif.WaitGroup.C53_wrapped_before_wait",
    "Verif.WaitGroup.C53_raise_before_wait",
    "Verif.WaitGroup.C53_cancel_before_completion",
    "Verif.WaitGroup.C53_created_before_completion"
   ],
   "note": "Contract of add() and done() as in C19."
  },
  {
   "property": "C54",
   "status": "proved",
   "theorems": [
    "Verif.Promise.C54_set_before_get",
    "Verif.Promise.C54_cancel_before_completion",
    "Verif.Promise.C54_created_before_completion"
   ],
   "note": ""
  },
  {
   "property": "C55",
   "status": "proved",
   "theorems": [
    "Verif.Promise.RefCount.C55_no_use_after_free",
    "Verif.Promise.RefCount.C55_free_once",
    "Verif.Promise.RefCount.C55_freed_when_unused",
    "Verif.Promise.RefCount.C55_use_before_free"
   ],
   "note": "Contract for C55_use_before_free: whoever destroys a handle knows of the accesses through it."
  },
  {
   "property": "C56",
   "status": "proved",
   "theorems": [
    "Verif.Recurring.C56_raise_before_wait",
    "Verif.Recurring.C56_raise_before_condition",
    "Verif.Recurring.C56_action_before_raise",
    "Verif.Recurring.C56_cancel_before_completion",
    "Verif.Recurring.C56_created_before_completion"
   ],
   "note": "For every user program around the event."
  },
  {
   "property": "C57",
   "status": "proved",
   "theorems": [
    "Verif.Sequenced.C57_raises_before_result",
    "Verif.Sequenced.C57_result_counts",
    "Verif.Sequenced.C57_wakeup_before_result",
    "Verif.Sequenced.C57_created_before_completion"
   ],
   "note": ""
  },
  {
   "property": "C58",
   "status": "partial",
   "theorems": [
    "Verif.Barrier.C58_arrivals_before_wait_false",
    "Verif.Barrier.C58_arrivals_before_wait_partial",
    "Verif.Barrier.C58_arrivals_ordered",
    "Verif.Barrier.C58_created_before_completion"
   ],
   "note": "False of the code (witness): a wait that starts between the update of the last arrival and its raise() reads the new phase number with relaxed order. Proved for waits that suspend while no arrival is between update and wakeup."
  },
  {
   "property": "C59",
   "status": "proved",
   "theorems": [
    "Verif.Result.C59_coroutine_ordered"
   ],
   "note": "For every body and every knowledge of the environment that orders the completion of an awaited sender after its start."
  },
  {
   "property": "C60",
   "status": "partial",
   "theorems": [
    "Verif.Result.C60_start_before_completion_false",
    "Verif.Result.C60_start_before_completion_partial"
   ],
   "note": "False of the code (witness): the exchange at the final suspension point does not acquire. Proved if the coroutine ends before the exchange in start()."
  },
  {
   "property": "C61",
   "status": "proved",
   "theorems": [
    "Verif.OneshotPrim.C61_raise_before_completion",
    "Verif.OneshotPrim.C61_start_before_completion"
   ],
   "note": "For every knowledge of the callers."
  },
  {
   "property": "C62",
   "status": "proved",
   "theorems": [
    "Verif.PostAck.C62_post_before_poll",
    "Verif.PostAck.C62_acks_before_completion",
    "Verif.PostAck.C62_polls_before_completion",
    "Verif.PostAck.C62_post_before_completion",
    "Verif.PostAck.C62_cancel_before_completion",
    "Verif.PostAck.C62_created_before_completion"
   ],
   "note": "For every knowledge of the callers; where it says so, callers of ack() know of the poll."
  },
  {
   "property": "C63",
   "status": "proved",
   "theorems": [
    "Verif.Tree.C63_ordered",
    "Verif.Tree.C63_work_before_completion",
    "Verif.Tree.C63_start_before_work",
    "Verif.Tree.C63_children_before_completion",
    "Verif.Tree.C63_winner_before_cancel"
   ],
   "note": "For every knowledge of the environment that orders the completion of a leaf after its start."
  },
  {
   "property": "C64",
   "status": "partial",
   "theorems": [
    "Verif.Tree.C64_cancel_before_completion_false",
    "Verif.Tree.C64_cancel_before_completion_partial"
   ],
   "note": "False of the code (witness): two senders complete at the same time. Proved for a cancellation that happens before the completion of one of the senders."
  },
  {
   "property": "C65",
   "status": "proved",
   "theorems": [
    "Verif.Owner.C65_no_fault",
    "Verif.Owner.C65_ownership",
    "Verif.Owner.C65_unique_owner",
    "Verif.Owner.C65_destroyed_iff",
    "Verif.Owner.C65_no_leak"
   ],
   "note": "One object is not used by two threads at the same time."
  },
  {
   "property": "C66",
   "status": "proved",
   "theorems": [
    "Verif.C66_mutex",
    "Verif.C66_shared_mutex",
    "Verif.C66_oneshot_primitive",
    "Verif.C66_refcount",
    "Verif.C66_senders",
    "Verif.C66_queue",
    "Verif.C66_promise",
    "Verif.C66_wait_group",
    "Verif.C66_recurring_event",
    "Verif.C66_barrier",
    "Verif.C66_sequenced_event",
    "Verif.C66_post_ack",
    "Verif.C66_with_cancel_cb",
    "Verif.C66_suspend_indefinitely",
    "Verif.CExec.interleaved"
   ],
   "note": "Executions are partial orders with the axioms of C++20 (CExec.Valid). cfp_ of result: C93."
  },
  {
   "property": "C67",
   "status": "proved",
   "theorems": [
    "Verif.C67_queue",
    "Verif.C67_recurring_event",
    "Verif.C67_sequenced_event",
    "Verif.C67_barrier",
    "Verif.C67_promise",
    "Verif.C67_wait_group",
    "Verif.C67_post_ack",
    "Verif.C67_cancelled_completes"
   ],
   "note": "Explicit bounds for every reachable configuration. wait_group under the same contract as C19 (add/done contract)."
  },
  {
   "property": "C68",
   "status": "proved",
   "theorems": [
    "Verif.WithCancel.C68_start_before",
    "Verif.WithCancel.C68_before_completion",
    "Verif.WithCancel.C68_cancel_before_callback"
   ],
   "note": "On top of the interleaving model of C09; memory orders of the code. C66_with_cancel_cb shows that there are no other executions."
  },
  {
   "property": "C69",
   "status": "proved",
   "theorems": [
    "Verif.Suspend.C69_start_before",
    "Verif.Suspend.C69_before_completion",
    "Verif.Suspend.C69_cancel_before_handler",
    "Verif.Suspend.C69_cancel_before_completion"
   ],
   "note": "On top of the interleaving model of C08; memory orders of the code. C66_suspend_indefinitely shows that there are no other executions."
  },
  {
   "property": "C70",
   "status": "proved",
   "theorems": [
    "Verif.Mutex.C70_mutex_start_before",
    "Verif.Mutex.C70_mutex_queue_ordered",
    "Verif.SharedMutex.C70_shared_mutex_start_before",
    "Verif.SharedMutex.C70_shared_mutex_queue_ordered"
   ],
   "note": "Same annotations as C50 and C51. Added because the lock of the queue could be removed without violating C50."
  },
  {
   "property": "C71",
   "status": "partial",
   "theorems": [
    "Verif.Tree.C71_lifetimes_partial",
    "Verif.Tree.C71_lifetimes_plain",
    "Verif.Tree.C71_running_is_alive",
    "Verif.Tree.C71_no_leak",
    "Verif.Tree.C71_one_at_a_time",
    "Verif.Tree.C71_completed_is_empty",
    "Verif.Tree.C71_unstarted",
    "Verif.Tree.C71_unstarted_let_false",
    "Verif.Tree.C71_lifetimes_false"
   ],
   "note": "False in two ways, both witnessed: destroying a let operation that was never started fails an assertion (C71_unstarted says exactly which senders are affected), and the trailing code of when_all::start uses the operation after its completion (C46, C47). Proved for all executions in which the latter does not occur (c.bad = false), and unconditionally for expressions without when_all and race_and_cancel."
  },
  {
   "property": "C72",
   "status": "partial",
   "theorems": [
    "Verif.Mutex.C72_mutex_try_lock",
    "Verif.Mutex.C72_mutex_waits",
    "Verif.Mutex.C72_mutex_admitted",
    "Verif.Mutex.C72_mutex_owner",
    "Verif.Mutex.C72_mutex_alone",
    "Verif.Mutex.C72_mutex_try_returns",
    "Verif.Mutex.C72_mutex_try_alone",
    "Verif.SharedMutex.C72_exclusive_waits",
    "Verif.SharedMutex.C72_try_lock",
    "Verif.SharedMutex.C72_try_lock_shared",
    "Verif.SharedMutex.C72_owners",
    "Verif.SharedMutex.C72_try_lock_shared_alone",
    "Verif.SharedMutex.C72_exclusive_waits_alone",
    "Verif.SharedMutex.C72_admitted_alone",
    "Verif.SharedMutex.C72_try_returns",
    "Verif.SharedMutex.C72_try_alone",
    "Verif.SharedMutex.C72_shared_waits_partial",
    "Verif.SharedMutex.C72_shared_waits_alone_partial",
    "Verif.SharedMutex.C72_shared_blocks_false"
   ],
   "note": "The claim of the documentation about async_lock_shared is false: a reader also waits behind a waiting writer (witness C72_shared_blocks_false). What holds is C72_shared_waits_partial: the mutex is owned exclusively or a writer waits. Everything else is proved."
  },
  {
   "property": "C73",
   "status": "partial",
   "theorems": [
    "Verif.PostAck.Handles.C73_at_most_once",
    "Verif.PostAck.Handles.C73_one_owner",
    "Verif.PostAck.Handles.C73_none_forgotten",
    "Verif.PostAck.Handles.C73_faults_iff",
    "Verif.PostAck.Handles.C73_access",
    "Verif.PostAck.Handles.C73_bool",
    "Verif.PostAck.Handles.C73_reentrant_move_false",
    "Verif.PostAck.Handles.C73_reentrant_destroy_false",
    "Verif.PostAck.Handles.C73_access_after_ack_false",
    "Verif.PostAck.C73_object_alive"
   ],
   "note": "Proved for programs that do not use a handle while ack runs on it and do not access the object after ack. Without this the property is false: ack marks the handle only after the completion of the post has run, so that moving the handle inside of it allows a second ack, and destroying it fails the assertion of the destructor; the handle keeps its pointer after ack (witnesses C73_*_false)."
  },
  {
   "property": "C74",
   "status": "partial",
   "theorems": [
    "Verif.Erase.C74_any_receiver",
    "Verif.Erase.C74_callback_partial",
    "Verif.Erase.C74_callback_const",
    "Verif.Erase.C74_callback_state_false"
   ],
   "note": "Proved for any_receiver, and for callback with functors that calls do not change. False for callback otherwise: every call works on a copy of the functor (witness C74_callback_state_false); what holds for all functors is C74_callback_partial."
  },
  {
   "property": "C75",
   "status": "proved",
   "theorems": [
    "Verif.Callback.C75_event_ordered",
    "Verif.Callback.C75_made_before",
    "Verif.Callback.C75_cancel_before"
   ],
   "note": "Happens-before is computed from the critical sections of the event's mutex. Assumption: an object is unbound, destroyed or reset after its construction."
  },
  {
   "property": "C76",
   "status": "partial",
   "theorems": [
    "Verif.Run.C76_forever_no_return",
    "Verif.Run.C76_forever_waits",
    "Verif.Run.C76_same_thread_partial",
    "Verif.Run.C76_other_thread_false"
   ],
   "note": "The part about run_forever is proved. The synchronisation is false if the sender completes on another thread (witness C76_other_thread_false: the flag and the value are ordinary variables); proved if it completes inside start() or wait()."
  },
  {
   "property": "C77",
   "status": "proved",
   "theorems": [
    "Verif.Detached.C77_freed_once",
    "Verif.Detached.C77_free_after_return",
    "Verif.Detached.C77_waits",
    "Verif.Detached.C77_value",
    "Verif.Detached.C77_order",
    "Verif.Detached.C77_no_fault",
    "Verif.Detached.C77_caller_continues",
    "Verif.Detached.C77_returns_once",
    "Verif.Detached.C77_terminates"
   ],
   "note": "For arbitrary coroutine bodies that await senders and return."
  },
  {
   "property": "C78",
   "status": "partial",
   "theorems": [
    "Verif.Callback.C78_callbacks",
    "Verif.Callback.C78_callbacks_calls",
    "Verif.Suspend.C78_suspend_calls",
    "Verif.WithCancel.C78_with_cancel_calls",
    "Verif.Resolver.C78_resolver_calls",
    "Verif.Suspend.C78_suspend",
    "Verif.WithCancel.C78_with_cancel",
    "Verif.Resolver.C78_resolver_partial",
    "Verif.Resolver.C78_resolver_coop_partial",
    "Verif.Queue.C78_queue_partial",
    "Verif.Queue.C78_queue_coop_partial",
    "Verif.Queue.C78_queue_false",
    "Verif.Recurring.C78_recurring_event_partial",
    "Verif.Recurring.C78_recurring_event_coop_partial",
    "Verif.WaitGroup.C78_wait_group_partial",
    "Verif.WaitGroup.C78_wait_group_coop_partial",
    "Verif.Promise.C78_promise_partial",
    "Verif.Promise.C78_promise_coop_partial",
    "Verif.PostAck.C78_post_ack_partial",
    "Verif.PostAck.C78_post_ack_coop_partial"
   ],
   "note": "Proved in full for callbacks, observers, suspend_indefinitely and with_cancel_cb. For operations that use cancellation_resolver the list is always empty (assertion holds), but with threads a completion of a cancelled operation may still lock the mutex of the event (witness C78_queue_false); without preemption the property holds for them too."
  },
  {
   "property": "C79",
   "status": "partial",
   "theorems": [
    "Verif.Mutex.C79_mutex",
    "Verif.Queue.C79_queue_calls",
    "Verif.WaitGroup.C79_wait_group_calls",
    "Verif.Recurring.C79_recurring_event_calls",
    "Verif.PostAck.C79_post_ack_calls",
    "Verif.SharedMutex.C79_shared_mutex",
    "Verif.OneshotPrim.C79_oneshot_primitive",
    "Verif.Queue.C79_queue",
    "Verif.WaitGroup.C79_wait_group",
    "Verif.PostAck.C79_post_ack",
    "Verif.Recurring.C79_recurring_event_partial",
    "Verif.Sequenced.C79_sequenced_partial",
    "Verif.Sequenced.C79_sequenced_false",
    "Verif.Barrier.C79_barrier_partial",
    "Verif.Barrier.C79_barrier_false"
   ],
   "note": "Proved in full for mutex, shared_mutex, queue, wait_group, oneshot_event, oneshot_primitive and post_ack_mechanism. False for sequenced_event and barrier: a wait that does not suspend completes between the update and the wakeup of raise() or arrive(). For these it is proved that nothing accesses the object once each update has woken its waiters."
  },
  {
   "property": "C80",
   "status": "proved",
   "theorems": [
    "Verif.Resolver.C80_as_if_alone",
    "Verif.Resolver.C80_transfer",
    "Verif.Resolver.C80_transfer_at_rest",
    "Verif.Resolver.C80_exactly_once",
    "Verif.Resolver.C80_cancellation_reaches_all",
    "Verif.Resolver.C80_calls_make_progress",
    "Verif.Resolver.C80_calls_return"
   ],
   "note": "For every family of objects that keep the contract of cancellation_resolver, by simulation. The instances are proved to keep it in their own files. The contract of reset() is that no operation of any object uses the event."
  },
  {
   "property": "C81",
   "status": "proved",
   "theorems": [
    "Verif.Joint.C81_as_if_alone",
    "Verif.Joint.C81_faults",
    "Verif.Joint.C81_no_fault",
    "Verif.Joint.C81_leaf",
    "Verif.Joint.C81_leaf_at_rest",
    "Verif.Joint.C81_waits_for",
    "Verif.Joint.C81_cancelled_completes",
    "Verif.Joint.C81_cancel_arrives",
    "Verif.Joint.C81_race_ends",
    "Verif.Joint.C81_calls_make_progress"
   ],
   "note": "Compose/Joint*. Joint machine of the algorithms and the resolver machine with common stacks; generic over the object, and over collections of objects (famLawful)."
  },
  {
   "property": "C82",
   "status": "partial",
   "theorems": [
    "Verif.Handout.C82_let",
    "Verif.Handout.C82_repeat_while",
    "Verif.Handout.C82_once",
    "Verif.Handout.C82_lambda_partial",
    "Verif.Handout.C82_lambda_false",
    "Verif.Handout.C82_race_and_cancel_partial",
    "Verif.Handout.C82_race_and_cancel_false",
    "Verif.Handout.C82_race_and_cancel_dtor_false"
   ],
   "note": "Holds for let and repeat_while. False for lambda (arguments that are not lvalues are destroyed before start) and for race_and_cancel (events constructed after the senders are connected, destroyed before the operations). The _partial theorems characterise exactly the uses that are valid."
  },
  {
   "property": "C83",
   "status": "partial",
   "theorems": [
    "Verif.Tree.C83_bounded_partial",
    "Verif.Tree.C83_repeat_while_false",
    "Verif.Result.C83_coroutine_partial",
    "Verif.Result.C83_coroutine_false"
   ],
   "note": "False: iterations that complete inside of start() nest, because start_inline never returns true. Partial: if every iteration waits, the depth is bounded by the size of the expression; coroutines add at most 4 frames."
  },
  {
   "property": "C84",
   "status": "partial",
   "theorems": [
    "Verif.Locks.C84_no_misuse",
    "Verif.Locks.C84_no_deadlock_partial",
    "Verif.Locks.C84_ordered_partial",
    "Verif.Locks.C84_reentrant_false"
   ],
   "note": "False: the constructor of cancellation_callback, async_wait_if, queue and promise call user code with a lock held. Partial: if that code makes no calls of the library, or if locks are requested in an order."
  },
  {
   "property": "C85",
   "status": "partial",
   "theorems": [
    "Verif.Locks.C85_no_race_partial",
    "Verif.Locks.C85_only_empty",
    "Verif.Locks.C85_empty_false"
   ],
   "note": "False: queue::empty reads the buffer without the lock. Partial: without it there are no races; with it, these are the only ones."
  },
  {
   "property": "C86",
   "status": "partial",
   "theorems": [
    "Verif.Env.C86_exact",
    "Verif.Env.C86_reaches_partial",
    "Verif.Env.C86_connected_partial",
    "Verif.Env.C86_stays",
    "Verif.Env.C86_lost",
    "Verif.Env.C86_spawn_false",
    "Verif.Env.C86_any_false"
   ],
   "note": "False for spawn_with_allocator and any_receiver, whose receivers have no get_env. Partial: true in all other cases in which get_env is defined (C87)."
  },
  {
   "property": "C87",
   "status": "partial",
   "theorems": [
    "Verif.Env.C87_defined_partial",
    "Verif.Env.C87_connected",
    "Verif.Env.C87_connecting",
    "Verif.Env.C87_false"
   ],
   "note": "False: with_cancel_cb connects its sender before it stores the receiver. Partial: true unless a with_cancel_cb around the sender is being connected."
  },
  {
   "property": "C88",
   "status": "proved",
   "theorems": [
    "Verif.Tree.Calls.C88_ends",
    "Verif.Tree.Calls.C88_no_wait",
    "Verif.Tree.Calls.C88_returns",
    "Verif.Tree.Calls.C88_needs"
   ],
   "note": "The bound depends on the state (expressions and running calls), not on the schedule. Calls may also end in the undefined behaviour of C46 and C47."
  },
  {
   "property": "C89",
   "status": "partial",
   "theorems": [
    "Verif.Promise.Alloc.C89_same_allocator_partial",
    "Verif.Promise.Alloc.C89_default_allocator_partial",
    "Verif.Promise.Alloc.C89_complete",
    "Verif.Promise.Alloc.C89_move_false",
    "Verif.Promise.Alloc.C89_assign_false"
   ],
   "note": "False: moving or assigning a promise moves the state but not the allocator. Partial: true for states whose promise was not moved from or assigned to, and if all allocators are default constructed."
  },
  {
   "property": "C90",
   "status": "partial",
   "theorems": [
    "Verif.Locks.C90_sections_partial",
    "Verif.Locks.C90_all_sections_partial",
    "Verif.Locks.C90_empty_false",
    "Verif.Locks.C90_lock_false"
   ],
   "note": "False with queue::empty, which reads the buffer without the mutex, and for lock and lock_shared of the asynchronous mutexes, whose sections use an atomic variable several times. Partial: true for all sections of all other functions, if code that is called with a lock held makes no calls of the library. Fields of list nodes are not included."
  },
  {
   "property": "C91",
   "status": "partial",
   "theorems": [
    "Verif.Recurring.C91_recurring_event",
    "Verif.WaitGroup.C91_wait_group",
    "Verif.Promise.C91_promise",
    "Verif.PostAck.C91_post_ack",
    "Verif.Queue.C91_queue_partial",
    "Verif.Queue.C91_queue_false",
    "Verif.OneshotPrim.C91_primitive_partial",
    "Verif.OneshotPrim.C91_primitive_false"
   ],
   "note": "Proved for recurring_event, wait_group, oneshot_event, promise and post_ack. False of queue with overlapping puts (a put completes the operation after it has released the mutex); proved if member functions do not overlap with other calls. False of oneshot_primitive, which completes in the reverse order (proved)."
  },
  {
   "property": "C92",
   "status": "proved",
   "theorems": [
    "Verif.Recurring.C92_recurring_event",
    "Verif.WaitGroup.C92_wait_group",
    "Verif.Promise.C92_promise",
    "Verif.PostAck.C92_post_ack",
    "Verif.Queue.C92_queue"
   ],
   "note": "Accesses are those of the next instruction of each call; an access to a list counts as access to the links of all its elements. Destruction of a completed operation is not part of it (C05)."
  },
  {
   "property": "C93",
   "status": "proved",
   "theorems": [
    "Verif.C93_mutex",
    "Verif.C93_shared_mutex",
    "Verif.C93_oneshot_primitive",
    "Verif.C93_refcount",
    "Verif.C93_senders",
    "Verif.C93_with_cancel_cb",
    "Verif.C93_suspend_indefinitely",
    "Verif.C93_queue",
    "Verif.C93_promise",
    "Verif.C93_wait_group",
    "Verif.C93_barrier",
    "Verif.C93_sequenced_event",
    "Verif.C93_post_ack",
    "Verif.C93_result",
    "Verif.C93_result_agree",
    "Verif.C93_result_alone",
    "Verif.C93_no_sequence_coroutines",
    "Verif.C93_no_sequence_mutexes"
   ],
   "note": "The accesses to an object are an execution of their own (CExec.part), to which C66 applies."
  },
  {
   "property": "C94",
   "status": "proved",
   "theorems": [
    "Verif.Prog.C94_as_if_alone",
    "Verif.Prog.C94_faults",
    "Verif.Prog.C94_no_fault",
    "Verif.Prog.C94_await",
    "Verif.Prog.C94_await_at_rest",
    "Verif.Prog.C94_leaf",
    "Verif.Prog.C94_leaf_at_rest",
    "Verif.Prog.C94_outer_first",
    "Verif.Prog.C94_waits_for",
    "Verif.Prog.C94_at_most_once",
    "Verif.Prog.C94_cancelled_completes",
    "Verif.Prog.C94_race_ends",
    "Verif.Prog.C94_calls_make_progress"
   ],
   "note": "Prog/*. Joint machine of the coroutines (Result) and of expressions and library (Compose/Joint) with common stacks; generic over bodies, expressions and objects."
  },
  {
   "property": "C95",
   "status": "proved",
   "theorems": [
    "Verif.C95_cancel",
    "Verif.C95_put",
    "Verif.C95_act",
    "Verif.C95_raise",
    "Verif.C95_add",
    "Verif.C95_done",
    "Verif.C95_group_start",
    "Verif.C95_group_done",
    "Verif.C95_post",
    "Verif.C95_attach",
    "Verif.C95_detach",
    "Verif.C95_ack",
    "Verif.C95_set",
    "Verif.Callback.C95_query",
    "Verif.Callback.C95_cancel_callbacks",
    "Verif.Callback.C95_close_returns",
    "Verif.Suspend.C95_cancel_suspended",
    "Verif.WithCancel.C95_cancel_cb",
    "Verif.Mutex.C95_unlock",
    "Verif.Mutex.C95_lock",
    "Verif.SharedMutex.C95_unlock",
    "Verif.SharedMutex.C95_lock",
    "Verif.OneshotPrim.C95_raise",
    "Verif.OneshotPrim.C95_raise_returns"
   ],
   "note": "Effect/*, CallCount. Calls are counted in the schedule, effects in the history; C95_cancel is generic over the data structures of the resolver."
  },
  {
   "property": "C96",
   "status": "proved",
   "theorems": [
    "Verif.Generator.C96_generator_ordered",
    "Verif.Detached.C96_detached_ordered",
    "Verif.Detached.C96_call_before_return"
   ],
   "note": "Hb/Baton, Hb/Generator, Hb/Detached."
  },
  {
   "property": "C97",
   "status": "proved",
   "theorems": [
    "Verif.Result.C97_result_steps_ordered",
    "Verif.Generator.C97_generator_steps_ordered",
    "Verif.Detached.C97_detached_steps_ordered"
   ],
   "note": "Hb/Steps, Hb/ResultSteps, Hb/GeneratorSteps, Hb/DetachedSteps."
  },
  {
   "property": "C98",
   "status": "proved",
   "theorems": [
    "Verif.Queue.C98_queue_linearizable",
    "Verif.Queue.C98_queue_real_time",
    "Verif.Queue.C98_queue_results",
    "Verif.Promise.C98_promise_linearizable",
    "Verif.Promise.C98_promise_real_time",
    "Verif.WaitGroup.C98_wait_group_linearizable",
    "Verif.WaitGroup.C98_wait_group_real_time",
    "Verif.Mutex.C98_mutex_linearizable",
    "Verif.Mutex.C98_mutex_real_time",
    "Verif.SharedMutex.C98_shared_mutex_linearizable",
    "Verif.SharedMutex.C98_shared_mutex_real_time",
    "Verif.OneshotPrim.C98_oneshot_primitive_linearizable",
    "Verif.OneshotPrim.C98_oneshot_primitive_real_time"
   ],
   "note": "Linear/Spec, Linear/Due, Linear/Resolver, Linear/Log, Linear/Queue, Linear/Promise, Linear/WaitGroup, Linear/Mutex, Linear/SharedMutex, Linear/OneshotPrim."
  },
  {
   "property": "C99",
   "status": "partial",
   "theorems": [
    "Verif.Promise.Owner.C99_promise_lifetime_partial",
    "Verif.Promise.Owner.C99_destroy_after_value_false",
    "Verif.Promise.Owner.C99_value_lost_false",
    "Verif.Promise.Handles.C99_value_in_scope_false",
    "Verif.Promise.Handles.C99_value_life_partial",
    "Verif.Promise.Handles.C99_get_future_partial"
   ],
   "note": "Promise/Owner, OwnerProof, OwnerEnv, OwnerProps. False of the code: set_value accesses the promise after the value was received, gives up the reference of the promise, and clears its pointer; see DESIGN section 4, item 30. The partial theorems require that the promise is not destroyed before set_value has returned, and that get_future is called before set_value."
  },
  {
   "property": "C100",
   "status": "partial",
   "theorems": [
    "Verif.Width.Suspend.C100_suspend_word_partial",
    "Verif.Width.Suspend.C100_suspend_no_fault_partial",
    "Verif.Width.Suspend.C100_suspend_completes_partial",
    "Verif.Width.Suspend.C100_suspend_tokens_false",
    "Verif.Width.SharedMutex.C100_shared_count_partial",
    "Verif.Width.SharedMutex.C100_shared_mutex_partial",
    "Verif.Width.SharedMutex.C100_shared_count_false",
    "Verif.Width.SharedMutex.C100_shared_exclusion_false",
    "Verif.Width.C100_wait_group_count_partial",
    "Verif.Width.C100_wait_group_partial",
    "Verif.Width.C100_wait_group_false",
    "Verif.Width.C100_sequenced_seq_partial",
    "Verif.Width.C100_sequenced_partial",
    "Verif.Width.C100_sequenced_assert_false",
    "Verif.Width.C100_sequenced_missed_false",
    "Verif.Width.C100_barrier_seq_partial",
    "Verif.Width.C100_barrier_partial",
    "Verif.Width.C100_barrier_false",
    "Verif.Width.C100_post_ack_count_partial",
    "Verif.Width.C100_post_ack_partial",
    "Verif.Width.C100_post_ack_false",
    "Verif.Width.C100_post_seq_partial",
    "Verif.Width.C100_post_seq_order_partial",
    "Verif.Width.C100_post_seq_false",
    "Verif.Width.Handles.C100_promise_count_partial",
    "Verif.Width.Handles.C100_promise_lifetime_partial",
    "Verif.Width.Handles.C100_promise_count_false",
    "Verif.Width.Resolver.C100_resolver_word",
    "Verif.Width.Resolver.C100_resolver_bits"
   ],
   "note": "Width/*. False of the code for 2^32 shared owners of one mutex, 2^32 attached agents, 2^30 - 1 tokens of suspend_indefinitely, and for 2^64 units of work, phases, posts or handles of one promise, see DESIGN section 4, item 31; the partial theorems require fewer."
  }
 ]
}