{
 "claims": [
  {
   "property": "C12",
   "status": "proved",
   "theorems": [
    "C12_one_call_at_a_time",
    "C12_one_worker_at_a_time"
   ],
   "note": ""
  },
  {
   "property": "C13",
   "status": "proved",
   "theorems": [
    "C13_startWorker",
    "C13_reply",
    "C13_answer",
    "C13_once",
    "C13_returned",
    "C13_decided"
   ],
   "note": ""
  },
  {
   "property": "C14",
   "status": "proved",
   "theorems": [
    "C14_clean_exit_removes",
    "C14_removed_stays_removed"
   ],
   "note": ""
  },
  {
   "property": "C15",
   "status": "proved",
   "theorems": [
    "C15_restart",
    "C15_one_attempt",
    "C15_same_func",
    "C15_only_then",
    "C15_delay",
    "C15_refused_is_removed"
   ],
   "note": ""
  },
  {
   "property": "C16",
   "status": "proved",
   "theorems": [
    "C16_wait",
    "C16_wait_returns",
    "C16_still_alive",
    "C16_dying",
    "C16_nil_iff",
    "C16_is_fatal",
    "C16_most_important"
   ],
   "note": ""
  },
  {
   "property": "C17",
   "status": "proved",
   "theorems": [
    "C17_last_wins",
    "C17_documented_false"
   ],
   "note": "The documented claim is false of the code; C17_documented_false is the negation and C17_last_wins says what the code does."
  },
  {
   "property": "C18",
   "status": "proved",
   "theorems": [
    "C18_stop_kills",
    "C18_told",
    "C18_no_new_attempt",
    "C18_only_open_attempt",
    "C18_killed_on_arrival"
   ],
   "note": ""
  },
  {
   "property": "C19",
   "status": "proved",
   "theorems": [
    "C19_nothing_new",
    "C19_all_killed",
    "C19_killed_on_arrival",
    "C19_why",
    "C19_fatal_shuts_down"
   ],
   "note": ""
  },
  {
   "property": "C20",
   "status": "proved",
   "theorems": [
    "C20_exit",
    "C20_wait"
   ],
   "note": ""
  },
  {
   "property": "C21",
   "status": "proved",
   "theorems": [
    "C21_never_crashes",
    "C21_known"
   ],
   "note": ""
  },
  {
   "property": "C22",
   "status": "proved",
   "theorems": [
    "C22_never_stuck",
    "C22_bounded",
    "C22_can_end"
   ],
   "note": "No stuck state, a bound on the number of steps, and the end can be reached. That it is reached in every fair execution is C78."
  },
  {
   "property": "C23",
   "status": "proved",
   "theorems": [
    "C23_worker",
    "C23_killed"
   ],
   "note": ""
  },
  {
   "property": "C24",
   "status": "proved",
   "theorems": [
    "C24_asleep",
    "C24_blocked"
   ],
   "note": ""
  },
  {
   "property": "C25",
   "status": "proved",
   "theorems": [
    "C25_false"
   ],
   "note": "The documented claim is false of the code; C25_false is the negation."
  },
  {
   "property": "C26",
   "status": "proved",
   "theorems": [
    "C26_result",
    "C26_only"
   ],
   "note": ""
  },
  {
   "property": "C27",
   "status": "proved",
   "theorems": [
    "C27_restarted",
    "C27_second_waits",
    "C27_one_value",
    "C27_forever"
   ],
   "note": "The documented claim is false of the code; these theorems are the negations (C27_one_value is general)."
  },
  {
   "property": "C28",
   "status": "proved",
   "theorems": [
    "C28_report",
    "C28_never_stopping",
    "C28_names"
   ],
   "note": ""
  },
  {
   "property": "C29",
   "status": "proved",
   "theorems": [
    "C29_errDead",
    "C29_not_received",
    "C29_returns",
    "C29_only_if_cancelled",
    "C29_alive"
   ],
   "note": ""
  },
  {
   "property": "C30",
   "status": "proved",
   "theorems": [
    "C30_one_at_a_time",
    "C30_ends_properly"
   ],
   "note": ""
  },
  {
   "property": "C31",
   "status": "proved",
   "theorems": [
    "C31_no_internal_error",
    "C31_report_error"
   ],
   "note": ""
  },
  {
   "property": "C32",
   "status": "proved",
   "theorems": [
    "C32_inputs_current",
    "C32_dying_handled"
   ],
   "note": ""
  },
  {
   "property": "C33",
   "status": "proved",
   "theorems": [
    "C33_stopped_not_stale"
   ],
   "note": ""
  },
  {
   "property": "C34",
   "status": "proved",
   "theorems": [
    "C34_change_reaches_dependents"
   ],
   "note": ""
  },
  {
   "property": "C35",
   "status": "proved",
   "theorems": [
    "C35_acyclic"
   ],
   "note": ""
  },
  {
   "property": "C36",
   "status": "proved",
   "theorems": [
    "C36_install_accepted",
    "C36_install_refused",
    "C36_install_dying"
   ],
   "note": ""
  },
  {
   "property": "C37",
   "status": "proved",
   "theorems": [
    "C37_clean_exit"
   ],
   "note": ""
  },
  {
   "property": "C38",
   "status": "proved",
   "theorems": [
    "C38_wait_result",
    "C38_fatal_kills"
   ],
   "note": ""
  },
  {
   "property": "C39",
   "status": "proved",
   "theorems": [
    "C39_nothing_started"
   ],
   "note": ""
  },
  {
   "property": "C40",
   "status": "proved",
   "theorems": [
    "C40_waits",
    "C40_rests"
   ],
   "note": ""
  },
  {
   "property": "C41",
   "status": "proved",
   "theorems": [
    "C41_reaction"
   ],
   "note": ""
  },
  {
   "property": "C42",
   "status": "proved",
   "theorems": [
    "C42_uninstall_only",
    "C41_reaction",
    "C34_change_reaches_dependents"
   ],
   "note": "C41_reaction contains the if half: in the step that ends the attempt, the manifold is removed and no other."
  },
  {
   "property": "C43",
   "status": "proved",
   "theorems": [
    "C43_bounded_step",
    "C43_bounded",
    "C43_progress",
    "C43_exits",
    "C43_can_exit"
   ],
   "note": "The bound holds even if clients go on calling Install and Report; they are not internal steps."
  },
  {
   "property": "C44",
   "status": "proved",
   "theorems": [
    "C44_killed",
    "C44_killed_on_arrival",
    "C37_clean_exit"
   ],
   "note": ""
  },
  {
   "property": "C45",
   "status": "proved",
   "theorems": [
    "C45_get",
    "C45_snapshot"
   ],
   "note": ""
  },
  {
   "property": "C46",
   "status": "proved",
   "theorems": [
    "C46_start_count",
    "C47_reports"
   ],
   "note": ""
  },
  {
   "property": "C47",
   "status": "proved",
   "theorems": [
    "C47_reports"
   ],
   "note": ""
  },
  {
   "property": "C48",
   "status": "proved",
   "theorems": [
    "C48_nothing_left",
    "C48_self_manifold_leaks"
   ],
   "note": "The documented claim is false of the code with a self manifold; C48_self_manifold_leaks is the negation, C48_nothing_left the claim without one."
  },
  {
   "property": "C49",
   "status": "proved",
   "theorems": [
    "C49_validate_iff_acyclic",
    "C49_validate_error",
    "C49_error_names_cycle",
    "C49_order_independent"
   ],
   "note": ""
  },
  {
   "property": "C50",
   "status": "proved",
   "theorems": [
    "C50_install",
    "C50_order_independent"
   ],
   "note": ""
  },
  {
   "property": "C51",
   "status": "proved",
   "theorems": [
    "C51_dependents"
   ],
   "note": ""
  },
  {
   "property": "C52",
   "status": "proved",
   "theorems": [
    "C52_delay_within",
    "C52_delay_capped",
    "C52_zero_delay"
   ],
   "note": ""
  },
  {
   "property": "C53",
   "status": "proved",
   "theorems": [
    "C53_maxDelay_exceeded",
    "C53_maxDelay_ignored_without_backoff",
    "C53_backoff_overflows",
    "C53_recent_zero_shortens"
   ],
   "note": "The documented claim is false of the code; these theorems are witnesses of the negation."
  },
  {
   "property": "C54",
   "status": "proved",
   "theorems": [
    "C54_monotone",
    "C54_recent_errors",
    "C54_delay_used"
   ],
   "note": ""
  },
  {
   "property": "C58",
   "status": "proved",
   "theorems": [
    "C58_quiesces",
    "C58_blocked"
   ],
   "note": ""
  },
  {
   "property": "C59",
   "status": "proved",
   "theorems": [
    "C59_no_helper_left",
    "C59_left_behind",
    "C59_broadcast",
    "C59_next_broadcast"
   ],
   "note": "C59_left_behind is the witness that a helper may outlive an aborted call while the runner runs."
  },
  {
   "property": "C01",
   "status": "proved",
   "theorems": [
    "C01_wait",
    "C01_first",
    "C01_nil"
   ],
   "note": ""
  },
  {
   "property": "C02",
   "status": "proved",
   "theorems": [
    "C02_dead",
    "C02_wait"
   ],
   "note": ""
  },
  {
   "property": "C03",
   "status": "proved",
   "theorems": [
    "C03_add_error",
    "C03_add_nil"
   ],
   "note": ""
  },
  {
   "property": "C04",
   "status": "proved",
   "theorems": [
    "C04_alive_kills_none",
    "C04_once",
    "C04_dying_kills_all",
    "C02_dead"
   ],
   "note": ""
  },
  {
   "property": "C05",
   "status": "proved",
   "theorems": [
    "C05_why_dying",
    "C05_kills",
    "C05_clean_exit"
   ],
   "note": ""
  },
  {
   "property": "C06",
   "status": "proved",
   "theorems": [
    "C06_kill_arg",
    "C06_wrapped",
    "C06_own_dying_ignored"
   ],
   "note": ""
  },
  {
   "property": "C07",
   "status": "proved",
   "theorems": [
    "C07_waitgroup",
    "C07_no_panic",
    "C07_no_panic_event",
    "C07_provisos"
   ],
   "note": "C07_provisos shows that both provisos are needed."
  },
  {
   "property": "C08",
   "status": "proved",
   "theorems": [
    "C08_validate",
    "C08_validate_error",
    "C08_invoke_nil",
    "C08_invoke_error",
    "C08_one_claim",
    "C08_check"
   ],
   "note": ""
  },
  {
   "property": "C09",
   "status": "proved",
   "theorems": [
    "C09_progress",
    "C09_bounded",
    "C09_ends"
   ],
   "note": ""
  },
  {
   "property": "C10",
   "status": "proved",
   "theorems": [
    "C10_panic",
    "C10_wait",
    "C10_goexit",
    "C10_goexit_alive",
    "C79_dies",
    "C79_workers_killed"
   ],
   "note": ""
  },
  {
   "property": "C11",
   "status": "proved",
   "theorems": [
    "C11_error_stays",
    "C11_changes_only_by_kill",
    "C11_negation"
   ],
   "note": "The documented claim is false of the code; C11_negation is the witness, the other two say what is true instead."
  },
  {
   "property": "C60",
   "status": "proved",
   "theorems": [
    "C60_add_blocked",
    "C60_add_before_invoke",
    "C60_invoke_blocked",
    "C60_never_block"
   ],
   "note": ""
  },
  {
   "property": "C55",
   "status": "proved",
   "theorems": [
    "C55_engine",
    "C55_engine_error",
    "C55_nan_accepted",
    "C55_runner",
    "C55_runner_params",
    "C55_more_important_default",
    "C08_validate",
    "C08_validate_error"
   ],
   "note": "C55_nan_accepted and C55_more_important_default are the negations for the two points in which the documented claim is false."
  },
  {
   "property": "C56",
   "status": "proved",
   "theorems": [
    "C56_stop",
    "C56_dead_own",
    "C56_dead_closed",
    "C56_complete",
    "C56_bounded",
    "C56_stop_waits"
   ],
   "note": ""
  },
  {
   "property": "C57",
   "status": "proved",
   "theorems": [
    "C57_simple",
    "C57_first",
    "C57_none",
    "C57_panics",
    "C57_resources"
   ],
   "note": ""
  },
  {
   "property": "C61",
   "status": "proved",
   "theorems": [
    "C61_result",
    "C61_timeout",
    "C61_nil_or_kill",
    "C61_no_hang"
   ],
   "note": ""
  },
  {
   "property": "C62",
   "status": "proved",
   "theorems": [
    "C62_wait",
    "C62_ends",
    "C62_forever"
   ],
   "note": ""
  },
  {
   "property": "C63",
   "status": "proved",
   "theorems": [
    "C63_self_output"
   ],
   "note": ""
  },
  {
   "property": "C64",
   "status": "proved",
   "theorems": [
    "C64_context",
    "C64_when",
    "C64_restart",
    "C64_first",
    "C64_stays",
    "C64_witness",
    "C64_fatal"
   ],
   "note": ""
  },
  {
   "property": "C65",
   "status": "proved",
   "theorems": [
    "C65_bounded",
    "C65_progress",
    "C65_settled"
   ],
   "note": "In C65_bounded an execution may also contain steps of clients and workers; only internal steps are counted. C65_settled: what NeedsInputs asks of Start funcs and workers is a condition on the history alone."
  },
  {
   "property": "C66",
   "status": "proved",
   "theorems": [
    "C66_caused",
    "C66_listed_twice"
   ],
   "note": "C66_listed_twice is a witness execution for the exception."
  },
  {
   "property": "C67",
   "status": "proved",
   "theorems": [
    "C67_err",
    "C67_wait",
    "C67_stable",
    "C67_context"
   ],
   "note": ""
  },
  {
   "property": "C68",
   "status": "proved",
   "theorems": [
    "C68_new",
    "C68_events",
    "C68_capacity",
    "C68_blocked"
   ],
   "note": "Wait and Kill of the watcher are those of NewErrorWorker(nil), see C62; Stop and Err are constants."
  },
  {
   "property": "C69",
   "status": "proved",
   "theorems": [
    "C69_context",
    "C69_left",
    "C69_pile_up"
   ],
   "note": ""
  },
  {
   "property": "C70",
   "status": "proved",
   "theorems": [
    "C70_exclusive",
    "C70_frozen"
   ],
   "note": ""
  },
  {
   "property": "C71",
   "status": "proved",
   "theorems": [
    "C71_times",
    "C71_delay",
    "C71_restart",
    "C71_goes_on"
   ],
   "note": "Times are integers of any unit; a step takes no time."
  },
  {
   "property": "C72",
   "status": "proved",
   "theorems": [
    "C72_last_start",
    "C72_not_updated"
   ],
   "note": "C72_not_updated is the witness that the name of the field is misleading: restarts do not change it."
  },
  {
   "property": "C73",
   "status": "proved",
   "theorems": [
    "C73_tracked",
    "C73_count"
   ],
   "note": ""
  },
  {
   "property": "C74",
   "status": "proved",
   "theorems": [
    "C74_base_delay",
    "C34_change_reaches_dependents",
    "C41_reaction"
   ],
   "note": ""
  },
  {
   "property": "C75",
   "status": "proved",
   "theorems": [
    "C75_stop_beats_delay",
    "C43_progress",
    "C43_exits",
    "C43_can_exit"
   ],
   "note": ""
  },
  {
   "property": "C76",
   "status": "proved",
   "theorems": [
    "C76_shutdown_waits",
    "C76_kill_beats_delay",
    "C76_fatal_waits",
    "C76_started_to_be_killed",
    "C76_stop_waits"
   ],
   "note": "The last three are witness executions for what is waited for although it need not."
  },
  {
   "property": "C77",
   "status": "proved",
   "theorems": [
    "C77_runner_calls",
    "C77_runner_cancel",
    "C77_runner_startfunc",
    "C77_runner_finish",
    "C77_runner_reports",
    "C77_catacomb_calls",
    "C77_catacomb_work",
    "C77_catacomb_finish",
    "C77_engine_calls",
    "C77_engine_startfunc",
    "C77_engine_get",
    "C77_engine_finish"
   ],
   "note": "Calls made by user code are steps of their own in the models, so that what is to be shown is that they are enabled; what happens next is in the other properties."
  },
  {
   "property": "C78",
   "status": "proved",
   "theorems": [
    "C78_shutdown_ends",
    "C78_calls_return",
    "C78_start_stop_return",
    "C78_attempts_end"
   ],
   "note": "Fairness is strong fairness for each step of the runner, a goroutine or a client separately. C78_calls_return and C78_start_stop_return suppose that the tomb of a runner that has stopped records a result, that is, that its fatal error is neither tomb.ErrStillAlive nor, if it was not killed, tomb.ErrDying (C16)."
  },
  {
   "property": "C79",
   "status": "proved",
   "theorems": [
    "C79_invoke_returns",
    "C79_add_returns",
    "C79_error_reaches",
    "C79_workers_killed",
    "C79_dies"
   ],
   "note": "Fairness is strong fairness for each step of a goroutine or call separately; Go's select chooses at random between ready arms. A panic ends an execution, so an infinite one contains none (C07)."
  },
  {
   "property": "C80",
   "status": "proved",
   "theorems": [
    "C80_killed_exits",
    "C80_attempts_end",
    "C80_told_ends",
    "C80_settles",
    "C80_converges"
   ],
   "note": "Fairness is strong fairness for each kind of step of each goroutine, whatever order a map is walked in and whatever the clock says; the ends of delays are a separate hypothesis. Calm and NeedsInputs, in the last two, are those of C65."
  },
  {
   "property": "C81",
   "status": "proved",
   "theorems": [
    "C81_contains",
    "C81_one_at_a_time",
    "C81_ends_properly",
    "C81_no_internal_error",
    "C81_wait_result",
    "C81_fatal_kills",
    "C81_acyclic",
    "C81_waits",
    "C81_nothing_started",
    "C81_clean_exit",
    "C81_snapshot",
    "C81_get",
    "C81_reports",
    "C81_report_error",
    "C81_recent_errors",
    "C81_delay_used",
    "C81_base_delay",
    "C81_uninstall",
    "C81_caused",
    "C81_told",
    "C81_killed",
    "C81_inputs",
    "C81_stopped",
    "C81_inputs_at_rest",
    "C81_arm_ends"
   ],
   "note": "What stays in one piece is said at the top of Verif/Engine/Fine.lean. C81_contains: executions with atomic arms are among these, so these theorems are the stronger ones."
  },
  {
   "property": "C82",
   "status": "proved",
   "theorems": [
    "C82_stops",
    "C82_children_ended",
    "C82_no_orphans",
    "C82_all_stop",
    "C82_error_spreads"
   ],
   "note": "By well-founded induction over the tree from C78, C79 and C80, with C20, C02 and C37 for the workers left behind. Each part's execution has its own clock; what ties a parent to a child is the hypothesis Tree.kill and Tree.wait. A runner's fatal error must not be one of the tomb's own (C16)."
  },
  {
   "property": "C83",
   "status": "proved",
   "theorems": [
    "C83_delay_within",
    "C83_delay_capped",
    "C83_exact",
    "fpu53_ok"
   ],
   "note": "C83_exact: with exact arithmetic this is the delay of C52-C54. fpu53_ok: rounding to nearest with 53 binary digits meets the assumptions. That math.Pow is off by at most \u03b7 is an assumption; the Go documentation promises nothing."
  },
  {
   "property": "C84",
   "status": "proved",
   "theorems": [
    "C84_base_delay",
    "C84_times",
    "C84_delay",
    "C84_restart",
    "C84_apart",
    "C84_rate",
    "C84_smallest",
    "C84_backoff",
    "C84_goes_on"
   ],
   "note": "A step takes no time. C84_backoff supposes that the clock never shows Go's zero time. C84_smallest needs a MaxDelay if there is backoff, by C53."
  },
  {
   "property": "C85",
   "status": "proved",
   "theorems": [
    "C85_reads",
    "C85_private",
    "C85_writer",
    "C85_locked",
    "C85_exclusive",
    "C85_killing"
   ],
   "note": "Using a variable means that the outcome of the step depends on it, or that the step changes it. Taking the mutex, the work under it and giving it back are one step of the model, except for the helper and killAll, which hold it over several."
  },
  {
   "property": "C86",
   "status": "proved",
   "theorems": [
    "C86_private",
    "C86_writer",
    "C86_dead"
   ],
   "note": "As in C85. That a dead tomb's Dead channel orders the loop's last writes before later reads is Go's memory model for channels."
  },
  {
   "property": "C87",
   "status": "proved",
   "theorems": [
    "C87_when",
    "C87_report",
    "C87_same"
   ],
   "note": ""
  },
  {
   "property": "C88",
   "status": "proved",
   "theorems": [
    "C88_still",
    "C88_calls"
   ],
   "note": "The return of the Kill is one step of the model; the theorems are about executions without it. What the Kill itself does meanwhile is part of the environment."
  },
  {
   "property": "C89",
   "status": "proved",
   "theorems": [
    "C89_engine",
    "C89_runner"
   ],
   "note": "A StartFunc of a runner that calls runtime.Goexit is caught (C12, C14); the catacomb's counterpart is C10_goexit_alive."
  },
  {
   "property": "C90",
   "status": "proved",
   "theorems": [
    "C90_guarantees",
    "C90_contains",
    "C90_enabled",
    "C90_report",
    "C90_snapshot",
    "C90_kill"
   ],
   "note": "The return of the nested call is one step of the model; C90_report and C90_kill are about executions without it. What the nested call itself does meanwhile is part of the environment. C90_guarantees and C90_contains: the histories are those of the runner in which these calls take no time."
  },
  {
   "property": "C91",
   "status": "proved",
   "theorems": [
    "C91_still",
    "C91_busy"
   ],
   "note": "The end of a call of Kill or Report is the next piece of the loop's work in Engine/Fine; C91_busy says that there is one. What the call itself does meanwhile is part of the environment."
  },
  {
   "property": "C92",
   "status": "proved",
   "theorems": [
    "C92_killed",
    "C92_inputs",
    "C92_once",
    "C92_bounced"
   ],
   "note": "C92_bounced is the witness that an ordinary failure of an input suffices."
  },
  {
   "property": "C93",
   "status": "proved",
   "theorems": [
    "C93_runner",
    "C93_engine",
    "C93_stub",
    "C93_refused"
   ],
   "note": "The catacomb: C11_error_stays, C11_changes_only_by_kill, C11_negation."
  },
  {
   "property": "C94",
   "status": "proved",
   "theorems": [
    "C94_exact",
    "C94_next",
    "C94_complete"
   ],
   "note": "The specification is Possible in Spec/CatacombExact.lean: EvOk of Spec/Catacomb.lean and the numbering and order of calls. From left to right by an invariant, from right to left by building an execution that does unseen things as late as possible."
  },
  {
   "property": "C95",
   "status": "proved",
   "theorems": [
    "C95_sound",
    "C95_exact",
    "C95_next",
    "C95_complete"
   ],
   "note": "The specification is History in Spec/RunnerExact.lean. For every execution and every history, including Worker and StopAndRemoveWorker calls. From left to right by an invariant; from right to left by building an execution that does unseen things of the run goroutine as late as possible, and lets each lookup look at any moment at which it may. T stands for what a history does not show: the times of registrations, and which registration a StopAndRemoveWorker call has found."
  },
  {
   "property": "C96",
   "status": "proved",
   "theorems": [
    "C96_sound",
    "C96_exact",
    "C96_next",
    "C96_complete"
   ],
   "note": "The specification is After in Spec/EngineExact.lean, for the engine of Engine/Fine. From left to right by a simulation; from right to left by building an execution in which an attempt notices that it has to give up, or that its worker has finished, only when that matters. Reports list manifolds in the order of the model's table, which the specification computes from the history; Go's order is arbitrary."
  },
  {
   "property": "C97",
   "status": "proved",
   "theorems": [
    "C97_killed_exits",
    "C97_told_ends",
    "C97_attempts_end",
    "C97_settles",
    "C97_converges"
   ],
   "note": "As C80, for the engine of Engine/Fine (C81, C96). Fairness is strong fairness for each kind of step of each goroutine, the next piece of the loop's work being a kind of its own; the ends of delays are a separate hypothesis, which the first two do without. Calm and NeedsInputs are those of C65."
  },
  {
   "property": "C98",
   "status": "proved",
   "theorems": [
    "C98_answers",
    "C98_in_time",
    "C98_no_race",
    "C98_log_exact",
    "C98_start_only",
    "C98_race",
    "C98_lost"
   ],
   "note": "A model of its own, Snapshot/Model, with each access to the log as a step; slices are values. C98_race and C98_lost are executions that refute the comment in engine.go:513-519 and show that the hypothesis of the others is needed."
  },
  {
   "property": "C99",
   "status": "proved",
   "theorems": [
    "C99_attempts",
    "C99_news",
    "C99_bound",
    "C99_least",
    "C99_reached",
    "C99_runner"
   ],
   "note": "For the engine of Engine/Fine, by induction over the specification of C96; for the runner over that of C95. An input that is declared twice counts twice. C99_reached is an execution in which the bound is attained."
  },
  {
   "property": "C100",
   "status": "proved",
   "theorems": [
    "C100_engine",
    "C100_contains",
    "C100_log",
    "C100_paired",
    "C100_once",
    "C100_never_stuck",
    "C100_returns"
   ],
   "note": "The model is Engine/Clients on top of Engine/Fine: clients' steps are steps of the engine or leave it alone. The specification is LogOk in Spec/EngineClients.lean. Fairness is strong fairness for the loop's work, the handing over of results, and each call's own steps; none is asked of the rest. The Report methods of workers, called by liveReport, are assumed to return (C91 is about those that do not)."
  },
  {
   "property": "C101",
   "status": "proved",
   "theorems": [
    "C101_storm",
    "C101_settles",
    "C101_exists",
    "C101_result",
    "C101_same",
    "C101_converges"
   ],
   "note": "For the engine of Engine/Fine. C101_storm by well-founded induction over the graph from C99_attempts; removals are allowed. The specification is in Spec/EngineSettle.lean; Obeys and Leaves say what it means that Start funcs and workers follow a policy. Generalises C97_settles and C97_converges, whose environment is calm."
  },
  {
   "property": "C102",
   "status": "proved",
   "theorems": [
    "C102_sound",
    "C102_exact",
    "C102_complete",
    "C102_engine",
    "C102_returns"
   ],
   "note": "The specification is CAfter in Spec/EngineCalls.lean, on top of After (C96), for the model of C100. From left to right by a simulation; from right to left by building an execution as for C96, in which the loop does what it has to do for a call as late as the log allows."
  },
  {
   "property": "C103",
   "status": "proved",
   "theorems": [
    "C103_engine",
    "C103_runner",
    "C103_catacomb",
    "C103_clients"
   ],
   "note": "By a scheduler that among the kinds of steps that are possible takes the one taken least recently (Verif/Schedule.lean, for any transition system with countably many kinds). So the hypotheses of C78, C79, C97, C100, C101 and C104 are met by executions through every reachable state."
  },
  {
   "property": "C104",
   "status": "proved",
   "theorems": [
    "C104_exits",
    "C104_stop_returns"
   ],
   "note": "From C97 and C100: the engine's part of an execution with clients is an execution of the engine, continued by workers that are none of the engine's if it is finite (Engine/ClientsRun)."
  },
  {
   "property": "C105",
   "status": "proved",
   "theorems": [
    "C105_told",
    "C105_seen",
    "C105_children_ended",
    "C105_no_orphans"
   ],
   "note": "The model is System/Model: the components' own models (the engine of Engine/Fine) under one scheduler; a call of Kill is a step of both, and Wait returns the worker's own result. A worker may take steps before its start func has returned, which only adds executions."
  },
  {
   "property": "C106",
   "status": "proved",
   "theorems": [
    "C106_stops",
    "C106_all_stop"
   ],
   "note": "By well-founded induction on who kills whom. Each component's part of an execution is an execution of it with pauses (Verif/Stutter.lean), to which C78, C79 and C97 apply. The example is a program of an engine, a runner, a catacomb and leaves that meets all hypotheses."
  },
  {
   "property": "C107",
   "status": "proved",
   "theorems": [
    "C107_origin",
    "C107_no_panic"
   ],
   "note": "Given says what users have given to a component, by its history; Closed says that a set of errors is not led out of: by CSpec.effective for a catacomb, by worstError and filter for an engine. Plain errors are those without a meaning of their own. The example is a program in which the error of a leaf goes up through a catacomb and an engine."
  },
  {
   "property": "C108",
   "status": "proved",
   "theorems": [
    "C108_goes_on",
    "C108_can_stop",
    "C108_stoppable",
    "kills_handed"
   ],
   "note": "By the scheduler of Verif/Schedule.lean, over the steps of the components and those of users who only let things end. Going says which states this is about; every step of that kind leads from such a state to such a state. The example is the program of C105 with everything running."
  },
  {
   "property": "C109",
   "status": "proved",
   "theorems": [
    "C109_error",
    "C109_fails",
    "C109_goes_up"
   ],
   "note": "Fails: Wait returns at some time, and never nil. From C79_error_reaches, C67 and C106, with C107 for the errors on the way. From C19 and C16 for runners, C81 and C97 for engines. Heeds: the catacomb's goroutine for the worker has been started, or the runner or engine has started the worker and its isFatal holds of every error that the worker ends with. The example is an execution given by C108 in which a leaf of a catacomb and one of a runner fail, and the failure of the latter reaches the engine."
  },
  {
   "property": "C110",
   "status": "proved",
   "theorems": [
    "C110_kept",
    "C110_again"
   ],
   "note": "The errors after which workers are run again are those of RSpec.Restartable: not nil, IsFatal does not hold of them and ShouldRestart does. A worker is told to stop by StopWorker, or when the runner is killed or another worker fails fatally. WaitsAll: Wait of a worker that has ended returns. The example is an execution given by C108 in which the worker of a runner has just failed with an error that is not fatal."
  },
  {
   "property": "C111",
   "status": "proved",
   "theorems": [
    "C111_settles",
    "C111_converges"
   ],
   "note": "C97 for an engine as part of a program: its part is an execution with pauses, which are left out (Stutter.lean, unstutter_ops); killed workers end by C106. CalmFrom is FCalm, as in C97, of the steps of users of the engine. The example is the program of C105 which is started and then goes on for ever; at first its engine has not settled."
  },
  {
   "property": "C112",
   "status": "proved",
   "theorems": [
    "C112_runner",
    "C112_invoke",
    "C112_add"
   ],
   "note": "C78 and C79 for runners and catacombs as parts of a program: their parts are executions with pauses, which are left out (Stutter.lean); what Invoke and Add wait for ends by C106. The examples are calls in the programs of C106 and C111 which have been made and have not returned yet. The exception for Add is real: see the example of C79 (CDemo.early). Calls of Worker, which wait for a worker, are in C116."
  },
  {
   "property": "C113",
   "status": "proved",
   "theorems": [
    "C113_attempt",
    "C113_built",
    "C113_ends"
   ],
   "note": "Built says that an attempt was begun with a snapshot in which an input has the one worker, and that its Start func returned the other; the Context shows what is in the snapshot (C69). A manifold's worker changes only when an attempt starts or ends, after which its dependents are bounced; C113_ends by C106 for engines as parts of a program. In the examples worker 10 has ended and worker 11, built on it, is running."
  },
  {
   "property": "C114",
   "status": "proved",
   "theorems": [
    "C114_begins",
    "C114_kept",
    "C114_program"
   ],
   "note": "Kept lists what may become of a manifold, by histories alone. C114_begins supposes only fairness and that nobody kills the engine. From C97 (attempts end) and the fact that at its select the loop has left stopped only what waits (C40). C114_program for the part of an engine in a program, with C106 for the workers it kills. The examples are executions in which a manifold has just been installed, has been told to stop, and has no worker yet."
  },
  {
   "property": "C115",
   "status": "proved",
   "theorems": [
    "C115_gone",
    "C115_program"
   ],
   "note": "From C78 (attempts end): the attempt of a worker told to stop stays open, and the worker registered and told, until it ends, and after an end of a told worker comes its removal. An attempt cannot be running for ever a worker that was handed over, since such a worker has then been killed. C115_program for the part of a runner in a program, with C106 for the workers it kills."
  },
  {
   "property": "C116",
   "status": "proved",
   "theorems": [
    "C116_calls",
    "C116_cancelled",
    "C116_dead"
   ],
   "note": "C78 for runners as parts of a program, with what a call may wait for narrowed down: killed workers end by C106, and an id that again and again is registered without a worker is attempted for ever (attempted_ever), since Start funcs return. StillWaits says what a call that does not return waits for. The example is an execution in which calls have been made and one aborted, the runner has been killed and neither call has returned yet. An example of a call of Worker that never returns, with a Start func that does not return, is with C78."
  },
  {
   "property": "C117",
   "status": "proved",
   "theorems": [
    "C117_reason",
    "C117_ends_iff"
   ],
   "note": "Reason is a condition on the events of the one component. C117_reason by the conditions on the events by which components end; the converse by C106 and C79. The example is a program whose engine has a reason to end and has not ended yet, while its runner has none. A work func that calls Goexit is not a reason (see C10)."
  },
  {
   "property": "C118",
   "status": "proved",
   "theorems": [
    "C118_again"
   ],
   "note": "C114_program says what may become of a manifold in the long run; after an attempt that ended with an error that is retried, nothing but an attempt happens to the manifold (again_rests: it is not uninstalled, it does not wait), so all that is left is another attempt. The example is an execution in which the worker has failed and the engine has not noticed yet."
  },
  {
   "property": "C119",
   "status": "proved",
   "theorems": [
    "C119_uninstalled"
   ],
   "note": "removes_next, by induction over the histories as C96 describes them, says that the loop's next event after the end of such an attempt is the removal; C114_program that it does not stop there. Aside says which events may come in between. The example is an execution in which the worker has ended with ErrUninstall and the engine has not noticed yet."
  },
  {
   "property": "C120",
   "status": "proved",
   "theorems": [
    "C120_bounced"
   ],
   "note": "From C114_program: an attempt told to stop that stayed open, or a manifold left alone after it, would be none of what may become of a manifold in the long run. The example is an execution in which the attempt of a manifold has been told to stop, because its input came up, while it was waiting to be started."
  }
 ]
}