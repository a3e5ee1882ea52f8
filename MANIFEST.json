{
 "claims": [
  {
   "property": "C01",
   "status": "proved",
   "theorems": [
    "AJ.Props.C01_inmem_refines"
   ],
   "note": ""
  },
  {
   "property": "C02",
   "status": "proved",
   "theorems": [
    "AJ.Props.C02_inmem_last_write",
    "AJ.Props.C02_redis_last_write"
   ],
   "note": ""
  },
  {
   "property": "C03",
   "status": "proved",
   "theorems": [
    "AJ.Props.C03_move",
    "AJ.Props.C03_move_conserves"
   ],
   "note": ""
  },
  {
   "property": "C04",
   "status": "proved",
   "theorems": [
    "AJ.Props.C04_remove"
   ],
   "note": ""
  },
  {
   "property": "C05",
   "status": "proved",
   "theorems": [
    "AJ.Props.C05_observe"
   ],
   "note": ""
  },
  {
   "property": "C06",
   "status": "proved",
   "theorems": [
    "AJ.Props.C06_redis_like_memory"
   ],
   "note": ""
  },
  {
   "property": "C07",
   "status": "partial",
   "theorems": [
    "AJ.Props.C07_backends_agree_partial",
    "AJ.Props.C07_rotation_agrees_partial",
    "AJ.Props.C07_refuted_get_zero",
    "AJ.Props.C07_refuted_self_move",
    "AJ.Props.C07_refuted_get_huge",
    "AJ.Props.C07_refuted_name"
   ],
   "note": "False as stated: queue_get with count 0 or a count above i64::MAX, moving within one queue more items than it has, and a name used both as queue and as hash differ between the backends (refutations with concrete witnesses). Proved for all other calls, and for rotations; these include all calls the work queue makes."
  },
  {
   "property": "C08",
   "status": "proved",
   "theorems": [
    "AJ.Props.C08_queue_names_distinct"
   ],
   "note": ""
  },
  {
   "property": "C09",
   "status": "proved",
   "theorems": [
    "AJ.Props.C09_round_trip",
    "AJ.Props.C09_writable"
   ],
   "note": ""
  },
  {
   "property": "C10",
   "status": "proved",
   "theorems": [
    "AJ.Props.C10_precision",
    "AJ.Props.C10_no_drift"
   ],
   "note": ""
  },
  {
   "property": "C11",
   "status": "partial",
   "theorems": [
    "AJ.Props.C11_readable_partial",
    "AJ.Props.C11_refuted_duration",
    "AJ.Props.C11_refuted_depth"
   ],
   "note": "False as stated: a job that cannot be written, or is nested too deeply to be read, is acknowledged and then unreadable (refutations). Proved for serialisable jobs."
  },
  {
   "property": "C12",
   "status": "proved",
   "theorems": [
    "AJ.Props.C12_bounded_retries",
    "AJ.Props.C12_submitted_once",
    "AJ.Props.C12_no_policy",
    "AJ.Props.C12_plain_once"
   ],
   "note": "Also: without a retry policy at most once. Non-cron jobs with the default retry_at; any outcomes, any behaviour of user code and any history of other jobs."
  },
  {
   "property": "C13",
   "status": "partial",
   "theorems": [
    "AJ.Props.C13_always_failing_partial",
    "AJ.Props.C13_ends_partial",
    "AJ.Props.C13_refuted",
    "AJ.Props.C13_refuted_lost"
   ],
   "note": "False when the retry time is no valid date (the actor dies) and when a failing run leaves data that cannot be stored (the job is lost). Proved otherwise, as a bound at every moment and (C13_ends_partial) as what every endless history that serves the job comes to, for the default retry_at and a job that is not cancelled, resubmitted or retried by hand meanwhile."
  },
  {
   "property": "C14",
   "status": "partial",
   "theorems": [
    "AJ.Props.C14_scheduled",
    "AJ.Props.C14_interval_partial",
    "AJ.Props.C14_refuted"
   ],
   "note": "The stored due time is proved for every history; so is not starting before it, for a job whose submissions are orderly. False when the due time is no valid date, which kills the actor. Also for cron jobs with a retry policy."
  },
  {
   "property": "C15",
   "status": "partial",
   "theorems": [
    "AJ.Props.C15_backoff_partial",
    "AJ.Props.C15_refuted"
   ],
   "note": "False as stated: the k-th retry waits initial*2^k, twice the documented delay. The partial theorem states the actual delay for the first 30 retries."
  },
  {
   "property": "C16",
   "status": "partial",
   "theorems": [
    "AJ.Props.C16_unlimited_partial",
    "AJ.Props.C16_refuted_debug",
    "AJ.Props.C16_refuted_release"
   ],
   "note": "False as stated from the 31st retry on: debug builds kill the actor, release builds schedule in the past. The partial theorem covers the first 30 retries."
  },
  {
   "property": "C17",
   "status": "partial",
   "theorems": [
    "AJ.Props.C17_only_failed_retried_partial",
    "AJ.Props.C17_refuted"
   ],
   "note": "Default retry_at. False when computing the retry time panics. Proved when the actor survives the turn and the result can be stored."
  },
  {
   "property": "C18",
   "status": "proved",
   "theorems": [
    "AJ.Props.C18_never_early",
    "AJ.Props.C18_waits"
   ],
   "note": "Every history, whatever callers and user code do."
  },
  {
   "property": "C19",
   "status": "proved",
   "theorems": [
    "AJ.Props.C19_work_conserving"
   ],
   "note": ""
  },
  {
   "property": "C20",
   "status": "partial",
   "theorems": [
    "AJ.Props.C20_not_before_slot",
    "AJ.Props.C20_next_slot_partial",
    "AJ.Props.C20_waits_partial",
    "AJ.Props.C20_refuted"
   ],
   "note": "The first half holds in every history. The second half is false for schedules without further slot (the job runs at every tick); proved for schedules that always have one, for runs that are not retried."
  },
  {
   "property": "C21",
   "status": "partial",
   "theorems": [
    "AJ.Props.C21_max_repeat_partial",
    "AJ.Props.C21_submitted_once_partial",
    "AJ.Props.C21_refuted"
   ],
   "note": "False for schedules without further slot. Proved for schedules that always have one, jobs without retry policy, and max_repeat below i32::MAX, whatever user code does."
  },
  {
   "property": "C22",
   "status": "partial",
   "theorems": [
    "AJ.Props.C22_stored_partial",
    "AJ.Props.C22_end_at_partial",
    "AJ.Props.C22_submitted_once_partial",
    "AJ.Props.C22_refuted"
   ],
   "note": "False for jobs with a retry policy. Proved without, whatever user code does."
  },
  {
   "property": "C23",
   "status": "partial",
   "theorems": [
    "AJ.Props.C23_exhausted_partial",
    "AJ.Props.C23_gone_partial",
    "AJ.Props.C23_refuted",
    "AJ.Props.C23_witness",
    "AJ.Props.C23_for_ever"
   ],
   "note": "False: an exhausted job that waits stays Queued for ever. Proved for jobs that are exhausted when a run ends."
  },
  {
   "property": "C24",
   "status": "partial",
   "theorems": [
    "AJ.Props.C24_success_partial",
    "AJ.Props.C24_refuted",
    "AJ.Props.C24_witness"
   ],
   "note": "False for every retried run. Runs that do not fail keep the cron type."
  },
  {
   "property": "C25",
   "status": "partial",
   "theorems": [
    "AJ.Props.C25_one_execution_partial",
    "AJ.Props.C25_refuted"
   ],
   "note": "False as stated: submitting a job obtained from get_job while the job is queued again puts it into the queue twice (refutation). Proved for every history whose submissions of this job do not carry a status that contradicts the stored one, and do not come while the job waits with an unreadable stored job (hypothesis Orderly)."
  },
  {
   "property": "C26",
   "status": "partial",
   "theorems": [
    "AJ.Props.C26_capacity_partial",
    "AJ.Props.C26_refuted"
   ],
   "note": "False as stated, for the same reason as C25 (refutation with 21 executions at capacity 20). Proved for all histories whose submissions are orderly (see C25), whatever user code does."
  },
  {
   "property": "C27",
   "status": "partial",
   "theorems": [
    "AJ.Props.C27_tick_partial",
    "AJ.Props.C27_refuted"
   ],
   "note": "All states. False in one detail: an id that is in the queued list twice keeps an entry. For ids that were there once everything is proved."
  },
  {
   "property": "C28",
   "status": "proved",
   "theorems": [
    "AJ.Props.C28_tick_conserves"
   ],
   "note": ""
  },
  {
   "property": "C29",
   "status": "proved",
   "theorems": [
    "AJ.Props.C29_tick_terminates"
   ],
   "note": ""
  },
  {
   "property": "C30",
   "status": "partial",
   "theorems": [
    "AJ.Props.C30_fifo_partial",
    "AJ.Props.C30_refuted"
   ],
   "note": "False as stated: a tick looks at 20 entries at a time and moves those it cannot start behind the others, so with more than 20 queued jobs a younger job can overtake (refutation with 21 jobs). Proved for queues of at most 20 entries."
  },
  {
   "property": "C31",
   "status": "partial",
   "theorems": [
    "AJ.Props.C31_no_starvation_partial",
    "AJ.Props.C31_refuted"
   ],
   "note": "False as stated: with more than 20 queued jobs a ready job can be overtaken forever (refutation: an endless history on every backend). Proved for all endless histories in which ticks find at most 20 queued entries and the job is neither cancelled nor submitted again. For longer queues: C91."
  },
  {
   "property": "C32",
   "status": "partial",
   "theorems": [
    "AJ.Props.C32_cancelled_rests_partial",
    "AJ.Props.C32_refuted"
   ],
   "note": "False for a job that was submitted against the rules of C25 before, so that it has two entries: the cancelled job runs. Proved for jobs with orderly submissions before the cancellation."
  },
  {
   "property": "C33",
   "status": "partial",
   "theorems": [
    "AJ.Props.C33_cancel_partial",
    "AJ.Props.C33_refuted"
   ],
   "note": "False: Ok is also returned for running, done and unknown jobs. What cancel_job does in every state is proved."
  },
  {
   "property": "C34",
   "status": "proved",
   "theorems": [
    "AJ.Props.C34_retry_answer",
    "AJ.Props.C34_manual_retry"
   ],
   "note": "The answer in every state; lists and status in histories whose submissions of the job are orderly (see C25)."
  },
  {
   "property": "C35",
   "status": "partial",
   "theorems": [
    "AJ.Props.C35_update_partial",
    "AJ.Props.C35_late_partial",
    "AJ.Props.C35_next_run_partial",
    "AJ.Props.C35_refuted_race"
   ],
   "note": "Proved when the job is not changed between the two messages of update_job, or has been started meanwhile; false otherwise."
  },
  {
   "property": "C36",
   "status": "partial",
   "theorems": [
    "AJ.Props.C36_resubmission_partial",
    "AJ.Props.C36_refuted"
   ],
   "note": "False in one case: re_run without override_data replaces the stored job of a done job. Everything else is proved."
  },
  {
   "property": "C37",
   "status": "partial",
   "theorems": [
    "AJ.Props.C37_skip_partial",
    "AJ.Props.C37_stranded",
    "AJ.Props.C37_refuted"
   ],
   "note": "False for every done job when the submitted job is freshly built; true when it carries a done status."
  },
  {
   "property": "C38",
   "status": "proved",
   "theorems": [
    "AJ.Props.C38_sound",
    "AJ.Props.C38_consistent"
   ],
   "note": "Disciplined histories are those satisfying CarefulFor (one job) or Careful (all jobs): submissions are serialisable and do not carry a status contradicting the stored one, user code leaves jobs serialisable."
  },
  {
   "property": "C39",
   "status": "partial",
   "theorems": [
    "AJ.Props.C39_one_outcome_partial",
    "AJ.Props.C39_plain_partial",
    "AJ.Props.C39_refuted",
    "AJ.Props.C39_refuted_lost"
   ],
   "note": "Any history. False when Retry::retry_at or next_tick overflows (the actor dies, nothing is stored) and when the run leaves data that cannot be stored (the job is lost). Proved otherwise."
  },
  {
   "property": "C40",
   "status": "proved",
   "theorems": [
    "AJ.Props.C40_run_count",
    "AJ.Props.C40_grows"
   ],
   "note": "Whatever user code does."
  },
  {
   "property": "C41",
   "status": "proved",
   "theorems": [
    "AJ.Props.C41_life_cycle"
   ],
   "note": "Histories careful with the job (see C38)."
  },
  {
   "property": "C42",
   "status": "partial",
   "theorems": [
    "AJ.Props.C42_sent_partial",
    "AJ.Props.C42_sent_read_partial",
    "AJ.Props.C42_told_partial",
    "AJ.Props.C42_refuted"
   ],
   "note": "The work queue sends the statuses in the right order, and a plugin not preceded by one that suspends is told the true status last. False for a plugin registered after one whose hook suspends: it may be told the statuses in another order."
  },
  {
   "property": "C43",
   "status": "partial",
   "theorems": [
    "AJ.Props.C43_prefix_partial",
    "AJ.Props.C43_ended_partial",
    "AJ.Props.C43_all_partial",
    "AJ.Props.C43_refuted"
   ],
   "note": "True of every message whose hooks return, however they suspend. False when a hook panics: the plugins after it are left out."
  },
  {
   "property": "C44",
   "status": "partial",
   "theorems": [
    "AJ.Props.C44_around_partial",
    "AJ.Props.C44_refuted",
    "AJ.Props.C44_twice"
   ],
   "note": "There is one message before and one after the user code of every execution. False that the second calls after_run: before_run is called twice per execution and after_run never, in any history."
  },
  {
   "property": "C45",
   "status": "proved",
   "theorems": [
    "AJ.Props.C45_moments",
    "AJ.Props.C45_results"
   ],
   "note": "Any number of work queues with different names and disjoint ids, any histories, interleaved step by step in any way, on either backend."
  },
  {
   "property": "C46",
   "status": "partial",
   "theorems": [
    "AJ.Props.C46_partial",
    "AJ.Props.C46_refuted_lost",
    "AJ.Props.C46_refuted_mixed"
   ],
   "note": "False: all types share one storage hash. A type that cannot read A's job overwrites it; a type with the same data format replaces A's waiting job and queues nothing. A's lists, its other jobs, and the job in the cases B must not touch stay intact."
  },
  {
   "property": "C47",
   "status": "partial",
   "theorems": [
    "AJ.Props.C47_survives_partial",
    "AJ.Props.C47_picked_partial",
    "AJ.Props.C47_blocked",
    "AJ.Props.C47_refuted"
   ],
   "note": "The job always survives and is picked once there is room. False that there always is: executions lost in the crash keep their slots, and with 20 of them nothing is ever started again."
  },
  {
   "property": "C48",
   "status": "partial",
   "theorems": [
    "AJ.Props.C48_resubmit_partial",
    "AJ.Props.C48_duplicate",
    "AJ.Props.C48_lost"
   ],
   "note": "Proved for every crash point but one of a first submission; false at the point between the push and the store (two entries), and for re-submissions of done jobs (no entry)."
  },
  {
   "property": "C49",
   "status": "partial",
   "theorems": [
    "AJ.Props.C49_before_move_partial",
    "AJ.Props.C49_refuted"
   ],
   "note": "False for every job: after a crash during its run it stays Running for ever and keeps its slot. True for crashes in the tick before the id is moved."
  },
  {
   "property": "C50",
   "status": "partial",
   "theorems": [
    "AJ.Props.C50_torn_partial",
    "AJ.Props.C50_refuted"
   ],
   "note": "All crash points are characterised. False at two of them, whenever the run ends by putting the job back into the queue."
  },
  {
   "property": "C51",
   "status": "partial",
   "theorems": [
    "AJ.Props.C51_read_partial",
    "AJ.Props.C51_refuted"
   ],
   "note": "False for every queued job: when the read fails the job is taken for a new one and queued twice. True when the read works, whatever else fails."
  },
  {
   "property": "C52",
   "status": "partial",
   "theorems": [
    "AJ.Props.C52_submit",
    "AJ.Props.C52_cancel",
    "AJ.Props.C52_pick",
    "AJ.Props.C52_retry_partial",
    "AJ.Props.C52_finish_partial",
    "AJ.Props.C52_retry_lost",
    "AJ.Props.C52_finish_lost",
    "AJ.Props.C52_slot_leak"
   ],
   "note": "True of submissions, cancellations and the scan of a tick, on any backend. False of manual retries and of the end of a run, whose swallowed errors lose the job or leak its slot."
  },
  {
   "property": "C53",
   "status": "partial",
   "theorems": [
    "AJ.Props.C53_conserved_partial",
    "AJ.Props.C53_apart_partial",
    "AJ.Props.C53_refuted_twice",
    "AJ.Props.C53_refuted_lost"
   ],
   "note": "False when ticks overlap: a due job can be started by both, and another one can be lost for ever. True when turns do not overlap; and in every interleaving entries are conserved, ids picked by one process are different, and only Running marks are written."
  },
  {
   "property": "C54",
   "status": "proved",
   "theorems": [
    "AJ.Props.C54_first",
    "AJ.Props.C54_later"
   ],
   "note": "The first call of start made while no other is running creates the engine with its backend; after that, in every history of any clients, the engine and its backend stay and every call of start returns it. Calls of start that overlap with the first one are C67."
  },
  {
   "property": "C55",
   "status": "partial",
   "theorems": [
    "AJ.Props.C55_partial",
    "AJ.Props.C55_types",
    "AJ.Props.C55_refuted"
   ],
   "note": "True in all interleavings as long as one engine was made. False with two engines, which overlapping calls of start can make."
  },
  {
   "property": "C56",
   "status": "partial",
   "theorems": [
    "AJ.Props.C56_partial",
    "AJ.Props.C56_ends_partial",
    "AJ.Props.C56_refuted",
    "AJ.Props.C56_refuted_dead"
   ],
   "note": "False: of two clients submitting first jobs of a type at the same time the second can get an error, and the engine is dead: no other type ever gets a queue. True if first submissions of a type do not overlap and different types use different names."
  },
  {
   "property": "C57",
   "status": "proved",
   "theorems": [
    "AJ.Props.C57_unregistered",
    "AJ.Props.C57_histories"
   ],
   "note": "In every state, and over all histories without submissions."
  },
  {
   "property": "C58",
   "status": "partial",
   "theorems": [
    "AJ.Props.C58_kept_partial",
    "AJ.Props.C58_refuted"
   ],
   "note": "False: after a panic of user code the work queue actor is gone; nothing is executed any more and every request fails. Stored jobs and lists are untouched by the panic."
  },
  {
   "property": "C59",
   "status": "proved",
   "theorems": [
    "AJ.Props.C59_timestamps"
   ],
   "note": "Whatever user code does, for a clock that never goes back."
  },
  {
   "property": "C60",
   "status": "partial",
   "theorems": [
    "AJ.Props.C60_now",
    "AJ.Props.C60_model",
    "AJ.Props.C60_partial",
    "AJ.Props.C60_exact",
    "AJ.Props.C60_refuted"
   ],
   "note": "Exact for all times within the supported range; outside it the conversion panics or wraps."
  },
  {
   "property": "C61",
   "status": "proved",
   "theorems": [
    "AJ.Props.C61_config"
   ],
   "note": ""
  },
  {
   "property": "C62",
   "status": "partial",
   "theorems": [
    "AJ.Props.C62_partial",
    "AJ.Props.C62_refuted_empty",
    "AJ.Props.C62_refuted_comma",
    "AJ.Props.C62_refuted_context",
    "AJ.Props.C62_refuted_mut",
    "AJ.Props.C62_refuted_pattern",
    "AJ.Props.C62_refuted_import",
    "AJ.Props.C62_refuted_queue"
   ],
   "note": "True for functions with at least one plainly named parameter. False for functions without parameters, with a trailing comma, with a parameter called context, with mut or other patterns, and for two functions of one name (same queue)."
  },
  {
   "property": "C63",
   "status": "proved",
   "theorems": [
    "AJ.Props.C63_one",
    "AJ.Props.C63_builders"
   ],
   "note": "For every job and every chain of builders: panics exactly when a call does; otherwise the last call writing a part determines it and nothing else changes."
  },
  {
   "property": "C64",
   "status": "proved",
   "theorems": [
    "AJ.Props.C64_spared"
   ],
   "note": "All turns but ticks (see C65), any set of failing calls, with or without effect."
  },
  {
   "property": "C65",
   "status": "partial",
   "theorems": [
    "AJ.Props.C65_kept_partial",
    "AJ.Props.C65_ends",
    "AJ.Props.C65_refuted"
   ],
   "note": "Ids are conserved, the tick ends and the actor survives. False that jobs moved before the error are executed: they stay Running for ever."
  },
  {
   "property": "C66",
   "status": "partial",
   "theorems": [
    "AJ.Props.C66_gentle_partial",
    "AJ.Props.C66_refuted"
   ],
   "note": "False: if another worker takes the last entries between the count and the fetch, the scan loops for ever. True as long as the others take no entries out of the queued list."
  },
  {
   "property": "C67",
   "status": "partial",
   "theorems": [
    "AJ.Props.C54_first",
    "AJ.Props.C54_later",
    "AJ.Props.C67_refuted_two",
    "AJ.Props.C67_refuted_panic",
    "AJ.Props.C67_refuted_reader"
   ],
   "note": "False: overlapping calls can make two engines, the second replacing the first, and start or a submission can panic because a lock was taken. True when the first call does not overlap with others."
  },
  {
   "property": "C68",
   "status": "partial",
   "theorems": [
    "AJ.Props.C68_context_partial",
    "AJ.Props.C68_late_partial",
    "AJ.Props.C68_refuted_id"
   ],
   "note": "False when the given context carries another id, such as a fresh one: the job is not changed and another job is queued (refutation). Proved for contexts with the id of the job, whatever happens between the two messages of update_job."
  },
  {
   "property": "C69",
   "status": "proved",
   "theorems": [
    "AJ.Props.C69_history",
    "AJ.Props.C69_step",
    "AJ.Props.C69_answer",
    "AJ.Props.C69_includes",
    "AJ.Props.C69_transfer",
    "AJ.Props.C69_orderly",
    "AJ.Props.C69_careful_for",
    "AJ.Props.C69_careful",
    "AJ.Props.C69_consistent",
    "AJ.Props.C69_one_execution_partial",
    "AJ.Props.C69_around_partial"
   ],
   "note": "All suspensions, in both directions. Only the position of the messages about runs among messages about other jobs differs; their order for one job is C69_around_partial."
  },
  {
   "property": "C70",
   "status": "partial",
   "theorems": [
    "AJ.Props.C70_before_partial",
    "AJ.Props.C70_after_partial",
    "AJ.Props.C70_own",
    "AJ.Props.C70_order",
    "AJ.Props.C70_free",
    "AJ.Props.C70_refuted"
   ],
   "note": "True as long as no hook panics. After a panic the execution goes on although later plugins were not called."
  },
  {
   "property": "C71",
   "status": "partial",
   "theorems": [
    "AJ.Props.C71_partial",
    "AJ.Props.C71_ends_partial",
    "AJ.Props.C71_delivers_partial",
    "AJ.Props.C71_types",
    "AJ.Props.C71_order",
    "AJ.Props.C71_dead",
    "AJ.Props.C71_refuted",
    "AJ.Props.C71_refuted_early"
   ],
   "note": "False: two jobs given to just_run before the queue of their type exists can kill the engine, and are lost with it; every later just_run is dropped silently, as is one that finds no engine. True if first submissions of a type do not overlap and types have different names: then the engine cannot go on for ever without sending every job to the queue of its type."
  },
  {
   "property": "C72",
   "status": "partial",
   "theorems": [
    "AJ.Props.C72_pending",
    "AJ.Props.C72_spacing",
    "AJ.Props.C72_rate",
    "AJ.Props.C72_unmoved",
    "AJ.Props.C72_dead",
    "AJ.Props.C72_latency_partial",
    "AJ.Props.C72_refuted"
   ],
   "note": "False after a change of the tick duration: the pending scan is not moved, so that with a duration of 10 a due job may wait for thousands. True with the tick duration configured when the last scan ran: one pending scan, spacing, rate and latency, on any backend."
  },
  {
   "property": "C73",
   "status": "partial",
   "theorems": [
    "AJ.Props.C73_history",
    "AJ.Props.C73_own",
    "AJ.Props.C73_answered",
    "AJ.Props.C73_alone_partial",
    "AJ.Props.C73_refuted"
   ],
   "note": "Requests, their turns and answers: proved for any number of engines, threads, queues and backends. As if alone: false after two engines were started at once (a submitted job is not found), proved with one engine when types have ids of their own (C46 shows that otherwise it is false)."
  },
  {
   "property": "C74",
   "status": "partial",
   "theorems": [
    "AJ.Props.C74_sent_partial",
    "AJ.Props.C74_executed_partial",
    "AJ.Props.C74_partial"
   ],
   "note": "From the call to the mailbox, from there to the execution, and both together. For queues of at most 20 entries (C31_refuted shows why), in a process with one engine (C73_refuted) whose types have names and ids of their own and whose first submissions of a type do not overlap (C56_refuted)."
  },
  {
   "property": "C75",
   "status": "partial",
   "theorems": [
    "AJ.Props.C75_alone_partial",
    "AJ.Props.C75_one_execution_partial",
    "AJ.Props.C75_run_count_partial",
    "AJ.Props.C75_timestamps_partial",
    "AJ.Props.C75_never_early_partial",
    "AJ.Props.C75_once_partial",
    "AJ.Props.C75_retries_partial",
    "AJ.Props.C75_max_repeat_partial"
   ],
   "note": "In a process with one engine whose types have ids of their own; each with the conditions of the claim about a single work queue (C25, C40, C59, C18, C12, C21)."
  },
  {
   "property": "C76",
   "status": "partial",
   "theorems": [
    "AJ.Props.C76_one_execution_partial",
    "AJ.Props.C76_lists_partial",
    "AJ.Props.C76_executed_partial",
    "AJ.Props.C76_capacity_partial",
    "AJ.Props.C76_any_takes_over",
    "AJ.Props.C76_crash_one_execution_partial",
    "AJ.Props.C76_crash_once_partial",
    "AJ.Props.C76_crash_capacity_partial",
    "AJ.Props.C76_refuted_orphan",
    "AJ.Props.C76_refuted_cancel",
    "AJ.Props.C76_refuted_rerun"
   ],
   "note": "One execution, capacity of all together and work conservation: proved for turns that do not overlap, with deaths between turns (inside user code included). One execution and capacity also with deaths between any two backend calls of a turn, except in a cancellation and in a submission that re-runs a done job without replacing it: there it is false (witnesses on both backends). False for what a dead process was executing: nobody ever takes it over. Overlapping ticks are C53."
  },
  {
   "property": "C77",
   "status": "proved",
   "theorems": [
    "AJ.Props.C77_condition",
    "AJ.Props.C77_data",
    "AJ.Props.C77_submitted",
    "AJ.Props.C77_due",
    "AJ.Props.C77_retries",
    "AJ.Props.C77_readable"
   ],
   "note": "All interleavings of single calls, deaths at any point, calls that fail with or without effect, on either backend. Retries with the default retry_at."
  },
  {
   "property": "C78",
   "status": "proved",
   "theorems": [
    "AJ.Props.C78_record",
    "AJ.Props.C78_order",
    "AJ.Props.C78_announced",
    "AJ.Props.C78_silent"
   ],
   "note": "All interleavings of single calls, deaths at any point, calls that fail with or without effect, on either backend; per process, as each process has its own plugin centre."
  },
  {
   "property": "C79",
   "status": "partial",
   "theorems": [
    "AJ.Props.C79_history",
    "AJ.Props.C79_own",
    "AJ.Props.C79_ends",
    "AJ.Props.C79_answered",
    "AJ.Props.C79_serial_partial",
    "AJ.Props.C79_alone_partial",
    "AJ.Props.C79_one_execution_partial",
    "AJ.Props.C79_run_count_partial",
    "AJ.Props.C79_timestamps_partial",
    "AJ.Props.C79_never_early_partial",
    "AJ.Props.C79_once_partial",
    "AJ.Props.C79_retries_partial",
    "AJ.Props.C79_max_repeat_partial",
    "AJ.Props.C79_sent_partial",
    "AJ.Props.C79_executed_partial",
    "AJ.Props.C79_partial",
    "AJ.Props.C79_refuted"
   ],
   "note": "What clients see, that turns end and that answers come: proved for any number of engines, types, queues and backends. That interleaved turns are as good as turns one after the other, and what follows for jobs, up to that a submitted job is executed: proved with one engine when types have ids of their own. False with two engines: two work queues of one name can execute one job at the same time."
  },
  {
   "property": "C80",
   "status": "partial",
   "theorems": [
    "AJ.Props.C80_told_partial",
    "AJ.Props.C80_delivered_partial",
    "AJ.Props.C80_prefix_partial",
    "AJ.Props.C80_home",
    "AJ.Props.C80_refuted",
    "AJ.Props.C80_refuted_register"
   ],
   "note": "False: started by a thread without a system, AJ makes one that ends at once, and no hook is ever called; plugins registered in another system than that of the engine are never called, and registering from a thread without system panics. True of plugins registered in the system AJ was started in, while its runner exists."
  },
  {
   "property": "C81",
   "status": "partial",
   "theorems": [
    "AJ.Props.C81_survives_partial",
    "AJ.Props.C81_refuted"
   ],
   "note": "False once the system AJ was started in is stopped: AJ::start returns the dead engine for ever and every submission fails. True until then, even if the runner of the system is dropped."
  },
  {
   "property": "C82",
   "status": "partial",
   "theorems": [
    "AJ.Props.C82_lives_partial",
    "AJ.Props.C82_survives_partial",
    "AJ.Props.C82_picked_partial",
    "AJ.Props.C82_lost",
    "AJ.Props.C82_unregistered",
    "AJ.Props.C82_refuted"
   ],
   "note": "False: a new process has no work queue of a type before it submits a job of it, so that a job of a type that later processes do not submit is never executed; and jobs that were executing are lost for ever, whatever later processes do. True that waiting jobs survive any number of processes, and that a work queue of the type executes them as its own. With one engine per process and types that have names and ids of their own."
  },
  {
   "property": "C83",
   "status": "proved",
   "theorems": [
    "AJ.Props.C83_ends",
    "AJ.Props.C83_recovers",
    "AJ.Props.C83_fair",
    "AJ.Props.C83_long_queue"
   ],
   "note": "For every single job (C83_ends, C83_recovers: hypotheses about that job alone) and for a work queue as a whole (C83_fair). The hypotheses, a structure of the specification, are that the history is endless and alive, ticks recur, executions end, and that ticks never find more than 20 jobs waiting or again and again leave capacity free. That one of the last two is needed is C83_long_queue: without it a plain job waits for ever behind cron jobs."
  },
  {
   "property": "C84",
   "status": "proved",
   "theorems": [
    "AJ.Props.C84_forever",
    "AJ.Props.C84_max_repeat",
    "AJ.Props.C84_exactly"
   ],
   "note": "The lower bounds that C21 and C24 do not give: slots are not only bounded, they come. For runs that are not retried, since a retried run of a cron job is a slot of its own (C24_refuted), and while the process is alive."
  },
  {
   "property": "C85",
   "status": "partial",
   "theorems": [
    "AJ.Props.C85_ends_partial",
    "AJ.Props.C85_forever_partial",
    "AJ.Props.C85_max_repeat_partial"
   ],
   "note": "From the request of a client to the end of the job, in endless histories of whole turns of the work queues. Missing: engines started by several clients at once and overlapping first submissions (C56_refuted, C73_refuted), types that share ids (C46), ticks that find more than 20 entries and leave no capacity free (C31_refuted)."
  },
  {
   "property": "C86",
   "status": "partial",
   "theorems": [
    "AJ.Props.C86_ends_partial",
    "AJ.Props.C86_forever_partial",
    "AJ.Props.C86_max_repeat_partial"
   ],
   "note": "C85 with turns interrupted between any two calls. Missing: as C85. (Ticks count the queued entries first, to bound the rounds of their scans: a simplification of the model that C88 removes.)"
  },
  {
   "property": "C87",
   "status": "partial",
   "theorems": [
    "AJ.Props.C87_ends_partial",
    "AJ.Props.C87_forever_partial",
    "AJ.Props.C87_max_repeat_partial",
    "AJ.Props.C87_resumes"
   ],
   "note": "From what dead processes have left to the end of the job, in endless interleaved histories of a later process. That a work queue of the type comes up is C87_resumes; without a submission of the type it is false (C82_unregistered, C82_refuted). Missing: as C86; that ticks find capacity, which executions lost with earlier processes hold for ever (C82_lost); jobs that were picked or executing when their process died (C82_picked_partial, C82_lost)."
  },
  {
   "property": "C88",
   "status": "partial",
   "theorems": [
    "AJ.Props.C88_scans",
    "AJ.Props.C88_rounds",
    "AJ.Props.C88_leave",
    "AJ.Props.C88_enough",
    "AJ.Props.C88_ends_partial",
    "AJ.Props.C88_forever_partial",
    "AJ.Props.C88_max_repeat_partial",
    "AJ.Props.C88_resumed_ends_partial",
    "AJ.Props.C88_resumed_forever_partial",
    "AJ.Props.C88_resumed_max_repeat_partial"
   ],
   "note": "That the rounds make no difference is proved in full for processes that start at most one engine (C88_scans, C88_rounds, C88_leave; C88_enough: there is always a large enough number). C86 and C87 then hold of the calls of the code alone; missing there: as in C86 and C87."
  },
  {
   "property": "C89",
   "status": "partial",
   "theorems": [
    "AJ.Props.C89_serves",
    "AJ.Props.C89_chance",
    "AJ.Props.C89_ends_partial",
    "AJ.Props.C89_forever_partial",
    "AJ.Props.C89_max_repeat_partial"
   ],
   "note": "That ticks find free capacity again and again when executions end is proved in full for processes started by one client (C89_serves), so C88 holds without that hypothesis. Missing: as C85. Later processes: C90."
  },
  {
   "property": "C90",
   "status": "partial",
   "theorems": [
    "AJ.Props.C90_places",
    "AJ.Props.C90_free",
    "AJ.Props.C90_starved",
    "AJ.Props.C90_ends",
    "AJ.Props.C90_site_places",
    "AJ.Props.C90_resumes",
    "AJ.Props.C90_resumed_ends_partial",
    "AJ.Props.C90_resumed_forever_partial",
    "AJ.Props.C90_resumed_max_repeat_partial"
   ],
   "note": "Proved in full for a work queue alone (C90_places, C90_free, C90_starved, C90_ends), and for interleaved processes that start at most one engine, outside turns (C90_site_places, C90_resumes). For waiting jobs in later processes missing: as in C82; that a work queue of the type comes up (C82_unregistered)."
  },
  {
   "property": "C91",
   "status": "proved",
   "theorems": [
    "AJ.Props.C91_started",
    "AJ.Props.C91_drains"
   ],
   "note": "C91_started: for any number of waiting jobs, a job is started if ticks again and again leave capacity free. C91_drains: when nobody submits or retries any more, all waiting and executing jobs come to an end; asked of them is that they are no cron jobs and have a bounded number of retries. Both for a work queue alone. The hypothesis of C83 to C90 about the number of waiting jobs is now that of C91_started or at most 20."
  },
  {
   "property": "C92",
   "status": "proved",
   "theorems": [
    "AJ.Props.C92_drains",
    "AJ.Props.C92_submitted"
   ],
   "note": "C92_submitted: the same as clients see it, for every add_job that has returned. For processes that one client starts alone, whose work queues interleave call by call and whose ticks make the calls of the code alone, on any backend. Asked of requests: submitted jobs can be serialised, are Queued, are no cron jobs, have a bounded number of retries or no retry policy, and replace stored data only when they also run again a job that is done (as EnqueueConfig::new_re_run says, which add_job uses; new_skip_if_finished does not); update_job is not called."
  },
  {
   "property": "C93",
   "status": "proved",
   "theorems": [
    "AJ.Props.C93_alone",
    "AJ.Props.C93_takes_over",
    "AJ.Props.C93_submitted"
   ],
   "note": "C93_alone: a work queue alone, from any state without executions; C93_takes_over: the work queues of a process that follows any finite series of processes, which died between any two calls; C93_submitted: the same as clients see it, for every add_job that has returned. Asked of what is found: every id in the list of waiting jobs is that of a Queued job that is stored, is in no running list, is no cron job and has a bounded number of retries or no retry policy (a death between the push and the write of the data, C48, can leave other things). Capacity must exceed the number of entries found in the running list, which nobody removes. No request concerns a job that has gone astray (submitting or retrying it could bring it back)."
  },
  {
   "property": "C94",
   "status": "partial",
   "theorems": [
    "AJ.Props.C94_turns",
    "AJ.Props.C94_canceled",
    "AJ.Props.C94_announced",
    "AJ.Props.C94_bound",
    "AJ.Props.C94_listed",
    "AJ.Props.C94_once_partial",
    "AJ.Props.C94_process_lists",
    "AJ.Props.C94_process_listed",
    "AJ.Props.C94_refuted",
    "AJ.Props.C94_refuted_grows"
   ],
   "note": "False as stated. C94_canceled: the list of the Canceled jobs is empty in every history; C94_refuted: concrete jobs that are in a list they do not belong to, twice in one list, or in none; C94_refuted_grows: with a single job the lists get longer than any number. True: C94_turns (the three things a turn may do to the lists), C94_announced and C94_bound (entries against announcements, in every history), C94_listed (a Finished or Failed job is in its list), C94_once_partial (exactly once, if the job is never submitted to run again after it was done; missing from the full statement are such submissions and Canceled jobs, where it is false). C94_listed and C94_once_partial are for histories that are careful with the job. C94_process_lists and C94_process_listed: the same for every work queue of a whole process between its turns, in terms of the requests of its clients and with at most one engine; C94_process_listed asks that no job of the type is updated."
  },
  {
   "property": "C95",
   "status": "proved",
   "theorems": [
    "AJ.Props.C95_consistent",
    "AJ.Props.C95_one_execution",
    "AJ.Props.C95_capacity",
    "AJ.Props.C95_told",
    "AJ.Props.C95_around",
    "AJ.Props.C95_due"
   ],
   "note": "For processes that start at most one engine and whose types have ids of their own. Asked (Weave.Civil): submitted jobs can be serialised, are Queued, and replace stored data only if they also run again a job that is done; no job of the type is updated; user code leaves jobs serialisable. C95_due asks none of this. C95_around and the last part of C95_consistent are while the actor lives. Without these conditions the statements fail for a single work queue already (C25, C26, C38, C42, C44), with two engines as in C79_refuted."
  },
  {
   "property": "C96",
   "status": "proved",
   "theorems": [
    "AJ.Props.C96_story",
    "AJ.Props.C96_process",
    "AJ.Props.C96_before",
    "AJ.Props.C96_after",
    "AJ.Props.C96_rests",
    "AJ.Props.C96_cancelled"
   ],
   "note": "C96_story: a work queue alone, in histories that are careful with the job (CarefulFor); C96_process: the work queues of a process, with the conditions of C95. The others follow from Snap.Lives, which both prove. If the actor has panicked, messages to run hooks of an execution that was cut off may come last. The message after a run says before_run too (C44_refuted); the order of messages at plugins is C43. Without the conditions it is false already because two executions of a job can overlap (C25_refuted)."
  },
  {
   "property": "C97",
   "status": "partial",
   "theorems": [
    "AJ.Props.C97_unique",
    "AJ.Props.C97_outcome",
    "AJ.Props.C97_stays",
    "AJ.Props.C97_retried",
    "AJ.Props.C97_process_partial"
   ],
   "note": "Proved in full for a work queue alone (C97_unique, C97_outcome, C97_stays, C97_retried; the hypotheses about the history are those of C83). C97_process_partial: in a process whose work queues interleave call by call and whose ticks make the calls of the code alone, from the request that submits the job; missing there: as in C85, that the job stays as it is after its end, and retries by hand. Not for cron jobs (C84) and code with a retry_at of its own."
  }
 ]
}