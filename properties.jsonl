{"id": "C01", "title": "In-memory backend is a set of named deques plus a keyed store", "statement": "For any sequence of Backend calls on InMemory, every returned value is the one an abstract map from queue names to double-ended queues, together with an abstract map (hash,key) -> value, would return. No call fails.", "quantifier": "all finite sequences of Backend calls with all names, items, counts and directions", "why_tests_cant": "needs every finite history of calls, not a sample", "anchors": ["aj_core/src/backend/mem.rs: InMemory, queue_push, queue_move, queue_remove, queue_get, queue_count, storage_upsert, storage_get"]}
{"id": "C02", "title": "Storage read returns the last write", "statement": "storage_get(h,k) returns the value of the most recent storage_upsert(h,k,_) and None if there was none, whatever other calls happened in between.", "quantifier": "all histories of Backend calls on either backend, all hashes and keys", "why_tests_cant": "needs every finite history of calls, not a sample", "anchors": ["aj_core/src/backend/mem.rs: storage_upsert, storage_get", "aj_core/src/backend/redis.rs: storage_upsert, storage_get"]}
{"id": "C03", "title": "queue_move neither loses nor invents items", "statement": "queue_move(from,to,n,..) returns min(n, length of from) items taken from the requested end in order, and the multiset of items over all queues is unchanged; queues other than from and to are untouched.", "quantifier": "all queue contents, counts and directions, including from = to", "why_tests_cant": "sizes and contents are unbounded", "anchors": ["aj_core/src/backend/mem.rs: queue_move"]}
{"id": "C04", "title": "queue_remove removes exactly the given item", "statement": "After queue_remove(q,x) no copy of x is left in q, all other items of q keep their relative order and multiplicity, and no other queue or stored value changes.", "quantifier": "all states, queues and items", "why_tests_cant": "contents are unbounded", "anchors": ["aj_core/src/backend/mem.rs: queue_remove", "aj_core/src/backend/redis.rs: lrem"]}
{"id": "C05", "title": "queue_get and queue_count only observe", "statement": "queue_get(q,n,dir) returns the first min(n,len) items seen from the given end, in the order they would be popped from that end; queue_count returns the length; neither changes the state.", "quantifier": "all states, counts and directions", "why_tests_cant": "contents and counts are unbounded", "anchors": ["aj_core/src/backend/mem.rs: queue_get, queue_count"]}
{"id": "C06", "title": "AJ behaves the same on Redis as in memory", "statement": "Starting from empty backends, any history of AJ operations on one work queue (enqueue, cancel, get, retry, config change, ticks, task starts and completions) gives the same responses, the same in-flight tasks and the same plugin messages on the Redis backend as on the in-memory backend, provided Redis answers every command.", "quantifier": "all histories, all user code behaviours, all clocks", "why_tests_cant": "two implementations compared on every history", "anchors": ["aj_core/src/backend/redis.rs: impl Backend for Redis", "aj_core/src/backend/mem.rs: impl Backend for InMemory", "aj_core/src/queue.rs"]}
{"id": "C07", "title": "The two shipped backends agree on every Backend call", "statement": "For any Backend call with any arguments, Redis and InMemory holding the same contents return the same value and end with the same contents.", "quantifier": "all contents, all calls, all argument values including count = 0, count > length and from = to", "why_tests_cant": "edge values of an unbounded argument space", "anchors": ["aj_core/src/backend/redis.rs: lrange, lmove", "aj_core/src/backend/mem.rs: queue_get, queue_move"]}
{"id": "C08", "title": "Different (queue, status) pairs never share a list", "statement": "Two work queues with different names, or two different statuses of one queue, never use the same backend list, and no such list is named like the job storage hash.", "quantifier": "all queue names (any string) and statuses", "why_tests_cant": "all strings", "anchors": ["aj_core/src/queue.rs: format_queue_name", "aj_core/src/backend/types.rs: STORAGE_HASH", "aj_core/src/job/job_context.rs: JobStatus"]}
{"id": "C09", "title": "A stored job reads back as the job that was stored", "statement": "Serialising a job to the storage string and reading it back gives the same id, type, status, retry state, timestamps, run count and data, with points in time truncated to microseconds and retry durations rounded to microseconds.", "quantifier": "all jobs whose data round-trips through JSON, all strings, all times", "why_tests_cant": "all values of all fields, all string contents including escapes", "anchors": ["aj_core/src/backend/types.rs: upsert_to_storage, get_from_storage", "aj_core/src/job/job_context.rs: JobContext, JobType, CronContext", "aj_core/src/job/retry.rs: Retry, RetryStrategy", "aj_core/src/job/mod.rs: Job"]}
{"id": "C10", "title": "Storing and loading repeatedly does not drift", "statement": "The precision lost by storing a job is less than one microsecond per time value, and storing the read-back job again changes nothing.", "quantifier": "all jobs, any number of store/load cycles", "why_tests_cant": "all times and any number of cycles", "anchors": ["aj_core/src/job/job_context.rs: JobType, CronContext", "aj_core/src/job/retry.rs: RetryStrategy"]}
{"id": "C11", "title": "An acknowledged job can be read back", "statement": "If run() returns Ok for a new id, get_job(id) afterwards returns the job with status Queued.", "quantifier": "all jobs and all backend states without that id", "why_tests_cant": "all data values, including ones that fail to serialise", "anchors": ["aj_core/src/queue.rs: run_with_config, enqueue, get_job", "aj_core/src/backend/types.rs: upsert_to_storage"]}
{"id": "C12", "title": "Automatic retries are bounded by max_retries", "statement": "A non-cron job (default retry_at) submitted once with max_retries = n (and not manually retried or resubmitted) is executed at most n + 1 times, in any history.", "quantifier": "all histories, all outcomes, all n", "why_tests_cant": "needs every finite history of calls, not a sample", "anchors": ["aj_core/src/job/retry.rs: should_retry, retry_at", "aj_core/src/job/executable.rs: retry_at", "aj_core/src/queue.rs: execute_job"]}
{"id": "C13", "title": "A job that always fails ends Failed after exactly n + 1 runs", "statement": "A non-cron job with max_retries = n whose every run fails is re-queued after each of the first n runs and is Failed, with run_count n + 1, after run n + 1.", "quantifier": "all n, all clocks, all interleavings with other jobs' tasks", "why_tests_cant": "unbounded n and histories", "anchors": ["aj_core/src/queue.rs: execute_job, re_enqueue, mark_job_is_failed", "aj_core/src/job/executable.rs: retry_at"]}
{"id": "C14", "title": "Interval retry waits the configured interval", "statement": "After a failed run that is retried under the interval strategy the job is scheduled for the completion time plus the interval, and it is not executed again before that time (to the microsecond).", "quantifier": "all intervals, completion times and later histories", "why_tests_cant": "all times and histories", "anchors": ["aj_core/src/job/retry.rs: retry_at", "aj_core/src/queue.rs: execute_job, try_pick_specific_ready_jobs"]}
{"id": "C15", "title": "Exponential backoff follows initial * 2^k as documented", "statement": "The k-th automatic retry under exponential backoff waits initial * 2^(k-1) (documented as 1s, 2s, 4s, ... for initial 1s).", "quantifier": "all k and all initial backoffs", "why_tests_cant": "unbounded k", "anchors": ["aj_core/src/job/retry.rs: RetryStrategy::ExponentialBackoff, retry_at", "examples/normal/src/retry_job.rs"]}
{"id": "C16", "title": "Unlimited exponential retry keeps backing off", "statement": "With max_retries = None every failed run is followed by another retry whose delay is not smaller than the previous one; the queue never crashes because of the retry counter.", "quantifier": "all retry counts", "why_tests_cant": "the defect only shows after 31 failures with exponentially growing waits", "anchors": ["aj_core/src/job/retry.rs: retry_at"]}
{"id": "C17", "title": "Only failed runs are retried", "statement": "A run whose output is not failed is never automatically retried; a failed run with no retry budget left (or no retry policy) of a non-cron job ends in status Failed; a successful run of a non-cron job ends in status Finished.", "quantifier": "all jobs, outputs and states", "why_tests_cant": "all combinations of job type, retry state and output", "anchors": ["aj_core/src/queue.rs: execute_job", "aj_core/src/job/executable.rs: retry_at, is_failed_output"]}
{"id": "C18", "title": "A scheduled job is never started early", "statement": "A job scheduled at time s (schedule_at, delay or a retry time) is only handed to execution when the clock reads later than s truncated to microseconds.", "quantifier": "all histories, clocks and scheduled times", "why_tests_cant": "all schedules of ticks and clock readings", "anchors": ["aj_core/src/job/mod.rs: is_ready, schedule_at, delay", "aj_core/src/queue.rs: try_pick_specific_ready_jobs"]}
{"id": "C19", "title": "Ready jobs are started whenever there is capacity", "statement": "A tick with free capacity c starts c jobs, or it starts every queued job that stays ready during the tick.", "quantifier": "all queue contents up to 2^31 - 1 entries, all clocks", "why_tests_cant": "unbounded queue sizes; batches of 20", "anchors": ["aj_core/src/queue.rs: process_jobs, pick_jobs_to_process, try_pick_specific_ready_jobs"]}
{"id": "C20", "title": "Cron runs follow the schedule", "statement": "A cron job is only started at or after its next slot, and after a run its new next slot is the first schedule slot after the completion time, so missed slots are not made up in a burst.", "quantifier": "all cron schedules, clocks and histories", "why_tests_cant": "all schedules and times, including schedules that end", "anchors": ["aj_core/src/job/mod.rs: is_ready, next_tick", "aj_core/src/job/job_context.rs: new_cron"]}
{"id": "C21", "title": "max_repeat bounds the runs of a cron job", "statement": "A cron job with max_repeat = n (no retry policy, submitted once) is executed at most n times.", "quantifier": "all histories, schedules and n", "why_tests_cant": "needs every finite history of calls, not a sample", "anchors": ["aj_core/src/job/mod.rs: is_ready, next_tick", "aj_core/src/job/job_context.rs: CronContext"]}
{"id": "C22", "title": "A cron job never starts after end_at", "statement": "A cron job with end_at = e is never handed to execution when the clock reads later than e truncated to microseconds.", "quantifier": "all histories and clocks", "why_tests_cant": "all clock readings", "anchors": ["aj_core/src/job/mod.rs: is_ready"]}
{"id": "C23", "title": "An exhausted cron job terminates", "statement": "A cron job that has used up max_repeat or passed end_at eventually gets a terminal status and leaves the queued list.", "quantifier": "all histories", "why_tests_cant": "a liveness property over infinite histories", "anchors": ["aj_core/src/job/mod.rs: is_ready, next_tick", "aj_core/src/queue.rs: try_pick_specific_ready_jobs"]}
{"id": "C24", "title": "A cron job stays a cron job when a run fails and is retried", "statement": "If a run of a cron job with a retry policy fails, the job is retried and still fires at its later cron slots.", "quantifier": "all cron jobs with retry policies", "why_tests_cant": "interaction of two features over a history", "anchors": ["aj_core/src/queue.rs: execute_job"]}
{"id": "C25", "title": "No two executions of one job at the same time", "statement": "At any moment at most one execution of a given job id is in flight in its queue.", "quantifier": "all histories of API calls, ticks and completions", "why_tests_cant": "all interleavings", "anchors": ["aj_core/src/queue.rs: try_pick_specific_ready_jobs, run_with_config, retry_job, re_enqueue"]}
{"id": "C26", "title": "max_processing_jobs bounds the executions in flight", "statement": "The number of jobs in flight in a queue never exceeds the largest max_processing_jobs configured so far.", "quantifier": "all histories with any config changes", "why_tests_cant": "all interleavings", "anchors": ["aj_core/src/queue.rs: pick_jobs_to_process, remove_processing_job"]}
{"id": "C27", "title": "A tick hands over only ready, freshly marked jobs", "statement": "Every job a tick starts was in the queued list and ready when examined, is stored with status Running and run_at set, is in the Running list and no longer in the queued list; at most the free capacity is started.", "quantifier": "all states and clocks", "why_tests_cant": "all queue contents", "anchors": ["aj_core/src/queue.rs: try_pick_specific_ready_jobs", "aj_core/src/job/mod.rs: process"]}
{"id": "C28", "title": "A tick loses and duplicates nothing", "statement": "The ids in the queued and Running lists together are, as a multiset, the same before and after a tick, and other lists and stored jobs that were not started are unchanged.", "quantifier": "all states and clocks", "why_tests_cant": "all queue contents", "anchors": ["aj_core/src/queue.rs: try_pick_specific_ready_jobs"]}
{"id": "C29", "title": "A tick terminates", "statement": "The scan of the queued list ends for every queue content when the list is not changed by somebody else meanwhile.", "quantifier": "all queue contents", "why_tests_cant": "non-termination cannot be observed by a test", "anchors": ["aj_core/src/queue.rs: try_pick_specific_ready_jobs"]}
{"id": "C30", "title": "Ready jobs are started in submission order", "statement": "Among ready jobs, the ones queued first are started first, and jobs that stay queued keep their order.", "quantifier": "all queue contents and capacities", "why_tests_cant": "shows only with more than 20 queued jobs and little capacity", "anchors": ["aj_core/src/queue.rs: try_pick_specific_ready_jobs"]}
{"id": "C31", "title": "No ready job starves", "statement": "If a job is queued and ready and every tick has free capacity, the job is eventually started.", "quantifier": "all infinite histories", "why_tests_cant": "a liveness property over infinite histories", "anchors": ["aj_core/src/queue.rs: try_pick_specific_ready_jobs"]}
{"id": "C32", "title": "A cancelled job does not run", "statement": "After cancel_job on a queued job, the job is not handed to execution again until it is retried or submitted again.", "quantifier": "all later histories", "why_tests_cant": "needs every finite history of calls, not a sample", "anchors": ["aj_core/src/queue.rs: cancel_job, try_pick_specific_ready_jobs"]}
{"id": "C33", "title": "cancel_job returning Ok means the job is cancelled", "statement": "If cancel_job(id) returns Ok the stored job has status Canceled and is not in the queued list; for a job that is running or done it changes nothing.", "quantifier": "all states", "why_tests_cant": "all states, including missing, running and done jobs", "anchors": ["aj_core/src/queue.rs: cancel_job", "README.md: Cancel Job"]}
{"id": "C34", "title": "Manual retry re-queues done jobs only", "statement": "retry_job(id) returns true exactly if the job exists and is Finished, Failed or Canceled; then the job is Queued, is in the queued list exactly once and no longer in the list of its old status. Otherwise it returns false and changes nothing.", "quantifier": "all states in disciplined histories", "why_tests_cant": "all states", "anchors": ["aj_core/src/queue.rs: retry_job, re_enqueue"]}
{"id": "C35", "title": "update_job replaces data of a waiting job", "statement": "After update_job(id,d,None) on a queued job, the next execution of the job uses d with the id, schedule, retry state and run count unchanged; on a running job it changes nothing; on a done job the job is queued again with d.", "quantifier": "all states and later histories", "why_tests_cant": "needs every finite history of calls, not a sample", "anchors": ["aj_core/src/aj.rs: update_job, add_job", "aj_core/src/queue.rs: run_with_config"]}
{"id": "C36", "title": "Resubmitting an existing id follows EnqueueConfig", "statement": "Submitting a job with an existing id never queues it a second time while it is queued or running; it replaces the stored job only if override_data is set and the job is not running; it runs the job again only if re_run is set and the job is done.", "quantifier": "all states and configs", "why_tests_cant": "all combinations of stored status and config over all histories", "anchors": ["aj_core/src/queue.rs: run_with_config, EnqueueConfig"]}
{"id": "C37", "title": "Skipping a finished job leaves it usable", "statement": "Submitting with EnqueueConfig::new_skip_if_finished for a finished job leaves the job done (or queued to run), so that a later run() or retry_job works.", "quantifier": "all finished jobs and later histories", "why_tests_cant": "needs every finite history of calls, not a sample", "anchors": ["aj_core/src/queue.rs: EnqueueConfig::new_skip_if_finished, run_with_config, retry_job"]}
{"id": "C38", "title": "Status, lists and executions agree", "statement": "At every moment a job is stored Queued exactly if it is in the queued list (once), and stored Running exactly if it is in the Running list (once) and has exactly one execution in flight; done jobs are in neither list.", "quantifier": "all disciplined histories", "why_tests_cant": "needs every finite history of calls, not a sample", "anchors": ["aj_core/src/queue.rs: WorkQueue"]}
{"id": "C39", "title": "A completed run has exactly one recorded outcome", "statement": "When a run completes, the job leaves the Running list and exactly one of these holds and is stored: Queued again (retry or cron) and in the queued list, Finished and in the Finished list, Failed and in the Failed list; other jobs are not touched.", "quantifier": "all states, outputs and clocks", "why_tests_cant": "all combinations", "anchors": ["aj_core/src/queue.rs: execute_job, mark_job_is_finished, mark_job_is_failed, re_enqueue"]}
{"id": "C40", "title": "run_count counts the executions", "statement": "For a job submitted once, the run_count that get_job returns while the job is not running is the number of times its code was executed.", "quantifier": "all histories", "why_tests_cant": "needs every finite history of calls, not a sample", "anchors": ["aj_core/src/job/mod.rs: execute", "aj_core/src/queue.rs: execute_job"]}
{"id": "C41", "title": "Status changes follow the life cycle", "statement": "Between two consecutive stored states of a job the status only changes Queued->Running, Queued->Canceled, Running->Queued, Running->Finished, Running->Failed, or from a done status to Queued.", "quantifier": "all disciplined histories", "why_tests_cant": "needs every finite history of calls, not a sample", "anchors": ["aj_core/src/job/mod.rs: enqueue, process, finish, cancel, fail", "aj_core/src/queue.rs"]}
{"id": "C42", "title": "Plugins are told the true status", "statement": "The last status a plugin was notified of for a job is the status get_job returns.", "quantifier": "all disciplined histories", "why_tests_cant": "needs every finite history of calls, not a sample", "anchors": ["aj_core/src/job/mod.rs: enqueue, process, finish, cancel, fail", "aj_core/src/plugin/mod.rs: change_status"]}
{"id": "C43", "title": "Every registered plugin sees every message, in registration order", "statement": "A message to the plugin centre calls the hook of every plugin registered before it, once each, in registration order, skipping only plugins registered for other job types.", "quantifier": "all registration and message histories", "why_tests_cant": "needs every finite history of calls, not a sample", "anchors": ["aj_core/src/plugin/mod.rs: RegisterPlugin, RunHook, ChangeStatus", "aj_core/src/plugin/job_plugin.rs: should_run"]}
{"id": "C44", "title": "before_run precedes and after_run follows every execution", "statement": "Each execution of a job calls before_run once before the user code and after_run once after it.", "quantifier": "all executions and plugins", "why_tests_cant": "all histories", "anchors": ["aj_core/src/plugin/mod.rs: before, after", "aj_core/src/job/mod.rs: execute"]}
{"id": "C45", "title": "Job types do not disturb each other", "statement": "Operations of one work queue, interleaved call by call with operations of work queues of other names on other job ids, have the same results and effects as when run alone.", "quantifier": "all interleavings at the level of single backend calls", "why_tests_cant": "all interleavings of threads sharing a backend", "anchors": ["aj_core/src/queue.rs: WorkQueue", "aj_core/src/backend/types.rs: STORAGE_HASH"]}
{"id": "C46", "title": "A job id is private to its job type", "statement": "Submitting a job of type B with the id of an existing job of type A leaves A's job intact.", "quantifier": "all pairs of job types and ids", "why_tests_cant": "cross-type states", "anchors": ["aj_core/src/backend/types.rs: STORAGE_HASH, upsert_to_storage", "aj_core/src/queue.rs: storage_name"]}
{"id": "C47", "title": "An acknowledged job survives a crash", "statement": "After run() returned Ok, if the process crashes before the job is picked, then after a restart on the same backend the job is still queued, readable and will be picked.", "quantifier": "all crash points in any later operation on other jobs", "why_tests_cant": "all crash points", "anchors": ["aj_core/src/queue.rs: enqueue, try_pick_specific_ready_jobs"]}
{"id": "C48", "title": "A crashed submission can be repeated safely", "statement": "If the process crashes during run(), submitting the job again after restart leads to one queued entry.", "quantifier": "all crash points of run()", "why_tests_cant": "all crash points", "anchors": ["aj_core/src/queue.rs: enqueue"]}
{"id": "C49", "title": "A job that was running at a crash is run again", "statement": "If the process crashes while a job is executing, the job is picked again after restart, and the capacity it used is released.", "quantifier": "all crash points after a pick", "why_tests_cant": "all crash points", "anchors": ["aj_core/src/queue.rs: try_pick_specific_ready_jobs, pick_jobs_to_process, get_processing_job_ids"]}
{"id": "C50", "title": "A crash while re-queuing does not lose the job", "statement": "At every crash point of a completion that re-queues the job (retry, cron), after restart the job is either still Running-listed or in the queued list.", "quantifier": "all crash points of re_enqueue", "why_tests_cant": "all crash points", "anchors": ["aj_core/src/queue.rs: re_enqueue, mark_job_is_finished"]}
{"id": "C51", "title": "A backend read error does not duplicate a job", "statement": "If the storage read fails during a resubmission of a queued job, the job is still queued at most once.", "quantifier": "all states and single-fault schedules", "why_tests_cant": "fault injection at every call", "anchors": ["aj_core/src/backend/types.rs: get_from_storage", "aj_core/src/queue.rs: run_with_config"]}
{"id": "C52", "title": "Backend write errors are reported", "statement": "If an operation returns Ok, none of its backend writes failed.", "quantifier": "all operations and fault schedules", "why_tests_cant": "fault injection at every call", "anchors": ["aj_core/src/queue.rs: re_enqueue, mark_job_is_finished, push_failed_job, remove_processing_job"]}
{"id": "C53", "title": "Two worker processes on one Redis execute each job once", "statement": "If two processes run the same work queue on one Redis server, each ready job is started by exactly one of them.", "quantifier": "all interleavings of two pick loops at command level", "why_tests_cant": "all interleavings", "anchors": ["aj_core/src/queue.rs: try_pick_specific_ready_jobs", "aj_core/src/backend/redis.rs: lmove"]}
{"id": "C54", "title": "AJ::start is idempotent", "statement": "Calling start again returns the address of the running engine and keeps its backend.", "quantifier": "all sequences of calls", "why_tests_cant": "needs every finite history of calls, not a sample", "anchors": ["aj_core/src/aj.rs: start, register_addr, get_aj_address"]}
{"id": "C55", "title": "One queue per job type and per name", "statement": "At any time at most one work queue is registered for a job type and at most one for a name, and a type keeps the queue it got first.", "quantifier": "all interleavings of clients", "why_tests_cant": "all interleavings", "anchors": ["aj_core/src/aj.rs: register, get_work_queue_address, InitWorkQueue"]}
{"id": "C56", "title": "First submissions may run concurrently", "statement": "Several clients submitting the first jobs of a type at the same time all succeed.", "quantifier": "all interleavings of clients", "why_tests_cant": "a race", "anchors": ["aj_core/src/aj.rs: enqueue_job, register, JustRunJob"]}
{"id": "C57", "title": "Calls for an unregistered type report it", "statement": "cancel_job, retry_job and update_work_queue on a type with no work queue return NoQueueRegister, get_job returns None, update_job changes nothing; none of them creates a queue.", "quantifier": "all registry states", "why_tests_cant": "all states", "anchors": ["aj_core/src/aj.rs: cancel_job, retry_job, get_job, update_job, update_work_queue"]}
{"id": "C58", "title": "A panicking job harms only itself", "statement": "If the user code of one job panics, other jobs of the type are still executed and the API keeps working.", "quantifier": "all histories after a panic", "why_tests_cant": "runtime behaviour over all histories", "anchors": ["aj_core/src/queue.rs: execute_job_task", "aj_core/src/aj.rs: get_work_queue_address"]}
{"id": "C59", "title": "Timestamps are ordered", "statement": "For a job submitted once and finished, with a clock that never goes back: enqueue_at <= run_at <= complete_at, and all three are set.", "quantifier": "all histories with monotone clocks", "why_tests_cant": "needs every finite history of calls, not a sample", "anchors": ["aj_core/src/job/mod.rs: enqueue, process, finish, fail"]}
{"id": "C60", "title": "Millisecond conversion round-trips", "statement": "get_ms_as_datetime(ms).timestamp_millis() = ms for every representable instant, and get_now_as_ms is the current instant truncated to milliseconds.", "quantifier": "all i64 millisecond values", "why_tests_cant": "the overflow boundary is at 2^63/10^6", "anchors": ["aj_core/src/util/mod.rs: get_ms_as_datetime, get_now_as_ms"]}
{"id": "C61", "title": "A config change takes effect at the next tick and touches nothing else", "statement": "update_work_queue changes the capacity used by later ticks only; it does not change jobs, lists or executions in flight; with max_processing_jobs = 0 nothing is started.", "quantifier": "all states and configs", "why_tests_cant": "all states", "anchors": ["aj_core/src/queue.rs: UpdateWorkQueue, pick_jobs_to_process"]}
{"id": "C62", "title": "Every plain function can be a #[job]", "statement": "For every function with distinct named arguments the #[job] macro generates a module whose run(args) executes the function with those arguments in that order, in a queue of its own.", "quantifier": "all function signatures", "why_tests_cant": "all signatures", "anchors": ["aj_macro/src/lib.rs: job"]}
{"id": "C63", "title": "Job builders set exactly what they say", "statement": "set_id, context, job_type, schedule_at, delay, cron and retry change only their own part of the job, and a later call of the same builder wins.", "quantifier": "all jobs and builder sequences", "why_tests_cant": "all sequences of builder calls", "anchors": ["aj_core/src/job/mod.rs: set_id, set_context, set_job_type, schedule_at, delay, cron, set_retry"]}
{"id": "C64", "title": "Backend errors stay with the job concerned", "statement": "If any backend calls fail during a request about one job, or during the start or the end of its execution, every other job keeps its stored value, its entries in the lists and its executions.", "quantifier": "all states, all turns but ticks, all sets of failing calls, failing with or without effect", "why_tests_cant": "every subset of the calls of every turn may fail, in every state", "anchors": ["aj_core/src/queue.rs: run_with_config, cancel_job, retry_job, execute_job_task, re_enqueue, mark_job_is_finished, mark_job_is_failed"]}
{"id": "C65", "title": "A backend error during a tick loses no job", "statement": "Whatever backend calls fail during a tick, the tick ends, every job that was queued is afterwards still queued or is being executed, and no other job is touched.", "quantifier": "all states and all sets of failing calls", "why_tests_cant": "every subset of the calls of a scan of unbounded length may fail", "anchors": ["aj_core/src/queue.rs: pick_jobs_to_process, pick_specific_ready_jobs, Actor::started"]}
{"id": "C66", "title": "A tick ends even when other processes use the queue", "statement": "A tick comes to an end whatever other processes do with the lists of the work queue while it runs.", "quantifier": "all states and all interleavings of the calls of a tick with calls of other processes", "why_tests_cant": "interleavings of commands on a shared server; non-termination cannot be observed by a test", "anchors": ["aj_core/src/queue.rs: try_pick_specific_ready_jobs (loop on the queue length counted once)"]}
{"id": "C67", "title": "Starting the engine from several threads is safe", "statement": "If several threads call start at the same time, all get the same engine, which stays the engine of the process, and no call of start or of a thread whose start has returned panics.", "quantifier": "all interleavings of threads", "why_tests_cant": "a race between try_read and try_write", "anchors": ["aj_core/src/aj.rs: start, register_addr, get_aj_address, enqueue_job"]}
{"id": "C68", "title": "update_job with a context replaces data and context", "statement": "After update_job(id,d,Some(c)) a queued job with this id is stored with data d and context c and nothing else changes; for a running job and an unknown id nothing changes; a done job is queued again with d and c.", "quantifier": "all states, data and contexts", "why_tests_cant": "all combinations of stored and given contexts, on all backends", "anchors": ["aj_core/src/aj.rs: update_job, add_job", "aj_core/src/queue.rs: run_with_config, enqueue"]}
{"id": "C69", "title": "Suspended executions do not disturb the queue", "statement": "Wherever executions suspend (waiting for the plugin centre before and after the user code, inside is_failed_output and retry_at) and whatever turns come in between, the lists, stored jobs, executions, statuses sent, runs of user code and answers to requests are those of a history in which every execution has two uninterrupted turns.", "quantifier": "all histories with suspensions at every await point, all user code, all backends", "why_tests_cant": "interleavings of await points; hooks and user code that suspend arbitrarily long", "anchors": ["aj_core/src/queue.rs: execute_job_task, execute_job", "aj_core/src/job/mod.rs: Job::execute", "aj_core/src/plugin/mod.rs: before, after"]}
{"id": "C70", "title": "Hooks are over before the run goes on", "statement": "When the user code of an execution is entered, every plugin that wants the job has been called for this execution; when the outcome is stored, every such plugin has been called again; messages are not mixed up between executions, and an execution is not held up once its hooks have returned.", "quantifier": "all interleavings of a work queue with the plugin centre and other senders", "why_tests_cant": "interleavings of two actors, suspending and panicking hooks", "anchors": ["aj_core/src/plugin/mod.rs: before, after, Handler<RunHook<M>>", "aj_core/src/job/mod.rs: Job::execute"]}
{"id": "C71", "title": "just_run delivers", "statement": "A job given to Job::just_run while an engine runs reaches the work queue of its type, whatever else is submitted at the same time, and just_run never harms the engine.", "quantifier": "all interleavings of threads, calls of just_run, engines and the futures they poll; all job types and names", "why_tests_cant": "needs overlapping first submissions and panics in the engine", "anchors": ["aj_core/src/lib.rs: Job::just_run", "aj_core/src/aj.rs: Handler<JustRunJob<M>>, AJ::add_job, AJ::enqueue_job, AJ::register"]}
{"id": "C72", "title": "Scans come on time", "statement": "While a work queue lives, scans of the queue come at the configured tick duration: exactly one is pending, two in a row are that far apart (plus the delay with which timers are served), and a due job for which there is room is started within that time.", "quantifier": "all histories in time: any messages, any delays, any changes of the configuration; also backends whose calls fail", "why_tests_cant": "needs control over real time and the interplay of configuration changes with pending timers", "anchors": ["aj_core/src/queue.rs: WorkQueue::process_jobs, start_with_name, Handler<UpdateWorkQueue>"]}
{"id": "C73", "title": "The process as a whole", "statement": "Every request of every thread is served by exactly the turns it asks for, of a work queue of its type, between its call and its return, and returns their answer; a message in a mailbox is answered after as many turns as there are messages; and every work queue of a process answers as if it were alone, whatever the other threads, job types and work queues on the same backend do.", "quantifier": "all interleavings of threads, engines, work queues, ticks and executions; any number of each; both backends", "why_tests_cant": "the claim is about all interleavings of all parts of the library together", "anchors": ["aj_core/src/aj.rs: AJ and its statics, Handler<InitWorkQueue<M>>", "aj_core/src/queue.rs: all message handlers"]}
{"id": "C74", "title": "A request ends in an execution", "statement": "A job that a thread submits with a request, that is due and that no other request touches, is found a work queue, put into its mailbox, queued and executed, after a number of steps of the library that depends only on what was waiting before it.", "quantifier": "all interleavings of threads, engine, work queues, ticks and executions of a process; both backends", "why_tests_cant": "the claim is about progress under every schedule of all parts of the library together", "anchors": ["aj_core/src/aj.rs: AJ::add_job, AJ::register, Handler<InitWorkQueue<M>>", "aj_core/src/queue.rs: enqueue_job, process_jobs, pick_jobs_to_process"]}
{"id": "C75", "title": "What holds for one work queue holds in the process", "statement": "In a whole process a job that one request submits and no other request touches is never executed twice at once, is not started before it is due, runs at most once if it has no retry policy and is no cron job, at most max_retries + 1 times with a retry policy, at most max_repeat times as a cron job, and has a run count and timestamps that are right.", "quantifier": "all interleavings of threads, engine, work queues of all types, ticks and executions; both backends", "why_tests_cant": "interference between threads, job types and queues shows up only under rare interleavings", "anchors": ["aj_core/src/aj.rs: AJ", "aj_core/src/queue.rs: WorkQueue", "aj_core/src/job/mod.rs: Job"]}
{"id": "C76", "title": "A crew of worker processes", "statement": "Any number of worker processes run one work queue on one backend and are started, die and are killed at any time: no job is executed by two of them at once, all together execute no more jobs at a time than the largest capacity of one of them, the next one that looks for work uses its capacity for whatever is due, and the jobs of a process that died are executed by the others.", "quantifier": "any number of processes; all histories of starts, deaths, messages, ticks and executions; any clocks; both backends", "why_tests_cant": "needs many processes on one Redis server that die at arbitrary moments", "anchors": ["aj_core/src/queue.rs: start_with_name, pick_jobs_to_process, process_jobs, execute_job_task", "aj_core/src/backend/redis.rs: Redis"]}
{"id": "C77", "title": "What overlapping processes can not break", "statement": "Any number of processes of one job type work on one backend and interleave call by call in any way, die anywhere, come at any time, and their backend calls fail at any time. Even then: stored, executed and answered jobs are stored under their own id and satisfy every condition on the data that the submitted jobs satisfy and the user code keeps; no id is listed, stored, executed or reported that was not submitted; no job is executed before it is due by the clock of the executing process; no job ever counts more retries than its maximum; and a job that could be read once can always be read later.", "quantifier": "any number of processes, queue names, turns, clocks and failing calls; all interleavings of single backend calls; both backends", "why_tests_cant": "the number of interleavings of single calls is astronomical and a test sees one", "anchors": ["aj_core/src/queue.rs: pick_jobs_to_process, process_jobs, execute_job_task, execute_job, enqueue, run_with_config, cancel_job, retry_job", "aj_core/src/job/mod.rs: Job", "aj_core/src/job/retry.rs: retry_at", "aj_core/src/backend/types.rs: Backend"]}
{"id": "C78", "title": "The messages of a process are a record of what it did", "statement": "Any number of processes of one job type interleave call by call in any way, die anywhere, and their backend calls fail at any time. Even then, at every moment, for every process and job: the process has announced the job as running at least as often as it executed it; it announced it as finished or failed at most as often as it executed it; it announced it as queued at most once for each submission or request to run it again that it was given and once for each execution that it did not announce as an end; it announced it as canceled at most as often as it was asked to cancel it; and it asked for hooks once before each execution and at most once after each.", "quantifier": "any number of processes, queue names, turns, clocks and failing calls; all interleavings of single backend calls; every prefix of the log of each process; every job id; both backends", "why_tests_cant": "the number of interleavings of single calls and failures is astronomical, and counters of plugins drift only in some of them", "anchors": ["aj_core/src/queue.rs: pick_jobs_to_process, execute_job_task, execute_job, re_enqueue, mark_job_is_finished, mark_job_is_failed, cancel_job, retry_job, enqueue", "aj_core/src/job/mod.rs: enqueue, process, finish, fail, cancel", "aj_core/src/plugin/mod.rs: change_status, before, after"]}
{"id": "C79", "title": "Work queues that interleave call by call inside a process", "statement": "In one process, every work queue runs on a thread of its own: while one is in the middle of a turn, other work queues, clients and engines take steps, and the backend serves single calls. Still, clients see one answer for every request, given by one turn between call and return; every turn ends and every message is answered; the process is as if every turn were taken in one step at the moment it ends; every work queue answers as if it were alone on its backend; a submission reaches its work queue and is executed if client, engine and work queue take their steps; and at every moment a job submitted once is executed at most once at a time, at most once in all if it is a plain job, at most n + 1 times with n retries, at most M times as a cron job with max_repeat = M.", "quantifier": "any number of clients, engines, job types, work queues and backends; all interleavings of single backend calls, clock reads, messages and steps of clients and engines; any clocks; both backends", "why_tests_cant": "the interleavings of the calls of several threads cannot be enumerated, and tests cannot make a thread stop between two given calls", "anchors": ["aj_core/src/queue.rs: start_with_name (Arbiter per queue), read_job, pick_jobs_to_process, execute_job_task, message handlers", "aj_core/src/aj.rs: all requests", "aj_core/src/backend/mem.rs, aj_core/src/backend/redis.rs: one call at a time"]}
{"id": "C80", "title": "Plugins work with any runtime", "statement": "Whether AJ is started in a thread that has an actix runtime or in one that has none (then AJ makes its own, as the README says), plugins registered by any thread are called: once the plugin centre has handled its messages and no hook is suspended or has panicked, every message a work queue sent has led to exactly the calls of the plugins registered before it.", "quantifier": "any number of threads and actix systems; all histories of making, dropping and stopping systems, starting AJ, registering plugins, submitting jobs, messages of work queues and steps of plugin centres", "why_tests_cant": "a test has one runtime, made by its attribute; the other arrangements of threads and runtimes are not tried", "anchors": ["aj_core/src/aj.rs: AJ::start, register_addr, register_plugin", "aj_core/src/plugin/mod.rs: PluginCenter, from_registry", "README.md: 'It can work with any runtime'"]}
{"id": "C81", "title": "AJ goes on as long as its process", "statement": "Once AJ was started, there is one engine, AJ::start returns it, submissions are accepted and work queues go on, whatever happens to the runtime it was started in; in particular AJ can be started again in a new runtime after the first was stopped.", "quantifier": "any number of threads and actix systems; all histories of making, dropping and stopping systems, starting AJ, registering plugins, submitting jobs, messages of work queues and steps of plugin centres", "why_tests_cant": "AJ is a static of the process and tests of one process share it; a test that stops its runtime affects the ones after it, depending on their order", "anchors": ["aj_core/src/aj.rs: AJ_ADDR, AJ::start, register_addr, enqueue_job, register", "aj_core/src/queue.rs: start_with_name"]}
{"id": "C82", "title": "A new process goes on with the jobs of the old ones", "statement": "When a process ends, at whatever point, a later process that starts AJ on the same backend executes the jobs that were accepted and not yet executed; no accepted job is lost because processes were restarted.", "quantifier": "any number of processes one after the other, each with any clients, job types, work queues and clocks, ending at any point with any number of turns in progress; either backend", "why_tests_cant": "the tests have one process each and start from a flushed backend; where a process ends cannot be chosen, and each further process multiplies the number of cases", "anchors": ["aj_core/src/aj.rs: AJ_ADDR, QUEUE_REGISTRY, AJ::start, register", "aj_core/src/queue.rs: start_with_name, process_jobs, pick_jobs_to_process, execute_job", "README.md: AJ::start(aj::Redis::new(..)), Custom Backend (Both Broker and Storage)"]}
{"id": "C83", "title": "Every job comes to an end", "statement": "In a work queue whose user code returns, whose ticks go on and never find more than 20 jobs waiting, or again and again leave capacity free, every job that is not a cron job, is neither cancelled nor submitted again and has a bounded number of retries (or whose runs do not fail from some point on) ends up Finished or Failed: no job waits, runs or is retried for ever.", "quantifier": "all endless histories of turns of a work queue, any number of other jobs, any user code that keeps the default retry hooks for the job (or a job without retry), any retry strategy, any clock that passes every point in time (it may jump back), either backend", "why_tests_cant": "the claim is about what happens eventually in endless histories; a finite run cannot show it, nor its failure", "anchors": ["aj_core/src/queue.rs: process_jobs, pick_jobs_to_process, try_pick_specific_ready_jobs, execute_job, re_enqueue", "aj_core/src/job/retry.rs: should_retry, retry_at", "aj_core/src/job/mod.rs: is_ready"]}
{"id": "C84", "title": "A cron job runs for ever, or as often as it should", "statement": "In such a work queue a cron job without limits whose runs are not retried runs again and again without end, and one with max_repeat M that has been given t slots runs exactly M + 1 - t more times.", "quantifier": "all endless histories of turns of a work queue, any schedule, any number of other jobs, any clock that passes every point in time, either backend", "why_tests_cant": "cron tests wait for a few seconds of real time; that a job never stops firing cannot be observed in finite time", "anchors": ["aj_core/src/queue.rs: process_jobs, try_pick_specific_ready_jobs, execute_job, re_enqueue", "aj_core/src/job/mod.rs: is_ready, next_tick", "aj_core/src/job/job_context.rs: JobType::Cron, CronContext"]}
{"id": "C85", "title": "In a process, the job of a submission comes to an end", "statement": "In a process with one engine, a job that a client submits and that no other request touches ends up Finished or Failed once its submission has been sent, if it is not a cron job and has a bounded number of retries (or none); a cron job without limits runs again and again, and one with max_repeat M that has been given t slots runs at least M + 1 - t times. This holds whatever the other clients, work queues and jobs do, as long as nobody stands still, runs come to an end and the queue has at most 20 jobs waiting.", "quantifier": "all endless histories of a process: any number of clients, requests, job types and work queues, any interleaving of their steps, any user code, any clock per work queue that passes every point in time, either backend", "why_tests_cant": "the claim is about what happens eventually in endless histories of many threads and actors; a finite run shows neither it nor its failure", "anchors": ["aj_core/src/aj.rs: AJ::add_job, AJ::enqueue_job, AJ::register, get_work_queue_address", "aj_core/src/queue.rs: process_jobs, pick_jobs_to_process, execute_job, re_enqueue, Handler<Enqueue<M>>", "aj_core/src/job/retry.rs: should_retry, retry_at"]}
{"id": "C86", "title": "The job of a submission comes to an end even when work queues interleave call by call", "statement": "As C85, in a process whose work queues, clients and engine interleave between any two backend calls, clock reads or messages of a turn: a job that a client submits and no other request touches ends up Finished or Failed if it is not a cron job and has a bounded number of retries (or none); a cron job without limits runs again and again, and one with max_repeat M that has been given t slots runs at least M + 1 - t times. Turns begun are not assumed to be short; it is enough that nobody stands still, that runs come to an end and that ticks begin again and again with free capacity and at most 20 jobs waiting.", "quantifier": "all endless histories of a process: any number of clients, requests, job types and work queues, any interleaving of their steps and of the single calls inside turns, any user code, any clock per work queue that passes every point in time, either backend", "why_tests_cant": "eventual behaviour over endless interleavings of single backend calls; a finite test run sees one schedule and no eventuality", "anchors": ["aj_core/src/queue.rs: process_jobs, pick_jobs_to_process, execute_job, re_enqueue, Handler<Enqueue<M>>", "aj_core/src/backend/mem.rs: one lock per call", "aj_core/src/aj.rs: AJ::add_job, AJ::enqueue_job, get_work_queue_address"]}
{"id": "C87", "title": "A job that a dead process has left waiting comes to an end in a later process", "statement": "A job that waits in the backend (stored as Queued, one entry in the queued list, none in the running list) when processes have come and gone, and that no request of a later process touches, ends up Finished or Failed in that process if it is not a cron job and has a bounded number of retries (or none); a cron job without limits runs again and again, and one with max_repeat M that has been given t slots runs at least M + 1 - t times. It is enough that the process starts one engine on that backend, that some client submits any other job of the type (so that a work queue of the type comes up), that nobody stands still, that runs of the job come to an end, and that ticks begin again and again with free capacity and at most 20 jobs waiting.", "quantifier": "all finite sequences of earlier processes that die at any point, and all endless histories of the later process: any number of clients, requests, job types and work queues, any interleaving of their steps and of the single calls inside turns, any user code, any clock per work queue that passes every point in time, either backend", "why_tests_cant": "crashes at any point of earlier processes combined with eventual behaviour over endless interleavings of the later one", "anchors": ["aj_core/src/aj.rs: AJ::start, AJ::add_job, get_work_queue_address", "aj_core/src/queue.rs: process_jobs, pick_jobs_to_process, execute_job, re_enqueue", "aj_core/src/backend/redis.rs: what survives a process"]}
{"id": "C88", "title": "How a tick bounds its scan makes no difference, in interleaved processes too", "statement": "In a process whose work queues interleave call by call, the scan of a tick may be given any number of rounds that is larger than the number of entries queued when it begins: the tick then makes exactly the calls of the code, and the process goes through the same states (registry, mailboxes, executions, logs, clients, storage, turns in progress) as one whose ticks count the queued entries first. So a process that dies leaves the same in its backends, and the jobs of submissions, and those that dead processes have left waiting, come to an end as C86 and C87 say, in processes that make the calls of the code alone.", "quantifier": "all histories, finite and endless, of processes that start at most one engine, with any interleaving of single calls, any numbers of rounds that are large enough, any user code, any clock per work queue, either backend; all finite sequences of earlier processes", "why_tests_cant": "equality of all reachable states of two differently interleaved programs, for every schedule and every number of rounds", "anchors": ["aj_core/src/queue.rs: pick_jobs_to_process (the loop over job ids), process_jobs", "aj_core/src/backend/mem.rs: queue_get", "aj_core/src/backend/redis.rs: queue_get"]}
{"id": "C89", "title": "Work queues that are treated fairly find free capacity, in interleaved processes too", "statement": "In a process started by one client, a work queue whose executions all come to an end, which keeps ticking while it is alive with capacity for at least one job, finds free capacity again and again, however many jobs there are and whatever callers and user code do (no capacity is leaked by any interleaving of calls). So a job that is submitted once, that its code leaves storable, that is not a cron job and has a bounded number of retries ends up Finished or Failed without any assumption about capacity, if ticks find at most 20 entries queued; and cron jobs run as often as they should.", "quantifier": "all endless histories of a process: any number of clients, requests, job types and work queues, any interleaving of their steps and of the single calls inside turns, any user code, any clock per work queue that passes every point in time, either backend", "why_tests_cant": "that capacity is never leaked and always recovered is a liveness property over endless interleavings with unboundedly many jobs", "anchors": ["aj_core/src/queue.rs: process_jobs, pick_jobs_to_process, execute_job", "aj_core/src/job.rs: the running list as capacity"]}
{"id": "C90", "title": "Places in the running list come back when executions end, and are lost with a process that dies", "statement": "Begun with nothing in flight on whatever earlier processes have left, a work queue that is alive has no more entries of a job in its running list than there were in the beginning and executions of the job are in flight, whatever callers and user code do. So if all executions end and the capacity exceeds the number of entries that earlier processes have left in the running list, ticks find free capacity again and again; if the capacity never exceeds that number, no job is ever executed again. A job that waits in a backend when processes have died comes to an end in a later process whose work queues have more capacity than the earlier processes have lost.", "quantifier": "all histories, finite and endless, of a work queue begun on any storage, with any callers and user code, either backend; all processes begun on what any finite sequence of earlier processes has left, with any interleaving of single calls", "why_tests_cant": "an invariant over all histories with careless callers and user code, and a liveness property with its converse over endless ones", "anchors": ["aj_core/src/queue.rs: pick_jobs_to_process, process_jobs, execute_job, mark_job_is_finished, mark_job_is_failed, re_enqueue", "aj_core/src/job.rs: the running list as capacity"]}
{"id": "C91", "title": "Any number of waiting jobs come to an end once nothing new comes in", "statement": "However many jobs wait: a job that becomes due and is neither cancelled nor submitted again is started if ticks again and again leave capacity free. And when nobody submits or retries jobs any more, all executions end, ticks go on and there is capacity for one job, then from some point on no job waits or executes, and every job that was stored is Finished, Failed or Cancelled, and Finished or Failed if it was never cancelled, provided that the waiting and executing jobs are no cron jobs and have a bounded number of retries.", "quantifier": "all endless histories of turns of a work queue from every reachable state, any number of waiting and executing jobs (fewer than 2^31), cancellations of any jobs, any user code that keeps the default retry hooks (or jobs without retry), any clock that passes every point in time, either backend", "why_tests_cant": "liveness over endless histories and unbounded queues, where a tick works in batches of 20 and rotates the rest, and where the claim fails while submissions go on (C31)", "anchors": ["aj_core/src/queue.rs: pick_jobs_to_process, try_pick_specific_ready_jobs, process_jobs, execute_job, re_enqueue", "aj_core/src/job/retry.rs: should_retry"]}
{"id": "C92", "title": "A process comes to rest once nobody submits or retries jobs", "statement": "In a process in which clients submit, cancel, read and retry jobs through an engine, and in which work queues interleave call by call: from the moment on at which clients begin no more submissions and retries, a work queue that is treated fairly (executions end, ticks go on, capacity for one job) handles the requests still on their way, executes what waits, and comes to rest. From some point on, whenever it is not inside a turn, nothing is queued, nothing is running, and every job of its type that it ever knew is Finished, Failed or Canceled, and Finished or Failed if no request cancels it. In particular this holds of the job of every add_job that has returned with an answer of the work queue.", "quantifier": "all endless histories of a whole process started by one client, any number of clients, requests, work queues and jobs (fewer than 2^31 waiting and executing) that are no cron jobs and have a bounded number of retries, every interleaving of client steps, engine steps and single backend calls, any user code that keeps the default retry hooks (or jobs without retry), clocks that pass every point in time, either backend", "why_tests_cant": "liveness of a whole concurrent system over endless histories, with requests still on their way when the last one begins, and with any number of waiting jobs", "anchors": ["aj_core/src/aj.rs: AJ::add_job, AJ::retry_job, AJ::cancel_job", "aj_core/src/queue.rs: Handler<Enqueue>, pick_jobs_to_process, process_jobs, execute_job, re_enqueue", "aj_core/src/job/retry.rs: should_retry"]}
{"id": "C93", "title": "A process that takes over what others have left comes to rest", "statement": "A work queue that begins on what dead processes have left comes to rest once nobody submits or retries jobs any more, provided it is treated fairly and has capacity for at least one more job than there are entries in the running list it finds. Every job that waited, and every job submitted since, is Finished, Failed or Canceled, and Finished or Failed if no request cancels it. The jobs that had gone astray (Queued or Running, but in no list of waiting jobs) stay exactly as they were for ever, and their entries in the running list go on taking up capacity.", "quantifier": "all endless histories of a work queue alone, and of a whole process whose work queues interleave call by call, after any finite series of earlier processes with any interleavings and deaths between any two calls, where what is found in the list of waiting jobs is in order (waiting jobs, no cron jobs, bounded number of retries), any number of jobs (fewer than 2^31), any user code that keeps the default retry hooks (or jobs without retry), clocks that pass every point in time, either backend", "why_tests_cant": "liveness over endless histories after arbitrary crashes; that a job is never touched again is a claim about all later executions", "anchors": ["aj_core/src/queue.rs: pick_jobs_to_process, try_pick_specific_ready_jobs, process_jobs, execute_job, re_enqueue", "aj_core/src/aj.rs: AJ::add_job, AJ::start", "aj_core/src/backend/redis.rs"]}
{"id": "C94", "title": "The lists of Finished, Failed and Canceled jobs", "statement": "A job is in the list of the Finished jobs exactly once while it is Finished and otherwise not, and the same holds of the lists of the Failed and of the Canceled jobs. (False as stated: the list of the Canceled jobs is always empty, and a job that is submitted again after it was done stays in the list and is entered again when it is done again, so that the lists grow without bound.)", "quantifier": "all histories of turns of a work queue, any number of jobs, any user code, any clock, either backend", "why_tests_cant": "an invariant of all histories of submissions, cancellations, retries and executions; the growth shows only in long histories that submit the same job again and again", "anchors": ["aj_core/src/queue.rs: run_with_config, enqueue, mark_job_is_finished, mark_job_is_failed, mark_job_is_canceled (called only for an execution of a job that was Canceled when it was picked, which does not happen), cancel_job", "aj_core/src/queue.rs: re_enqueue (the only function that takes ids from these lists, for retry_job)"]}
{"id": "C95", "title": "Processes whose clients submit, retry and cancel jobs as they like", "statement": "In a process with one engine, however its clients submit the same jobs again and again, retry them, cancel them and read them, and however the turns of the work queues interleave call by call: between turns of a work queue, its queued and running lists have exactly its Queued and Running jobs, once each; the executions in flight are those of the Running jobs, at most one for each job and no more than the capacity; the last status sent to plugins is the stored one; the hooks of a job alternate with its runs; and nothing is executed before it was due.", "quantifier": "all interleavings of client requests and backend calls of a process that starts at most one engine and whose types have ids of their own, any number of submissions of one job, any clock, either backend", "why_tests_cant": "quantifies over all interleavings and over unbounded histories in which one job is submitted again while it waits, while it is executed and after it is done", "anchors": ["aj_core/src/aj.rs: add_job, retry_job, cancel_job, get_job", "aj_core/src/queue.rs: run_with_config, enqueue, retry_job, cancel_job, process_jobs, pick_jobs_to_process"]}
{"id": "C96", "title": "The messages about a job and the runs of its code tell its life in order", "statement": "The events of a job, that is the messages its work queue sends about it and the runs of its code, in the order in which they happen, are a path through the life cycle: Queued; then Canceled or Running; Running is followed by the message before the run, the code, the message after the run and an outcome (Queued again, Finished or Failed); done jobs may be Queued again; nothing else happens. The path ends where the stored status and the executions in flight say the job is. So code runs only right after Running and the message before the run; every run has its outcome announced; and between the announcement that a job is Canceled (Finished, Failed) and the next that it is Queued nothing happens to it, in particular its code is not entered.", "quantifier": "all histories of turns of a work queue that are careful with the job, and all interleavings of a process that starts at most one engine whose clients submit, retry and cancel jobs as they like; any user code, clock and backend", "why_tests_cant": "an order of events over all unbounded histories and interleavings; a test shows the order of the one history it makes", "anchors": ["aj_core/src/queue.rs: run_with_config, enqueue, re_enqueue, pick_jobs_to_process, execute_job_task, mark_job_is_finished, mark_job_is_failed, cancel_job, retry_job", "aj_core/src/job/mod.rs: execute", "aj_core/src/plugin/mod.rs: PluginCenter"]}
{"id": "C97", "title": "What its runs return decides how often a job runs and how it ends", "statement": "Let it be known of every run of a job, by its number, whether it fails. A waiting job that is not a cron job, and has d automatic retries left (0 without a retry policy), then runs and ends as that says: the first run that does not fail ends the job as Finished and no further run is made; if the first run and all d retries fail, the job has run exactly d + 1 times and is Failed. There is exactly one such outcome for given d and runs. Once it has ended the job stays as it is and never runs again, unless it is submitted or retried by hand. A done job that is retried by hand goes on with the retries it has left: one that has used them up runs exactly once more.", "quantifier": "all endless histories of a work queue that serve the job (time passes, executions end, ticks find capacity), and all endless interleavings of a process whose work queues are treated fairly; any user code that uses the default retry_at, any clock that passes every point in time, any backend", "why_tests_cant": "an exact number of runs and an outcome in every endless history, whatever happens to other jobs; a test makes one finite history", "anchors": ["aj_core/src/queue.rs: execute_job_task, re_enqueue, mark_job_is_finished, mark_job_is_failed, pick_jobs_to_process", "aj_core/src/retry/mod.rs: should_retry, retry_at", "aj_core/src/job/mod.rs: execute"]}
