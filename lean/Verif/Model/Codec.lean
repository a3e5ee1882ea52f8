import Verif.Model.Json
import Verif.Model.Job

/-!
# The storage format of jobs

What the derived `Serialize` and `Deserialize` implementations of `job/mod.rs:21-25`,
`job/job_context.rs:11-82` and `job/retry.rs:7-23` write and accept. Simplifications on the reading
side: integers are not checked against the range of the field's type and the date range of chrono
(values that were written are in range), and the array form of a struct, which serde also accepts but
never writes, is not accepted.
-/

namespace AJ

open Json

/-- The user's `Serialize` and `Deserialize` for the job data `M`. -/
structure DataCodec (D : Type) where
  enc : D → Option Json
  dec : Json → Option D

/-- `chrono::serde::ts_microseconds`: whole microseconds, rounded toward minus infinity. -/
def encTime (t : Time) : Json := .int (t / nsPerUs)

/-- `chrono::serde::ts_microseconds`. -/
def decTime (j : Json) : Option Time := j.asInt.map (· * nsPerUs)

/-- `serde_with::DurationMicroSeconds<i64>` 3.11.0: nearest microsecond, halves away from zero; an
error when the count does not fit an `i64`. -/
def durMicros (d : Dur) : Int :=
  if 0 ≤ d then (d + 500) / nsPerUs else -((-d + 500) / nsPerUs)

/-- Writing a duration. -/
def encDur (d : Dur) : Option Json := if fitsI64 (durMicros d) then some (.int (durMicros d)) else none

/-- Reading a duration: an `i64`. -/
def decDur (j : Json) : Option Dur :=
  match j.asInt with
  | some n => if fitsI64 n then some (n * nsPerUs) else none
  | none => none

/-- `retry.rs:7-15`, externally tagged. -/
def encStrategy : RetryStrategy → Option Json
  | .interval d => (encDur d).map fun j => .obj [(c!"Interval", j)]
  | .exponentialBackoff d => (encDur d).map fun j => .obj [(c!"ExponentialBackoff", j)]

/-- Reading `retry.rs:7-15`. -/
def decStrategy : Json → Option RetryStrategy
  | .obj [(k, j)] =>
    if k = c!"Interval" then (decDur j).map .interval
    else if k = c!"ExponentialBackoff" then (decDur j).map .exponentialBackoff
    else none
  | _ => none

/-- `retry.rs:17-23`. -/
def encRetry (r : Retry) : Option Json :=
  (encStrategy r.strategy).map fun s =>
    .obj [(c!"retried_times", .int r.retriedTimes), (c!"max_retries", ofOpt .int r.maxRetries),
      (c!"strategy", s)]

/-- Reading `retry.rs:17-23`. -/
def decRetry : Json → Option Retry
  | .obj l => do
    let n ← (← req l c!"retried_times").asInt
    let m ← optField asInt l c!"max_retries"
    let s ← decStrategy (← req l c!"strategy")
    pure ⟨n, m, s⟩
  | _ => none

/-- `job_context.rs:11-17`. -/
def encCronContext (c : CronContext) : Json :=
  .obj [(c!"tick_number", .int c.tickNumber), (c!"max_repeat", ofOpt .int c.maxRepeat),
    (c!"end_at", ofOpt encTime c.endAt)]

/-- Reading `job_context.rs:11-17`. `end_at` has a `with` attribute, so it must be present. -/
def decCronContext : Json → Option CronContext
  | .obj l => do
    let n ← (← req l c!"tick_number").asInt
    let m ← optField asInt l c!"max_repeat"
    let e ← opt decTime (← req l c!"end_at")
    pure ⟨n, m, e⟩
  | _ => none

/-- `job_context.rs:19-33`. -/
def encJobType : JobType → Json
  | .normal => .str c!"Normal"
  | .scheduledAt t => .obj [(c!"ScheduledAt", encTime t)]
  | .cron e n k c => .obj [(c!"Cron", .arr [.str e, encTime n, .int k, encCronContext c])]

/-- Reading the parts of `Cron`; the last two have defaults (`job_context.rs:30-31`). -/
def decCron : List Json → Option JobType
  | [e, n] => do pure (.cron (← e.asStr) (← decTime n) 0 {})
  | [e, n, k] => do pure (.cron (← e.asStr) (← decTime n) (← k.asInt) {})
  | [e, n, k, c] => do pure (.cron (← e.asStr) (← decTime n) (← k.asInt) (← decCronContext c))
  | _ => none

/-- Reading `job_context.rs:19-33`. -/
def decJobType : Json → Option JobType
  | .str s => if s = c!"Normal" then some .normal else none
  | .obj [(k, v)] =>
    if k = c!"Normal" then match v with
      | .null => some .normal
      | _ => none
    else if k = c!"ScheduledAt" then (decTime v).map .scheduledAt
    else if k = c!"Cron" then match v with
      | .arr l => decCron l
      | _ => none
    else none
  | _ => none

/-- `job_context.rs:54-61`. -/
def encStatus : JobStatus → Json
  | .queued => .str c!"Queued"
  | .running => .str c!"Running"
  | .finished => .str c!"Finished"
  | .failed => .str c!"Failed"
  | .canceled => .str c!"Canceled"

/-- Name of a status. -/
def statusOfName (s : Str) : Option JobStatus :=
  if s = c!"Queued" then some .queued
  else if s = c!"Running" then some .running
  else if s = c!"Finished" then some .finished
  else if s = c!"Failed" then some .failed
  else if s = c!"Canceled" then some .canceled
  else none

/-- Reading `job_context.rs:54-61`. -/
def decStatus : Json → Option JobStatus
  | .str s => statusOfName s
  | .obj [(k, .null)] => statusOfName k
  | _ => none

/-- An optional retry policy. -/
def encRetryOpt : Option Retry → Option Json
  | none => some .null
  | some r => encRetry r

/-- `job_context.rs:69-82`. -/
def encContext (c : JobContext) : Option Json :=
  (encRetryOpt c.retry).map fun r =>
    .obj [(c!"job_id", .str c.jobId), (c!"job_type", encJobType c.jobType),
      (c!"job_status", encStatus c.jobStatus), (c!"retry", r), (c!"created_at", .int c.createdAt),
      (c!"enqueue_at", ofOpt .int c.enqueueAt), (c!"run_at", ofOpt .int c.runAt),
      (c!"complete_at", ofOpt .int c.completeAt), (c!"cancel_at", ofOpt .int c.cancelAt),
      (c!"run_count", .int c.runCount)]

/-- `usize` value. -/
def asNat (j : Json) : Option Nat :=
  match j.asInt with
  | some n => if 0 ≤ n then some n.toNat else none
  | none => none

/-- Reading `job_context.rs:69-82`; a missing `job_id` is the empty string. -/
def decContext : Json → Option JobContext
  | .obj l => do
    let id ← (match field l c!"job_id" with
      | none => none
      | some none => some []
      | some (some j) => j.asStr)
    let ty ← decJobType (← req l c!"job_type")
    let st ← decStatus (← req l c!"job_status")
    let r ← optField decRetry l c!"retry"
    let created ← (← req l c!"created_at").asInt
    let enq ← optField asInt l c!"enqueue_at"
    let run ← optField asInt l c!"run_at"
    let comp ← optField asInt l c!"complete_at"
    let canc ← optField asInt l c!"cancel_at"
    let n ← asNat (← req l c!"run_count")
    pure ⟨id, ty, st, r, created, enq, run, comp, canc, n⟩
  | _ => none

/-- `job/mod.rs:21-25`. -/
def encJob {D : Type} (dc : DataCodec D) (j : Job D) : Option Json := do
  let c ← encContext j.context
  let d ← dc.enc j.data
  pure (.obj [(c!"context", c), (c!"data", d)])

/-- Reading `job/mod.rs:21-25`. -/
def decJob {D : Type} (dc : DataCodec D) : Json → Option (Job D)
  | .obj l => do
    let c ← decContext (← req l c!"context")
    let d ← dc.dec (← req l c!"data")
    pure ⟨c, d⟩
  | _ => none

/-- `serde_json::to_string(&job)` and `serde_json::from_str(..).ok()`, `backend/types.rs:53,68`. -/
def jsonCodec {D : Type} (dc : DataCodec D) : JobCodec D where
  enc j := (encJob dc j).map Json.print
  dec s := (Json.parse s).bind (decJob dc)

end AJ
