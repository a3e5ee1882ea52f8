import Verif.Model.Prelude

/-!
# Data types of a job

Models `aj_core/src/job/job_context.rs`, `job/retry.rs` (types) and `job/mod.rs:21-25`.
-/

namespace AJ

/-- `job_context.rs:54-61`. -/
inductive JobStatus where
  | queued | running | finished | failed | canceled
  deriving DecidableEq, Repr

/-- `job_context.rs:11-17`. -/
structure CronContext where
  tickNumber : Int := 0
  maxRepeat : Option Int := none
  endAt : Option Time := none
  deriving DecidableEq, Repr

/-- `job_context.rs:21-33`: `Cron(expression, next slot, total repeat, context)`. -/
inductive JobType where
  | normal
  | scheduledAt (t : Time)
  | cron (expr : Str) (next : Time) (totalRepeat : Int) (ctx : CronContext)
  deriving DecidableEq, Repr

/-- `retry.rs:9-15`. -/
inductive RetryStrategy where
  | interval (d : Dur)
  | exponentialBackoff (d : Dur)
  deriving DecidableEq, Repr

/-- `retry.rs:17-23`. The `i32` fields are `Int`; arithmetic on them goes through `addI32`. -/
structure Retry where
  retriedTimes : Int
  maxRetries : Option Int
  strategy : RetryStrategy
  deriving DecidableEq, Repr

/-- `job_context.rs:69-82`. Timestamps are milliseconds (`i64`), `run_count` is a `Nat` (its `usize`
overflow is not modelled). -/
structure JobContext where
  jobId : Str
  jobType : JobType
  jobStatus : JobStatus
  retry : Option Retry
  createdAt : Int
  enqueueAt : Option Int
  runAt : Option Int
  completeAt : Option Int
  cancelAt : Option Int
  runCount : Nat
  deriving DecidableEq, Repr

/-- `job/mod.rs:21-25`. `D` is the user's job type `M`. -/
structure Job (D : Type) where
  context : JobContext
  data : D
  deriving DecidableEq, Repr

namespace Job
variable {D : Type}

/-- `job/mod.rs:60-62`. -/
def id (j : Job D) : Str := j.context.jobId

/-- `job/mod.rs:217-219`. -/
def isQueued (j : Job D) : Bool := j.context.jobStatus = .queued

/-- `job/mod.rs:221-223`. -/
def isRunning (j : Job D) : Bool := j.context.jobStatus = .running

/-- `job/mod.rs:225-227`. -/
def isCancelled (j : Job D) : Bool := j.context.jobStatus = .canceled

/-- `job/mod.rs:229-233`. -/
def isDone (j : Job D) : Bool :=
  j.context.jobStatus = .finished || j.context.jobStatus = .canceled || j.context.jobStatus = .failed

end Job

/-- `job_context.rs:84-99` (`JobContext::new`); `nowMs` is the value of `get_now_as_ms()`. -/
def JobContext.new (id : Str) (nowMs : Int) : JobContext where
  jobId := id
  jobType := .normal
  jobStatus := .queued
  retry := none
  createdAt := nowMs
  enqueueAt := none
  runAt := none
  completeAt := none
  cancelAt := none
  runCount := 0

end AJ
