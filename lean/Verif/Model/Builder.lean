import Verif.Model.Job

/-!
# Building a job (`job/mod.rs:27-125`)

Builders consume and return the job; those that read the clock get the moment of the reading as an argument.
`none` is a panic.
-/

namespace AJ.Job
variable {D : Type}

/-- `job/mod.rs:65-68`. -/
def setId (j : Job D) (id : Str) : Job D := { j with context := { j.context with jobId := id } }

/-- `job/mod.rs:70-73`, and `context` (`job/mod.rs:75-77`). -/
def setContext (j : Job D) (ctx : JobContext) : Job D := { j with context := ctx }

/-- `job/mod.rs:80-83`, and `job_type` (`job/mod.rs:85-87`). -/
def setJobType (j : Job D) (ty : JobType) : Job D := { j with context := { j.context with jobType := ty } }

/-- `job/mod.rs:93-95` with `JobType::new_schedule` (`job_context.rs:42-44`). -/
def scheduleAt (j : Job D) (t : Time) : Job D := j.setJobType (.scheduledAt t)

/-- `job/mod.rs:101-104`; the sum panics outside the dates of chrono. -/
def delay (j : Job D) (now : Time) (after : Dur) : Option (Job D) := (timeAdd now after).map j.scheduleAt

/-- `job_context.rs:46-51` (`JobType::new_cron`) at the moment `now`; `none` is an error. -/
def cronType (E : Env D) (now : Time) (expr : Str) (ctx : CronContext) : Option JobType :=
  (E.cron expr).map fun after => .cron expr ((after now).getD now) 1 ctx

/-- `job/mod.rs:110-113`: the error is unwrapped. -/
def cron (E : Env D) (j : Job D) (now : Time) (expr : Str) : Option (Job D) :=
  (cronType E now expr ⟨0, none, none⟩).map j.setJobType

/-- `job/mod.rs:117-120`, and `retry` (`job/mod.rs:122-124`). -/
def setRetry (j : Job D) (r : Retry) : Job D := { j with context := { j.context with retry := some r } }

/-- One call of a builder. -/
inductive Builder where
  | id (id : Str)
  | context (ctx : JobContext)
  | jobType (ty : JobType)
  | scheduleAt (t : Time)
  | delay (now : Time) (after : Dur)
  | cron (now : Time) (expr : Str)
  | retry (r : Retry)

/-- The call. -/
def built (E : Env D) (j : Job D) : Builder → Option (Job D)
  | .id i => some (j.setId i)
  | .context c => some (j.setContext c)
  | .jobType ty => some (j.setJobType ty)
  | .scheduleAt t => some (j.scheduleAt t)
  | .delay now after => j.delay now after
  | .cron now expr => j.cron E now expr
  | .retry r => some (j.setRetry r)

/-- A chain of calls. -/
def buildAll (E : Env D) (j : Job D) : List Builder → Option (Job D)
  | [] => some j
  | b :: bs => (j.built E b).bind fun j => buildAll E j bs

end AJ.Job
