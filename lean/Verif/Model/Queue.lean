import Verif.Model.Job

/-!
# Work queue

Models `aj_core/src/queue.rs:18-400`, method by method, as programs.
-/

namespace AJ

/-- `queue.rs:18-24`. -/
structure EnqueueConfig where
  reRun : Bool
  overrideData : Bool
  deriving DecidableEq, Repr

/-- `queue.rs:34-36`. -/
def EnqueueConfig.newReRun : EnqueueConfig := ⟨true, true⟩

/-- `queue.rs:38-40`. -/
def EnqueueConfig.newSkipIfFinished : EnqueueConfig := ⟨false, true⟩

/-- `queue.rs:43-47`. The tick duration only drives the timer (`Model/Timer.lean`). -/
structure WorkQueueConfig where
  processTickDuration : Nat := 100
  maxProcessingJobs : Nat := 20
  deriving DecidableEq, Repr

/-- `{:?}` of `JobStatus` (derived `Debug`, `job_context.rs:54-61`). -/
def JobStatus.debug : JobStatus → Str
  | .queued => c!"Queued"
  | .running => c!"Running"
  | .finished => c!"Finished"
  | .failed => c!"Failed"
  | .canceled => c!"Canceled"

/-- `queue.rs:97-99`: `format!("{}:queue:{:?}", name, status)`. -/
def formatQueueName (name : Str) (st : JobStatus) : Str := name ++ c!":queue:" ++ st.debug

namespace WorkQueue
variable {D : Type} (E : Env D) (name : Str)

/-- `queue.rs:143-149`: push the id, then store the job. -/
def enqueue (job : Job D) : Prog Unit := do
  Prog.orFail (Prog.queuePush (formatQueueName name .queued) job.id)
  let _ ← job.enqueue E
  pure ()

/-- `queue.rs:115-141`. -/
def runWithConfig (job : Job D) (cfg : EnqueueConfig) : Prog Unit := do
  match ← getFromStorage E job.id with
  | some existing => do
    if cfg.overrideData && !existing.isRunning then upsertToStorage E job.id job
    if cfg.reRun && existing.isDone then enqueue E name job
  | none => enqueue E name job

/-- `queue.rs:151-163`. A failing push is only logged. -/
def reEnqueue (job : Job D) : Prog Unit := do
  Prog.orFail (Prog.queueRemove (formatQueueName name job.context.jobStatus) job.id)
  let job ← job.enqueue E
  let _ ← Prog.queuePush (formatQueueName name .queued) job.id
  pure ()

/-- `queue.rs:165-171`. -/
def markJobIsCanceled (id : Str) : Prog Unit := do
  let _ ← Prog.queuePush (formatQueueName name .canceled) id
  pure ()

/-- `queue.rs:203-211`. -/
def removeProcessingJob (id : Str) : Prog Unit := do
  let _ ← Prog.queueRemove (formatQueueName name .running) id
  pure ()

/-- `queue.rs:173-183`. -/
def markJobIsFinished (job : Job D) : Prog Unit := do
  removeProcessingJob name job.id
  let job ← job.finish E
  let _ ← Prog.queuePush (formatQueueName name .finished) job.id
  pure ()

/-- `queue.rs:192-201`. -/
def pushFailedJob (id : Str) : Prog Unit := do
  removeProcessingJob name id
  let _ ← Prog.queuePush (formatQueueName name .failed) id
  pure ()

/-- `queue.rs:185-190`. -/
def markJobIsFailed (job : Job D) : Prog Unit := do
  let job ← job.fail E
  pushFailedJob name job.id

/-- `queue.rs:213-219`. -/
def getProcessingJobIds (count : Nat) : Prog (List Str) :=
  Prog.orFail (Prog.queueGet (formatQueueName name .running) count .front)

/-- The loop over one batch, `queue.rs:269-300`. Note that the ids come from the batch while the
moves take whatever is at the back of the list. -/
def pickBatch (total : Nat) : List Str → List (Job D) → Prog (List (Job D))
  | [], ready => pure ready
  | id :: ids, ready => do
    let rotate : Prog (List Str) := Prog.orFail (Prog.queueMove (formatQueueName name .queued)
      (formatQueueName name .queued) 1 .back .front)
    match ← getFromStorage E id with
    | some job => do
      if (← job.isReady) && decide (ready.length < total) &&
          !(ready.any fun r => decide (r.id = job.id)) then do
        let job ← job.process E
        let _ ← Prog.orFail (Prog.queueMove (formatQueueName name .queued)
          (formatQueueName name .running) 1 .back .front)
        pickBatch total ids (ready ++ [job])
      else do
        let _ ← rotate
        pickBatch total ids ready
    | none => do
      let _ ← rotate
      pickBatch total ids ready

/-- The outer loop, `queue.rs:261-309`, with at most `fuel` iterations; running out of fuel is
`diverge`. The cursor is an `i32`; wrap-around of the subtraction follows the build profile. -/
def pickLoop (total : Nat) : Nat → Int → List (Job D) → Prog (List (Job D))
  | 0, _, _ => .diverge
  | fuel + 1, cursor, ready => do
    let ids ← Prog.orFail (Prog.queueGet (formatQueueName name .queued) 20 .back)
    let cursor ← Prog.orPanic (addI32 E.overflowChecks cursor (-(ids.length : Int)))
    let ready ← pickBatch E name total ids ready
    if ready.length ≥ total then pure ready
    else if cursor ≤ 0 then pure ready
    else pickLoop total fuel cursor ready

/-- `queue.rs:252-312`. -/
def tryPickSpecificReadyJobs (fuel total : Nat) : Prog (List (Job D)) := do
  let len ← Prog.orFail (Prog.queueCount (formatQueueName name .queued))
  pickLoop E name total fuel (wrapI32 len) []

/-- `queue.rs:242-250`. A failing count reads as 0. -/
def pickJobsToProcess (fuel : Nat) (cfg : WorkQueueConfig) : Prog (List (Job D)) := do
  let processing := match ← Prog.queueCount (formatQueueName name .running) with
    | .ok n => n
    | .error _ => 0
  if processing ≥ cfg.maxProcessingJobs then pure []
  else tryPickSpecificReadyJobs E name fuel (cfg.maxProcessingJobs - processing)

/-- First part of `execute_job` (`queue.rs:326-331`) and of `Job::execute` (`job/mod.rs:131-138`), up
to the first `await` inside user code: a cancelled job is only pushed to the cancelled list (`none`);
otherwise the before hook is sent and the run counted. -/
def executeStart (job : Job D) : Prog (Option (Job D)) := do
  if job.isCancelled then do
    markJobIsCanceled name job.id
    pure none
  else do
    Prog.send (.hookMsg job.id true)
    let job := { job with context := { job.context with runCount := job.context.runCount + 1 } }
    Prog.send (.ran job.context)
    pure (some job)

variable {O : Type}

/-- User code of one run: `job/mod.rs:138-140`. -/
def runUserCode (x : Executable D O) (job : Job D) : Job D × O :=
  let d1 := x.preExecute job.data job.context
  let (d2, o) := x.execute d1 job.context
  let (d3, o') := x.postExecute d2 o job.context
  ({ job with data := d3 }, o')

/-- Rest of `Job::execute` (`job/mod.rs:138-146`) and of `execute_job` (`queue.rs:333-358`). The after
hook message carries `before: true`, as in `plugin/mod.rs:47-57`. -/
def executeFinish (x : Executable D O) (job : Job D) : Prog Unit := do
  let (job, output) := runUserCode x job
  Prog.send (.hookMsg job.id true)
  let failed := x.isFailedOutput job.data output
  let continueWith (job : Job D) : Prog Unit := do
    match ← job.nextTick E with
    | some next => reEnqueue E name next
    | none => if failed then markJobIsFailed E name job else markJobIsFinished E name job
  match job.context.retry with
  | some r => do
    let (r', at?) ← x.callRetryAt E.overflowChecks job.data r output
    let job := { job with context := { job.context with retry := some r' } }
    match at? with
    | some t => reEnqueue E name { job with context := { job.context with jobType := .scheduledAt t } }
    | none => continueWith job
  | none => continueWith job

/-- `queue.rs:326-358` in one piece. -/
def executeJob (x : Executable D O) (job : Job D) : Prog Unit := do
  match ← executeStart name job with
  | none => pure ()
  | some job => executeFinish E name x job

/-- Second half of the task of `queue.rs:314-324`: on `Err` the job as it was picked (`orig`) is
marked failed, and the result of that is ignored. -/
def taskFinish (x : Executable D O) (orig job : Job D) : Prog Unit := do
  match ← (executeFinish E name x job).catchErr with
  | .ok _ => pure ()
  | .error _ => do
    let _ ← (markJobIsFailed E name orig).catchErr
    pure ()

/-- `queue.rs:314-324`: the whole task. -/
def executeJobTask (x : Executable D O) (job : Job D) : Prog Unit := do
  match ← (executeJob E name x job).catchErr with
  | .ok _ => pure ()
  | .error _ => do
    let _ ← (markJobIsFailed E name job).catchErr
    pure ()

/-- `queue.rs:360-373`. -/
def cancelJob (id : Str) : Prog Unit := do
  match ← getFromStorage E id with
  | some job =>
    if job.isQueued then do
      let _ ← job.cancel E
      Prog.orFail (Prog.queueRemove (formatQueueName name .queued) id)
    else pure ()
  | none => pure ()

/-- `queue.rs:375-378` (and `read_job`, `queue.rs:221-224`). -/
def getJob (id : Str) : Prog (Option (Job D)) := getFromStorage E id

/-- `queue.rs:380-399`. -/
def retryJob (id : Str) : Prog Bool := do
  match ← getFromStorage E id with
  | some job =>
    if job.isDone then do
      reEnqueue E name job
      pure true
    else pure false
  | none => pure false

end WorkQueue
end AJ
