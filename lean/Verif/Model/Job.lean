import Verif.Model.Prog
import Verif.Model.Retry

/-!
# Jobs

Models `aj_core/src/job/mod.rs`, `job/executable.rs`, `job/job_context.rs:41-52` and the storage
helpers of `backend/types.rs:44-70`.
-/

namespace AJ

/-- JSON codec of jobs: `serde_json::to_string` (`none` when serialisation fails) and
`serde_json::from_str(..).ok()`. The concrete codec is in `Codec.lean`. -/
structure JobCodec (D : Type) where
  enc : Job D → Option Str
  dec : Str → Option (Job D)

/-- What the code takes from outside: the codec of the job type, the `cron` crate
(`Schedule::from_str(expr)` gives, when it succeeds, the function `t ↦ schedule.after(&t).next()`),
and the build profile. -/
structure Env (D : Type) where
  codec : JobCodec D
  cron : Str → Option (Time → Option Time)
  overflowChecks : Bool := false

/-- `types.rs:44`. -/
def STORAGE_HASH : Str := c!"aj_storage"

section
variable {D : Type} (E : Env D)

/-- `types.rs:46-58`: a value that does not serialise is stored as the empty string. -/
def upsertToStorage (key : Str) (value : Job D) : Prog Unit :=
  Prog.orFail (Prog.storageUpsert STORAGE_HASH key ((E.codec.enc value).getD []))

/-- `types.rs:60-70`: read errors and undecodable values become `None`. -/
def getFromStorage (key : Str) : Prog (Option (Job D)) := do
  match ← Prog.storageGet STORAGE_HASH key with
  | .ok (some v) => pure (E.codec.dec v)
  | _ => pure none

/-- `job_context.rs:46-51` (`JobType::new_cron`). -/
def JobType.newCron (expr : Str) (ctx : CronContext) : Prog JobType := do
  match E.cron expr with
  | none => Prog.fail .cronError
  | some after => do
    let now ← Prog.getNow
    pure (.cron expr ((after now).getD now) 1 ctx)

namespace Job

/-- The decision of `job/mod.rs:148-173` at time `now`. -/
def readyAt (j : Job D) (now : Time) : Bool :=
  match j.context.jobType with
  | .scheduledAt s => decide (now > s)
  | .cron _ next total ctx =>
    if now < next then false
    else if (match ctx.maxRepeat with | some m => decide (m < total) | none => false) then false
    else if (match ctx.endAt with | some e => decide (now > e) | none => false) then false
    else true
  | .normal => true

/-- `job/mod.rs:148-173`. The clock is always read. -/
def isReady (j : Job D) : Prog Bool := do
  let now ← Prog.getNow
  pure (j.readyAt now)

/-- `job/mod.rs:175-215`. -/
def nextTick (j : Job D) : Prog (Option (Job D)) := do
  let now ← Prog.getNow
  match j.context.jobType with
  | .cron expr _ total ctx =>
    match E.cron expr with
    | none => pure none
    | some after => do
      let now2 ← Prog.getNow
      let job ← (match after now2 with
        | some upcoming => do
          let total' ← Prog.orPanic (addI32 E.overflowChecks total 1)
          pure { j with context := { j.context with jobType := .cron expr upcoming total' ctx } }
        | none => pure j)
      if (match ctx.maxRepeat with | some m => decide (m < total) | none => false) then pure none
      else if (match ctx.endAt with | some e => decide (e < now) | none => false) then pure none
      else pure (some job)
  | _ => pure none

/-- Common shape of `job/mod.rs:235-278`: store the job, then notify the plugin centre. -/
def saveAndNotify (j : Job D) : Prog Unit := do
  upsertToStorage E j.id j
  Prog.send (.statusMsg j.id j.context.jobStatus)

/-- `job/mod.rs:235-242`. -/
def enqueue (j : Job D) : Prog (Job D) := do
  let ms ← Prog.getNowMs
  let j := { j with context := { j.context with jobStatus := .queued, enqueueAt := some ms } }
  saveAndNotify E j
  pure j

/-- `job/mod.rs:244-251`. -/
def process (j : Job D) : Prog (Job D) := do
  let ms ← Prog.getNowMs
  let j := { j with context := { j.context with jobStatus := .running, runAt := some ms } }
  saveAndNotify E j
  pure j

/-- `job/mod.rs:253-260`. -/
def finish (j : Job D) : Prog (Job D) := do
  let ms ← Prog.getNowMs
  let j := { j with context := { j.context with jobStatus := .finished, completeAt := some ms } }
  saveAndNotify E j
  pure j

/-- `job/mod.rs:262-269`. -/
def cancel (j : Job D) : Prog (Job D) := do
  let ms ← Prog.getNowMs
  let j := { j with context := { j.context with jobStatus := .canceled, cancelAt := some ms } }
  saveAndNotify E j
  pure j

/-- `job/mod.rs:271-278`. -/
def fail (j : Job D) : Prog (Job D) := do
  let ms ← Prog.getNowMs
  let j := { j with context := { j.context with jobStatus := .failed, completeAt := some ms } }
  saveAndNotify E j
  pure j

end Job
end

/-- `executable.rs:29-42`, the default `retry_at`: `none` is a panic in `Retry::retry_at`. The clock
is read only when the job is retried (`retry.rs:59`). -/
def defaultRetryAt (chk : Bool) (failed : Bool) (r : Retry) : Prog (Retry × Option Time) :=
  if failed && r.shouldRetry then do
    let now ← Prog.getNow
    let (r', t) ← Prog.orPanic (r.retryAt chk now)
    pure (r', some t)
  else pure (r, none)

/-- `executable.rs:8-43`: the user code of one run of a job. Methods that take `&mut self` return the
new data. Nothing relates the `Executable`s of different runs, so user code may depend on anything.
`retryAt` is `none` when the default method is used; an override sees the data, the retry context,
the output and the time. -/
structure Executable (D O : Type) where
  preExecute : D → JobContext → D := fun d _ => d
  execute : D → JobContext → D × O
  postExecute : D → O → JobContext → D × O := fun d o _ => (d, o)
  isFailedOutput : D → O → Bool := fun _ _ => false
  retryAt : Option (D → Retry → O → Time → Retry × Option Time) := none

/-- The call of `retry_at` in `queue.rs:341`. -/
def Executable.callRetryAt {D O : Type} (x : Executable D O) (chk : Bool) (d : D) (r : Retry) (o : O) :
    Prog (Retry × Option Time) :=
  match x.retryAt with
  | none => defaultRetryAt chk (x.isFailedOutput d o) r
  | some f => do
    let now ← Prog.getNow
    pure (f d r o now)

end AJ
