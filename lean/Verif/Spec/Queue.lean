import Verif.Spec.Observe
import Verif.Spec.Codec

/-!
# What a work queue promises

Predicates on observations of a work queue (`Snap`), used in the property theorems.
-/

namespace AJ

/-- When a job may be started, at time `now`: a plain job always, a scheduled job after its time, a cron
job from its next slot on, unless its repetitions are used up or its end has passed. -/
def Job.Due {D : Type} (j : Job D) (now : Time) : Prop :=
  match j.context.jobType with
  | .normal => True
  | .scheduledAt s => s < now
  | .cron _ next total ctx =>
    next ≤ now ∧ (∀ m, ctx.maxRepeat = some m → total ≤ m) ∧ (∀ e, ctx.endAt = some e → now ≤ e)

/-- A cron job that has used up its repetitions or is past its end. -/
def CronContext.Exhausted (c : CronContext) (total : Int) (now : Time) : Prop :=
  (∃ m, c.maxRepeat = some m ∧ m < total) ∨ ∃ e, c.endAt = some e ∧ e < now

/-- Finished, Failed or Canceled. -/
def JobStatus.Done (st : JobStatus) : Prop := st = .finished ∨ st = .failed ∨ st = .canceled

instance (st : JobStatus) : Decidable st.Done := inferInstanceAs (Decidable (_ ∨ _))

/-- The job an event is about. -/
def Event.id : Event → Str
  | .statusMsg id _ => id
  | .hookMsg id _ => id
  | .ran c => c.jobId

/-- The context of a run. -/
def Event.run? : Event → Option JobContext
  | .ran c => some c
  | _ => none

namespace Snap
variable {D : Type}

/-- The executions of job `k` in flight. -/
def own (v : Snap D) (k : Str) : List (Task D) := v.tasks.filter (fun t => t.orig.id = k)

/-- The messages about job `k` so far. -/
def mine (v : Snap D) (k : Str) : List Event := v.log.filter (fun e => e.id = k)

/-- The contexts with which the code of job `k` was run so far, in order. -/
def runs (v : Snap D) (k : Str) : List JobContext :=
  (v.mine k).filterMap Event.run?

/-- The status `get_job` reports for an id. -/
def status (v : Snap D) (id : Str) : Option JobStatus := (v.job id).map (·.context.jobStatus)

/-- Ids of the executions in flight. -/
def inFlight (v : Snap D) : List Str := v.tasks.map (·.orig.id)

/-- Free capacity. -/
def free (v : Snap D) : Nat := v.cfg.maxProcessingJobs - (v.lists .running).length

/-- Ids in the queued list, oldest first. -/
def fifo (v : Snap D) : List Str := (v.lists .queued).reverse

/-- A tick that started the jobs `started`, in this order. -/
structure TickedWith (v v' : Snap D) (clk : Nat → Time) (started : List (Job D)) : Prop where
  tasks : v'.tasks = v.tasks ++ started.map fun j => ⟨j, none⟩
  capacity : started.length ≤ v.free
  once : (started.map Job.id).Nodup
  running : v'.lists .running = (started.map Job.id).reverse ++ v.lists .running
  /-- Each was stored, due when examined, and is now stored as Running with the time. -/
  each : ∀ j ∈ started, v'.job j.id = some j ∧ ∃ i job, v.reads ≤ i ∧ i + 1 < v'.reads ∧
    v.job j.id = some job ∧ job.Due (clk i) ∧
    j = { job with context := { job.context with jobStatus := .running, runAt := some (clk (i + 1) / 1000000) } }
  /-- The queued list lost exactly these. -/
  queued : (v'.lists .queued ++ started.map Job.id).Perm (v.lists .queued)
  lists : ∀ st : JobStatus, st ≠ .queued → st ≠ .running → v'.lists st = v.lists st
  jobs : ∀ id, id ∉ started.map Job.id → v'.job id = v.job id
  cfg : v'.cfg = v.cfg
  reads : v.reads ≤ v'.reads

/-- Every job is stored under its own id. -/
def Keyed (v : Snap D) : Prop := ∀ id j, v.job id = some j → j.id = id

/-- Status, lists and executions of job `k` agree: it is once in the queued list if Queued, once in the
running list if Running, and in neither otherwise; while the actor lives there is exactly one execution in
flight if the job is Running, and none otherwise. -/
structure Sound (v : Snap D) (k : Str) : Prop where
  queued : (v.lists .queued).count k = if v.status k = some .queued then 1 else 0
  running : (v.lists .running).count k = if v.status k = some .running then 1 else 0
  flight : v.alive = true → (v.own k).length = if v.status k = some .running then 1 else 0

/-- Status, lists and executions agree: a job is Queued exactly if it is in the queued list (once), and
Running exactly if it is in the running list (once); while the actor lives the executions in flight are
those of the running jobs, one each. -/
structure Consistent (v : Snap D) : Prop where
  queued_once : (v.lists .queued).Nodup
  running_once : (v.lists .running).Nodup
  queued_iff : ∀ id, id ∈ v.lists .queued ↔ v.status id = some .queued
  running_iff : ∀ id, id ∈ v.lists .running ↔ v.status id = some .running
  in_flight : v.alive = true → v.inFlight.Perm (v.lists .running)

end Snap

section
variable {D O : Type} (E : Env D)

/-- The user code leaves the job serialisable. -/
def Executable.Serialisable (x : Executable D O) (job : Job D) : Prop :=
  E.Encodable (WorkQueue.runUserCode x job).1 ∧
  ∀ f r now, x.retryAt = some f → job.context.retry = some r →
    E.Encodable { (WorkQueue.runUserCode x job).1 with context := { job.context with
      retry := some (f (WorkQueue.runUserCode x job).1.data r (WorkQueue.runUserCode x job).2 now).1 } }

/-- What callers and the user code of job `k` have to respect for the sake of that job: submissions of `k`
are serialisable and do not carry a status that contradicts the stored one, and the user code of `k` leaves
the job serialisable. Nothing is asked of other jobs. -/
def CarefulFor (k : Str) (v : Snap D) : Op D O → Prop
  | .enqueue job cfg => job.id = k → E.Encodable job ∧
      ∀ ex, v.job job.id = some ex → cfg.overrideData = true → ex.isRunning = false →
        (cfg.reRun && ex.isDone) = false → job.context.jobStatus = ex.context.jobStatus
  | .finish i x => ∀ orig job, v.tasks[i]? = some ⟨orig, some job⟩ → orig.id = k → x.Serialisable E job
  | _ => True

/-- What callers have to respect when they submit job `k` (again): the submission does not carry a status that
contradicts the stored one, and it does not come while `k` is in the queue but its stored job cannot be read
(because somebody stored one that cannot be serialised). Nothing is asked of the user code, nor of submissions
of other jobs. -/
def Orderly (k : Str) (v : Snap D) (op : Op D O) : Prop :=
  ∀ job cfg, op = .enqueue job cfg → job.id = k →
    (v.job k = none → k ∉ v.lists .queued) ∧
    ∀ ex, v.job k = some ex → cfg.overrideData = true → ex.isRunning = false →
      (cfg.reRun && ex.isDone) = false → job.context.jobStatus = ex.context.jobStatus

/-- What callers and user code have to respect: submitted jobs are serialisable and do not carry a
status that contradicts the stored one, and user code leaves the job serialisable. -/
def Careful (v : Snap D) : Op D O → Prop
  | .enqueue job cfg => E.Encodable job ∧
      ∀ ex, v.job job.id = some ex → cfg.overrideData = true → ex.isRunning = false →
        (cfg.reRun && ex.isDone) = false → job.context.jobStatus = ex.context.jobStatus
  | .finish i x => ∀ orig job, v.tasks[i]? = some ⟨orig, some job⟩ → x.Serialisable E job
  | _ => True

/-- Did a run of `job` with user code `x` fail? -/
def Executable.fails (x : Executable D O) (job : Job D) : Bool :=
  x.isFailedOutput (WorkQueue.runUserCode x job).1.data (WorkQueue.runUserCode x job).2

/-- A run of job `k` that ends in this turn fails. -/
def AlwaysFails (k : Str) (v : Snap D) (op : Op D O) : Prop :=
  ∀ i x orig job, op = .finish i x → v.tasks[i]? = some ⟨orig, some job⟩ → orig.id = k → x.fails job = true

/-- How the end of a run of `job` (task `i`) is recorded: the job is stored as `j'`, with the same id and run
count, Queued, Finished or Failed; its id leaves the running list and goes to the front of the list of its new
status; nothing else changes. -/
structure Snap.RunEnds (v v' : Snap D) (i : Nat) (job j' : Job D) : Prop where
  alive : v'.alive = true
  tasks : v'.tasks = v.tasks.eraseIdx i
  stored : v'.job job.id = some j'
  jobs : ∀ id, id ≠ job.id → v'.job id = v.job id
  id : j'.id = job.id
  runCount : j'.context.runCount = job.context.runCount
  status : j'.context.jobStatus = .queued ∨ j'.context.jobStatus = .finished ∨ j'.context.jobStatus = .failed
  running : v'.lists .running = (v.lists .running).filter (· ≠ job.id)
  target : v'.lists j'.context.jobStatus = job.id :: v.lists j'.context.jobStatus
  lists : ∀ st, st ≠ .running → st ≠ j'.context.jobStatus → v'.lists st = v.lists st
  cfg : v'.cfg = v.cfg
  log : v'.log = v.log ++ [.hookMsg job.id true, .statusMsg job.id j'.context.jobStatus]
  reads : v.reads < v'.reads

/-- How the end of a run of `job` (task `i`) is recorded if what it leaves cannot be stored: the ids move as in
`RunEnds`, to the list of status `st`, and the stored job cannot be read any more. -/
structure Snap.RunLost (v v' : Snap D) (i : Nat) (job : Job D) (st : JobStatus) : Prop where
  alive : v'.alive = true
  tasks : v'.tasks = v.tasks.eraseIdx i
  stored : v'.job job.id = none
  jobs : ∀ id, id ≠ job.id → v'.job id = v.job id
  status : st = .queued ∨ st = .finished ∨ st = .failed
  running : v'.lists .running = (v.lists .running).filter (· ≠ job.id)
  target : v'.lists st = job.id :: v.lists st
  lists : ∀ st', st' ≠ .running → st' ≠ st → v'.lists st' = v.lists st'
  cfg : v'.cfg = v.cfg
  log : v'.log = v.log ++ [.hookMsg job.id true, .statusMsg job.id st]
  reads : v.reads < v'.reads

/-- The actor dies in this turn; nothing stored changes. -/
structure Snap.Dies (v v' : Snap D) : Prop where
  alive : v'.alive = false
  tasks : v'.tasks = []
  jobs : v'.job = v.job
  lists : v'.lists = v.lists

/-- Job `k` is not submitted in this turn. -/
def NoSubmit (k : Str) (op : Op D O) : Prop := ∀ job cfg, op = .enqueue job cfg → job.id ≠ k

/-- The turn is no request about `k`. -/
def NotAbout (k : Str) (op : Op D O) : Prop := NoSubmit k op ∧ op ≠ .cancel k ∧ op ≠ .retry k

/-- Callers do not cancel `k`, and submit it only as a job that is not done. -/
def NoRescue (k : Str) (op : Op D O) : Prop :=
  op ≠ .cancel k ∧ ∀ j c, op = .enqueue j c → j.id = k → E.Encodable j ∧
    (j.context.jobStatus = .queued ∨ j.context.jobStatus = .running)

/-- The turn does not belong to an execution of `k`. -/
def OtherTask (k : Str) (v : Snap D) (op : Op D O) : Prop :=
  ∀ i t, v.tasks[i]? = some t → (op = .start i ∨ ∃ x, op = .finish i x) → t.orig.id ≠ k

/-- A run of job `k` that ends in this turn uses the default `retry_at`. -/
def DefaultRetry (k : Str) (v : Snap D) (op : Op D O) : Prop :=
  ∀ i x orig job, op = .finish i x → v.tasks[i]? = some ⟨orig, some job⟩ → orig.id = k → x.retryAt = none

end
end AJ
