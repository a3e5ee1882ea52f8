import Verif.Proofs.Footprint
import Verif.Spec.Codec

/-! # Closed forms of the work queue's programs over the specification backend -/

namespace AJ

/-- World over the specification backend. -/
abbrev W := World SpecB

namespace W
variable {D : Type} (E : Env D) (name : Str)

/-- The list of queue `name` for a status. -/
def lst (w : W) (st : JobStatus) : List Str := w.s.q (formatQueueName name st)

/-- The stored job under an id. -/
def view (w : W) (id : Str) : Option (Job D) := (w.s.st STORAGE_HASH id).bind E.codec.dec

/-- What is read back after storing `j`. -/
def _root_.AJ.Env.encdec (E : Env D) (j : Job D) : Option (Job D) := E.codec.dec ((E.codec.enc j).getD [])

/-- One more clock read. -/
def tick (w : W) : W := { w with t := w.t + 1 }

/-- Replace a list. -/
def setL (st : JobStatus) (l : List Str) (w : W) : W :=
  { w with s := { w.s with q := upd w.s.q (formatQueueName name st) l } }

/-- Store a job under a key. -/
def upsert (k : Str) (j : Job D) (w : W) : W :=
  { w with s := { w.s with
      st := upd w.s.st STORAGE_HASH (upd (w.s.st STORAGE_HASH) k (some ((E.codec.enc j).getD []))) } }

/-- Add a message. -/
def say (e : Event) (w : W) : W := { w with log := w.log ++ [e] }

/-- Store a job and notify. -/
def put (j : Job D) (w : W) : W := say (.statusMsg j.id j.context.jobStatus) (upsert E j.id j w)

variable {E name}

@[simp] theorem lst_tick (w : W) : lst name (tick w) = lst name w := rfl
@[simp] theorem lst_upsert (k : Str) (j : Job D) (w : W) : lst name (upsert E k j w) = lst name w := rfl
@[simp] theorem lst_say (e : Event) (w : W) : lst name (say e w) = lst name w := rfl
@[simp] theorem lst_put (j : Job D) (w : W) : lst name (put E j w) = lst name w := rfl

@[simp] theorem lst_setL_same (st : JobStatus) (l : List Str) (w : W) :
    lst name (setL name st l w) st = l := by simp [lst, setL]

theorem lst_setL_ne {st st' : JobStatus} (h : st' ≠ st) (l : List Str) (w : W) :
    lst name (setL name st l w) st' = lst name w st' := by
  have : formatQueueName name st' ≠ formatQueueName name st := fun e => h (formatQueueName_injective e).2
  simp [lst, setL, upd_ne _ _ this]

theorem lst_setL (st st' : JobStatus) (l : List Str) (w : W) :
    lst name (setL name st l w) st' = if st' = st then l else lst name w st' := by
  split
  · next h => subst h; simp
  · next h => exact lst_setL_ne h l w

@[simp] theorem view_tick (w : W) : view E (tick w) = view E w := rfl
@[simp] theorem view_say (e : Event) (w : W) : view E (say e w) = view E w := rfl
@[simp] theorem view_setL (st : JobStatus) (l : List Str) (w : W) :
    view E (setL name st l w) = view E w := rfl
@[simp] theorem view_upsert (k : Str) (j : Job D) (w : W) :
    view E (upsert E k j w) = upd (view E w) k (E.encdec j) := by
  funext i
  simp only [view, upsert, upd, if_true]
  split <;> simp [Env.encdec]
@[simp] theorem view_put (j : Job D) (w : W) :
    view E (put E j w) = upd (view E w) j.id (E.encdec j) := by simp [put]

@[simp] theorem t_tick (w : W) : (tick w).t = w.t + 1 := rfl
@[simp] theorem t_say (e : Event) (w : W) : (say e w).t = w.t := rfl
@[simp] theorem t_upsert (k : Str) (j : Job D) (w : W) : (upsert E k j w).t = w.t := rfl
@[simp] theorem t_put (j : Job D) (w : W) : (put E j w).t = w.t := rfl
@[simp] theorem t_setL (st : JobStatus) (l : List Str) (w : W) : (setL name st l w).t = w.t := rfl

@[simp] theorem log_tick (w : W) : (tick w).log = w.log := rfl
@[simp] theorem log_say (e : Event) (w : W) : (say e w).log = w.log ++ [e] := rfl
@[simp] theorem log_upsert (k : Str) (j : Job D) (w : W) : (upsert E k j w).log = w.log := rfl
@[simp] theorem log_put (j : Job D) (w : W) :
    (put E j w).log = w.log ++ [.statusMsg j.id j.context.jobStatus] := rfl
@[simp] theorem log_setL (st : JobStatus) (l : List Str) (w : W) : (setL name st l w).log = w.log := rfl

end W

namespace Job
variable {D : Type}

/-- The job as `Job::enqueue`, `process`, `finish`, `cancel`, `fail` leave it at time `ms`. -/
def asQueued (j : Job D) (ms : Int) : Job D :=
  { j with context := { j.context with jobStatus := .queued, enqueueAt := some ms } }
def asRunning (j : Job D) (ms : Int) : Job D :=
  { j with context := { j.context with jobStatus := .running, runAt := some ms } }
def asFinished (j : Job D) (ms : Int) : Job D :=
  { j with context := { j.context with jobStatus := .finished, completeAt := some ms } }
def asCanceled (j : Job D) (ms : Int) : Job D :=
  { j with context := { j.context with jobStatus := .canceled, cancelAt := some ms } }
def asFailed (j : Job D) (ms : Int) : Job D :=
  { j with context := { j.context with jobStatus := .failed, completeAt := some ms } }
/-- The job with one more run counted. -/
def counted (j : Job D) : Job D :=
  { j with context := { j.context with runCount := j.context.runCount + 1 } }

@[simp] theorem id_asQueued (j : Job D) (ms : Int) : (j.asQueued ms).id = j.id := rfl
@[simp] theorem id_asRunning (j : Job D) (ms : Int) : (j.asRunning ms).id = j.id := rfl
@[simp] theorem id_asFinished (j : Job D) (ms : Int) : (j.asFinished ms).id = j.id := rfl
@[simp] theorem id_asCanceled (j : Job D) (ms : Int) : (j.asCanceled ms).id = j.id := rfl
@[simp] theorem id_asFailed (j : Job D) (ms : Int) : (j.asFailed ms).id = j.id := rfl
@[simp] theorem id_counted (j : Job D) : j.counted.id = j.id := rfl
@[simp] theorem st_asQueued (j : Job D) (ms : Int) : (j.asQueued ms).context.jobStatus = .queued := rfl
@[simp] theorem st_asRunning (j : Job D) (ms : Int) : (j.asRunning ms).context.jobStatus = .running := rfl
@[simp] theorem st_asFinished (j : Job D) (ms : Int) : (j.asFinished ms).context.jobStatus = .finished := rfl
@[simp] theorem st_asCanceled (j : Job D) (ms : Int) : (j.asCanceled ms).context.jobStatus = .canceled := rfl
@[simp] theorem st_asFailed (j : Job D) (ms : Int) : (j.asFailed ms).context.jobStatus = .failed := rfl
@[simp] theorem st_counted (j : Job D) : j.counted.context.jobStatus = j.context.jobStatus := rfl

end Job

namespace Prog
open W
variable {D O : Type} (E : Env D) (name : Str) (clk : Nat → Time)

theorem spec_exec (op : BOp) (s : SpecState) :
    SpecB.exec op s = (.ok (Spec.exec op s).1, (Spec.exec op s).2) := rfl

@[simp] theorem run_queuePush (st : JobStatus) (x : Str) (w : W) :
    (queuePush (formatQueueName name st) x).run SpecB clk w
      = (.ok (.ok ()), setL name st (x :: lst name w st) w) := rfl
@[simp] theorem run_queueRemove (st : JobStatus) (x : Str) (w : W) :
    (queueRemove (formatQueueName name st) x).run SpecB clk w
      = (.ok (.ok ()), setL name st ((lst name w st).filter (· ≠ x)) w) := rfl
@[simp] theorem run_queueGet (st : JobStatus) (n : Nat) (w : W) :
    (queueGet (formatQueueName name st) n .back).run SpecB clk w
      = (.ok (.ok ((lst name w st).reverse.take n)), w) := rfl
@[simp] theorem run_queueCount (st : JobStatus) (w : W) :
    (queueCount (formatQueueName name st)).run SpecB clk w
      = (.ok (.ok (lst name w st).length), w) := rfl
@[simp] theorem run_storageGet (k : Str) (w : W) :
    (storageGet STORAGE_HASH k).run SpecB clk w = (.ok (.ok (w.s.st STORAGE_HASH k)), w) := rfl

theorem run_orFail {α : Type} (p : Prog (Except Error α)) (w w' : W) (a : α)
    (h : p.run SpecB clk w = (.ok (.ok a), w')) : (orFail p).run SpecB clk w = (.ok a, w') := by
  simp [orFail, run_bind, h]

@[simp] theorem run_push? (st : JobStatus) (x : Str) (w : W) :
    (orFail (queuePush (formatQueueName name st) x)).run SpecB clk w
      = (.ok (), setL name st (x :: lst name w st) w) := rfl
@[simp] theorem run_remove? (st : JobStatus) (x : Str) (w : W) :
    (orFail (queueRemove (formatQueueName name st) x)).run SpecB clk w
      = (.ok (), setL name st ((lst name w st).filter (· ≠ x)) w) := rfl
@[simp] theorem run_get? (st : JobStatus) (n : Nat) (w : W) :
    (orFail (queueGet (formatQueueName name st) n .back)).run SpecB clk w
      = (.ok ((lst name w st).reverse.take n), w) := rfl
@[simp] theorem run_count? (st : JobStatus) (w : W) :
    (orFail (queueCount (formatQueueName name st))).run SpecB clk w
      = (.ok (lst name w st).length, w) := rfl

@[simp] theorem run_orPanic_some {α : Type} (a : α) (w : W) :
    (orPanic (some a)).run SpecB clk w = (.ok a, w) := rfl
@[simp] theorem run_orPanic_none {α : Type} (w : W) :
    (orPanic (none : Option α)).run SpecB clk w = (.panicked, w) := rfl

@[simp] theorem run_upsert (k : Str) (j : Job D) (w : W) :
    (upsertToStorage E k j).run SpecB clk w = (.ok (), upsert E k j w) := rfl

@[simp] theorem run_getFromStorage (k : Str) (w : W) :
    (getFromStorage E k).run SpecB clk w = (.ok (view E w k), w) := by
  simp only [getFromStorage, bind_eq, run_bind, run_storageGet, contRun_ok]
  cases h : w.s.st STORAGE_HASH k <;> simp [view, h]

@[simp] theorem run_save (j : Job D) (w : W) :
    (Job.saveAndNotify E j).run SpecB clk w = (.ok (), put E j w) := rfl

@[simp] theorem run_isReady (j : Job D) (w : W) :
    j.isReady.run SpecB clk w = (.ok (j.readyAt (clk w.t)), tick w) := rfl

@[simp] theorem run_jEnqueue (j : Job D) (w : W) :
    (Job.enqueue E j).run SpecB clk w
      = (.ok (j.asQueued (clk w.t / nsPerMs)), put E (j.asQueued (clk w.t / nsPerMs)) (tick w)) := rfl
@[simp] theorem run_jProcess (j : Job D) (w : W) :
    (Job.process E j).run SpecB clk w
      = (.ok (j.asRunning (clk w.t / nsPerMs)), put E (j.asRunning (clk w.t / nsPerMs)) (tick w)) := rfl
@[simp] theorem run_jFinish (j : Job D) (w : W) :
    (Job.finish E j).run SpecB clk w
      = (.ok (j.asFinished (clk w.t / nsPerMs)), put E (j.asFinished (clk w.t / nsPerMs)) (tick w)) := rfl
@[simp] theorem run_jCancel (j : Job D) (w : W) :
    (Job.cancel E j).run SpecB clk w
      = (.ok (j.asCanceled (clk w.t / nsPerMs)), put E (j.asCanceled (clk w.t / nsPerMs)) (tick w)) := rfl
@[simp] theorem run_jFail (j : Job D) (w : W) :
    (Job.fail E j).run SpecB clk w
      = (.ok (j.asFailed (clk w.t / nsPerMs)), put E (j.asFailed (clk w.t / nsPerMs)) (tick w)) := rfl

end Prog

namespace W
variable {D : Type} (E : Env D) (name : Str) (clk : Nat → Time)

/-- State after `WorkQueue::enqueue`. -/
def enq (j : Job D) (w : W) : W :=
  put E (j.asQueued (clk w.t / nsPerMs)) (tick (setL name .queued (j.id :: lst name w .queued) w))

/-- State after `re_enqueue`. -/
def reEnq (j : Job D) (w : W) : W :=
  let w1 := setL name j.context.jobStatus ((lst name w j.context.jobStatus).filter (· ≠ j.id)) w
  let w2 := put E (j.asQueued (clk w.t / nsPerMs)) (tick w1)
  setL name .queued (j.id :: lst name w2 .queued) w2

/-- State after `mark_job_is_finished`. -/
def fin (j : Job D) (w : W) : W :=
  let w1 := setL name .running ((lst name w .running).filter (· ≠ j.id)) w
  let w2 := put E (j.asFinished (clk w.t / nsPerMs)) (tick w1)
  setL name .finished (j.id :: lst name w2 .finished) w2

/-- State after `mark_job_is_failed`. -/
def flunk (j : Job D) (w : W) : W :=
  let w1 := put E (j.asFailed (clk w.t / nsPerMs)) (tick w)
  let w2 := setL name .running ((lst name w1 .running).filter (· ≠ j.id)) w1
  setL name .failed (j.id :: lst name w2 .failed) w2

/-- State after `cancel_job` on a queued job. -/
def canc (k : Str) (j : Job D) (w : W) : W :=
  let w1 := put E (j.asCanceled (clk w.t / nsPerMs)) (tick w)
  setL name .queued ((lst name w1 .queued).filter (· ≠ k)) w1

/-- State after `run_with_config`. -/
def submit (j : Job D) (c : EnqueueConfig) (w : W) : W :=
  match view E w j.id with
  | some ex =>
    let w1 := if c.overrideData && !ex.isRunning then upsert E j.id j w else w
    if c.reRun && ex.isDone then enq E name clk j w1 else w1
  | none => enq E name clk j w

/-- State after `cancel_job`. -/
def cancel (k : Str) (w : W) : W :=
  match view E w k with
  | some j => if j.isQueued then canc E name clk k j w else w
  | none => w

/-- State after `retry_job`. -/
def retry (k : Str) (w : W) : W :=
  match view E w k with
  | some j => if j.isDone then reEnq E name clk j w else w
  | none => w

/-- Answer of `retry_job`. -/
def retryAnswer (k : Str) (w : W) : Bool :=
  match view E w k with
  | some j => j.isDone
  | none => false

end W

namespace WorkQueue
open W Prog
variable {D O : Type} (E : Env D) (name : Str) (clk : Nat → Time)

@[simp] theorem run_enqueue (j : Job D) (w : W) :
    (enqueue E name j).run SpecB clk w = (.ok (), enq E name clk j w) := by
  simp [enqueue, run_bind, enq]

@[simp] theorem run_runWithConfig (j : Job D) (c : EnqueueConfig) (w : W) :
    (runWithConfig E name j c).run SpecB clk w = (.ok (), submit E name clk j c w) := by
  simp only [runWithConfig, bind_eq, run_bind, run_getFromStorage, contRun_ok, submit]
  cases h : view E w j.id with
  | none => simp
  | some ex =>
    simp only
    split <;> split <;> simp [run_bind, *]

@[simp] theorem run_reEnqueue (j : Job D) (w : W) :
    (reEnqueue E name j).run SpecB clk w = (.ok (), reEnq E name clk j w) := by
  simp [reEnqueue, run_bind, reEnq]

@[simp] theorem run_markFinished (j : Job D) (w : W) :
    (markJobIsFinished E name j).run SpecB clk w = (.ok (), fin E name clk j w) := by
  simp [markJobIsFinished, removeProcessingJob, run_bind, fin]

@[simp] theorem run_markFailed (j : Job D) (w : W) :
    (markJobIsFailed E name j).run SpecB clk w = (.ok (), flunk E name clk j w) := by
  simp [markJobIsFailed, pushFailedJob, removeProcessingJob, run_bind, flunk]

@[simp] theorem run_cancelJob (k : Str) (w : W) :
    (cancelJob E name k).run SpecB clk w = (.ok (), cancel E name clk k w) := by
  simp only [cancelJob, bind_eq, run_bind, run_getFromStorage, contRun_ok, cancel]
  cases h : view E w k with
  | none => simp
  | some j => simp only; split <;> simp [run_bind, canc]

@[simp] theorem run_retryJob (k : Str) (w : W) :
    (retryJob E name k).run SpecB clk w = (.ok (retryAnswer E k w), retry E name clk k w) := by
  simp only [retryJob, bind_eq, run_bind, run_getFromStorage, contRun_ok, retry, retryAnswer]
  cases h : view E w k with
  | none => simp
  | some j => simp only; split <;> simp [run_bind, *]

@[simp] theorem run_getJob (k : Str) (w : W) :
    (getJob E k).run SpecB clk w = (.ok (view E w k), w) := by simp [getJob]

end WorkQueue
end AJ
