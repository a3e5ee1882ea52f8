import Verif.Spec.Plugin

/-!
# The story of a job

The messages about a job and the runs of its code, in the order in which they happened, tell where the job is in its life (C96).
-/

namespace AJ

/-- Where a job is in its life. -/
inductive Stage where
  /-- Nobody has submitted it. -/
  | new
  /-- It is Queued. -/
  | waiting
  /-- A tick has made it Running; its code has not been entered. -/
  | picked
  /-- Plugins have been sent `before_run`. -/
  | hooked
  /-- Its code runs. -/
  | inside
  /-- Its code has returned; plugins have been sent the message after the run. -/
  | left
  | finished
  | failed
  | canceled
  deriving DecidableEq

/-- How a job goes on, as the names of the statuses (`job_context.rs:54-61`) and of the hooks (`plugin/job_plugin.rs:34-37`) suggest: waiting jobs are started or cancelled, a started job
runs its hook, its code, its hook, and is then done or waits again, and done jobs may wait again. Nothing else happens. -/
def Stage.next : Stage → Event → Option Stage
  | .new, .statusMsg _ .queued => some .waiting
  | .waiting, .statusMsg _ .running => some .picked
  | .waiting, .statusMsg _ .canceled => some .canceled
  | .picked, .hookMsg _ true => some .hooked
  | .hooked, .ran _ => some .inside
  | .inside, .hookMsg _ true => some .left
  | .left, .statusMsg _ .queued => some .waiting
  | .left, .statusMsg _ .finished => some .finished
  | .left, .statusMsg _ .failed => some .failed
  | .finished, .statusMsg _ .queued => some .waiting
  | .failed, .statusMsg _ .queued => some .waiting
  | .canceled, .statusMsg _ .queued => some .waiting
  | _, _ => none

/-- Where a job is after these events, if they are as they should be. -/
def story (l : List Event) : Option Stage := l.foldlM Stage.next .new

/-- The status that belongs to a stage. -/
def Stage.status : Stage → Option JobStatus
  | .new => none
  | .waiting => some .queued
  | .picked | .hooked | .inside | .left => some .running
  | .finished => some .finished
  | .failed => some .failed
  | .canceled => some .canceled

/-- The events of job `k` that a work queue has shown are a story, whose end agrees with the stored job and with the executions in flight. If the actor has
panicked, there may be messages to run hooks for an execution that was cut off. -/
def Snap.Lives {D : Type} (v : Snap D) (k : Str) : Prop :=
  ∃ l l' st, v.mine k = l ++ l' ∧ (∀ e ∈ l', e = .hookMsg k true) ∧ story l = some st ∧ st.status = v.status k ∧
    (v.alive = true → l' = [] ∧ st ≠ .hooked ∧ st ≠ .left ∧ (st = .inside ↔ v.executing k = true))

end AJ
