import Verif.Spec.Fair
import Verif.Props.Retry

/-!
# Processes in which no jobs are submitted any more

The hypotheses of C92.
-/

namespace AJ
open Props

/-- Requests that may bring a job into the queue of a work queue. -/
def Req.brings {D : Type} : Req D → Bool
  | .submit .. => true
  | .retry .. => true
  | .update .. => true
  | _ => false

/-- The job is not a cron job, and it has a bounded number of retries or no retry policy. -/
def Job.Tame {D : Type} (job : Job D) : Prop :=
  NonCron job ∧ ∀ r, job.context.retry = some r → IsI32 r.retriedTimes ∧ ∃ n, r.maxRetries = some n ∧ IsI32 n

/-- What is asked of a request: it submits a job that can be serialised, is Queued, is not a cron job and has a bounded number of retries (or no
retry policy), and that replaces stored data only if it also runs again a job that is done, as `EnqueueConfig::new_re_run` (`queue.rs:34-36`)
says; it is not `update_job`. -/
def Req.Decent {D : Type} (E : Nat → Env D) : Req D → Prop
  | .submit ty _ job cfg => (E ty).Encodable job ∧ job.context.jobStatus = .queued ∧ (cfg.overrideData = true → cfg.reRun = true) ∧ job.Tame
  | .update .. => False
  | _ => True

/-- In an endless history `ops` through the states `φ` of a process, in which all requests are as `Req.Decent` says: from step `n0` on nobody submits
or retries jobs. Work queue actor `q` is treated fairly (`RoomyOn`), its user code leaves jobs serialisable and does not choose its own time of a
retry, and its ticks see fewer than 2^31 jobs waiting and executing. -/
structure Weave.ClosesOn {D O : Type} (b : Impl) (E : Nat → Env D) (n0 q : Nat) (a : QueueActor) (φ : Nat → Weave D O b.B)
    (ops : Nat → WeaveOp D O) : Prop where
  decent : ∀ n d req, ops n = .site (.begin d req) → req.Decent E
  closed : ∀ n d req, n0 ≤ n → ops n = .site (.begin d req) → req.brings = false
  code : ∀ k, Weave.EachRunOn b E k q a φ ops fun x job => x.Serialisable (E a.ty) job ∧ (x.retryAt = none ∨ job.context.retry = none)
  room : Weave.RoomyOn b E 0 q a φ ops
  small : ∀ n, n0 ≤ n → (φ n).ticks q (ops n) = true → (((φ n).site.snap b E q a).lists .queued).length + ((φ n).site.snap b E q a).inFlight.length < 2 ^ 31

end AJ
