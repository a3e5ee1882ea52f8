import Verif.Spec.DrainWeave
import Verif.Spec.EndlessBoot
import Verif.Spec.Reboot

/-!
# Processes that take over what others have left, and in which no jobs are submitted any more

The hypotheses of C93.
-/

namespace AJ

/-- Job `k` is not in the list of the queued jobs, although it is Queued, Running, or in the list of the running jobs: nobody will go on with it. -/
def Snap.Astray {D : Type} (k : Str) (v : Snap D) : Prop :=
  k ∉ v.lists .queued ∧ (v.status k = some .queued ∨ v.status k = some .running ∨ k ∈ v.lists .running)

/-- What is found by a work queue is in order: every id in the list of the queued jobs is that of a waiting job that is no cron job and has a bounded
number of retries or no retry policy. -/
def Snap.InOrder {D : Type} (v : Snap D) : Prop := ∀ k ∈ v.lists .queued, ∃ j, v.Waiting k j ∧ j.Tame

/-- As `ClosesOn`, for a work queue that finds `v0` in its backend: no request concerns a job that has gone astray, jobs found and retried by a request are
no cron jobs and have a bounded number of retries or no retry policy, there is capacity for one more
job than there are entries in the list of the running jobs it finds, and the bound for the number of jobs counts these entries too. -/
structure Weave.HeirsOn {D O : Type} (b : Impl) (E : Nat → Env D) (kind : Str → Nat) (v0 : Snap D) (n0 q : Nat) (a : QueueActor) (φ : Nat → Weave D O b.B)
    (ops : Nat → WeaveOp D O) : Prop where
  decent : ∀ n d req, ops n = .site (.begin d req) → req.Decent E
  closed : ∀ n d req, n0 ≤ n → ops n = .site (.begin d req) → req.brings = false
  spares : ∀ n d req k, ops n = .site (.begin d req) → kind k = a.ty → v0.Astray k → ¬ req.Concerns k
  retried : ∀ n d ty k j, ops n = .site (.begin d (.retry ty k)) → v0.job k = some j → j.Tame
  code : ∀ k, Weave.EachRunOn b E k q a φ ops fun x job => x.Serialisable (E a.ty) job ∧ (x.retryAt = none ∨ job.context.retry = none)
  room : Weave.RoomyOn b E (v0.lists .running).length q a φ ops
  small : ∀ n, n0 ≤ n → (φ n).ticks q (ops n) = true →
    (((φ n).site.snap b E q a).lists .queued).length + ((φ n).site.snap b E q a).inFlight.length + (v0.lists .running).length < 2 ^ 31

end AJ
