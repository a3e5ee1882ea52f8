import Verif.Spec.Site
import Verif.Spec.Queue
import Verif.Model.Weave

/-!
# Processes whose clients submit, retry and cancel jobs as they like

The hypotheses of C95.
-/

namespace AJ

/-- What is asked of the steps `ops` of a process for the sake of work queue actor `q`, of job type `ty`: the jobs that clients submit to the type can be
serialised, are Queued, and replace stored data only if they also run again a job that is done, as `EnqueueConfig::new_re_run` (`queue.rs:34-36`) says;
no job of the type is updated; and user code leaves jobs serialisable. Clients may submit the same job any number of times, retry it, cancel it and read it
whenever they like. -/
structure Weave.Civil {D O : Type} (E : Nat → Env D) (ops : List (WeaveOp D O)) (q ty : Nat) : Prop where
  submits : ∀ d nm job cfg, .site (.begin d (.submit ty nm job cfg)) ∈ ops →
    (E ty).Encodable job ∧ job.context.jobStatus = .queued ∧ (cfg.overrideData = true → cfg.reRun = true)
  updates : ∀ d nm id data x, .site (.begin d (.update ty nm id data x)) ∉ ops
  code : ∀ i x, .site (.turn q (.finish i x)) ∈ ops → ∀ job, (E ty).Encodable job → x.Serialisable (E ty) job

end AJ
