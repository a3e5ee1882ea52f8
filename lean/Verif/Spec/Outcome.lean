import Verif.Spec.Endless
import Verif.Spec.Queue

/-!
# How a job ends

Which runs of a job fail determines how often it runs and how it ends (C97).
-/

namespace AJ
variable {D O : Type}

/-- The job may be retried `d` more times: it has no retry policy, or one with a limit, and its numbers are `i32`. -/
def Job.RetriesLeft (job : Job D) (d : Nat) : Prop :=
  job.context.retry = none ∧ d = 0 ∨
  ∃ r n, job.context.retry = some r ∧ r.maxRetries = some n ∧ (-(2 ^ 31) ≤ r.retriedTimes ∧ r.retriedTimes < 2 ^ 31) ∧
    (-(2 ^ 31) ≤ n ∧ n < 2 ^ 31) ∧ d = (n - r.retriedTimes).toNat

/-- A run of `k` that ends in this turn fails if `F` says so of its number (the run count the code sees). -/
def FailsAs (k : Str) (F : Nat → Bool) (v : Snap D) (op : Op D O) : Prop :=
  ∀ i x orig job, op = .finish i x → v.tasks[i]? = some ⟨orig, some job⟩ → orig.id = k → x.fails job = F job.context.runCount

/-- What should become of a job with run count `c` and `d` retries left: it runs `r` times and ends as `st`, that is, the first run that does not fail ends it
as Finished, and if the first `d + 1` runs fail the last of them ends it as Failed. -/
structure Outcome (F : Nat → Bool) (c d r : Nat) (st : JobStatus) : Prop where
  some : 1 ≤ r
  most : r ≤ d + 1
  before : ∀ i, 1 ≤ i → i < r → F (c + i) = true
  last : st = .finished ∧ F (c + r) = false ∨ st = .failed ∧ F (c + r) = true ∧ r = d + 1

end AJ
