import Verif.Spec.Plugin

/-!
# The lists of the jobs that are done

A work queue keeps a list of the ids of the Finished jobs, one of the Failed and one of the Canceled jobs. What a turn may do to them (C94).
-/

namespace AJ
variable {D O : Type}

/-- What a turn may do to the lists of the Finished, Failed and Canceled jobs, and what it announces. -/
inductive Snap.Books (v v' : Snap D) : Op D O → Prop where
  /-- Nothing, and no job is announced as Finished or Failed. -/
  | quiet (op) (lists : ∀ st : JobStatus, st.Done → v'.lists st = v.lists st)
      (log : ∃ l, v'.log = v.log ++ l ∧ ∀ k st, .statusMsg k st ∈ l → st ≠ .finished ∧ st ≠ .failed)
      (retry : ∀ k, op = .retry k → v' = v) : Books v v' op
  /-- A run ends for good: its id comes to the front of one list. -/
  | entered (i x orig job st) (task : v.tasks[i]? = some ⟨orig, some job⟩) (alive : v'.alive = true) (status : st = .finished ∨ st = .failed)
      (list : v'.lists st = job.id :: v.lists st) (lists : ∀ st' : JobStatus, st'.Done → st' ≠ st → v'.lists st' = v.lists st')
      (log : v'.log = v.log ++ [.hookMsg job.id true, .statusMsg job.id st]) : Books v v' (.finish i x)
  /-- A job is retried by hand: all its entries go from the list of its status. -/
  | taken (k j) (stored : v.job k = some j) (done : j.context.jobStatus.Done)
      (list : v'.lists j.context.jobStatus = (v.lists j.context.jobStatus).filter (· ≠ k))
      (lists : ∀ st' : JobStatus, st'.Done → st' ≠ j.context.jobStatus → v'.lists st' = v.lists st')
      (log : v'.log = v.log ++ [.statusMsg k .queued]) : Books v v' (.retry k)

/-- In this turn no submission runs job `k` again after it was done. -/
def NoReRun (k : Str) (v : Snap D) (op : Op D O) : Prop :=
  ∀ job cfg, op = .enqueue job cfg → job.id = k → cfg.reRun = true → ∀ st, v.status k = some st → ¬ st.Done

end AJ
