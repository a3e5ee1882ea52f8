import Verif.Model.Overlap
import Verif.Spec.Queue
import Verif.Spec.Duo

/-! # What overlapping processes keep -/

namespace AJ
variable {ι D O : Type}

/-- A turn that some process takes. -/
def Taken (ops : ι → List (Op D O × Nat)) (op : Op D O) : Prop := ∃ i, ∃ n, (op, n) ∈ ops i

/-- The job was submitted by one of the processes. -/
def Submitted (ops : ι → List (Op D O × Nat)) (j : Job D) : Prop := ∃ cfg, Taken ops (.enqueue j cfg)

/-- The user code ran in one of the processes. -/
def Executes (ops : ι → List (Op D O × Nat)) (x : Executable D O) : Prop := ∃ n, Taken ops (.finish n x)

/-- A condition on jobs that nothing breaks which AJ does to a job between its submission and its executions: it does not look at
status, times, counters and schedule; storing and reading, user code and its decisions about retries keep it. -/
structure Steady {E : Env D} (L : E.Lawful) (Runs : Executable D O → Prop) (p : Job D → Prop) : Prop where
  touched : ∀ j j' : Job D, p j → j'.id = j.id → j'.data = j.data → j'.context.retry = j.context.retry → p j'
  stored : ∀ j, p j → p (j.norm L.normD)
  run : ∀ x j, Runs x → p j → p (WorkQueue.runUserCode x j).1
  retried : ∀ x j r now r' t, Runs x → p j → j.context.retry = some r → x.retryAt = none → r.shouldRetry = true →
    r.retryAt E.overflowChecks now = some (r', t) → p { j with context := { j.context with retry := some r' } }
  asked : ∀ x f j r now o, Runs x → p j → j.context.retry = some r → x.retryAt = some f →
    p { j with context := { j.context with retry := some (f j.data r o now).1 } }

/-- What can be seen of a shared backend whose calls may fail. -/
def Impl.shared (b : Impl) (E : Env D) (name : Str) {script : Nat → Fate} {α : ι → Type} (m : Many ι (Faulty b.B script) α) : Snap D :=
  b.see E name { s := m.s.1 }

/-- Processes of one job type on an empty backend whose calls succeed or fail as `script` says, after the steps of `sched`: each
entry lets one process make one call, read the clock once or send one message. -/
def Impl.overlapped [DecidableEq ι] (b : Impl) (E : Env D) (name : ι → Str) (ops : ι → List (Op D O × Nat)) (script : Nat → Fate)
    (clk : ι → Nat → Time) (sched : List ι) : Many ι (Faulty b.B script) fun _ => Proc D × List (Resp D) :=
  (Many.overlap (Faulty b.B script) E name ops (b.empty, 0)).run (Faulty b.B script) clk sched

/-- A process that has taken all its turns, and the answers it got. -/
def Many.Done {B : Backend} (m : Many ι B fun _ => Proc D × List (Resp D)) (i : ι) (q : Proc D) (answers : List (Resp D)) : Prop :=
  m.prog i = .ret (q, answers)

end AJ
