import Verif.Spec.Overlap

/-! # The messages of a process as a record of what it did -/

namespace AJ
variable {D O : Type}

/-- How often a status of job `k` was announced. -/
def told (k : Str) (st : JobStatus) (l : List Event) : Nat := l.countP fun e => decide (e = .statusMsg k st)

/-- How often job `k` was executed. -/
def runsOf (k : Str) (l : List Event) : Nat := l.countP fun e => match e with
  | .ran c => decide (c.jobId = k)
  | _ => false

/-- How often hooks were asked for on behalf of job `k`. -/
def hookings (k : Str) (l : List Event) : Nat := l.countP fun e => match e with
  | .hookMsg id _ => decide (id = k)
  | _ => false

/-- The turn submits job `k` or is a request to run it again. -/
def Op.asks (k : Str) : Op D O → Bool
  | .enqueue j _ => decide (j.id = k)
  | .retry id => decide (id = k)
  | _ => false

/-- The turn is a request to cancel job `k`. -/
def Op.cancels (k : Str) : Op D O → Bool
  | .cancel id => decide (id = k)
  | _ => false

/-- The messages `l` about job `k` are covered by executions, by `asked` submissions and requests to run it again, and by `stops`
requests to cancel it. -/
structure Record (k : Str) (asked stops : Nat) (l : List Event) : Prop where
  announced : runsOf k l ≤ told k .running l
  ended : told k .finished l + told k .failed l ≤ runsOf k l
  queued : told k .queued l + told k .finished l + told k .failed l ≤ asked + runsOf k l
  canceled : told k .canceled l ≤ stops
  before : runsOf k l ≤ hookings k l
  after : hookings k l ≤ 2 * runsOf k l + 1

end AJ
