import Verif.Model.Types

/-!
# Retry policy

Models `aj_core/src/job/retry.rs`.
-/

namespace AJ.Retry

/-- `retry.rs:31-38`. -/
def new (retried : Int) (max : Option Int) (s : RetryStrategy) : Retry := ⟨retried, max, s⟩

/-- `retry.rs:40-42`. -/
def newIntervalRetry (max : Option Int) (interval : Dur) : Retry := new 0 max (.interval interval)

/-- `retry.rs:44-47`. -/
def newExponentialBackoff (max : Option Int) (initial : Dur) : Retry :=
  new 0 max (.exponentialBackoff initial)

/-- `retry.rs:25-29`. -/
def default : Retry := newIntervalRetry (some 3) (100 * nsPerMs)

/-- `retry.rs:49-55`. -/
def shouldRetry (r : Retry) : Bool :=
  match r.maxRetries with
  | some m => decide (r.retriedTimes < m)
  | none => true

/-- `retry.rs:57-66`. `now` is the resolved instant (`now.unwrap_or(get_now())`). `none` is a panic:
counter overflow, power overflow, duration overflow or date overflow. -/
def retryAt (chk : Bool) (r : Retry) (now : Time) : Option (Retry × Time) := do
  let times ← addI32 chk r.retriedTimes 1
  let r' : Retry := { r with retriedTimes := times }
  match r.strategy with
  | .interval d => do
    let t ← timeAdd now d
    pure (r', t)
  | .exponentialBackoff d => do
    let p ← powTwoI32 chk (i32AsU32 times)
    let d' ← durMul d p
    let t ← timeAdd now d'
    pure (r', t)

end AJ.Retry
