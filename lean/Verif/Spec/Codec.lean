import Verif.Model.Job

/-!
# What storing a job may change

The storage format keeps points in time and retry durations in whole microseconds.
-/

namespace AJ

/-- A point in time truncated to microseconds (toward minus infinity). -/
def floorUs (t : Time) : Time := t / nsPerUs * nsPerUs

/-- A duration rounded to the nearest microsecond, halves away from zero. -/
def roundUs (d : Dur) : Dur :=
  if 0 ≤ d then (d + 500) / nsPerUs * nsPerUs else -((-d + 500) / nsPerUs * nsPerUs)

/-- A cron context as stored. -/
def CronContext.norm (c : CronContext) : CronContext := { c with endAt := c.endAt.map floorUs }

/-- A job type as stored. -/
def JobType.norm : JobType → JobType
  | .normal => .normal
  | .scheduledAt t => .scheduledAt (floorUs t)
  | .cron e n k c => .cron e (floorUs n) k c.norm

/-- A retry strategy as stored. -/
def RetryStrategy.norm : RetryStrategy → RetryStrategy
  | .interval d => .interval (roundUs d)
  | .exponentialBackoff d => .exponentialBackoff (roundUs d)

/-- A retry policy as stored. -/
def Retry.norm (r : Retry) : Retry := { r with strategy := r.strategy.norm }

/-- A context as stored: only the precision of times and durations changes. -/
def JobContext.norm (c : JobContext) : JobContext :=
  { c with jobType := c.jobType.norm, retry := c.retry.map Retry.norm }

/-- A job as stored; `normD` is what the user's own `Serialize`/`Deserialize` make of the data. -/
def Job.norm {D : Type} (normD : D → D) (j : Job D) : Job D := ⟨j.context.norm, normD j.data⟩

/-- The job can be serialised. -/
def Env.Encodable {D : Type} (E : Env D) (j : Job D) : Prop := (E.codec.enc j).isSome = true

instance {D : Type} (E : Env D) (j : Job D) : Decidable (E.Encodable j) :=
  inferInstanceAs (Decidable (_ = true))

/-- A codec that keeps jobs: the empty string is no job, reading back gives the job up to precision, read
jobs are on the grid and can be written again, and whether a job can be written depends on its data and
retry strategy only. `Props/Codec.lean` proves this for the concrete JSON codec. -/
structure Env.Lawful {D : Type} (E : Env D) where
  normD : D → D
  dec_empty : E.codec.dec [] = none
  roundtrip : ∀ j s, E.codec.enc j = some s → E.codec.dec s = some (j.norm normD)
  decoded_norm : ∀ s j, E.codec.dec s = some j → j.norm normD = j
  decoded_enc : ∀ s j, E.codec.dec s = some j → E.Encodable j
  congr : ∀ j j' : Job D,
    j.context.retry.map Retry.strategy = j'.context.retry.map Retry.strategy → j.data = j'.data →
    E.Encodable j → E.Encodable j'

end AJ
