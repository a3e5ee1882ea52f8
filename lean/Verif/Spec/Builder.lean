import Verif.Model.Builder

/-!
# What the builders of a job say they set

Every builder writes some of three parts of a job (id, type, retry) or the whole context. The last writer of a part
decides.
-/

namespace AJ.Job
variable {D : Type}

/-- The id a call writes. -/
def Builder.id? : Builder → Option Str
  | .id i => some i
  | .context c => some c.jobId
  | _ => none

/-- The type a call writes, in an environment where it can be written. -/
def Builder.type? (E : Env D) : Builder → Option JobType
  | .jobType ty => some ty
  | .scheduleAt t => some (.scheduledAt t)
  | .delay now after => some (.scheduledAt (now + after))
  | .cron now expr => (E.cron expr).map fun after => .cron expr ((after now).getD now) 1 {}
  | .context c => some c.jobType
  | _ => none

/-- The retry strategy a call writes. -/
def Builder.retry? : Builder → Option (Option Retry)
  | .retry r => some (some r)
  | .context c => some c.retry
  | _ => none

/-- The context a call puts in place. -/
def Builder.context? : Builder → Option JobContext
  | .context c => some c
  | _ => none

/-- The call does not panic: the delay ends within the dates of chrono, the cron expression is valid. -/
def Builder.Fine (E : Env D) : Builder → Prop
  | .delay now after => timeMin ≤ now + after ∧ now + after ≤ timeMax
  | .cron _ expr => E.cron expr ≠ none
  | _ => True

/-- What the last call that writes a part writes, or else what was there. -/
def final {α : Type} (f : Builder → Option α) (bs : List Builder) (a : α) : α := ((bs.filterMap f).getLast?).getD a

/-- All of a context but id, type and retry. -/
def rest (c : JobContext) : JobContext := { c with jobId := [], jobType := .normal, retry := none }

end AJ.Job
