import Verif.Spec.Slots

/-!
# Work queues to which no jobs are submitted any more

The hypotheses of C91.
-/

namespace AJ

/-- An endless history in which nobody submits or retries a job any more, user code leaves jobs serialisable, every execution comes to
an end, ticks never cease, the actor survives, and there is capacity for a job. Any number of jobs may be waiting. -/
structure Sys.Closes {D O : Type} (b : Impl) (E : Env D) (name : Str) (clk : Nat → Time) (s : Sys D b.B) (ops : Nat → Op D O) : Prop where
  submit : ∀ n j c, ops n ≠ .enqueue j c
  retry : ∀ n id, ops n ≠ .retry id
  careful : ∀ n, Careful E (b.snap E name (Sys.after E name b.B clk s ops n)) (ops n)
  room : Sys.Roomy b E name clk 0 s ops
  small : ((b.snap E name s).lists .queued).length + (b.snap E name s).inFlight.length < 2 ^ 31

end AJ
