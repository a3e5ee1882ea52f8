import Verif.Spec.Endless

/-!
# The places in the running list

The hypotheses of C90.
-/

namespace AJ

/-- An endless history of a work queue: every execution comes to an end, ticks never cease, the actor survives, and the capacity exceeds
`lost`. Nothing is asked of callers and user code. -/
structure Sys.Roomy {D O : Type} (b : Impl) (E : Env D) (name : Str) (clk : Nat → Time) (lost : Nat) (s : Sys D b.B)
    (ops : Nat → Op D O) : Prop where
  ends : ∀ n id, id ∈ (b.snap E name (Sys.after E name b.B clk s ops n)).inFlight →
    ∃ m, n ≤ m ∧ id ∉ (b.snap E name (Sys.after E name b.B clk s ops m)).inFlight
  ticks : ∀ m, ∃ n, m ≤ n ∧ ops n = .tick ∧ (Sys.after E name b.B clk s ops n).alive = true
  capacity : ∀ n, ops n = .tick → lost < (Sys.after E name b.B clk s ops n).cfg.maxProcessingJobs

end AJ
