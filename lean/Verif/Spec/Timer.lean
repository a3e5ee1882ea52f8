import Verif.Model.Timer
import Verif.Spec.Queue

/-! # Histories in time -/

namespace AJ
variable {D O : Type}

/-- The history never lets a pending callback wait for more than `δ` after its time. -/
def Timed.Prompt (E : Env D) (name : Str) (B : Backend) (clk : Nat → Time) (δ : Nat) :
    Timed D B → List (TimedOp D O) → Prop
  | _, [] => True
  | t, op :: ops => (∀ d, op = .pass d → ∀ x ∈ t.timers, t.now + d ≤ x + δ) ∧
      Timed.Prompt E name B clk δ (t.step E name B clk op) ops

/-- Every turn of the history satisfies `P`; a callback that runs is a tick. -/
def Timed.Obeys (b : Impl) (E : Env D) (name : Str) (clk : Nat → Time) (P : Snap D → Op D O → Prop) :
    Timed D b.B → List (TimedOp D O) → Prop
  | _, [] => True
  | t, op :: ops => (∀ o, op = .turn o → P (b.snap E name t.sys) o) ∧
      (∀ i, op = .fire i → P (b.snap E name t.sys) .tick) ∧
      Timed.Obeys b E name clk P (t.step E name b.B clk op) ops

/-- The history does not change the configuration. -/
def TimedOp.KeepsConfig : TimedOp D O → Prop
  | .turn (.config _) => False
  | _ => True

end AJ
