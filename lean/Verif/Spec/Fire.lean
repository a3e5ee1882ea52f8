import Verif.Model.Fire
import Verif.Spec.Registry

/-!
# What is said about jobs given to `just_run`
-/

namespace AJ

/-- The discipline of the clients (`HubOp.Orderly`) for a program that also uses `just_run`: type `ty` is only
submitted under the name `N ty`, and a submission of a type without queue, of either kind, only begins when no other
submission of the type is under way. -/
def YardOp.Orderly (N : Nat → Str) (y : Yard) : YardOp → Prop
  | .begin c (.submit ty name) => name = N ty ∧ (y.hub.byType ty = none →
      (∀ d, d ≠ Yard.thread c → ¬ (y.hub.clients d).Opening ty) ∧ ∀ j ∈ y.jobs, j.state = .posted → j.ty ≠ ty)
  | .begin _ (.update ty name) => name = N ty
  | .just ty name => name = N ty ∧ (y.hub.byType ty = none →
      (∀ d, ¬ (y.hub.clients d).Opening ty) ∧ ∀ j ∈ y.jobs, j.state = .posted → j.ty ≠ ty)
  | _ => True

/-- A history of orderly steps. -/
inductive OrderlyYard (N : Nat → Str) : Yard → List YardOp → Prop
  | nil (y) : OrderlyYard N y []
  | cons {y op ops} : op.Orderly N y → OrderlyYard N (y.step op) ops → OrderlyYard N y (op :: ops)

/-- A step of the engine: it goes on with a message, takes one, or polls a future. -/
def YardOp.ofEngine : YardOp → Prop
  | .engine _ => True
  | .handle _ => True
  | .poll _ => True
  | _ => False

/-- The engine does something. -/
def Yard.Moves (y y' : Yard) : Prop := ∃ op : YardOp, op.ofEngine ∧ y' = y.step op ∧ y' ≠ y

/-- The job of call `i` was sent to a work queue of its type. -/
def Yard.Sent (y : Yard) (i : Nat) : Prop :=
  ∃ j q a, y.jobs[i]? = some j ∧ j.state = .sent q ∧ y.hub.queues[q]? = some a ∧ a.ty = j.ty

end AJ
