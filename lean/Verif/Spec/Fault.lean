import Verif.Model.Fault
import Verif.Spec.Queue

/-! # Calls made by a program, and whether they failed -/

namespace AJ

/-- Calls that change the backend. -/
def BOp.isWrite : BOp → Bool
  | .queuePush .. => true
  | .queueMove .. => true
  | .queueRemove .. => true
  | .storageUpsert .. => true
  | _ => false

/-- The backend calls of a run, in order, each with whether it succeeded. -/
def Prog.trace {α : Type} (B : Backend) (clk : Nat → Time) : Prog α → World B → List (BOp × Bool)
  | .call op k, w => (op, (B.exec op w.s).1.toBool) ::
      (k (B.exec op w.s).1).trace B clk { w with s := (B.exec op w.s).2 }
  | .now k, w => (k (clk w.t)).trace B clk { w with t := w.t + 1 }
  | .emit e k, w => k.trace B clk { w with log := w.log ++ [e] }
  | _, _ => []

/-- No other process touches the backend. -/
def Alone (script : Nat → Fate) : Prop := ∀ i, (script i).env = []

/-- Calls that take entries out of the queued list of a work queue. -/
def BOp.Takes (name : Str) : BOp → Prop
  | .queueMove src dst .. => src = formatQueueName name .queued ∧ dst ≠ formatQueueName name .queued
  | .queueRemove q _ => q = formatQueueName name .queued
  | _ => False

/-- Other processes may use the backend, but take no entries out of the queued list. -/
def Gentle (name : Str) (script : Nat → Fate) : Prop := ∀ i, ∀ op ∈ (script i).env, ¬ op.Takes name

end AJ
