import Verif.Model.Crew
import Verif.Spec.Duo

/-! # Observing any number of processes on one backend -/

namespace AJ

/-- The states a crew can reach from an empty backend when every turn satisfies `P`, which sees what the process
sees. -/
inductive CrewReach {D O : Type} (b : Impl) (E : Env D) (name : Str) (clk : Nat → Time)
    (P : Snap D → Op D O → Prop) : Crew D b.B → Prop where
  | start : CrewReach b E name clk P (Crew.init b.B b.empty)
  | step {c : Crew D b.B} (op : CrewOp D O) : CrewReach b E name clk P c →
      (∀ i op' p, op = .turn i op' → c.procs[i]? = some p → P (b.snap E name (p.sys c.w)) op') →
      CrewReach b E name clk P (Crew.step E name b.B clk c op)

/-- The ids of the executions in flight in all processes together. -/
def Crew.inFlight {D : Type} {B : Backend} (c : Crew D B) : List Str := c.procs.flatMap fun p => p.tasks.map (·.orig.id)

end AJ
