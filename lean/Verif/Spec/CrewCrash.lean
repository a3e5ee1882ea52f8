import Verif.Spec.Crew
import Verif.Spec.Crash

/-! # Processes of a crew that die inside a turn -/

namespace AJ

/-- Process `i` is gone and leaves `w` behind. -/
def Crew.crash {D : Type} {B : Backend} (c : Crew D B) (i : Nat) (w : World B) : Crew D B :=
  { w := w, procs := c.procs.set i { tasks := [], alive := false } }

/-- The states a crew can reach from an empty backend when processes may in addition die at any point of a turn; every
turn satisfies `P`, and every turn that is cut short satisfies `Q`. -/
inductive CrewLives {D O : Type} (b : Impl) (E : Env D) (name : Str) (clk : Nat → Time)
    (P Q : Snap D → Op D O → Prop) : Crew D b.B → Prop where
  | start : CrewLives b E name clk P Q (Crew.init b.B b.empty)
  | step {c : Crew D b.B} (op : CrewOp D O) : CrewLives b E name clk P Q c →
      (∀ i op' p, op = .turn i op' → c.procs[i]? = some p → P (b.snap E name (p.sys c.w)) op') →
      CrewLives b E name clk P Q (Crew.step E name b.B clk c op)
  | crash {c : Crew D b.B} (i : Nat) (p : Proc D) (op : Op D O) {w : World b.B} : CrewLives b E name clk P Q c →
      c.procs[i]? = some p → Q (b.snap E name (p.sys c.w)) op → Sys.CrashIn E name b.B clk (p.sys c.w) op w →
      CrewLives b E name clk P Q (c.crash i w)

/-- A turn that may be cut short without harm for the number of entries of job `k`: it does not cancel `k`, and if it
submits `k` in order to run it once more after it was done, then the submission stores the job first
(`JobConfig::overrideData`), as one that is not done. -/
def MayBeCut {D O : Type} (k : Str) (v : Snap D) (op : Op D O) : Prop :=
  op ≠ .cancel k ∧ ∀ job cfg ex, op = .enqueue job cfg → job.id = k → v.job k = some ex → ex.context.jobStatus.Done →
    cfg.reRun = true → cfg.overrideData = true ∧ ¬ job.context.jobStatus.Done

end AJ
