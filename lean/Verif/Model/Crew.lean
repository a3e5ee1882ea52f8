import Verif.Model.Duo

/-!
# Any number of processes on one backend

Worker processes that run the same work queue on one Redis server and take their turns one after the other. They may
be started and killed at any time between two turns; a process that is killed inside user code is killed between two
turns, because user code makes no backend calls (`queue.rs:333-357`). The clock reads are numbered through, so that the
clocks of the processes need not agree.
-/

namespace AJ

/-- The shared backend and the processes that were ever started. -/
structure Crew (D : Type) (B : Backend) where
  w : World B
  procs : List (Proc D) := []

/-- One step of the crew: a new process starts, a process is killed, or a process takes a turn. -/
inductive CrewOp (D O : Type) where
  | join
  | kill (i : Nat)
  | turn (i : Nat) (op : Op D O)

/-- The work queue as process `p` has it. -/
def Proc.sys {D : Type} {B : Backend} (p : Proc D) (w : World B) : Sys D B := ⟨w, p.cfg, p.tasks, p.alive⟩

namespace Crew
variable {D O : Type} (E : Env D) (name : Str) (B : Backend) (clk : Nat → Time)

/-- `join`: `queue.rs:105-113`, with the default configuration and without executions. `kill`: what the process had is
gone. `turn`: a turn of `Sys.step`. Steps of processes that do not exist change nothing. -/
def step (c : Crew D B) : CrewOp D O → Crew D B
  | .join => { c with procs := c.procs ++ [{}] }
  | .kill i => match c.procs[i]? with
    | some p => { c with procs := c.procs.set i { p with tasks := [], alive := false } }
    | none => c
  | .turn i op => match c.procs[i]? with
    | some p =>
      let s := (Sys.step E name B clk (p.sys c.w) op).1
      { w := s.w, procs := c.procs.set i ⟨s.cfg, s.tasks, s.alive⟩ }
    | none => c

/-- A history of the crew. -/
def run (c : Crew D B) (ops : List (CrewOp D O)) : Crew D B := ops.foldl (step E name B clk) c

/-- No process yet. -/
def init (b : B.S) : Crew D B := { w := { s := b } }

end Crew
end AJ
