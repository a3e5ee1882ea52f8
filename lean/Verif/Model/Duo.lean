import Verif.Model.System

/-!
# Two processes on one backend

Two processes that run the same work queue on one Redis server. A command is atomic on the server, and between
two commands of one process any number of commands of the other one may be served. All calls a work queue makes
are one command each: moves have count 1 (`redis.rs:28-50` sends `count` commands).
-/

namespace AJ

/-- The next step of a program: a backend call, a clock read or a message. A program that has ended stays. -/
def Prog.step1 {α : Type} (B : Backend) (clk : Nat → Time) : Prog α → World B → Prog α × World B
  | .call op k, w => (k (B.exec op w.s).1, { w with s := (B.exec op w.s).2 })
  | .now k, w => (k (clk w.t), { w with t := w.t + 1 })
  | .emit e k, w => (k, { w with log := w.log ++ [e] })
  | p, w => (p, w)

/-- Two processes, each inside a program, and the backend they share. The clock reads are numbered through, and
the messages of both are collected in one log. -/
structure Duo (B : Backend) (α β : Type) where
  left : Prog α
  right : Prog β
  w : World B

namespace Duo
variable {α β : Type} (B : Backend) (clk : Nat → Time)

/-- One step of the left (`true`) or of the right (`false`) process. -/
def step (d : Duo B α β) : Bool → Duo B α β
  | true => { d with left := (d.left.step1 B clk d.w).1, w := (d.left.step1 B clk d.w).2 }
  | false => { d with right := (d.right.step1 B clk d.w).1, w := (d.right.step1 B clk d.w).2 }

/-- An interleaving. -/
def run (d : Duo B α β) (sched : List Bool) : Duo B α β := sched.foldl (step B clk) d

/-- Two processes that begin a tick (`queue.rs:226-231`), with the rounds granted to each as in `Sys.step`. -/
def picks {D : Type} (E : Env D) (name : Str) (cfgA cfgB : WorkQueueConfig) (w : World B) : Duo B (List (Job D)) (List (Job D)) :=
  ⟨WorkQueue.pickJobsToProcess E name (Sys.tickFuel name B w.s) cfgA,
    WorkQueue.pickJobsToProcess E name (Sys.tickFuel name B w.s) cfgB, w⟩

end Duo

/-- What a process has for itself: configuration, tasks, and whether its actor lives. -/
structure Proc (D : Type) where
  cfg : WorkQueueConfig := {}
  tasks : List (Task D) := []
  alive : Bool := true

/-- Two work queue actors of the same name on one backend. -/
structure Twin (D : Type) (B : Backend) where
  w : World B
  proc : Bool → Proc D

namespace Twin
variable {D O : Type} (E : Env D) (name : Str) (B : Backend) (clk : Nat → Time)

/-- The work queue as one of the processes has it. -/
def side {B : Backend} (t : Twin D B) (who : Bool) : Sys D B :=
  { w := t.w, cfg := (t.proc who).cfg, tasks := (t.proc who).tasks, alive := (t.proc who).alive }

/-- One undisturbed turn of one of the processes. -/
def step (t : Twin D B) (who : Bool) (op : Op D O) : Twin D B :=
  let s := (Sys.step E name B clk (t.side who) op).1
  { w := s.w, proc := upd t.proc who ⟨s.cfg, s.tasks, s.alive⟩ }

/-- Both processes have ended a tick and spawned tasks for the jobs they picked (`queue.rs:232-235`); the left
process is `true`. -/
def ticked {B : Backend} (t : Twin D B) (left right : List (Job D)) (w : World B) : Twin D B :=
  { w := w, proc := fun who => { t.proc who with
      tasks := (t.proc who).tasks ++ (if who then left else right).map (fun j => ⟨j, none⟩) } }

/-- Two freshly started processes on backend state `b`. -/
def init (b : B.S) : Twin D B := { w := { s := b }, proc := fun _ => {} }

end Twin
end AJ
