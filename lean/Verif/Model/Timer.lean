import Verif.Model.System

/-!
# The timer of the work queue

`process_jobs` (`queue.rs:226-240`) scans the queue and then asks for the next scan with
`ctx.run_later(process_tick_duration, ..)`. Here the actor of `Model/System.lean` is put next to a clock and the
callbacks that are pending. The clock is the monotonic one of the runtime; it has nothing to do with the wall
clock `clk` that jobs are compared with. Its unit is the one of `processTickDuration`.

Simplification: a delay that does not fit an `Instant` makes tokio wait about 30 years; here it is the delay.
-/

namespace AJ

/-- A work queue and its pending `run_later` callbacks, given by the time from which each may run. `scans` lists,
latest first, when `process_jobs` ran and the delay it asked for; the code keeps no such list. -/
structure Timed (D : Type) (B : Backend) where
  sys : Sys D B
  now : Nat
  timers : List Nat := []
  scans : List (Nat × Nat) := []

/-- What may happen: time passes, the actor handles a message or polls a task, a pending callback runs. -/
inductive TimedOp (D O : Type) where
  | pass (d : Nat)
  | turn (op : Op D O)
  | fire (i : Nat)

namespace Timed
variable {D O : Type} (E : Env D) (name : Str) (B : Backend) (clk : Nat → Time)

/-- `queue.rs:226-240`: one scan, then a new callback, with the delay configured at that moment; also when the
scan ended in an error. An actor that has panicked is dropped, and its callbacks with it. -/
def scan (t : Timed D B) : Timed D B :=
  let s := (Sys.step E name B clk t.sys (.tick : Op D Unit)).1
  { t with
    sys := s
    timers := if s.alive then t.timers ++ [t.now + s.cfg.processTickDuration] else []
    scans := (t.now, s.cfg.processTickDuration) :: t.scans }

/-- `queue.rs:105-113`: `start_with_name` calls `process_jobs` before the first message is handled. -/
def start (s : Sys D B) (now : Nat) : Timed D B := scan E name B clk { sys := s, now := now }

/-- One step. A callback runs no earlier than its time. Scans come only from callbacks (`process_jobs` is called
at `queue.rs:110` and `queue.rs:238` only), so `turn .tick` does nothing. -/
def step (t : Timed D B) : TimedOp D O → Timed D B
  | .pass d => { t with now := t.now + d }
  | .turn .tick => t
  | .turn op =>
    let s := (Sys.step E name B clk t.sys op).1
    { t with sys := s, timers := if s.alive then t.timers else [] }
  | .fire i =>
    match t.timers[i]? with
    | some d => if d ≤ t.now then scan E name B clk { t with timers := t.timers.eraseIdx i } else t
    | none => t

/-- A history. -/
def run (t : Timed D B) (ops : List (TimedOp D O)) : Timed D B := ops.foldl (step E name B clk) t

end Timed
end AJ
