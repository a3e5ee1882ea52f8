import Verif.Model.System

/-!
# Crashes and restarts

The process may die at any point of a turn, that is before or after any backend call, clock read or
message. What survives is the backend. The in-memory backend lives in the process; for it the statements
about crashes say what would survive if its maps did (as with a persistent implementation of the trait
`Backend`, `backend/types.rs:16-42`).
-/

namespace AJ

/-- `p.Crash B clk w w'`: started in `w`, program `p` passes through `w'`. -/
def Prog.Crash {α : Type} (B : Backend) (clk : Nat → Time) : Prog α → World B → World B → Prop
  | .ret _, w, w' => w' = w
  | .fail _, w, w' => w' = w
  | .panic, w, w' => w' = w
  | .diverge, w, w' => w' = w
  | .call op k, w, w' => w' = w ∨ (k (B.exec op w.s).1).Crash B clk { w with s := (B.exec op w.s).2 } w'
  | .now k, w, w' => w' = w ∨ (k (clk w.t)).Crash B clk { w with t := w.t + 1 } w'
  | .emit e k, w, w' => w' = w ∨ k.Crash B clk { w with log := w.log ++ [e] } w'

namespace Sys
variable {D O : Type} (E : Env D) (name : Str) (B : Backend) (clk : Nat → Time)

/-- The process dies in the turn `op` and leaves `w` behind. The programs are those of `Sys.step`. `between`
is a crash before the turn; that includes crashes inside user code, which makes no backend calls. -/
inductive CrashIn (s : Sys D B) : Op D O → World B → Prop where
  | between (op : Op D O) : CrashIn s op s.w
  | enqueue {job : Job D} {cfg : EnqueueConfig} {w : World B} (ha : s.alive = true)
      (h : (WorkQueue.runWithConfig E name job cfg).Crash B clk s.w w) : CrashIn s (.enqueue job cfg) w
  | cancel {id : Str} {w : World B} (ha : s.alive = true)
      (h : (WorkQueue.cancelJob E name id).Crash B clk s.w w) : CrashIn s (.cancel id) w
  | get {id : Str} {w : World B} (ha : s.alive = true)
      (h : (WorkQueue.getJob E id).Crash B clk s.w w) : CrashIn s (.get id) w
  | retry {id : Str} {w : World B} (ha : s.alive = true)
      (h : (WorkQueue.retryJob E name id).Crash B clk s.w w) : CrashIn s (.retry id) w
  | tick {w : World B} (ha : s.alive = true)
      (h : (WorkQueue.pickJobsToProcess E name (tickFuel name B s.w.s) s.cfg).Crash B clk s.w w) : CrashIn s .tick w
  | start {i : Nat} {orig : Job D} {w : World B} (ha : s.alive = true) (ht : s.tasks[i]? = some ⟨orig, none⟩)
      (h : (WorkQueue.executeStart name orig).Crash B clk s.w w) : CrashIn s (.start i) w
  | finish {i : Nat} {x : Executable D O} {orig job : Job D} {w : World B} (ha : s.alive = true)
      (ht : s.tasks[i]? = some ⟨orig, some job⟩)
      (h : (WorkQueue.taskFinish E name x orig job).Crash B clk s.w w) : CrashIn s (.finish i x) w

/-- A new process on what is left: `queue.rs:105-113` with default configuration and no executions. The
clock and the record of messages of earlier processes go on. -/
def restart {B : Backend} (w : World B) : Sys D B := { w := w }

end Sys
end AJ
