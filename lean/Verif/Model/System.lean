import Verif.Model.Queue

/-!
# The work queue actor

A `WorkQueue` is an actix actor: it runs on one thread, and message handlers, timer callbacks and the
polls of the tasks it spawned run one at a time. One `step` is one such turn. Tasks only touch the
backend in their last turn, after all user code has been awaited (`queue.rs:333-357`), and in their
first turn when the job is cancelled (`queue.rs:328-331`).
-/

namespace AJ

/-- A spawned task of `execute_job_task` (`queue.rs:314-324`): before its first poll, or inside user
code with the job whose run has been counted. -/
structure Task (D : Type) where
  orig : Job D
  executing : Option (Job D) := none

/-- State of the actor and of its backend. `alive` is false once the actor has panicked (or hangs). -/
structure Sys (D : Type) (B : Backend) where
  w : World B
  cfg : WorkQueueConfig := {}
  tasks : List (Task D) := []
  alive : Bool := true

/-- One turn of the actor. `start i` is the first poll of task `i`; `finish i x` is the moment the user
code `x` of task `i` has returned; `userPanic i` is a panic in the user code of task `i`. -/
inductive Op (D O : Type) where
  | enqueue (job : Job D) (cfg : EnqueueConfig)
  | cancel (id : Str)
  | get (id : Str)
  | retry (id : Str)
  | config (cfg : WorkQueueConfig)
  | tick
  | start (i : Nat)
  | finish (i : Nat) (x : Executable D O)
  | userPanic (i : Nat)

/-- What a caller sees. `job` answers `get`, `bool` answers `retry`; `silent` is for turns nobody waits
for. -/
inductive Resp (D : Type) where
  | unit (r : Except Error Unit)
  | bool (r : Except Error Bool)
  | job (r : Option (Job D))
  | silent

namespace Sys
variable {D O : Type} (E : Env D) (name : Str) (B : Backend) (clk : Nat → Time)

/-- A message to a dead actor: `addr.send(..).await?` gives `MailboxError`
(`queue.rs:429,458,526`; `queue.rs:492` turns it into `None`). -/
def deadResp : Op D O → Resp D
  | .enqueue .. => .unit (.error .mailboxError)
  | .cancel .. => .unit (.error .mailboxError)
  | .config .. => .unit (.error .mailboxError)
  | .retry .. => .bool (.error .mailboxError)
  | .get .. => .job none
  | _ => .silent

/-- Run a handler and turn its end into an answer. A panic or an endless loop takes the actor down:
its tasks are dropped and the caller gets `MailboxError`. -/
def handle {α : Type} (s : Sys D B) (p : Prog α) (dead : Resp D) (f : Except Error α → Resp D) :
    Sys D B × Resp D :=
  match p.run B clk s.w with
  | (.ok a, w) => ({ s with w := w }, f (.ok a))
  | (.err e, w) => ({ s with w := w }, f (.error e))
  | (.panicked, w) => ({ s with w := w, tasks := [], alive := false }, dead)
  | (.diverged, w) => ({ s with w := w, tasks := [], alive := false }, dead)

/-- Rounds granted to the scan of a tick: one more than there are queued entries. C29 shows that this
is enough, so the bound is not a restriction. -/
def tickFuel (s : B.S) : Nat :=
  match (B.exec (.queueCount (formatQueueName name .queued)) s).1 with
  | .ok n => n + 1
  | .error _ => 1

/-- One turn. Turns that do not apply (no such task, wrong phase) change nothing.
* `enqueue`: `queue.rs:414-416`; `cancel`: `446-449`; `get`: `478-480`; `retry`: `512-514`;
  `config`: `542-544`.
* `tick`: `queue.rs:226-240`; on `Err` the jobs picked so far are dropped.
* `start`, `finish`: `queue.rs:314-324`. -/
def step (s : Sys D B) (op : Op D O) : Sys D B × Resp D :=
  if s.alive then
    match op with
    | .enqueue job cfg =>
      handle B clk s (WorkQueue.runWithConfig E name job cfg) (deadResp op) .unit
    | .cancel id => handle B clk s (WorkQueue.cancelJob E name id) (deadResp op) .unit
    | .get id =>
      handle B clk s (WorkQueue.getJob E id) (deadResp op)
        (fun r => match r with
          | .ok j => .job j
          | .error _ => .job none)
    | .retry id => handle B clk s (WorkQueue.retryJob E name id) (deadResp op) .bool
    | .config c => ({ s with cfg := c }, .unit (.ok ()))
    | .tick =>
      match (WorkQueue.pickJobsToProcess E name (tickFuel name B s.w.s) s.cfg).run B clk s.w with
      | (.ok jobs, w) => ({ s with w := w, tasks := s.tasks ++ jobs.map (fun j => ⟨j, none⟩) }, .silent)
      | (.err _, w) => ({ s with w := w }, .silent)
      | (.panicked, w) => ({ s with w := w, tasks := [], alive := false }, .silent)
      | (.diverged, w) => ({ s with w := w, tasks := [], alive := false }, .silent)
    | .start i =>
      match s.tasks[i]? with
      | some ⟨orig, none⟩ =>
        match (WorkQueue.executeStart name orig).run B clk s.w with
        | (.ok (some job), w) => ({ s with w := w, tasks := s.tasks.set i ⟨orig, some job⟩ }, .silent)
        | (.ok none, w) => ({ s with w := w, tasks := s.tasks.eraseIdx i }, .silent)
        | (_, w) => ({ s with w := w, tasks := [], alive := false }, .silent)
      | _ => (s, .silent)
    | .finish i x =>
      match s.tasks[i]? with
      | some ⟨orig, some job⟩ =>
        match (WorkQueue.taskFinish E name x orig job).run B clk s.w with
        | (.ok _, w) => ({ s with w := w, tasks := s.tasks.eraseIdx i }, .silent)
        | (_, w) => ({ s with w := w, tasks := [], alive := false }, .silent)
      | _ => (s, .silent)
    | .userPanic i =>
      match s.tasks[i]? with
      | some ⟨_, some _⟩ => ({ s with tasks := [], alive := false }, .silent)
      | _ => (s, .silent)
  else (s, deadResp op)

/-- Run a history and collect the answers. -/
def runOps (s : Sys D B) : List (Op D O) → Sys D B × List (Resp D)
  | [] => (s, [])
  | op :: ops =>
    let (s1, r) := step E name B clk s op
    let (s2, rs) := runOps s1 ops
    (s2, r :: rs)

/-- A freshly started work queue on backend state `b` (`queue.rs:105-113`). -/
def init (b : B.S) : Sys D B := { w := { s := b } }

end Sys
end AJ
