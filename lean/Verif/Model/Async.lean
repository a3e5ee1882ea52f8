import Verif.Model.System
import Verif.Model.Plugin

/-!
# Executions that suspend, and the answers of the plugin centre

In `System.lean` an execution takes two turns: its first poll, and the end of its user code. In the code a task
suspends in more places: it awaits the answer of the plugin centre to the message of the before hook
(`job/mod.rs:133`, `plugin/mod.rs:44`) and to the one of the after hook (`job/mod.rs:143`, `plugin/mod.rs:56`), and
`is_failed_output` and `retry_at` are asynchronous user code (`queue.rs:334,341`). Other turns of the actor may come in
between. Here every piece between two suspensions is a turn of its own.

Not modelled: suspensions inside user code (nothing happens there), and that the first answer may come within the
poll that asks for it (then the turns follow each other directly).
-/

namespace AJ

/-- Where a spawned task is: not polled yet; waiting for the answer to its before message; inside user code, with the
job whose run has been counted; past the after message, waiting for the answer or inside `is_failed_output` or
`retry_at`. Messages are numbered by those the work queue sent before. -/
inductive Phase (D : Type) where
  | spawned
  | before (msg : Nat)
  | user (job : Job D)
  | after (msg : Nat) (job : Job D)

/-- A spawned task of `execute_job_task` (`queue.rs:314-324`). -/
structure ATask (D : Type) where
  orig : Job D
  phase : Phase D := .spawned

/-- A work queue actor whose executions suspend. -/
structure Async (D : Type) (B : Backend) where
  w : World B
  cfg : WorkQueueConfig := {}
  tasks : List (ATask D) := []
  alive : Bool := true

/-- One turn. `turn op` is a message or a tick, as in `Op`; `poll i` the first poll of task `i`; `enter i` the answer to
its before message; `leave i` the return of its `post_execute`; `settle i x` the return of its last piece of user code,
where `x` is all the user code of this run; `userPanic i` a panic in one of these pieces. -/
inductive AOp (D O : Type) where
  | turn (op : Op D O)
  | poll (i : Nat)
  | enter (i : Nat)
  | leave (i : Nat)
  | settle (i : Nat) (x : Executable D O)
  | userPanic (i : Nat)

/-- Is the event a message to the plugin centre? -/
def Event.isMsg : Event → Bool
  | .ran _ => false
  | _ => true

namespace World
variable {B : Backend}

/-- Messages sent so far. -/
def sent (w : World B) : Nat := (w.log.filter Event.isMsg).length

/-- One more event. -/
def add (w : World B) (e : Event) : World B := { w with log := w.log ++ [e] }

end World

namespace WorkQueue
variable {D O : Type} (E : Env D) (name : Str)

/-- `queue.rs:334-358`: the rest of `execute_job` after `Job::execute`. -/
def outcome (x : Executable D O) (job : Job D) : Prog Unit := do
  let (job, output) := runUserCode x job
  let failed := x.isFailedOutput job.data output
  let continueWith (job : Job D) : Prog Unit := do
    match ← job.nextTick E with
    | some next => reEnqueue E name next
    | none => if failed then markJobIsFailed E name job else markJobIsFinished E name job
  match job.context.retry with
  | some r => do
    let (r', at?) ← x.callRetryAt E.overflowChecks job.data r output
    let job := { job with context := { job.context with retry := some r' } }
    match at? with
    | some t => reEnqueue E name { job with context := { job.context with jobType := .scheduledAt t } }
    | none => continueWith job
  | none => continueWith job

/-- `queue.rs:318-321` around it. -/
def taskOutcome (x : Executable D O) (orig job : Job D) : Prog Unit := do
  match ← (outcome E name x job).catchErr with
  | .ok _ => pure ()
  | .error _ => do
    let _ ← (markJobIsFailed E name orig).catchErr
    pure ()

end WorkQueue

namespace Async
variable {D O : Type} (E : Env D) (name : Str) (B : Backend) (clk : Nat → Time)

/-- The actor without its executions. -/
def bare {B : Backend} (f : Async D B) : Sys D B := { w := f.w, cfg := f.cfg, tasks := [], alive := f.alive }

/-- The actor has gone down: its tasks are dropped. -/
def down {B : Backend} (f : Async D B) (w : World B) : Async D B := { f with w := w, tasks := [], alive := false }

/-- One turn. Turns that do not apply (no such task, wrong phase) change nothing.
* `turn`: as `Sys.step`; a tick spawns tasks.
* `poll`: `queue.rs:328-333`, `job/mod.rs:133`; `enter`: `job/mod.rs:136-139`; `leave`: `job/mod.rs:143`;
  `settle`: `queue.rs:334-358,318-321`. -/
def step (f : Async D B) (a : AOp D O) : Async D B × Resp D :=
  match a with
  | .turn op =>
    let (s, r) := Sys.step E name B clk f.bare op
    ({ w := s.w, cfg := s.cfg, alive := s.alive,
       tasks := if s.alive then f.tasks ++ s.tasks.map (fun t => ⟨t.orig, .spawned⟩) else [] }, r)
  | .poll i =>
    match f.tasks[i]? with
    | some ⟨orig, .spawned⟩ =>
      if orig.isCancelled then
        match (WorkQueue.markJobIsCanceled name orig.id).run B clk f.w with
        | (.ok _, w) => ({ f with w := w, tasks := f.tasks.eraseIdx i }, .silent)
        | (_, w) => (f.down w, .silent)
      else
        ({ f with w := f.w.add (.hookMsg orig.id true), tasks := f.tasks.set i ⟨orig, .before f.w.sent⟩ }, .silent)
    | _ => (f, .silent)
  | .enter i =>
    match f.tasks[i]? with
    | some ⟨orig, .before _⟩ =>
      let job := { orig with context := { orig.context with runCount := orig.context.runCount + 1 } }
      ({ f with w := f.w.add (.ran job.context), tasks := f.tasks.set i ⟨orig, .user job⟩ }, .silent)
    | _ => (f, .silent)
  | .leave i =>
    match f.tasks[i]? with
    | some ⟨orig, .user job⟩ =>
      ({ f with w := f.w.add (.hookMsg job.id true), tasks := f.tasks.set i ⟨orig, .after f.w.sent job⟩ }, .silent)
    | _ => (f, .silent)
  | .settle i x =>
    match f.tasks[i]? with
    | some ⟨orig, .after _ job⟩ =>
      match (WorkQueue.taskOutcome E name x orig job).run B clk f.w with
      | (.ok _, w) => ({ f with w := w, tasks := f.tasks.eraseIdx i }, .silent)
      | (_, w) => (f.down w, .silent)
    | _ => (f, .silent)
  | .userPanic i =>
    match f.tasks[i]? with
    | some ⟨_, .user _⟩ => (f.down f.w, .silent)
    | some ⟨_, .after _ _⟩ => (f.down f.w, .silent)
    | _ => (f, .silent)

/-- Run a history. -/
def run (f : Async D B) (ops : List (AOp D O)) : Async D B := ops.foldl (fun f a => (step E name B clk f a).1) f

/-- A freshly started work queue. -/
def init (b : B.S) : Async D B := { w := { s := b } }

end Async

/-! ## With the plugin centre -/

/-- A work queue and what has happened at the plugin centre. `got` are the messages of this work queue that the centre has
taken, in order, as the centre numbers them. -/
structure Hooked (D : Type) (B : Backend) where
  q : Async D B
  centre : List CentreOp := []
  got : List Nat := []

/-- A turn of the work queue; the centre takes the next message of the work queue (and comes to `n` plugins before the
task is suspended); the centre takes a message of somebody else; a task of the centre goes on, or panics. -/
inductive HOp (D O : Type) where
  | queue (a : AOp D O)
  | deliver (n : Nat)
  | other (m : PluginMsg) (n : Nat)
  | poll (i n : Nat)
  | panic (i : Nat)

namespace Hooked
variable {D O : Type} (E : Env D) (name : Str) (B : Backend) (clk : Nat → Time) (ty : Nat)

/-- The plugin centre. -/
def c {B : Backend} (h : Hooked D B) : Centre := Centre.run {} h.centre

/-- Has message `m` of the work queue been answered? The answer is sent when the loop over the plugins has ended
(`plugin/mod.rs:97-105`), or is dropped with a task that panicked, which is an answer too (`plugin/mod.rs:44,56` ignore
the error). That the hook of the last plugin returns is left to the time at which the work queue goes on. -/
def answered {B : Backend} (h : Hooked D B) (m : Nat) : Bool :=
  match h.got[m]? with
  | some r => h.c.tasks.all fun f => f.src ≠ r || f.rest.isEmpty
  | none => false

/-- May the turn be taken? Only the pieces after a message wait for an answer. -/
def allows {B : Backend} (h : Hooked D B) : AOp D O → Bool
  | .enter i => match h.q.tasks[i]? with
    | some ⟨_, .before m⟩ => h.answered m
    | _ => true
  | .settle i _ => match h.q.tasks[i]? with
    | some ⟨_, .after m _⟩ => h.answered m
    | _ => true
  | _ => true

/-- The messages of the work queue, in order. -/
def outbox {B : Backend} (h : Hooked D B) : List PluginMsg := h.q.w.log.filterMap (Event.msg ty)

/-- One step. -/
def step (h : Hooked D B) : HOp D O → Hooked D B
  | .queue a => if h.allows a then { h with q := (Async.step E name B clk h.q a).1 } else h
  | .deliver n => match (h.outbox ty)[h.got.length]? with
    | some m => { h with centre := h.centre ++ [.deliver m n], got := h.got ++ [h.c.received] }
    | none => h
  | .other m n => { h with centre := h.centre ++ [.deliver m n] }
  | .poll i n => { h with centre := h.centre ++ [.poll i n] }
  | .panic i => { h with centre := h.centre ++ [.panic i] }

/-- Run a history. -/
def run (h : Hooked D B) (ops : List (HOp D O)) : Hooked D B := ops.foldl (step E name B clk ty) h

/-- A freshly started work queue, and a centre without plugins. -/
def init (b : B.S) : Hooked D B := { q := Async.init B b }

end Hooked
end AJ
