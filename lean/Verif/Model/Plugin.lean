import Verif.Model.Prog

/-!
# The plugin centre

`PluginCenter` is an actor with a vector of registered plugins. `RegisterPlugin` is handled at once
(`plugin/mod.rs:73-79`). `ChangeStatus` and `RunHook` return a `ResponseFuture` over a copy of the vector
(`plugin/mod.rs:92-107,120-131`), which actix spawns as a task of its own on the thread of the actor. New tasks
are polled for the first time in the order in which they were spawned; a task that is suspended inside a hook is
polled again at any later time. A hook is called in one poll and may suspend there.

Not modelled: what the hooks do; the type of a job is a number (`TypeId`); the mailbox is the order of the
deliveries.
-/

namespace AJ

/-- A registered plugin (`plugin/job_plugin.rs:40-43`): the job types it wants, all if empty. -/
structure Plugin where
  types : List Nat
  deriving DecidableEq, Repr

/-- `should_run` (`plugin/job_plugin.rs:79-85`). -/
def Plugin.shouldRun (p : Plugin) (ty : Nat) : Bool :=
  if p.types.isEmpty then true else p.types.contains ty

/-- `AJ::register_plugin` (`aj.rs:254-259`): always with an empty list of types. -/
def Plugin.ofUser : Plugin := ⟨[]⟩

/-- A message to the plugin centre (`plugin/mod.rs:67-71,81-90,109-118`). -/
inductive PluginMsg where
  | register (p : Plugin)
  | changeStatus (ty : Nat) (id : Str) (st : JobStatus)
  | runHook (ty : Nat) (id : Str) (before : Bool)
  deriving DecidableEq, Repr

/-- A call of a hook of a plugin (`plugin/job_plugin.rs:29-38`). -/
inductive HookCall where
  | changeStatus (id : Str) (st : JobStatus)
  | beforeRun (id : Str)
  | afterRun (id : Str)
  deriving DecidableEq, Repr

/-- The task of one message: what it calls (`plugin/mod.rs:98-104,126-128`), and the plugins it has yet to
come to, with their positions in the vector. `src` is the number of the message. -/
structure HookTask where
  src : Nat
  ty : Nat
  call : HookCall
  rest : List (Plugin × Nat)
  deriving DecidableEq, Repr

/-- The plugin centre and its tasks. `calls` records the calls begun so far: message, plugin, hook. -/
structure Centre where
  plugins : List Plugin := []
  tasks : List HookTask := []
  received : Nat := 0
  calls : List (Nat × Nat × HookCall) := []
  deriving DecidableEq, Repr

/-- The calls for the next `n` plugins of a task. -/
def HookTask.calls (f : HookTask) (n : Nat) : List (Nat × Nat × HookCall) :=
  ((f.rest.take n).filter fun q => q.1.shouldRun f.ty).map fun q => (f.src, q.2, f.call)

/-- The task after the next `n` plugins. -/
def HookTask.after (f : HookTask) (n : Nat) : HookTask := { f with rest := f.rest.drop n }

/-- The handler of a message that calls hooks; its task comes to `n` plugins before it suspends. -/
def Centre.spawn (c : Centre) (ty : Nat) (call : HookCall) (n : Nat) : Centre :=
  let f : HookTask := ⟨c.received, ty, call, c.plugins.zipIdx⟩
  { c with received := c.received + 1, tasks := c.tasks ++ [f.after n], calls := c.calls ++ f.calls n }

/-- What happens at the plugin centre: a message is handled (and its task comes to `n` plugins before it is
suspended), task `i` is polled again (and comes to `n` more), or a hook called by task `i` panics, which ends
the task. -/
inductive CentreOp where
  | deliver (m : PluginMsg) (n : Nat)
  | poll (i n : Nat)
  | panic (i : Nat)
  deriving DecidableEq, Repr

/-- One step of the plugin centre. -/
def Centre.step (c : Centre) : CentreOp → Centre
  | .deliver (.register p) _ => { c with plugins := c.plugins ++ [p], received := c.received + 1 }
  | .deliver (.changeStatus ty id st) n => c.spawn ty (.changeStatus id st) n
  | .deliver (.runHook ty id before) n => c.spawn ty (if before then .beforeRun id else .afterRun id) n
  | .poll i n => match c.tasks[i]? with
    | some f => { c with tasks := c.tasks.set i (f.after n), calls := c.calls ++ f.calls n }
    | none => c
  | .panic i => { c with tasks := c.tasks.eraseIdx i }

/-- The centre after a history. -/
def Centre.run (c : Centre) (ops : List CentreOp) : Centre := ops.foldl Centre.step c

/-- What the events of a work queue for type `ty` send to the centre (`plugin/mod.rs:23-57`, called from
`job/mod.rs` and modelled in `Model/Job.lean`, `Model/Queue.lean`). -/
def Event.msg (ty : Nat) : Event → Option PluginMsg
  | .statusMsg id st => some (.changeStatus ty id st)
  | .hookMsg id before => some (.runHook ty id before)
  | .ran _ => none

end AJ
