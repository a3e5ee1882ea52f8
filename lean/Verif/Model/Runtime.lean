import Verif.Model.Plugin

/-!
# Where the actors live

AJ runs on actix: every thread has at most one current `System`, and every actor lives in a thread that belongs to one.
Models which system `AJ::start` uses (`aj.rs:67-91`), in which systems the engine, the work queues and the plugin centre live
(`aj.rs:93-104,126`, `queue.rs:105-113`, `plugin/mod.rs:64-65`), and what happens to them when a system ends.

What is used of actix 0.13.5 and actix-rt 2.10.0 (not in /repo):
* `System::new()` makes a system the current one of the calling thread and returns its runner. The arbiter of the system, and the
  controller that carries out `System::stop`, are tasks of the runner: they end when the runner is dropped. The current system
  of the thread stays the same.
* `Arbiter::new()` starts a thread whose current system is that of the caller. It goes on when the runner of the system is
  dropped; `System::stop` ends the arbiters of the system.
* `PluginCenter::from_registry()` is the plugin centre of the current system, and panics if there is none. It is started at its
  first use, on the arbiter of the system; a message to an actor that could not be started or has ended is refused.

Simplifications: the accesses to `AJ_ADDR` and the registry in one call are one step (races are in `Registry.lean`); different
types have different queue names; a stop is one step. What a work queue does is left open here: it may send any message at any
time (`Queue.lean` and `System.lean` say which). The runner of a system drives its arbiter as long as it exists.
-/

namespace AJ

/-- An actor in an arbiter of its own: the engine or a work queue. -/
structure Resident where
  system : Nat
  alive : Bool := true
  deriving DecidableEq, Repr

/-- An actor after the end of the arbiters of system `s`. -/
def Resident.leave (s : Nat) (a : Resident) : Resident := if a.system = s then { a with alive := false } else a

/-- How a call ends: with the address of an engine, `Ok`, an error or a panic. -/
inductive Verdict where
  | engine (e : Nat)
  | ok
  | mailboxError
  | panic
  deriving DecidableEq, Repr

/-- Systems and actors. `running s` is whether the runner of system `s` exists. `sent` records the messages for the plugin centre
with the system they were sent in, whether it was there or not. -/
structure Runtime where
  running : List Bool := []
  current : Nat → Option Nat := fun _ => none
  addr : Option Nat := none
  engines : List Resident := []
  queues : List (Nat × Resident) := []
  byType : Nat → Option Nat := fun _ => none
  boxes : Nat → List PluginMsg := fun _ => []
  centres : Nat → Centre := fun _ => {}
  sent : List (Nat × PluginMsg) := []
  verdicts : List Verdict := []

/-- Steps of the process. -/
inductive RunOp where
  /-- Thread `th` makes a system and keeps its runner (`System::new()`, `#[actix_rt::main]`, `#[actix::test]`). -/
  | system (th : Nat)
  /-- The runner of system `s` is dropped. -/
  | drop (s : Nat)
  /-- `System::stop` of system `s`. -/
  | stop (s : Nat)
  /-- Thread `th` calls `AJ::start`. -/
  | start (th : Nat)
  /-- Thread `th` calls `AJ::register_plugin`. -/
  | plugin (th : Nat)
  /-- A thread submits a job of type `ty`. -/
  | submit (ty : Nat)
  /-- Work queue `q` sends a message to the plugin centre. -/
  | event (q : Nat) (ev : Event)
  /-- The plugin centre of system `s` handles its next message, polls a task, or a hook of a task panics (`Plugin.lean`). -/
  | deliver (s n : Nat)
  | poll (s i n : Nat)
  | panic (s i : Nat)
  deriving DecidableEq, Repr

namespace Runtime

/-- Does the arbiter of system `s` run? -/
def runs (r : Runtime) (s : Nat) : Bool := (r.running[s]?).getD false

def say (r : Runtime) (v : Verdict) : Runtime := { r with verdicts := r.verdicts ++ [v] }

/-- A message to the plugin centre of system `s` (`plugin/mod.rs:16-57`). -/
def post (r : Runtime) (s : Nat) (m : PluginMsg) : Runtime :=
  let r := { r with sent := r.sent ++ [(s, m)] }
  if r.runs s then { r with boxes := upd r.boxes s (r.boxes s ++ [m]) } else r

/-- The runner of system `s` is gone, and with it the plugin centre. -/
def unhouse (r : Runtime) (s : Nat) : Runtime :=
  { r with
    running := r.running.set s false
    boxes := upd r.boxes s []
    centres := upd r.centres s { r.centres s with tasks := [] } }

/-- `System::stop`: carried out by the controller, if there is one. -/
def stop (r : Runtime) (s : Nat) : Runtime :=
  if r.runs s then
    { r.unhouse s with engines := r.engines.map (Resident.leave s), queues := r.queues.map fun q => (q.1, Resident.leave s q.2) }
  else r

/-- `register_addr` (`aj.rs:93-104`) in a thread whose current system is `s`. -/
def registerAddr (r : Runtime) (s : Nat) : Runtime :=
  { r with engines := r.engines ++ [{ system := s }], addr := some r.engines.length }

/-- `AJ::start` (`aj.rs:67-91`). Without a current system a new one is made, in a new thread, and its runner is dropped at once
(`let _ = System::new();`, `aj.rs:83`). -/
def start (r : Runtime) (th : Nat) : Runtime := match r.addr with
  | some e => r.say (.engine e)
  | none => match r.current th with
    | some s => (r.registerAddr s).say (.engine r.engines.length)
    | none => ({ r with running := r.running ++ [false] }.registerAddr r.running.length).say (.engine r.engines.length)

/-- `AJ::register_plugin` (`aj.rs:254-259`, `plugin/mod.rs:16-21`). -/
def plugin (r : Runtime) (th : Nat) : Runtime := match r.current th with
  | none => r.say .panic
  | some s => (r.post s (.register .ofUser)).say (if r.runs s then .ok else .mailboxError)

/-- `AJ::enqueue_job` (`aj.rs:137-158`), `register` (`aj.rs:110-135`): the work queue lives in the system of the engine. -/
def submit (r : Runtime) (ty : Nat) : Runtime := match r.byType ty with
  | some q => match r.queues[q]? with
    | some (_, a) => r.say (if a.alive then .ok else .mailboxError)
    | none => r.say .mailboxError
  | none => match r.addr with
    | none => r.say .panic
    | some e => match r.engines[e]? with
      | some a =>
        if a.alive then
          ({ r with queues := r.queues ++ [(ty, { system := a.system })], byType := upd r.byType ty (some r.queues.length) } : Runtime).say .ok
        else r.say .mailboxError
      | none => r.say .mailboxError

/-- Work queue `q` sends a message (`plugin/mod.rs:23-57`). -/
def event (r : Runtime) (q : Nat) (ev : Event) : Runtime := match r.queues[q]? with
  | some (ty, a) => if a.alive then
      match ev.msg ty with
      | some m => r.post a.system m
      | none => r
    else r
  | none => r

/-- The plugin centre of system `s` takes a step. -/
def serve (r : Runtime) (s : Nat) (op : CentreOp) : Runtime :=
  if r.runs s then { r with centres := upd r.centres s ((r.centres s).step op) } else r

/-- The plugin centre of system `s` handles its next message. -/
def deliver (r : Runtime) (s n : Nat) : Runtime :=
  if r.runs s then
    match r.boxes s with
    | [] => r
    | m :: ms => { r.serve s (.deliver m n) with boxes := upd r.boxes s ms }
  else r

def step (r : Runtime) : RunOp → Runtime
  | .system th => { r with running := r.running ++ [true], current := upd r.current th (some r.running.length) }
  | .drop s => r.unhouse s
  | .stop s => r.stop s
  | .start th => r.start th
  | .plugin th => r.plugin th
  | .submit ty => r.submit ty
  | .event q ev => r.event q ev
  | .deliver s n => r.deliver s n
  | .poll s i n => r.serve s (.poll i n)
  | .panic s i => r.serve s (.panic i)

def run (r : Runtime) (ops : List RunOp) : Runtime := ops.foldl step r

end Runtime
end AJ
