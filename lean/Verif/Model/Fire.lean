import Verif.Model.Registry

/-!
# Fire and forget

Models `Job::just_run` (`lib.rs:51-58`) and the handler of `JustRunJob` (`aj.rs:297-311`) on top of the registry. The
handler spawns a future on the context of the `AJ` actor; the future is `AJ::add_job` (`aj.rs:231-240`), and so a
client of the registry like any other, except that the actor itself polls it: a poll falls between two messages of
the actor and is not interleaved with another poll of the same actor; when the actor dies, its futures are dropped; and
a panic of the future is a panic of the actor.

Simplification: messages `JustRunJob` and `InitWorkQueue` of one engine share a mailbox. Here they are taken from two
queues, in any interleaving, each of them in order. This adds histories and takes none away.
-/

namespace AJ

/-- Where a job given to `just_run` is. -/
inductive JustState where
  /-- No engine was found, or its mailbox was closed (`lib.rs:52,53`). -/
  | dropped
  /-- In the mailbox of the engine. -/
  | posted
  /-- Its future is spawned (`aj.rs:310`). -/
  | running
  /-- `Enqueue` was sent to work queue actor `q` (`aj.rs:157`). -/
  | sent (q : Nat)
  /-- The future ended with an error, which is logged (`aj.rs:306-308`), or panicked. -/
  | failed
  deriving DecidableEq, Repr

/-- A call of `just_run` (`lib.rs:51-58`): the engine it found, the type of the job, its `queue_name`. -/
structure Just where
  engine : Nat
  ty : Nat
  name : Str
  state : JustState
  deriving DecidableEq, Repr

/-- The registry with the calls of `just_run`, in order. -/
structure Yard where
  hub : Hub := {}
  jobs : List Just := []

/-- Steps: those of threads and engines, a call of `just_run`, the handler of the first `JustRunJob` of an engine, a
part of a poll of a future. -/
inductive YardOp where
  | begin (c : Nat) (call : ApiCall)
  | client (c : Nat) (choice : Bool)
  | engine (e : Nat)
  | just (ty : Nat) (name : Str)
  | handle (e : Nat)
  | poll (i : Nat)
  deriving DecidableEq, Repr

namespace Yard

/-- Threads are the clients with even numbers. -/
def thread (c : Nat) : Nat := 2 * c

/-- The future of the `i`-th call is the client with the `i`-th odd number. -/
def task (i : Nat) : Nat := 2 * i + 1

/-- The client is in the middle of a poll: between the look into the registry and the message to the engine there is
no `await` (`aj.rs:146-155`). -/
def inPoll : ClientPc → Bool
  | .ask .. => true
  | _ => false

/-- Future `i` is a future of engine `e`, and it is being polled. -/
def polls (y : Yard) (e i : Nat) : Bool := match y.jobs[i]? with
  | some j => decide (j.engine = e) && decide (j.state = .running) && inPoll (y.hub.clients (task i))
  | none => false

/-- The engine does not poll a future. -/
def quiet (y : Yard) (e : Nat) : Bool := (List.range y.jobs.length).all fun i => !y.polls e i

/-- The engine is alive and between two messages. -/
def between (y : Yard) (e : Nat) : Bool := match y.hub.engines[e]? with
  | some E => E.alive && decide (E.pc = .idle)
  | none => false

/-- `Job::just_run` (`lib.rs:51-58`). `do_send` to a stopped actor does nothing. -/
def just (y : Yard) (ty : Nat) (name : Str) : Yard := match y.hub.readAddr with
  | none => { y with jobs := y.jobs ++ [⟨0, ty, name, .dropped⟩] }
  | some e => match y.hub.engines[e]? with
    | none => { y with jobs := y.jobs ++ [⟨e, ty, name, .dropped⟩] }
    | some E => { y with jobs := y.jobs ++ [⟨e, ty, name, if E.alive then .posted else .dropped⟩] }

/-- The first `JustRunJob` in the mailbox of engine `e`. -/
def first (y : Yard) (e : Nat) : Option Nat :=
  y.jobs.findIdx? fun j => decide (j.engine = e) && decide (j.state = .posted)

/-- The handler of `JustRunJob` (`aj.rs:304-311`). -/
def handle (y : Yard) (e : Nat) : Yard :=
  if y.between e && y.quiet e then
    match y.first e with
    | none => y
    | some i => match y.jobs[i]? with
      | none => y
      | some j =>
        { hub := y.hub.begin (task i) (.submit j.ty j.name), jobs := y.jobs.set i { j with state := .running } }
  else y

/-- What a future comes to with the result of its request. -/
def JustState.of : ClientPc → JustState
  | .done _ (.answer q) => .sent q
  | .done _ _ => .failed
  | _ => .running

/-- The future panicked, and with it the actor `e` that polls it. -/
def burst (h : Hub) (e : Nat) : ClientPc → Hub
  | .done _ .panic => match h.engines[e]? with
    | some E => h.crash e E
    | none => h
  | _ => h

/-- A part of a poll of future `i` (`aj.rs:305-309`), by its engine, between two messages, while it polls no other. -/
def poll (y : Yard) (i : Nat) : Yard := match y.jobs[i]? with
  | none => y
  | some j =>
    if j.state = .running ∧ y.between j.engine = true ∧ (y.quiet j.engine || y.polls j.engine i) = true then
      let h := y.hub.client (task i) false
      let pc := h.clients (task i)
      { hub := burst h j.engine pc, jobs := y.jobs.set i { j with state := JustState.of pc } }
    else y

/-- A step. An engine that polls a future does not go on with a message. -/
def step (y : Yard) : YardOp → Yard
  | .begin c call => { y with hub := y.hub.begin (thread c) call }
  | .client c choice => { y with hub := y.hub.client (thread c) choice }
  | .engine e => if y.quiet e then { y with hub := y.hub.engine e } else y
  | .just ty name => y.just ty name
  | .handle e => y.handle e
  | .poll i => y.poll i

def run (y : Yard) (ops : List YardOp) : Yard := ops.foldl step y

end Yard
end AJ
