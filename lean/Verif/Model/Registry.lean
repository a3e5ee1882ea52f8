import Verif.Model.Backend

/-!
# The registry of work queues and the AJ actor

Models the static state of `aj.rs:20-55` and the functions that use it, one access of shared state at a time, with
any number of clients (threads or tasks) and of `AJ` actors. Job types and backends are numbers; work queue actors
are numbered in the order in which they are started. What the work queue actors answer is modelled in `System.lean`;
here a request is only sent to one of them.

`try_read`/`try_write` (`aj.rs:50,99`) fail when the lock is taken. A write is modelled in two steps, so that reads
may fall into it. Reads are one step; that a reader holds the lock at the moment of a `try_write` is the choice
`busy` of the environment.
-/

namespace AJ

/-- A request of a client to `AJ` (`aj.rs:65-260`). Arguments that matter only to the work queue actor are left out. -/
inductive ApiCall where
  | start (backend : Nat)
  | submit (ty : Nat) (name : Str)
  | cancel (ty : Nat)
  | retry (ty : Nat)
  | config (ty : Nat)
  | get (ty : Nat)
  | update (ty : Nat) (name : Str)
  deriving DecidableEq, Repr

/-- How it ends: the address of an engine, an answer of work queue actor `q`, an error, `None`, or `Ok(())` without
effect. -/
inductive ApiResult where
  | engine (e : Nat)
  | answer (q : Nat)
  | noQueueRegister
  | mailboxError
  | none
  | unit
  | panic
  deriving DecidableEq, Repr

/-- Where a client is in its request. -/
inductive ClientPc where
  | idle
  /-- About to look for the address of the engine (`aj.rs:68`) or of the queue (`aj.rs:146,166,179,222,246`). -/
  | begun (call : ApiCall)
  /-- `start` found no engine, and creates one (`aj.rs:94-97`). -/
  | create (call : ApiCall) (backend : Nat)
  /-- About to take the lock (`aj.rs:99`). -/
  | lock (call : ApiCall) (e : Nat)
  /-- Has the lock, about to write (`aj.rs:100`). -/
  | write (call : ApiCall) (e : Nat)
  /-- About to read the address again (`aj.rs:90`). -/
  | reread (call : ApiCall)
  /-- Found no queue; about to read the address of the engine and to send it `InitWorkQueue` (`aj.rs:149-155`). -/
  | ask (call : ApiCall) (ty : Nat) (name : Str)
  /-- Waits for the answer of engine `e` (`aj.rs:155`). -/
  | waiting (call : ApiCall) (e : Nat) (ty : Nat) (name : Str)
  /-- `update_job` waits for the answer of work queue actor `q` to its `get_job` (`aj.rs:203`). -/
  | reading (call : ApiCall) (q : Nat) (ty : Nat) (name : Str)
  | done (call : ApiCall) (r : ApiResult)
  deriving DecidableEq, Repr

/-- A message `InitWorkQueue` (`aj.rs:262-271`). -/
structure InitMsg where
  client : Nat
  ty : Nat
  name : Str
  deriving DecidableEq, Repr

/-- Where an `AJ` actor is in `register` (`aj.rs:110-135`). -/
inductive EnginePc where
  | idle
  /-- The name is free (`aj.rs:118-120`). -/
  | nameFree (m : InitMsg)
  /-- The type is free too (`aj.rs:121-123`). -/
  | typeFree (m : InitMsg)
  /-- The queue is started and its address is stored by type (`aj.rs:126-129`). -/
  | half (m : InitMsg) (q : Nat)
  deriving DecidableEq, Repr

/-- An `AJ` actor. -/
structure Engine where
  backend : Nat
  alive : Bool := true
  mailbox : List InitMsg := []
  pc : EnginePc := .idle
  deriving DecidableEq, Repr

/-- A work queue actor (`queue.rs:105-113`). -/
structure QueueActor where
  ty : Nat
  name : Str
  backend : Nat
  deriving DecidableEq, Repr

/-- `QUEUE_REGISTRY`, `AJ_ADDR` (`aj.rs:20-32`), the actors and the clients. -/
structure Hub where
  addr : Option Nat := none
  /-- The client that holds `AJ_ADDR` for writing. -/
  writer : Option Nat := none
  engines : List Engine := []
  byType : Nat → Option Nat := fun _ => none
  byName : Str → Option Nat := fun _ => none
  queues : List QueueActor := []
  clients : Nat → ClientPc := fun _ => .idle

/-- Steps: a client begins a request, a client goes on (with a choice of the environment), an engine goes on. -/
inductive HubOp where
  | begin (c : Nat) (call : ApiCall)
  | client (c : Nat) (choice : Bool)
  | engine (e : Nat)
  deriving DecidableEq, Repr

namespace Hub

/-- Client `c` comes to `pc`. -/
def go (h : Hub) (c : Nat) (pc : ClientPc) : Hub := { h with clients := upd h.clients c pc }

/-- `get_aj_address` (`aj.rs:49-55`). -/
def readAddr (h : Hub) : Option Nat := match h.writer with
  | some _ => none
  | none => h.addr

/-- A client with a free hand makes a request. -/
def begin (h : Hub) (c : Nat) (call : ApiCall) : Hub := match h.clients c with
  | .idle => h.go c (.begun call)
  | .done _ _ => h.go c (.begun call)
  | _ => h

/-- The first step of a request: `AJ::start` (`aj.rs:68-71`), `AJ::enqueue_job` (`aj.rs:146-148`), `AJ::cancel_job`
(`aj.rs:166-171`), `AJ::retry_job` (`aj.rs:222-227`), `AJ::update_work_queue` (`aj.rs:246-251`), `AJ::get_job`
(`aj.rs:179-184`), `AJ::update_job` (`aj.rs:203-214`). -/
def look (h : Hub) (call : ApiCall) : ClientPc := match call with
  | .start b => match h.readAddr with
    | some e => .done call (.engine e)
    | none => .create call b
  | .submit ty name => match h.byType ty with
    | some q => .done call (.answer q)
    | none => .ask call ty name
  | .cancel ty => match h.byType ty with
    | some q => .done call (.answer q)
    | none => .done call .noQueueRegister
  | .retry ty => match h.byType ty with
    | some q => .done call (.answer q)
    | none => .done call .noQueueRegister
  | .config ty => match h.byType ty with
    | some q => .done call (.answer q)
    | none => .done call .noQueueRegister
  | .get ty => match h.byType ty with
    | some q => .done call (.answer q)
    | none => .done call .none
  | .update ty name => match h.byType ty with
    | some q => .reading call q ty name
    | none => .done call .unit

/-- The lookup of `AJ::enqueue_job` within `AJ::update_job` (`aj.rs:209,146-148`). -/
def lookAgain (h : Hub) (call : ApiCall) (ty : Nat) (name : Str) : ClientPc := match h.byType ty with
  | some q => .done call (.answer q)
  | none => .ask call ty name

/-- Send `m` to engine `e` (`aj.rs:155`). A stopped actor has closed its mailbox. -/
def send (h : Hub) (c : Nat) (call : ApiCall) (e ty : Nat) (name : Str) : Hub := match h.engines[e]? with
  | some E =>
    if E.alive then
      { h.go c (.waiting call e ty name) with engines := h.engines.set e { E with mailbox := E.mailbox ++ [⟨c, ty, name⟩] } }
    else h.go c (.done call .mailboxError)
  | none => h.go c (.done call .mailboxError)

/-- A client goes on. `choice` is whether a reader holds the lock (`aj.rs:99`), or whether the job exists
(`aj.rs:204`). -/
def client (h : Hub) (c : Nat) (choice : Bool) : Hub := match h.clients c with
  | .begun call => h.go c (h.look call)
  | .create call b => { h.go c (.lock call h.engines.length) with engines := h.engines ++ [{ backend := b }] }
  | .lock call e =>
    if choice || h.writer.isSome then h.go c (.reread call)
    else { h.go c (.write call e) with writer := some c }
  | .write call e => { h.go c (.reread call) with addr := some e, writer := none }
  | .reread call => match h.readAddr with
    | some e => h.go c (.done call (.engine e))
    | none => h.go c (.done call .panic)
  | .ask call ty name => match h.readAddr with
    | some e => h.send c call e ty name
    | none => h.go c (.done call .panic)
  | .reading call _ ty name =>
    if choice then h.go c (h.lookAgain call ty name) else h.go c (.done call .unit)
  | _ => h

/-- The clients that wait for engine `e` get an error. -/
def release (h : Hub) (e : Nat) : Hub :=
  { h with clients := fun c => match h.clients c with
    | .waiting call e' ty name => if e' = e then .done call .mailboxError else .waiting call e' ty name
    | pc => pc }

/-- Engine `e` panics: the actor stops, its mailbox is dropped and with it the channels of the answers (actix). -/
def crash (h : Hub) (e : Nat) (E : Engine) : Hub :=
  { h.release e with engines := h.engines.set e { E with alive := false, mailbox := [], pc := .idle } }

/-- The answer to `m` (`aj.rs:134`): the client sends its job to `q` (`aj.rs:157`). -/
def answer (h : Hub) (m : InitMsg) (q : Nat) : Hub := match h.clients m.client with
  | .waiting call _ _ _ => h.go m.client (.done call (.answer q))
  | _ => h

/-- An engine goes on with `register` (`aj.rs:110-135`). -/
def engine (h : Hub) (e : Nat) : Hub := match h.engines[e]? with
  | none => h
  | some E => match E.pc with
    | .idle => match E.mailbox with
      | [] => h
      | m :: ms => match h.byName m.name with
        | some _ => h.crash e { E with mailbox := ms }
        | none => { h with engines := h.engines.set e { E with mailbox := ms, pc := .nameFree m } }
    | .nameFree m => match h.byType m.ty with
      | some _ => h.crash e E
      | none => { h with engines := h.engines.set e { E with pc := .typeFree m } }
    | .typeFree m =>
      { h with
        queues := h.queues ++ [⟨m.ty, m.name, E.backend⟩]
        byType := upd h.byType m.ty (some h.queues.length)
        engines := h.engines.set e { E with pc := .half m h.queues.length } }
    | .half m q =>
      { h.answer m q with
        byName := upd h.byName m.name (some q)
        engines := h.engines.set e { E with pc := .idle } }

def step (h : Hub) : HubOp → Hub
  | .begin c call => h.begin c call
  | .client c choice => h.client c choice
  | .engine e => h.engine e

def run (h : Hub) (ops : List HubOp) : Hub := ops.foldl step h

end Hub
end AJ
