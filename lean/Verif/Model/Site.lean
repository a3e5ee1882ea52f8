import Verif.Model.Registry
import Verif.Model.Client
import Verif.Model.Duo

/-!
# A whole process: clients, engines, registry, work queues and backends

Puts the registry (`Registry.lean`) and the work queues (`System.lean`) together: a request of a client to `AJ`
(`aj.rs:65-260`) looks up the work queue, sends it a message and waits for the answer; the work queue handles the
messages of its mailbox one by one, next to its ticks and tasks.

Simplifications: turns of work queues are not interrupted by turns of other work queues (`Weave.lean` has the
interruptions, and C79 says when they make no difference). The payloads of all job types are taken from one type `D`; every job type has
its own environment (codec). The first tick of a work queue (`queue.rs:110`) is not forced to be its first turn.
-/

namespace AJ

/-- A request with its arguments (`aj.rs:65-260`). `AJ::add_job` (`aj.rs:230-239`) is `submit` with `new_re_run`. -/
inductive Req (D : Type) where
  | start (backend : Nat)
  | submit (ty : Nat) (name : Str) (job : Job D) (cfg : EnqueueConfig)
  | cancel (ty : Nat) (id : Str)
  | retry (ty : Nat) (id : Str)
  | config (ty : Nat) (cfg : WorkQueueConfig)
  | get (ty : Nat) (id : Str)
  | update (ty : Nat) (name : Str) (id : Str) (data : D) (context : Option JobContext)

/-- The request without the arguments that matter only to the work queue. -/
def Req.call {D : Type} : Req D → ApiCall
  | .start b => .start b
  | .submit ty name _ _ => .submit ty name
  | .cancel ty _ => .cancel ty
  | .retry ty _ => .retry ty
  | .config ty _ => .config ty
  | .get ty _ => .get ty
  | .update ty name _ _ _ => .update ty name

/-- The first message the request sends to a work queue: `aj.rs:157`, `168`, `224`, `248`, `181`, and `203` for
`update_job`, which reads the job first. -/
def Req.op {D O : Type} : Req D → Option (Op D O)
  | .start _ => none
  | .submit _ _ job cfg => some (.enqueue job cfg)
  | .cancel _ id => some (.cancel id)
  | .retry _ id => some (.retry id)
  | .config _ cfg => some (.config cfg)
  | .get _ id => some (.get id)
  | .update _ _ id _ _ => some (.get id)

/-- How a request ends: with an answer of a work queue, or without having reached one. -/
inductive Reply (D : Type) where
  | answer (r : Resp D)
  | short (r : ApiResult)

/-- Where a client is, beyond the registry. -/
inductive User (D O : Type) where
  | free
  /-- Looks for the work queue to which `op` goes; `again` if this is the second message of `update_job`. -/
  | asking (req : Req D) (op : Option (Op D O)) (again : Bool)
  /-- The message is in the mailbox of work queue `q` (`queue.rs:429,458,492,526,556`). -/
  | posted (req : Req D) (op : Op D O) (again : Bool) (q : Nat)
  /-- The answer has come. -/
  | told (req : Req D) (again : Bool) (r : Resp D)
  | done (req : Req D) (r : Reply D)

/-- A work queue actor: its own state, its clock reads, what it has sent, and its mailbox. -/
structure Box (D O : Type) where
  proc : Proc D := {}
  reads : Nat := 0
  log : List Event := []
  mailbox : List (Nat × Op D O) := []

/-- What happens, as seen from outside: a request is made, a work queue takes a turn (for a client, or by itself), a
request returns. -/
inductive SiteEvent (D O : Type) where
  | call (c : Nat) (req : Req D)
  | turn (q : Nat) (who : Option Nat) (op : Op D O) (r : Resp D)
  | ret (c : Nat) (req : Req D) (r : Reply D)

/-- The whole process. `boxes q` belongs to `hub.queues[q]`; `stores` are the backends by their number. -/
structure Site (D O : Type) (B : Backend) where
  hub : Hub := {}
  boxes : Nat → Box D O := fun _ => {}
  stores : Nat → B.S
  users : Nat → User D O := fun _ => .free
  trace : List (SiteEvent D O) := []

/-- Steps. `client` and `engine` are those of the registry; `post`: a client sends its message, or ends because there is
no work queue; `handle`: a work queue takes a message; `turn`: a tick or a poll; `take`: a client takes its answer. -/
inductive SiteOp (D O : Type) where
  | begin (c : Nat) (req : Req D)
  | client (c : Nat) (choice : Bool)
  | engine (e : Nat)
  | post (c : Nat)
  | handle (q : Nat) (i : Nat)
  | turn (q : Nat) (op : Op D O)
  | take (c : Nat)

/-- Turns that no client asks for. -/
def Op.inner {D O : Type} : Op D O → Bool
  | .tick => true
  | .start _ => true
  | .finish _ _ => true
  | .userPanic _ => true
  | _ => false

namespace Site
variable {D O : Type} (E : Nat → Env D) (B : Backend) (clk : Nat → Nat → Time)

/-- Client `c` comes to `u`. -/
def go (t : Site D O B) (c : Nat) (u : User D O) : Site D O B := { t with users := upd t.users c u }

/-- Something is seen. -/
def see (t : Site D O B) (e : SiteEvent D O) : Site D O B := { t with trace := t.trace ++ [e] }

/-- Client `c` returns `r`. -/
def finish (t : Site D O B) (c : Nat) (req : Req D) (r : Reply D) : Site D O B := (t.go B c (.done req r)).see B (.ret c req r)

/-- Work queue `q`, an actor of type and name `a`, takes a turn on its backend (`Sys.step`). -/
def play (t : Site D O B) (q : Nat) (a : QueueActor) (who : Option Nat) (op : Op D O) : Site D O B × Resp D :=
  let x := t.boxes q
  let r := Sys.step (E a.ty) a.name B (clk q) ⟨⟨t.stores a.backend, x.reads, x.log⟩, x.proc.cfg, x.proc.tasks, x.proc.alive⟩ op
  (({ t with
      boxes := upd t.boxes q { x with proc := ⟨r.1.cfg, r.1.tasks, r.1.alive⟩, reads := r.1.w.t, log := r.1.w.log }
      stores := upd t.stores a.backend r.1.w.s }).see B (.turn q who op r.2), r.2)

/-- A client that is free makes a request. -/
def begin (t : Site D O B) (c : Nat) (req : Req D) : Site D O B :=
  let t' := ({ t with hub := t.hub.begin c req.call }.go B c (.asking req req.op false)).see B (.call c req)
  match t.users c with
  | .free => t'
  | .done _ _ => t'
  | _ => t

/-- A step of the registry for client `c`, unless it waits for the answer of a work queue. -/
def client (t : Site D O B) (c : Nat) (choice : Bool) : Site D O B := match t.hub.clients c with
  | .reading .. => t
  | _ => { t with hub := t.hub.client c choice }

/-- Put a message into the mailbox of work queue `q`. -/
def send (t : Site D O B) (c : Nat) (req : Req D) (op : Op D O) (again : Bool) (q : Nat) : Site D O B :=
  { t with boxes := upd t.boxes q { t.boxes q with mailbox := (t.boxes q).mailbox ++ [(c, op)] } }.go B c (.posted req op again q)

/-- Send the message to the work queue that was found, or end. -/
def post (t : Site D O B) (c : Nat) : Site D O B := match t.users c with
  | .asking req op again => match t.hub.clients c, op with
    | .done _ (.answer q), some o => t.send B c req o again q
    | .reading _ q _ _, some o => if again then t else t.send B c req o again q
    | .done _ r, _ => t.finish B c req (.short r)
    | _, _ => t
  | _ => t

/-- A work queue takes the first message of its mailbox. A dead one answers `MailboxError` (`Sys.deadResp`), in any
order. -/
def handle (t : Site D O B) (q i : Nat) : Site D O B := match t.hub.queues[q]? with
  | none => t
  | some a =>
    let i := if (t.boxes q).proc.alive then 0 else i
    match (t.boxes q).mailbox[i]? with
    | none => t
    | some (c, op) => match t.users c with
      | .posted req _ again _ =>
        let (t', r) := t.play E B clk q a (some c) op
        { t' with boxes := upd t'.boxes q { t'.boxes q with mailbox := (t'.boxes q).mailbox.eraseIdx i } }.go B c (.told req again r)
      | _ => t

/-- A work queue takes a turn by itself. -/
def turn (t : Site D O B) (q : Nat) (op : Op D O) : Site D O B := match t.hub.queues[q]? with
  | none => t
  | some a => if op.inner then (t.play E B clk q a none op).1 else t

/-- A client takes its answer. `update_job` (`aj.rs:203-214`) goes on with the job it has read, if there is one. -/
def take (t : Site D O B) (c : Nat) : Site D O B := match t.users c with
  | .told (.update ty name id data context) false r =>
    let answer := match r with
      | .job j => j
      | _ => none
    match Client.updateMsg (O := O) answer data context with
    | some op => { t with hub := t.hub.client c true }.go B c (.asking (.update ty name id data context) (some op) true)
    | none => { t with hub := t.hub.client c false }.finish B c (.update ty name id data context) (.answer (.unit (.ok ())))
  | .told req _ r => t.finish B c req (.answer r)
  | _ => t

def step (t : Site D O B) : SiteOp D O → Site D O B
  | .begin c req => t.begin B c req
  | .client c choice => t.client B c choice
  | .engine e => { t with hub := t.hub.engine e }
  | .post c => t.post B c
  | .handle q i => t.handle E B clk q i
  | .turn q op => t.turn E B clk q op
  | .take c => t.take B c

def run (t : Site D O B) (ops : List (SiteOp D O)) : Site D O B := ops.foldl (step E B clk) t

/-- Before anything has happened, with the given backends. -/
def init (stores : Nat → B.S) : Site D O B := { stores := stores }

end Site
end AJ
