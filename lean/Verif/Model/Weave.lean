import Verif.Model.Site
import Verif.Model.Many

/-!
# A whole process whose work queues interleave call by call

In `Site` a work queue takes a turn in one step. Every work queue actor has a thread of its own (`queue.rs:106-111`), and every
call of a backend is served by itself: the in-memory backend takes its lock for each call (`backend/mem.rs`), Redis serves one
command at a time. Here a turn is opened when the work queue takes a message or is woken, goes on by one backend call, clock read
or message at a time (`Prog.step1`), and is closed when its program has returned. Between these steps clients, the engine and
other work queues take steps.

Simplification: as in `Many`, the scan of a tick is granted as many rounds as there are queued entries, plus one, when the tick
begins.
-/

namespace AJ

/-- A turn in progress: the client for whom it is taken with the position of its message in the mailbox, the message, and what is
left of the turn. -/
structure Inside (D O : Type) where
  who : Option (Nat × Nat)
  op : Op D O
  rest : Prog (Proc D × Resp D)

/-- The whole process, and the turns in progress. The clock reads and messages of a turn in progress are already in its box. -/
structure Weave (D O : Type) (B : Backend) where
  site : Site D O B
  inside : Nat → Option (Inside D O) := fun _ => none

/-- A step of `Site`, where `handle` and `turn` only open the turn; or work queue `q` goes on with its turn. -/
inductive WeaveOp (D O : Type) where
  | site (op : SiteOp D O)
  | go (q : Nat)

namespace Weave
variable {D O : Type} (E : Nat → Env D) (B : Backend) (clk : Nat → Nat → Time)

/-- Work queue `q`, an actor of type and name `a`, begins a turn (`Proc.turn`). -/
def enter (f : Weave D O B) (q : Nat) (a : QueueActor) (who : Option (Nat × Nat)) (op : Op D O) : Weave D O B :=
  { f with inside := upd f.inside q (some ⟨who, op, (f.site.boxes q).proc.turn (E a.ty) a.name op⟩) }

/-- A work queue that is not inside a turn takes the first message of its mailbox (`Site.handle`). -/
def handle (f : Weave D O B) (q i : Nat) : Weave D O B := match f.inside q, f.site.hub.queues[q]? with
  | none, some a =>
    let i := if (f.site.boxes q).proc.alive then 0 else i
    match (f.site.boxes q).mailbox[i]? with
    | none => f
    | some (c, op) => match f.site.users c with
      | .posted .. => f.enter E B q a (some (c, i)) op
      | _ => f
  | _, _ => f

/-- A work queue that is not inside a turn begins a tick or a poll (`Site.turn`). -/
def turn (f : Weave D O B) (q : Nat) (op : Op D O) : Weave D O B := match f.inside q, f.site.hub.queues[q]? with
  | none, some a => if op.inner then f.enter E B q a none op else f
  | _, _ => f

/-- A turn is over: the actor has come to `p`, and the client, if there is one, is answered `r`. -/
def leave (f : Weave D O B) (q : Nat) (who : Option (Nat × Nat)) (op : Op D O) (p : Proc D) (r : Resp D) : Weave D O B :=
  let t := { f.site with boxes := upd f.site.boxes q { f.site.boxes q with proc := p } }.see B (.turn q (who.map Prod.fst) op r)
  { f with
    site := match who with
      | none => t
      | some (c, i) => match f.site.users c with
        | .posted req _ again _ =>
          { t with boxes := upd t.boxes q { t.boxes q with mailbox := (t.boxes q).mailbox.eraseIdx i } }.go B c (.told req again r)
        | _ => t
    inside := upd f.inside q none }

/-- One step inside a turn of work queue `q`, an actor of type and name `a`, of which `p` is left. -/
def move (f : Weave D O B) (q : Nat) (a : QueueActor) (x : Inside D O) : Weave D O B :=
  let y := x.rest.step1 B (clk q) ⟨f.site.stores a.backend, (f.site.boxes q).reads, (f.site.boxes q).log⟩
  { f with
    site := { f.site with
      boxes := upd f.site.boxes q { f.site.boxes q with reads := y.2.t, log := y.2.log }
      stores := upd f.site.stores a.backend y.2.s }
    inside := upd f.inside q (some { x with rest := y.1 }) }

/-- Work queue `q` goes on with its turn. -/
def go (f : Weave D O B) (q : Nat) : Weave D O B := match f.inside q, f.site.hub.queues[q]? with
  | some x, some a => match x.rest with
    | .ret (p, r) => f.leave B q x.who x.op p r
    | _ => f.move B clk q a x
  | _, _ => f

def step (f : Weave D O B) : WeaveOp D O → Weave D O B
  | .site (.handle q i) => f.handle E B q i
  | .site (.turn q op) => f.turn E B q op
  | .site op => { f with site := f.site.step E B clk op }
  | .go q => f.go B clk q

def run (f : Weave D O B) (ops : List (WeaveOp D O)) : Weave D O B := ops.foldl (step E B clk) f

/-- Before anything has happened, with the given backends. -/
def init (stores : Nat → B.S) : Weave D O B := { site := Site.init B stores }

end Weave
end AJ
