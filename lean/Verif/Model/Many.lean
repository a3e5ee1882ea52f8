import Verif.Model.Duo

/-!
# Work queues of several job types on one backend

Every job type has a work queue actor of its own (`queue.rs:105-113`), and actors of different types may run on
different threads or in different processes. They share the backend: the in-memory backend is one value behind a lock
(`backend/mem.rs`) and every call of it holds the lock; on Redis every call of a work queue is one command. So the
steps of different work queues interleave call by call.

Here the turns of `System.lean` are written as programs, so that they can be interrupted between any two calls.
-/

namespace AJ

/-- The end of a program as a value, whatever it is. -/
def Prog.attempt {α : Type} : Prog α → Prog (Out α)
  | .ret a => .ret (.ok a)
  | .fail e => .ret (.err e)
  | .panic => .ret .panicked
  | .diverge => .ret .diverged
  | .call op k => .call op fun r => (k r).attempt
  | .now k => .now fun t => (k t).attempt
  | .emit e k => .emit e k.attempt

namespace Proc
variable {D O : Type} (E : Env D) (name : Str)

/-- An actor that has gone down: its tasks are dropped. -/
def down (p : Proc D) : Proc D := { p with tasks := [], alive := false }

/-- `Sys.handle` as a program. -/
def handle {α : Type} (p : Proc D) (q : Prog α) (dead : Resp D) (f : Except Error α → Resp D) : Prog (Proc D × Resp D) :=
  q.attempt.bind fun
    | .ok a => .ret (p, f (.ok a))
    | .err e => .ret (p, f (.error e))
    | .panicked => .ret (p.down, dead)
    | .diverged => .ret (p.down, dead)

/-- `Sys.step` as a program. The first call of a tick reads the rounds granted to its scan (`Sys.tickFuel`); it is
not a call of the code, and changes nothing. -/
def turn (p : Proc D) (op : Op D O) : Prog (Proc D × Resp D) :=
  if p.alive then
    match op with
    | .enqueue job cfg => p.handle (WorkQueue.runWithConfig E name job cfg) (Sys.deadResp op) .unit
    | .cancel id => p.handle (WorkQueue.cancelJob E name id) (Sys.deadResp op) .unit
    | .get id => p.handle (WorkQueue.getJob E id) (Sys.deadResp op)
        (fun r => match r with
          | .ok j => .job j
          | .error _ => .job none)
    | .retry id => p.handle (WorkQueue.retryJob E name id) (Sys.deadResp op) .bool
    | .config c => .ret ({ p with cfg := c }, .unit (.ok ()))
    | .tick =>
      (Prog.queueCount (formatQueueName name .queued)).bind fun r =>
        let fuel := match r with
          | .ok n => n + 1
          | .error _ => 1
        (WorkQueue.pickJobsToProcess E name fuel p.cfg).attempt.bind fun
          | .ok jobs => .ret ({ p with tasks := p.tasks ++ jobs.map (fun j => ⟨j, none⟩) }, .silent)
          | .err _ => .ret (p, .silent)
          | _ => .ret (p.down, .silent)
    | .start i =>
      match p.tasks[i]? with
      | some ⟨orig, none⟩ =>
        (WorkQueue.executeStart name orig).attempt.bind fun
          | .ok (some job) => .ret ({ p with tasks := p.tasks.set i ⟨orig, some job⟩ }, .silent)
          | .ok none => .ret ({ p with tasks := p.tasks.eraseIdx i }, .silent)
          | _ => .ret (p.down, .silent)
      | _ => .ret (p, .silent)
    | .finish i x =>
      match p.tasks[i]? with
      | some ⟨orig, some job⟩ =>
        (WorkQueue.taskFinish E name x orig job).attempt.bind fun
          | .ok _ => .ret ({ p with tasks := p.tasks.eraseIdx i }, .silent)
          | _ => .ret (p.down, .silent)
      | _ => .ret (p, .silent)
    | .userPanic i =>
      match p.tasks[i]? with
      | some ⟨_, some _⟩ => .ret (p.down, .silent)
      | _ => .ret (p, .silent)
  else .ret (p, Sys.deadResp op)

/-- A history of turns as one program that returns the answers (`Sys.runOps`). -/
def history (p : Proc D) : List (Op D O) → Prog (Proc D × List (Resp D))
  | [] => .ret (p, [])
  | op :: ops => (p.turn E name op).bind fun a => (history a.1 ops).bind fun c => .ret (c.1, a.2 :: c.2)

end Proc

/-- Several parties, each inside a program, and the backend they share. Each has its own clock and messages. -/
structure Many (ι : Type) (B : Backend) (α : ι → Type) where
  s : B.S
  prog : ∀ i, Prog (α i)
  t : ι → Nat := fun _ => 0
  log : ι → List Event := fun _ => []

namespace Many
variable {ι : Type} {B : Backend} {α : ι → Type}

/-- What party `i` has before it. -/
def world (m : Many ι B α) (i : ι) : World B := ⟨m.s, m.t i, m.log i⟩

/-- One step of party `i`: a backend call, a clock read or a message. -/
def step [DecidableEq ι] (B : Backend) (clk : ι → Nat → Time) (m : Many ι B α) (i : ι) : Many ι B α :=
  let r := (m.prog i).step1 B (clk i) (m.world i)
  { s := r.2.s
    prog := fun j => if h : i = j then h ▸ r.1 else m.prog j
    t := upd m.t i r.2.t
    log := upd m.log i r.2.log }

/-- An interleaving. -/
def run [DecidableEq ι] (B : Backend) (clk : ι → Nat → Time) (m : Many ι B α) (sched : List ι) : Many ι B α :=
  sched.foldl (step B clk) m

/-- Freshly started work queues, each with a history to go through. -/
def start (B : Backend) {D O : ι → Type} (E : ∀ i, Env (D i)) (name : ι → Str) (ops : ∀ i, List (Op (D i) (O i))) (s : B.S) :
    Many ι B fun i => Proc (D i) × List (Resp (D i)) :=
  { s := s, prog := fun i => ({} : Proc (D i)).history (E i) (name i) (ops i) }

end Many
end AJ
