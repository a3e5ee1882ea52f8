import Verif.Spec.Site
import Verif.Spec.Queue

/-!
# From a request to an execution
-/

namespace AJ

/-- The message submits or cancels job `k`. -/
def Op.Touches {D O : Type} (k : Str) : Op D O → Prop
  | .enqueue job _ => job.id = k
  | .cancel id => id = k
  | _ => False

/-- The request submits, cancels or updates job `k`. -/
def Req.Touches {D : Type} (k : Str) : Req D → Prop
  | .submit _ _ job _ => job.id = k
  | .cancel _ id => id = k
  | .update _ _ id _ context => id = k ∨ ∃ x, context = some x ∧ x.jobId = k
  | _ => False

/-- The request sends the message, as its first one or, for `update_job`, as its second. -/
def Req.Sends {D O : Type} (req : Req D) (op : Op D O) : Prop :=
  req.op = some op ∨ ∃ ty n id data context j, req = .update ty n id data context ∧ op = updated j data context

/-- What is observable of work queue actor `q` of the process. -/
def Site.snap {D O : Type} (b : Impl) (E : Nat → Env D) (t : Site D O b.B) (q : Nat) (a : QueueActor) : Snap D :=
  b.snap (E a.ty) a.name (t.sys q a)

/-- The step is a tick of work queue actor `q`. -/
def SiteOp.ticks {D O : Type} (q : Nat) : SiteOp D O → Bool
  | .turn p .tick => p == q
  | _ => false

/-- The ticks of work queue actor `q` among the steps `ops` that find the actor alive with free capacity. -/
def Site.goodTicks {D O : Type} (b : Impl) (E : Nat → Env D) (clk : Nat → Nat → Time) (q : Nat) (a : QueueActor) :
    Site D O b.B → List (SiteOp D O) → Nat
  | _, [] => 0
  | t, o :: ops =>
    (if o.ticks q && (t.snap b E q a).alive && decide (1 ≤ (t.snap b E q a).free) then 1 else 0) +
      goodTicks b E clk q a (t.step E b.B clk o) ops

/-- No tick of work queue actor `q` among the steps finds more than `n` queued entries. -/
def Site.Short {D O : Type} (b : Impl) (E : Nat → Env D) (clk : Nat → Nat → Time) (n q : Nat) (a : QueueActor) :
    Site D O b.B → List (SiteOp D O) → Prop
  | _, [] => True
  | t, o :: ops => (o.ticks q = true → ((t.snap b E q a).lists .queued).length ≤ n) ∧ Short b E clk n q a (t.step E b.B clk o) ops

/-- Two observations that differ at most in what is stored under ids not in `K`. -/
structure Snap.Alike {D : Type} (K : Str → Prop) (v v' : Snap D) : Prop where
  lists : v.lists = v'.lists
  tasks : v.tasks = v'.tasks
  cfg : v.cfg = v'.cfg
  alive : v.alive = v'.alive
  reads : v.reads = v'.reads
  log : v.log = v'.log
  job : ∀ k, K k → v.job k = v'.job k

/-- The state of a work queue to which `job` was submitted at most once, and that took otherwise only turns with `P`. -/
def AtMostOnce {D O : Type} (b : Impl) (E : Env D) (name : Str) (clk : Nat → Time) (P : Op D O → Prop) (job : Job D) (cfg : EnqueueConfig)
    (s : Sys D b.B) : Prop :=
  Reach b E name clk (fun _ op => P op) s ∨
    ∃ s0, Reach b E name clk (fun _ op => P op) s0 ∧ Later b E name clk (fun _ op => P op) (Sys.step E name b.B clk s0 (.enqueue job cfg : Op D O)).1 s

/-- A discipline of the clients of a process: type `ty` is only submitted under the name `N ty`, and a submission of a
type without queue only begins when no other submission of the type is under way. -/
def SiteOp.Polite {D O : Type} {B : Backend} (N : Nat → Str) (t : Site D O B) : SiteOp D O → Prop
  | .begin c req => (HubOp.begin c req.call).Orderly N t.hub
  | _ => True

/-- A history in which all requests follow this discipline. -/
def Site.PoliteRun {D O : Type} {B : Backend} (E : Nat → Env D) (clk : Nat → Nat → Time) (N : Nat → Str) : Site D O B → List (SiteOp D O) → Prop
  | _, [] => True
  | t, o :: ops => o.Polite N t ∧ PoliteRun E clk N (t.step E B clk o) ops

/-- Client `c` starts an engine with backend `b`, alone. -/
def Site.starting {D O : Type} (c b : Nat) : List (SiteOp D O) :=
  [.begin c (.start b), .client c false, .client c false, .client c false, .client c false, .client c false, .post c]

/-- Steps that bring a request to its work queue: of client `c`, `k` of the engine, and the sending of the message. -/
def Site.road {D O : Type} (c : Nat) (xs : List Bool) (k : Nat) : List (SiteOp D O) :=
  xs.map (.client c ·) ++ (List.replicate k (.engine 0) ++ [.post c])

/-- The engines never have more than `n` messages in their mailboxes. -/
def Site.Few {D O : Type} {B : Backend} (E : Nat → Env D) (clk : Nat → Nat → Time) (n : Nat) (t : Site D O B) (ops : List (SiteOp D O)) : Prop :=
  ∀ p, p <+: ops → ∀ e ∈ (t.run E B clk p).hub.engines, e.mailbox.length ≤ n

end AJ
