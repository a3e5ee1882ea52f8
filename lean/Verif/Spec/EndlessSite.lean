import Verif.Spec.EndToEnd
import Verif.Spec.Endless

/-!
# Endless histories of a whole process

Read this file to see what is asked of the surroundings in C85.
-/

namespace AJ

/-- The process after `n` steps of an endless history. -/
def Site.after {D O : Type} (E : Nat → Env D) (B : Backend) (clk : Nat → Nat → Time) (t : Site D O B) (ops : Nat → SiteOp D O) : Nat → Site D O B
  | 0 => t
  | n + 1 => (Site.after E B clk t ops n).step E B clk (ops n)

/-- Every run of job `k` that comes to its end on work queue actor `q` in this endless history satisfies `P`: `P x job` is asked
of what the user code does (`x`) and of the job that it was given. -/
def Site.EachRun {D O : Type} (b : Impl) (E : Nat → Env D) (clk : Nat → Nat → Time) (k : Str) (q : Nat) (a : QueueActor)
    (t : Site D O b.B) (ops : Nat → SiteOp D O) (P : Executable D O → Job D → Prop) : Prop :=
  ∀ n i x orig job, ops n = .turn q (.finish i x) → ((Site.after E b.B clk t ops n).snap b E q a).tasks[i]? = some ⟨orig, some job⟩ →
    orig.id = k → P x job

/-- No tick of work queue actor `q` finds more than 20 queued entries, or its ticks again and again leave capacity free (as `Sys.Brief`). -/
def Site.Brief {D O : Type} (b : Impl) (E : Nat → Env D) (clk : Nat → Nat → Time) (q : Nat) (a : QueueActor)
    (t : Site D O b.B) (ops : Nat → SiteOp D O) : Prop :=
  (∀ n, (ops n).ticks q = true → (((Site.after E b.B clk t ops n).snap b E q a).lists .queued).length ≤ 20) ∨
  ∀ m, ∃ n, m ≤ n ∧ (ops n).ticks q = true ∧ ((Site.after E b.B clk t ops (n + 1)).snap b E q a).Slack

/-- In this endless history work queue actor `q` gives job `k` its chance: its user code leaves it serialisable and comes to an end,
and ticks with free capacity never cease, which see all queued entries (as `Sys.Serves`). -/
structure Site.Serves {D O : Type} (b : Impl) (E : Nat → Env D) (clk : Nat → Nat → Time) (k : Str) (q : Nat) (a : QueueActor)
    (t : Site D O b.B) (ops : Nat → SiteOp D O) : Prop where
  code : t.EachRun b E clk k q a ops fun x job => x.Serialisable (E a.ty) job
  ends : ∀ n, k ∈ ((Site.after E b.B clk t ops n).snap b E q a).inFlight →
    ∃ m, n ≤ m ∧ k ∉ ((Site.after E b.B clk t ops m).snap b E q a).inFlight
  ticks : ∀ m, ∃ n, m ≤ n ∧ (ops n).ticks q = true ∧ ((Site.after E b.B clk t ops n).snap b E q a).alive = true ∧
    1 ≤ ((Site.after E b.B clk t ops n).snap b E q a).free
  short : t.Brief b E clk q a ops

/-- In this endless history nobody stands still: client `c` and the engine take steps again and again, and so do the work queues of
type `ty` while there are messages for them. -/
structure Site.Moves {D O : Type} {B : Backend} (E : Nat → Env D) (clk : Nat → Nat → Time) (c ty : Nat) (t : Site D O B)
    (ops : Nat → SiteOp D O) : Prop where
  client : ∀ m, ∃ n x, m ≤ n ∧ ops n = .client c x
  engine : ∀ m, ∃ n, m ≤ n ∧ ops n = .engine 0
  post : ∀ m, ∃ n, m ≤ n ∧ ops n = .post c
  takes : ∀ m q a, (Site.after E B clk t ops m).hub.queues[q]? = some a → a.ty = ty →
    ((Site.after E B clk t ops m).boxes q).mailbox ≠ [] → ∃ n, m ≤ n ∧ (ops n).takes q = true

/-- In this endless history client `c` submits `job` at step `n0` and the job gets its chance: clients submit every type under a
name of its own (`N`) and do not begin two first submissions of a type at once, types have ids of their own (`kind`), no other
request submits, cancels or updates the job, nobody stands still, and the work queues of type `ty` serve it. -/
structure Site.Chance {D O : Type} (b : Impl) (E : Nat → Env D) (clk : Nat → Nat → Time) (kind : Str → Nat) (N : Nat → Str) (c ty : Nat)
    (nm : Str) (job : Job D) (cfg : EnqueueConfig) (n0 : Nat) (t : Site D O b.B) (ops : Nat → SiteOp D O) : Prop where
  polite : ∀ n, (ops n).Polite N (Site.after E b.B clk t ops n)
  on : ∀ n d req, ops n = .begin d req → req.On kind
  call : ops n0 = .begin c (.submit ty nm job cfg)
  free : (Site.after E b.B clk t ops n0).users c = .free ∨ ∃ req r, (Site.after E b.B clk t ops n0).users c = .done req r
  sole : ∀ n d req, n ≠ n0 → ops n = .begin d req → ¬ req.Touches job.id
  moves : Site.Moves E clk c ty t ops
  serves : ∀ n q a, (Site.after E b.B clk t ops n).hub.queues[q]? = some a → a.ty = ty → Site.Serves b E clk job.id q a t ops

end AJ
