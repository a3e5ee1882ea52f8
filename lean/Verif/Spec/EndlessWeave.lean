import Verif.Spec.EndlessSite
import Verif.Spec.Weave

/-!
# Endless histories of a whole process whose work queues interleave call by call

The hypotheses of C86: those of `Spec/EndlessSite.lean`, where turns are begun and ended in steps of their own.
-/

namespace AJ

/-- The process after `n` steps of an endless history. -/
def Weave.after {D O : Type} (E : Nat → Env D) (B : Backend) (clk : Nat → Nat → Time) (f : Weave D O B) (ops : Nat → WeaveOp D O) : Nat → Weave D O B
  | 0 => f
  | n + 1 => (Weave.after E B clk f ops n).step E B clk (ops n)

/-- Every run of job `k` whose last turn work queue actor `q` begins in an endless history `ops` through the states `φ` satisfies `P`:
`P x job` is asked of what the user code does (`x`) and of the job that it was given. -/
def Weave.EachRunOn {D O : Type} (b : Impl) (E : Nat → Env D) (k : Str) (q : Nat) (a : QueueActor)
    (φ : Nat → Weave D O b.B) (ops : Nat → WeaveOp D O) (P : Executable D O → Job D → Prop) : Prop :=
  ∀ n i x orig job, ops n = .site (.turn q (.finish i x)) → (φ n).inside q = none →
    ((φ n).site.snap b E q a).tasks[i]? = some ⟨orig, some job⟩ → orig.id = k → P x job

/-- In the history of the process `f` in which it takes the steps `ops`. -/
abbrev Weave.EachRun {D O : Type} (b : Impl) (E : Nat → Env D) (clk : Nat → Nat → Time) (k : Str) (q : Nat) (a : QueueActor)
    (f : Weave D O b.B) (ops : Nat → WeaveOp D O) (P : Executable D O → Job D → Prop) : Prop :=
  Weave.EachRunOn b E k q a (Weave.after E b.B clk f ops) ops P

/-- In an endless history `ops` through the states `φ` no tick of work queue actor `q` finds more than 20 queued entries when it begins, or
again and again its ticks leave capacity free when they end (as `Sys.Brief`). -/
def Weave.BriefOn {D O : Type} (b : Impl) (E : Nat → Env D) (q : Nat) (a : QueueActor) (φ : Nat → Weave D O b.B) (ops : Nat → WeaveOp D O) : Prop :=
  (∀ n, (φ n).ticks q (ops n) = true → (((φ n).site.snap b E q a).lists .queued).length ≤ 20) ∨
  ∀ m, ∃ n, m ≤ n ∧ Weave.ticking ((φ n).inside q) = true ∧ (φ (n + 1)).inside q = none ∧ ((φ (n + 1)).site.snap b E q a).Slack

/-- In an endless history `ops` through the states `φ` work queue actor `q` gives job `k` its chance: its user code leaves it
serialisable and comes to an end, and ticks never cease to begin with free capacity, which see all queued entries
(`Weave.BriefOn`). -/
structure Weave.ServesOn {D O : Type} (b : Impl) (E : Nat → Env D) (k : Str) (q : Nat) (a : QueueActor)
    (φ : Nat → Weave D O b.B) (ops : Nat → WeaveOp D O) : Prop where
  code : Weave.EachRunOn b E k q a φ ops fun x job => x.Serialisable (E a.ty) job
  ends : ∀ n, k ∈ ((φ n).site.snap b E q a).inFlight → ∃ m, n ≤ m ∧ k ∉ ((φ m).site.snap b E q a).inFlight
  ticks : ∀ m, ∃ n, m ≤ n ∧ (φ n).ticks q (ops n) = true ∧ ((φ n).site.snap b E q a).alive = true ∧ 1 ≤ ((φ n).site.snap b E q a).free
  short : Weave.BriefOn b E q a φ ops

/-- In the history of the process `f` in which it takes the steps `ops`. -/
abbrev Weave.Serves {D O : Type} (b : Impl) (E : Nat → Env D) (clk : Nat → Nat → Time) (k : Str) (q : Nat) (a : QueueActor)
    (f : Weave D O b.B) (ops : Nat → WeaveOp D O) : Prop :=
  Weave.ServesOn b E k q a (Weave.after E b.B clk f ops) ops

/-- In an endless history `ops` through the states `φ` nobody stands still: client `c` and the engine take steps again and again, and
the work queues of type `ty`, when they are not inside a turn, turn to their mailboxes while there are messages for them. -/
structure Weave.MovesOn {D O : Type} {B : Backend} (c ty : Nat) (φ : Nat → Weave D O B) (ops : Nat → WeaveOp D O) : Prop where
  client : ∀ m, ∃ n x, m ≤ n ∧ ops n = .site (.client c x)
  engine : ∀ m, ∃ n, m ≤ n ∧ ops n = .site (.engine 0)
  post : ∀ m, ∃ n, m ≤ n ∧ ops n = .site (.post c)
  takes : ∀ m q a, (φ m).site.hub.queues[q]? = some a → a.ty = ty → ((φ m).site.boxes q).mailbox ≠ [] →
    ∃ n, m ≤ n ∧ ops n = .site (.handle q 0) ∧ (φ n).inside q = none

/-- In the history of the process `f` in which it takes the steps `ops`. -/
abbrev Weave.Moves {D O : Type} {B : Backend} (E : Nat → Env D) (clk : Nat → Nat → Time) (c ty : Nat) (f : Weave D O B)
    (ops : Nat → WeaveOp D O) : Prop :=
  Weave.MovesOn c ty (Weave.after E B clk f ops) ops

/-- In an endless history `ops` through the states `φ` client `c` submits `job` at step `n0` and the job gets its chance (as
`Site.Chance`). -/
structure Weave.ChanceOn {D O : Type} (b : Impl) (E : Nat → Env D) (kind : Str → Nat) (N : Nat → Str) (c ty : Nat)
    (nm : Str) (job : Job D) (cfg : EnqueueConfig) (n0 : Nat) (φ : Nat → Weave D O b.B) (ops : Nat → WeaveOp D O) : Prop where
  polite : ∀ n o, ops n = .site o → o.Polite N (φ n).site
  on : ∀ n d req, ops n = .site (.begin d req) → req.On kind
  call : ops n0 = .site (.begin c (.submit ty nm job cfg))
  free : (φ n0).site.users c = .free ∨ ∃ req r, (φ n0).site.users c = .done req r
  sole : ∀ n d req, n ≠ n0 → ops n = .site (.begin d req) → ¬ req.Touches job.id
  moves : Weave.MovesOn c ty φ ops
  serves : ∀ n q a, (φ n).site.hub.queues[q]? = some a → a.ty = ty → Weave.ServesOn b E job.id q a φ ops

/-- In the history of the process `f` in which it takes the steps `ops`. -/
abbrev Weave.Chance {D O : Type} (b : Impl) (E : Nat → Env D) (clk : Nat → Nat → Time) (kind : Str → Nat) (N : Nat → Str) (c ty : Nat)
    (nm : Str) (job : Job D) (cfg : EnqueueConfig) (n0 : Nat) (f : Weave D O b.B) (ops : Nat → WeaveOp D O) : Prop :=
  Weave.ChanceOn b E kind N c ty nm job cfg n0 (Weave.after E b.B clk f ops) ops

end AJ
