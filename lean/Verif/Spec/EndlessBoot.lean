import Verif.Spec.EndlessWeave
import Verif.Spec.Reboot

/-!
# A later process that never ends

The hypotheses of C87: a process, begun on what earlier ones have left, in which a job that is waiting gets its chance.
-/

namespace AJ

/-- In an endless history `ops` through the states `φ`, begun on what earlier processes have left, the waiting job `k` gets its chance:
requests are about ids of their own type and use the names `N`, none of them touches the job, at most one engine is started, a work
queue of type `ty` on backend `β` comes up, and such work queues serve the job. -/
structure Weave.ResumesOn {D O : Type} (b : Impl) (E : Nat → Env D) (kind : Str → Nat) (N : Nat → Str) (k : Str) (ty β : Nat)
    (φ : Nat → Weave D O b.B) (ops : Nat → WeaveOp D O) : Prop where
  fits : ∀ n d req, ops n = .site (.begin d req) → req.On kind ∧ req.Named N
  spares : ∀ n d req, ops n = .site (.begin d req) → ¬ req.Touches k
  one : ∀ n, (φ n).site.hub.engines.length ≤ 1
  up : ∃ (n q : Nat) (a : QueueActor), (φ n).site.hub.queues[q]? = some a ∧ a.ty = ty ∧ a.backend = β
  serves : ∀ (n q : Nat) (a : QueueActor), (φ n).site.hub.queues[q]? = some a → a.ty = ty → a.backend = β →
    Weave.ServesOn b E k q a φ ops

/-- In the history of the process `f` in which it takes the steps `ops`. -/
abbrev Weave.Resumes {D O : Type} (b : Impl) (E : Nat → Env D) (clk : Nat → Nat → Time) (kind : Str → Nat) (N : Nat → Str) (k : Str) (ty β : Nat)
    (f : Weave D O b.B) (ops : Nat → WeaveOp D O) : Prop :=
  Weave.ResumesOn b E kind N k ty β (Weave.after E b.B clk f ops) ops

/-- In an endless history `ops` through the states `φ` client `c0`, alone, starts an engine with backend `β`; then clients submit every
type under a name of its own (`N`) and do not begin two first submissions of a type at once; client `c` submits a job of type `ty` at
step `n0`, and it and the engine do not stand still. -/
structure Weave.OpensOn {D O : Type} {B : Backend} (N : Nat → Str) (c0 β c ty n0 : Nat)
    (φ : Nat → Weave D O B) (ops : Nat → WeaveOp D O) : Prop where
  start : (List.range 7).map ops = (Site.starting c0 β).map .site
  polite : ∀ n o, 7 ≤ n → ops n = .site o → o.Polite N (φ n).site
  late : 7 ≤ n0
  call : ∃ nm job cfg, ops n0 = .site (.begin c (.submit ty nm job cfg))
  free : (φ n0).site.users c = .free ∨ ∃ req r, (φ n0).site.users c = .done req r
  client : ∀ m, ∃ n x, m ≤ n ∧ ops n = .site (.client c x)
  engine : ∀ m, ∃ n, m ≤ n ∧ ops n = .site (.engine 0)
  post : ∀ m, ∃ n, m ≤ n ∧ ops n = .site (.post c)

/-- In the history of the process `f` in which it takes the steps `ops`. -/
abbrev Weave.Opens {D O : Type} {B : Backend} (E : Nat → Env D) (clk : Nat → Nat → Time) (N : Nat → Str) (c0 β c ty n0 : Nat)
    (f : Weave D O B) (ops : Nat → WeaveOp D O) : Prop :=
  Weave.OpensOn N c0 β c ty n0 (Weave.after E B clk f ops) ops

/-- The job waits: it is stored as Queued, has one entry in the queued list and none in the running list. -/
structure Snap.Waiting {D : Type} (k : Str) (j : Job D) (v : Snap D) : Prop where
  job : v.job k = some j
  status : j.context.jobStatus = .queued
  queued : (v.lists .queued).count k = 1
  running : k ∉ v.lists .running

end AJ
