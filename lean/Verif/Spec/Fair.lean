import Verif.Spec.EndlessBoot

/-!
# Work queues of a process that are treated fairly

The hypotheses of C89 and C90. That ticks find free capacity is not among them, and nothing is asked of other jobs but that their
executions come to an end.
-/

namespace AJ

/-- In an endless history `ops` through the states `φ` of a process, in whose beginning the running list of work queue actor `q` had `lost`
entries: every execution comes to an end, ticks never cease to begin while the actor is alive, and the capacity exceeds `lost`. -/
structure Weave.RoomyOn {D O : Type} (b : Impl) (E : Nat → Env D) (lost q : Nat) (a : QueueActor) (φ : Nat → Weave D O b.B)
    (ops : Nat → WeaveOp D O) : Prop where
  ends : ∀ n id, id ∈ ((φ n).site.snap b E q a).inFlight → ∃ m, n ≤ m ∧ id ∉ ((φ m).site.snap b E q a).inFlight
  ticks : ∀ m, ∃ n, m ≤ n ∧ (φ n).ticks q (ops n) = true ∧ ((φ n).site.snap b E q a).alive = true
  capacity : ∀ n, (φ n).ticks q (ops n) = true → lost < ((φ n).site.snap b E q a).cfg.maxProcessingJobs

/-- Moreover, the user code leaves job `k` serialisable, and ticks see all queued entries (`Weave.BriefOn`). -/
structure Weave.FairOn {D O : Type} (b : Impl) (E : Nat → Env D) (k : Str) (lost q : Nat) (a : QueueActor) (φ : Nat → Weave D O b.B)
    (ops : Nat → WeaveOp D O) : Prop where
  code : Weave.EachRunOn b E k q a φ ops fun x job => x.Serialisable (E a.ty) job
  room : Weave.RoomyOn b E lost q a φ ops
  short : Weave.BriefOn b E q a φ ops

/-- In an endless history `ops` through the states `φ` client `c` submits `job` at step `n0`, no other request touches it, nobody stands
still, and the work queues of its type are treated fairly. -/
structure Weave.OfferOn {D O : Type} (b : Impl) (E : Nat → Env D) (kind : Str → Nat) (N : Nat → Str) (c ty : Nat)
    (nm : Str) (job : Job D) (cfg : EnqueueConfig) (n0 : Nat) (φ : Nat → Weave D O b.B) (ops : Nat → WeaveOp D O) : Prop where
  polite : ∀ n o, ops n = .site o → o.Polite N (φ n).site
  on : ∀ n d req, ops n = .site (.begin d req) → req.On kind
  call : ops n0 = .site (.begin c (.submit ty nm job cfg))
  free : (φ n0).site.users c = .free ∨ ∃ req r, (φ n0).site.users c = .done req r
  sole : ∀ n d req, n ≠ n0 → ops n = .site (.begin d req) → ¬ req.Touches job.id
  moves : Weave.MovesOn c ty φ ops
  fair : ∀ n q a, (φ n).site.hub.queues[q]? = some a → a.ty = ty → Weave.FairOn b E job.id 0 q a φ ops

/-- In an endless history `ops` through the states `φ`, begun on what earlier processes have left, where the running list of the work
queue had `lost` entries: requests are about ids of their own type and use the names `N`, none of them touches job `k`, at most one
engine is started, a work queue of type `ty` on backend `β` comes up, and such work queues are treated fairly. -/
structure Weave.InheritsOn {D O : Type} (b : Impl) (E : Nat → Env D) (kind : Str → Nat) (N : Nat → Str) (k : Str) (ty β lost : Nat)
    (φ : Nat → Weave D O b.B) (ops : Nat → WeaveOp D O) : Prop where
  fits : ∀ n d req, ops n = .site (.begin d req) → req.On kind ∧ req.Named N
  spares : ∀ n d req, ops n = .site (.begin d req) → ¬ req.Touches k
  one : ∀ n, (φ n).site.hub.engines.length ≤ 1
  up : ∃ (n q : Nat) (a : QueueActor), (φ n).site.hub.queues[q]? = some a ∧ a.ty = ty ∧ a.backend = β
  fair : ∀ (n q : Nat) (a : QueueActor), (φ n).site.hub.queues[q]? = some a → a.ty = ty → a.backend = β → Weave.FairOn b E k lost q a φ ops

end AJ
