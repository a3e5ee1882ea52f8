import Verif.Model.Weave
import Verif.Spec.EndToEnd

/-! # Turns that interleave, one after the other -/

namespace AJ
namespace Weave
variable {D O : Type} {B : Backend} (E : Nat → Env D) (clk : Nat → Nat → Time)

/-- The turn that ends with this step, taken in one step; or the step itself, if it is not about a turn. -/
def closed (f : Weave D O B) : WeaveOp D O → List (SiteOp D O)
  | .site (.handle _ _) => []
  | .site (.turn _ _) => []
  | .site op => [op]
  | .go q => match f.inside q with
    | some x => match x.rest, x.who with
      | .ret _, none => [.turn q x.op]
      | .ret _, some (_, i) => [.handle q i]
      | _, _ => []
    | none => []

/-- The same steps with every turn taken in one step, at the moment at which it ends. -/
def serial (f : Weave D O B) : List (WeaveOp D O) → List (SiteOp D O)
  | [] => []
  | op :: ops => f.closed op ++ serial (f.step E B clk op) ops

/-- How often work queue `q`, not inside a turn, turns to the front of its mailbox. -/
def looks (q : Nat) (f : Weave D O B) : List (WeaveOp D O) → Nat
  | [] => 0
  | op :: ops => (match op with
    | .site o => if o.takes q && (f.inside q).isNone then 1 else 0
    | .go _ => 0) + looks q (f.step E B clk op) ops

/-- The step begins a tick of work queue `q`. -/
def ticks {D O : Type} {B : Backend} (f : Weave D O B) (q : Nat) : WeaveOp D O → Bool
  | .site o => o.ticks q && (f.inside q).isNone
  | .go _ => false

/-- The turn in progress is a tick. -/
def ticking {D O : Type} : Option (Inside D O) → Bool
  | some ⟨none, .tick, _⟩ => true
  | _ => false

/-- The ticks of work queue actor `q` begun among the steps `ops` with the actor alive and with free capacity. -/
def goodTicks (b : Impl) (q : Nat) (a : QueueActor) : Weave D O b.B → List (WeaveOp D O) → Nat
  | _, [] => 0
  | f, o :: ops =>
    (if f.ticks q o && (f.site.snap b E q a).alive && decide (1 ≤ (f.site.snap b E q a).free) then 1 else 0) +
      goodTicks b q a (f.step E b.B clk o) ops

/-- No tick of work queue actor `q` begun among the steps finds more than `n` queued entries. -/
def Short (b : Impl) (n q : Nat) (a : QueueActor) : Weave D O b.B → List (WeaveOp D O) → Prop
  | _, [] => True
  | f, o :: ops => (f.ticks q o = true → ((f.site.snap b E q a).lists .queued).length ≤ n) ∧ Short b n q a (f.step E b.B clk o) ops

/-- A history in which all requests follow the discipline of `SiteOp.Polite`. -/
def PoliteRun (N : Nat → Str) : Weave D O B → List (WeaveOp D O) → Prop
  | _, [] => True
  | f, o :: ops => (match o with
    | .site o => o.Polite N f.site
    | .go _ => True) ∧ PoliteRun N (f.step E B clk o) ops

/-- The engines never have more than `n` messages in their mailboxes. -/
def Few (n : Nat) (f : Weave D O B) (ops : List (WeaveOp D O)) : Prop :=
  ∀ p, p <+: ops → ∀ e ∈ (f.run E B clk p).site.hub.engines, e.mailbox.length ≤ n

end Weave

end AJ
