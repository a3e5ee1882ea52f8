import Verif.Model.Grant
import Verif.Spec.EndlessBoot

/-! # The calls of the code, and those of the model -/

namespace AJ
namespace Weave
variable {D O : Type} {B : Backend} (E : Nat → Env D) (clk : Nat → Nat → Time)

/-- The step begins a tick of a work queue that is alive. -/
def scans (f : Weave D O B) : WeaveOp D O → Option Nat
  | .site (.turn q .tick) => match f.inside q, f.site.hub.queues[q]? with
    | none, some _ => if (f.site.boxes q).proc.alive then some q else none
    | _, _ => none
  | _ => none

/-- The step with the call that `Weave` adds to it, if it begins a tick. -/
def spelt (f : Weave D O B) (o : WeaveOp D O) : List (WeaveOp D O) := match f.scans o with
  | some q => [o, .go q]
  | none => [o]

/-- All steps, with the calls that `Weave` adds. -/
def spelling (f : Weave D O B) : List (WeaveOp D O × Nat) → List (WeaveOp D O)
  | [] => []
  | o :: ops => f.spelt o.1 ++ spelling (f.stepIn E B clk o) ops

/-- A tick that begins is granted more rounds than there are queued entries. -/
def Ample (b : Impl) (f : Weave D O b.B) (o : WeaveOp D O × Nat) : Prop :=
  ∀ q a, f.scans o.1 = some q → f.site.hub.queues[q]? = some a → ((f.site.snap b E q a).lists .queued).length < o.2

/-- So are all ticks of a history. -/
def AllAmple (b : Impl) : Weave D O b.B → List (WeaveOp D O × Nat) → Prop
  | _, [] => True
  | f, o :: ops => f.Ample E b o ∧ AllAmple b (f.stepIn E b.B clk o) ops

/-- In this endless history of `Weave` the call that it adds to a tick comes at once. -/
def Prompt (f : Weave D O B) (hist : Nat → WeaveOp D O) : Prop :=
  ∀ n q, (Weave.after E B clk f hist n).scans (hist n) = some q → hist (n + 1) = .go q

end Weave

namespace BootIn
variable {D O : Type} (E : Nat → Env D)

/-- A process whose requests are about ids of their own type and use the names `N`. -/
def Fit (kind : Str → Nat) (N : Nat → Str) (l : BootIn D O) : Prop := ∀ c req n, (.site (.begin c req), n) ∈ l.ops → req.On kind ∧ req.Named N

/-- Every process starts at most one engine. -/
def Lone (B : Backend) : (Nat → B.S) → List (BootIn D O) → Prop
  | _, [] => True
  | s, l :: ls => (l.last E B s).site.hub.engines.length ≤ 1 ∧ Lone B (l.last E B s).site.stores ls

/-- The ticks of all processes are granted more rounds than there are queued entries. -/
def Ample (b : Impl) : (Nat → b.B.S) → List (BootIn D O) → Prop
  | _, [] => True
  | s, l :: ls => (Weave.init b.B s).AllAmple E l.clk b l.ops ∧ Ample b (l.last E b.B s).site.stores ls

/-- The same processes with the calls that `Weave` adds. -/
def counted (B : Backend) : (Nat → B.S) → List (BootIn D O) → List (Boot D O)
  | _, [] => []
  | s, l :: ls => ⟨l.clk, (Weave.init B s).spelling E l.clk l.ops⟩ :: counted B (l.last E B s).site.stores ls

end BootIn

/-- What is seen of a turn in progress: for whom it is taken, and which it is. -/
def Inside.head {D O : Type} (x : Inside D O) : Option (Nat × Nat) × Op D O := (x.who, x.op)

/-- Two states of a process that cannot be told apart: the registry, the work queues with their mailboxes, executions and logs, the
clients, what has been seen, what is stored, and which turns are in progress. -/
structure Weave.Same {D O : Type} (b : Impl) (E : Nat → Env D) (f g : Weave D O b.B) : Prop where
  hub : f.site.hub = g.site.hub
  boxes : f.site.boxes = g.site.boxes
  users : f.site.users = g.site.users
  trace : f.site.trace = g.site.trace
  snap : ∀ q a, f.site.snap b E q a = g.site.snap b E q a
  inside : ∀ q, (f.inside q).map Inside.head = (g.inside q).map Inside.head

end AJ
