import Verif.Model.Plugin
import Verif.Spec.Queue

/-!
# What plugins see
-/

namespace AJ

/-- The messages of a history, in order. -/
def mail (ops : List CentreOp) : List PluginMsg :=
  ops.filterMap fun op => match op with
    | .deliver m _ => some m
    | _ => none

/-- The plugins among some messages, in order. -/
def registered (ms : List PluginMsg) : List Plugin :=
  ms.filterMap fun m => match m with
    | .register p => some p
    | _ => none

/-- A plugin wants a job type if it was registered for no type in particular or for this one. -/
def Plugin.Wants (p : Plugin) (ty : Nat) : Prop := p.types = [] ∨ ty ∈ p.types

instance (p : Plugin) (ty : Nat) : Decidable (p.Wants ty) := inferInstanceAs (Decidable (_ ∨ _))

/-- The job type and the hook a message is about. -/
def PluginMsg.hook? : PluginMsg → Option (Nat × HookCall)
  | .register _ => none
  | .changeStatus ty id st => some (ty, .changeStatus id st)
  | .runHook ty id true => some (ty, .beforeRun id)
  | .runHook ty id false => some (ty, .afterRun id)

/-- The calls message number `m` should lead to: plugin and hook. The plugins are those registered before it
that want its job type, in the order of their registration. -/
def expected (ms : List PluginMsg) (m : Nat) : List (Nat × HookCall) :=
  match ms[m]? >>= PluginMsg.hook? with
  | none => []
  | some (ty, call) =>
    ((registered (ms.take m)).zipIdx.filter fun q => decide (q.1.Wants ty)).map fun q => (q.2, call)

namespace Centre

/-- The calls made so far because of message number `m`. -/
def callsOf (c : Centre) (m : Nat) : List (Nat × HookCall) :=
  (c.calls.filter fun q => q.1 = m).map (·.2)

/-- The calls plugin `p` has received so far. -/
def seenBy (c : Centre) (p : Nat) : List HookCall :=
  (c.calls.filter fun q => q.2.1 = p).map (·.2.2)

/-- The statuses of job `k` that plugin `p` was notified of so far. -/
def told (c : Centre) (p : Nat) (k : Str) : List JobStatus :=
  (c.seenBy p).filterMap fun h => match h with
    | .changeStatus id st => if id = k then some st else none
    | _ => none

/-- No task is suspended. -/
def Quiet (c : Centre) : Prop := ∀ f ∈ c.tasks, f.rest = []

end Centre

/-- No hook panics. -/
def NoPanic (ops : List CentreOp) : Prop := ∀ i, .panic i ∉ ops

/-- The plugins before number `p` do not suspend: the task of every message comes to plugin `p` in its first
poll. -/
def ReachedAtOnce (p : Nat) (ops : List CentreOp) : Prop := ∀ m n, .deliver m n ∈ ops → p < n

/-- The statuses of `k` in messages to the centre. -/
def statusesOf (k : Str) (ms : List PluginMsg) : List (Nat × JobStatus) :=
  ms.filterMap fun m => match m with
    | .changeStatus ty id st => if id = k then some (ty, st) else none
    | _ => none

/-- The statuses of `k` a work queue sent. -/
def Snap.sent {D : Type} (v : Snap D) (k : Str) : List JobStatus :=
  (v.mine k).filterMap fun e => match e with
    | .statusMsg _ st => some st
    | _ => none

/-- A part of the execution of a job: a message to the plugins that it starts or has ended, or the user code. -/
inductive Part where
  | hook (before : Bool)
  | code
  deriving DecidableEq, Repr

/-- The parts of the executions of `k` so far, in order. -/
def Snap.parts {D : Type} (v : Snap D) (k : Str) : List Part :=
  (v.mine k).filterMap fun e => match e with
    | .hookMsg _ b => some (.hook b)
    | .ran _ => some .code
    | .statusMsg _ _ => none

/-- The messages about executions of `k` to the centre. -/
def hooksOf (k : Str) (ms : List PluginMsg) : List (Nat × Bool) :=
  ms.filterMap fun m => match m with
    | .runHook ty id b => if id = k then some (ty, b) else none
    | _ => none

/-- The messages about executions of `k` a work queue sent. -/
def Snap.hooks {D : Type} (v : Snap D) (k : Str) : List Bool :=
  (v.parts k).filterMap fun e => match e with
    | .hook b => some b
    | .code => none

/-- The calls of `before_run` and `after_run` for job `k` that plugin `p` has received so far. -/
def Centre.around (c : Centre) (p : Nat) (k : Str) : List HookCall :=
  (c.seenBy p).filter fun h => h = .beforeRun k ∨ h = .afterRun k

/-- An execution of `k` is inside user code. -/
def Snap.executing {D : Type} (v : Snap D) (k : Str) : Bool := (v.own k).any fun t => t.executing.isSome

end AJ
