import Verif.Model.Async
import Verif.Spec.Plugin

/-!
# Executions that suspend: vocabulary
-/

namespace AJ
variable {D O : Type}

/-- A message about the begin or the end of a run. -/
def Event.isHook : Event → Bool
  | .hookMsg _ _ => true
  | _ => false

/-- The task in the terms of `System.lean`: it has started once its user code has been entered. -/
def ATask.task (t : ATask D) : Task D := match t.phase with
  | .spawned => ⟨t.orig, none⟩
  | .before _ => ⟨t.orig, none⟩
  | .user j => ⟨t.orig, some j⟩
  | .after _ j => ⟨t.orig, some j⟩

/-- The work queue in the terms of `System.lean`. -/
def Async.sys {B : Backend} (f : Async D B) : Sys D B :=
  { w := f.w, cfg := f.cfg, tasks := f.tasks.map ATask.task, alive := f.alive }

/-- What is observed of it. -/
def Impl.asnap (b : Impl) (E : Env D) (name : Str) (f : Async D b.B) : Snap D := b.snap E name f.sys

/-- The turn in the terms of `System.lean`, if it is one there. -/
def AOp.coarse {B : Backend} (f : Async D B) : AOp D O → Option (Op D O)
  | .turn (.start _) => none
  | .turn (.finish _ _) => none
  | .turn (.userPanic _) => none
  | .turn op => some op
  | .poll i => match f.tasks[i]? with
    | some ⟨orig, .spawned⟩ => if orig.isCancelled then some (.start i) else none
    | _ => none
  | .enter i => match f.tasks[i]? with
    | some ⟨_, .before _⟩ => some (.start i)
    | _ => none
  | .leave _ => none
  | .settle i x => match f.tasks[i]? with
    | some ⟨_, .after _ _⟩ => some (.finish i x)
    | _ => none
  | .userPanic i => some (.userPanic i)

/-- The states a work queue whose executions suspend can reach from an empty backend, when the turns satisfy `P`. -/
inductive AReach (b : Impl) (E : Env D) (name : Str) (clk : Nat → Time) (P : Snap D → Op D O → Prop) : Async D b.B → Prop where
  | start : AReach b E name clk P (Async.init b.B b.empty)
  | step {f : Async D b.B} (a : AOp D O) : AReach b E name clk P f →
      (∀ op, a.coarse f = some op → P (b.asnap E name f) op) → AReach b E name clk P (Async.step E name b.B clk f a).1

/-- The same but for the messages about runs: all lists, jobs, executions, configuration, clock reads; all messages about
statuses and all runs of user code, in the same order. -/
structure Snap.Like (v v' : Snap D) : Prop where
  lists : v.lists = v'.lists
  job : v.job = v'.job
  tasks : v.tasks = v'.tasks
  cfg : v.cfg = v'.cfg
  alive : v.alive = v'.alive
  reads : v.reads = v'.reads
  log : v.log.filter (fun e => !e.isHook) = v'.log.filter (fun e => !e.isHook)

/-- A condition that does not look at the messages about runs. -/
def Deaf (P : Snap D → Op D O → Prop) : Prop := ∀ v v' op, v.Like v' → P v op → P v' op

/-- The parts of an execution so far. -/
def Phase.parts : Phase D → List Part
  | .spawned => []
  | .before _ => [.hook true]
  | .user _ => [.hook true, .code]
  | .after _ _ => [.hook true, .code, .hook true]

/-- The executions of `k` in flight. -/
def Async.own {B : Backend} (f : Async D B) (k : Str) : List (ATask D) := f.tasks.filter fun t => t.orig.id = k

/-- The turns of a history in the terms of `System.lean`. -/
def Async.coarsen (E : Env D) (name : Str) (B : Backend) (clk : Nat → Time) (f : Async D B) : List (AOp D O) → List (Op D O)
  | [] => []
  | a :: as => (a.coarse f).toList ++ Async.coarsen E name B clk (Async.step E name B clk f a).1 as

/-- What the work queue and the plugin centre can come to from an empty backend, when the turns of the work queue satisfy
`P`. -/
inductive HReach (b : Impl) (E : Env D) (name : Str) (clk : Nat → Time) (ty : Nat) (P : Snap D → Op D O → Prop) :
    Hooked D b.B → Prop where
  | start : HReach b E name clk ty P (Hooked.init b.B b.empty)
  | step {h : Hooked D b.B} (op : HOp D O) : HReach b E name clk ty P h →
      (∀ a o, op = .queue a → a.coarse h.q = some o → P (b.asnap E name h.q) o) →
      HReach b E name clk ty P (Hooked.step E name b.B clk ty h op)

/-- The message the task waits for the answer to (or has, once it is past its code). -/
def ATask.msg (t : ATask D) : Option Nat := match t.phase with
  | .before m => some m
  | .after m _ => some m
  | _ => none

/-- The hooks for message `r` of the centre: all calls it should lead to have been made. -/
def Hooked.Served {B : Backend} (h : Hooked D B) (r : Nat) : Prop := h.c.callsOf r = expected (mail h.centre) r

end AJ
