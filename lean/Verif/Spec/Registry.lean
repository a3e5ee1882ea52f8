import Verif.Model.Registry

/-!
# What is said about the registry
-/

namespace AJ

/-- The client found no engine and is about to make its own the engine of the process. -/
def ClientPc.Starting : ClientPc → Prop
  | .create .. => True
  | .lock .. => True
  | .write .. => True
  | _ => False

instance (pc : ClientPc) : Decidable pc.Starting := by cases pc <;> (simp only [ClientPc.Starting]; infer_instance)

/-- The client is at work on a first submission of type `ty`: it has begun it, or found no queue, or waits for one. -/
def ClientPc.Opening (ty : Nat) : ClientPc → Prop
  | .begun (.submit t _) => t = ty
  | .ask _ t _ => t = ty
  | .waiting _ _ t _ => t = ty
  | _ => False

/-- The request submits a job of type `ty`, under the name `name`. -/
def ApiCall.submits (ty : Nat) (name : Str) : ApiCall → Prop
  | .submit t n => t = ty ∧ n = name
  | .update t n => t = ty ∧ n = name
  | _ => False

namespace Hub

/-- An engine runs, it is the engine of the process, and no client is about to put another in its place. -/
structure Running (h : Hub) (e : Nat) : Prop where
  addr : h.addr = some e
  calm : ∀ c, ¬ (h.clients c).Starting

/-- At most one work queue of every type, and of every name. -/
structure Once (h : Hub) : Prop where
  types : ∀ (p q : Nat) (a b : QueueActor),
    h.queues[p]? = some a → h.queues[q]? = some b → a.ty = b.ty → p = q
  names : ∀ (p q : Nat) (a b : QueueActor),
    h.queues[p]? = some a → h.queues[q]? = some b → a.name = b.name → p = q

/-- The queue registered for a type is a queue of this type, and the one registered for a name has this name. -/
structure Filed (h : Hub) : Prop where
  types : ∀ ty q, h.byType ty = some q → ∃ a, h.queues[q]? = some a ∧ a.ty = ty
  names : ∀ n q, h.byName n = some q → ∃ a, h.queues[q]? = some a ∧ a.name = n

/-- Types keep the queue they have. -/
def Keeps (h h' : Hub) : Prop := ∀ ty q, h.byType ty = some q → h'.byType ty = some q

/-- Nothing but the place of one client differs. -/
def SameBut (c : Nat) (h h' : Hub) : Prop :=
  h'.addr = h.addr ∧ h'.writer = h.writer ∧ h'.engines = h.engines ∧ h'.byType = h.byType ∧ h'.byName = h.byName ∧
    h'.queues = h.queues ∧ ∀ d, d ≠ c → h'.clients d = h.clients d

end Hub

/-- What a request for a type without a queue is answered. -/
def refusal : ApiCall → Option ApiResult
  | .cancel _ => some .noQueueRegister
  | .retry _ => some .noQueueRegister
  | .config _ => some .noQueueRegister
  | .get _ => some .none
  | .update _ _ => some .unit
  | _ => none

/-- The type a request is about. -/
def ApiCall.ty? : ApiCall → Option Nat
  | .start _ => none
  | .submit ty _ => some ty
  | .cancel ty => some ty
  | .retry ty => some ty
  | .config ty => some ty
  | .get ty => some ty
  | .update ty _ => some ty

/-- No client submits a job. -/
def NoFirst (ops : List HubOp) : Prop := ∀ op ∈ ops, ∀ c ty n, op ≠ .begin c (.submit ty n)

/-- A discipline of the clients: type `ty` is only submitted under the name `N ty`, and a submission of a type
without queue only begins when no other submission of the type is under way. -/
def HubOp.Orderly (N : Nat → Str) (h : Hub) : HubOp → Prop
  | .begin c (.submit ty name) => name = N ty ∧ (h.byType ty = none → ∀ d, d ≠ c → ¬ (h.clients d).Opening ty)
  | .begin _ (.update ty name) => name = N ty
  | _ => True

/-- A history of orderly steps. -/
inductive OrderlyRun (N : Nat → Str) : Hub → List HubOp → Prop
  | nil (h) : OrderlyRun N h []
  | cons {h op ops} : op.Orderly N h → OrderlyRun N (h.step op) ops → OrderlyRun N h (op :: ops)

end AJ
