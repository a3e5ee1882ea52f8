import Verif.Model.Site
import Verif.Spec.Registry
import Verif.Spec.Many

/-!
# What is seen of a whole process
-/

namespace AJ

/-- The event is a call or a return of client `c`, or a turn that a work queue takes for it. -/
def SiteEvent.of {D O : Type} (c : Nat) : SiteEvent D O → Bool
  | .call d _ => d == c
  | .turn _ (some d) _ _ => d == c
  | .turn _ none _ _ => false
  | .ret d _ _ => d == c

/-- The turn of work queue actor `q`, with its answer. -/
def SiteEvent.at {D O : Type} (q : Nat) : SiteEvent D O → Option (Op D O × Resp D)
  | .turn p _ op r => if p = q then some (op, r) else none
  | _ => none

/-- The turns of work queue actor `q`, with their answers. -/
def turnsOf {D O : Type} (q : Nat) (tr : List (SiteEvent D O)) : List (Op D O × Resp D) := tr.filterMap (·.at q)

section
variable {D O : Type} (qs : List QueueActor) (c : Nat)

/-- A turn taken for client `c`, with message `op` and answer `r`, by a work queue of the type of the request. -/
def Turned (req : Req D) (op : Op D O) (r : Resp D) (e : SiteEvent D O) : Prop :=
  ∃ q a, qs[q]? = some a ∧ req.call.ty? = some a.ty ∧ e = .turn q (some c) op r

/-- How requests end that reach no work queue. -/
def Refusal : Req D → ApiResult → Prop
  | .start _, r => (∃ e, r = .engine e) ∨ r = .panic
  | .submit .., r => r = .mailboxError ∨ r = .panic
  | .get .., r => r = .none
  | .update .., r => r = .unit
  | _, r => r = .noQueueRegister

/-- The second message of an `update_job` that has read `j`. -/
def updated (j : Job D) (data : D) (context : Option JobContext) : Op D O :=
  .enqueue ⟨context.getD j.context, data⟩ .newReRun

/-- The turns that a request may have caused when it returns, and what it returns then. -/
inductive Finished : Req D → List (SiteEvent D O) → Reply D → Prop where
  /-- One turn, with the message of the request; its answer is returned. -/
  | served (req : Req D) (op : Op D O) (r : Resp D) (e) : (∀ ty n id d x, req ≠ .update ty n id d x) → req.op = some op →
      Turned qs c req op r e → Finished req [e] (.answer r)
  /-- No turn. -/
  | refused (req : Req D) (r) : Refusal req r → Finished req [] (.short r)
  /-- `update_job` reads the job, then submits it; the second answer is returned. -/
  | updated (ty n id data context) (j : Job D) (r e e') : Turned qs c (.update ty n id data context) (.get id) (.job (some j)) e →
      Turned qs c (.update ty n id data context) (updated j data context) r e' → Finished (.update ty n id data context) [e, e'] (.answer r)
  /-- `update_job` does not find the job, and returns `Ok`. -/
  | missing (ty n id data context) (r : Resp D) (e) : (∀ j, r ≠ .job (some j)) →
      Turned qs c (.update ty n id data context) (.get id) r e → Finished (.update ty n id data context) [e] (.answer (.unit (.ok ())))

/-- The turns that a request may have caused before it returns. -/
inductive Pending : Req D → List (SiteEvent D O) → Prop where
  | begun (req : Req D) : Pending req []
  | served (req : Req D) (op : Op D O) (r : Resp D) (e) : req.op = some op → Turned qs c req op r e → Pending req [e]
  | updated (ty n id data context) (j : Job D) (r e e') : Turned qs c (.update ty n id data context) (.get id) (.job (some j)) e →
      Turned qs c (.update ty n id data context) (AJ.updated j data context) r e' → Pending (.update ty n id data context) [e, e']

/-- Requests of client `c`, one after the other, with the turns they cause between call and return. -/
inductive Calls : List (SiteEvent D O) → Prop where
  | nil : Calls []
  | snoc (l : List (SiteEvent D O)) (req : Req D) (evs : List (SiteEvent D O)) (r : Reply D) : Calls l → Finished qs c req evs r →
      Calls (l ++ (.call c req :: evs ++ [.ret c req r]))

/-- Requests of client `c`, one after the other, the last of which may not have returned. -/
def History (tr : List (SiteEvent D O)) : Prop :=
  ∃ past now, tr = past ++ now ∧ Calls qs c past ∧ (now = [] ∨ ∃ req evs, now = .call c req :: evs ∧ Pending qs c req evs)

end

/-- A tick, or a poll of an execution. -/
def Op.Own {D O : Type} : Op D O → Prop
  | .tick => True
  | .start _ => True
  | .finish _ _ => True
  | .userPanic _ => True
  | .enqueue _ _ => False
  | .cancel _ => False
  | .get _ => False
  | .retry _ => False
  | .config _ => False

/-- `kind` tells the job type from the id. The request is about ids of its own type. -/
def Req.On {D : Type} (kind : Str → Nat) : Req D → Prop
  | .start _ => True
  | .submit ty _ job _ => kind job.id = ty
  | .cancel ty id => kind id = ty
  | .retry ty id => kind id = ty
  | .config _ _ => True
  | .get ty id => kind id = ty
  | .update ty _ id _ context => kind id = ty ∧ ∀ x, context = some x → kind x.jobId = ty

/-- Work queue actor `q` of the process, on its backend. -/
def Site.sys {D O : Type} {B : Backend} (t : Site D O B) (q : Nat) (a : QueueActor) : Sys D B :=
  ⟨⟨t.stores a.backend, (t.boxes q).reads, (t.boxes q).log⟩, (t.boxes q).proc.cfg, (t.boxes q).proc.tasks, (t.boxes q).proc.alive⟩

/-- Two work queues with the same configuration, tasks, clock reads, messages, lists and stored jobs with ids in `K`. -/
structure Sys.Alike {D : Type} (b : Impl) (name : Str) (K : Str → Prop) (s s' : Sys D b.B) : Prop where
  cfg : s.cfg = s'.cfg
  tasks : s.tasks = s'.tasks
  alive : s.alive = s'.alive
  reads : s.w.t = s'.w.t
  log : s.w.log = s'.w.log
  lists : ∀ st, b.list s.w.s (formatQueueName name st) = b.list s'.w.s (formatQueueName name st)
  stored : ∀ k, K k → b.stored s.w.s k = b.stored s'.w.s k

/-- Work queue actor `q` turns to the front of its mailbox. -/
def SiteOp.takes {D O : Type} (q : Nat) : SiteOp D O → Bool
  | .handle p 0 => p == q
  | _ => false

end AJ
