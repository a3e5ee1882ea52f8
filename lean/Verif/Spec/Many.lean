import Verif.Model.Many
import Verif.Spec.Observe

/-! # Observing several work queues on one backend -/

namespace AJ

/-- A turn about jobs with ids in `K`. The turns about tasks are, as the tasks come from earlier turns. -/
def Op.On {D O : Type} (K : Str → Prop) : Op D O → Prop
  | .enqueue job _ => K job.id
  | .cancel id => K id
  | .get id => K id
  | .retry id => K id
  | _ => True

/-- Two situations that work queue `i` cannot tell apart: it is at the same point of its program, has read its clock as
often and sent the same messages, its lists have the same entries, and the jobs with ids in `K` are stored alike. -/
structure Many.Alike {ι : Type} {α : ι → Type} (b : Impl) (i : ι) (name : Str) (K : Str → Prop) (m n : Many ι b.B α) :
    Prop where
  prog : m.prog i = n.prog i
  reads : m.t i = n.t i
  log : m.log i = n.log i
  lists : ∀ st, b.list m.s (formatQueueName name st) = b.list n.s (formatQueueName name st)
  stored : ∀ k, K k → b.stored m.s k = b.stored n.s k

/-- The work queue after others have changed the backend. -/
def Sys.on {D : Type} {B : Backend} (s : Sys D B) (x : B.S) : Sys D B := { s with w := { s.w with s := x } }

/-- Jobs of the second type cannot be read as jobs of the first. -/
def Env.Unreadable {D D' : Type} (E : Env D) (E' : Env D') : Prop :=
  ∀ j' : Job D', E.codec.dec ((E'.codec.enc j').getD []) = none

end AJ
