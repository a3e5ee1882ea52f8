import Verif.Model.System

/-!
# Client calls made of several messages

`AJ::update_job` (`aj.rs:187-214`) first asks the work queue for the job and then submits it again; between
the two messages the actor may take other turns.
-/

namespace AJ.Client
variable {D O : Type}

/-- The second message of `update_job`, given the answer to the first (`aj.rs:202-211`): the job with the new
data and, if given, the new context, submitted by `add_job` (`aj.rs:230-239`) with `new_re_run`. Without an
answer nothing is sent. -/
def updateMsg (answer : Option (Job D)) (data : D) (context : Option JobContext) : Option (Op D O) :=
  answer.map fun job => .enqueue { context := context.getD job.context, data := data } .newReRun

/-- `update_job` when no other turn comes between its two messages. The answer of the second message is the
result (`aj.rs:208`); `get_job` answers nothing when the actor is dead, so that the call returns `Ok`. -/
def updateJob (E : Env D) (name : Str) (B : Backend) (clk : Nat → Time) (s : Sys D B) (id : Str) (data : D)
    (context : Option JobContext) : Sys D B × Resp D :=
  let (s1, r) := Sys.step E name B clk s (.get id : Op D O)
  let answer := match r with
    | .job j => j
    | _ => none
  match updateMsg (O := O) answer data context with
  | some msg => Sys.step E name B clk s1 msg
  | none => (s1, .unit (.ok ()))

end AJ.Client
