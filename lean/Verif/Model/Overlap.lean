import Verif.Model.Many

/-!
# Any number of processes of one job type whose turns overlap

The processes share one backend and interleave call by call (`Many`), as in `Many.lean`; but now they all work on jobs of the
same type, usually on queues of the same name, so that they see each other's half-done work. A process that dies is one that
takes no further step; a process that comes later is one whose first step comes late.
-/

namespace AJ

namespace Proc
variable {D O : Type} (E : Env D) (name : Str)

/-- One turn. The scan of a tick (`queue.rs:226-240`) may go through `rounds` rounds of its outer loop (`queue.rs:261-309`):
other processes can make it go on longer than the queue was long when it began, so the number is not fixed here. A scan
that needs more takes the process down; the theorems hold for every number. -/
def turnIn (p : Proc D) (op : Op D O) (rounds : Nat) : Prog (Proc D × Resp D) :=
  match op with
  | .tick =>
    if p.alive then
      (WorkQueue.pickJobsToProcess E name rounds p.cfg).attempt.bind fun
        | .ok jobs => .ret ({ p with tasks := p.tasks ++ jobs.map (fun j => ⟨j, none⟩) }, .silent)
        | .err _ => .ret (p, .silent)
        | _ => .ret (p.down, .silent)
    else .ret (p, .silent)
  | op => p.turn E name op

/-- One turn after the other. -/
def course (p : Proc D) : List (Op D O × Nat) → Prog (Proc D × List (Resp D))
  | [] => .ret (p, [])
  | op :: ops => (p.turnIn E name op.1 op.2).bind fun a => (course a.1 ops).bind fun c => .ret (c.1, a.2 :: c.2)

end Proc

/-- Freshly started processes of one job type, each with turns to take. -/
def Many.overlap {ι D O : Type} (B : Backend) (E : Env D) (name : ι → Str) (ops : ι → List (Op D O × Nat)) (s : B.S) :
    Many ι B fun _ => Proc D × List (Resp D) :=
  { s := s, prog := fun i => ({} : Proc D).course E (name i) (ops i) }

end AJ
