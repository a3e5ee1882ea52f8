import Verif.Model.Reboot
import Verif.Model.Overlap

/-!
# A whole process whose scans take as many rounds as they need

In `Weave` a tick first reads how many rounds its scan may take, which is not a call of the code. Here a tick consists of the calls
of the code alone (`queue.rs:226-240`, `Proc.turnIn`), and the number of rounds it may take at most (`queue.rs:261-309` has no
limit) comes with the step that begins it, for all steps differently. Everything else is as in `Weave`.
-/

namespace AJ
namespace Weave
variable {D O : Type} (E : Nat → Env D) (B : Backend) (clk : Nat → Nat → Time)

/-- A work queue that is not inside a turn begins a tick or a poll (`Weave.turn`). -/
def turnIn (f : Weave D O B) (q : Nat) (op : Op D O) (rounds : Nat) : Weave D O B := match f.inside q, f.site.hub.queues[q]? with
  | none, some a =>
    if op.inner then { f with inside := upd f.inside q (some ⟨none, op, (f.site.boxes q).proc.turnIn (E a.ty) a.name op rounds⟩) } else f
  | _, _ => f

/-- One step, with the rounds that are granted if it begins a tick. -/
def stepIn (f : Weave D O B) (o : WeaveOp D O × Nat) : Weave D O B := match o.1 with
  | .site (.turn q op) => f.turnIn E B q op o.2
  | op => f.step E B clk op

def runIn (f : Weave D O B) (ops : List (WeaveOp D O × Nat)) : Weave D O B := ops.foldl (stepIn E B clk) f

/-- The process after `n` steps of an endless history. -/
def afterIn (f : Weave D O B) (ops : Nat → WeaveOp D O × Nat) : Nat → Weave D O B
  | 0 => f
  | n + 1 => (afterIn f ops n).stepIn E B clk (ops n)

end Weave

/-- A process (`Boot`) whose scans take as many rounds as they need. -/
structure BootIn (D O : Type) where
  clk : Nat → Nat → Time
  ops : List (WeaveOp D O × Nat)

namespace BootIn
variable {D O : Type} (E : Nat → Env D) (B : Backend)

/-- The process at its end, begun with the given backends. -/
def last (l : BootIn D O) (stores : Nat → B.S) : Weave D O B := (Weave.init B stores).runIn E B l.clk l.ops

/-- The backends after processes one after the other. -/
def leave (stores : Nat → B.S) (ls : List (BootIn D O)) : Nat → B.S := ls.foldl (fun s l => (l.last E B s).site.stores) stores

end BootIn
end AJ
