import Verif.Model.Weave

/-!
# Processes one after the other on the same backends

A process ends, at whatever point, with everything it has in memory: the registry and the address of the engine (`aj.rs:20-26`), the work queues with their
executions and mailboxes, the engine. A later process is given the same backends (`AJ::start(Redis::new(..))`, `aj.rs:67`) and
begins with nothing else. Redis keeps what it was told. The in-memory backend (`backend/mem.rs`) is lost with its process; that it
stays is considered all the same, so that one statement covers every backend.
-/

namespace AJ

/-- A process: what its clocks read, and what happens in it, up to its end. -/
structure Boot (D O : Type) where
  clk : Nat → Nat → Time
  ops : List (WeaveOp D O)

namespace Boot
variable {D O : Type} (E : Nat → Env D) (B : Backend)

/-- The process at its end, begun with the given backends. -/
def last (l : Boot D O) (stores : Nat → B.S) : Weave D O B := (Weave.init B stores).run E B l.clk l.ops

/-- The backends after processes one after the other. -/
def leave (stores : Nat → B.S) (ls : List (Boot D O)) : Nat → B.S := ls.foldl (fun s l => (l.last E B s).site.stores) stores

end Boot
end AJ
