import Verif.Model.System

/-!
# Turns of the work queue on a failing backend

The calls of one turn are numbered from 0; call number `i` meets `script i` (see `Faulty`). Before and after
the turn the backend works.
-/

namespace AJ

/-- The script in which only call number `n` fails, without effect. -/
def faultAt (n : Nat) : Nat → Fate := fun i => { fault := if i = n then .before else .none }

namespace Sys
variable {D O : Type} (E : Env D) (name : Str) (B : Backend) (clk : Nat → Time)

/-- A work queue whose backend starts to fail. -/
def faulty {B : Backend} (script : Nat → Fate) (s : Sys D B) : Sys D (Faulty B script) :=
  { w := { s := (s.w.s, 0), t := s.w.t, log := s.w.log }, cfg := s.cfg, tasks := s.tasks, alive := s.alive }

/-- The backend works again. -/
def mended {B : Backend} {script : Nat → Fate} (s : Sys D (Faulty B script)) : Sys D B :=
  { w := { s := s.w.s.1, t := s.w.t, log := s.w.log }, cfg := s.cfg, tasks := s.tasks, alive := s.alive }

/-- A tick on a failing backend: `queue.rs:226-240` as in `Sys.step`. The rounds granted to the scan are counted
before the backend fails (`C65_ends` shows that they are enough). -/
def tickWith (script : Nat → Fate) (s : Sys D B) : Sys D B × Resp D :=
  if s.alive then
    let s' := s.faulty script
    match (WorkQueue.pickJobsToProcess E name (tickFuel name B s.w.s) s.cfg).run (Faulty B script) clk s'.w with
    | (.ok jobs, w) => (mended { s' with w := w, tasks := s.tasks ++ jobs.map (fun j => ⟨j, none⟩) }, .silent)
    | (.err _, w) => (mended { s' with w := w }, .silent)
    | (.panicked, w) => (mended { s' with w := w, tasks := [], alive := false }, .silent)
    | (.diverged, w) => (mended { s' with w := w, tasks := [], alive := false }, .silent)
  else (s, .silent)

/-- One turn during which the backend fails as the script says. -/
def stepWith (script : Nat → Fate) (s : Sys D B) (op : Op D O) : Sys D B × Resp D :=
  match op with
  | .tick => tickWith E name B clk script s
  | op =>
    let p := step E name (Faulty B script) clk (s.faulty script) op
    (p.1.mended, p.2)

end Sys
end AJ
