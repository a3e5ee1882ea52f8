import Verif.Model.Crash
import Verif.Spec.Queue

/-! # Histories with crashes -/

namespace AJ

/-- The states reached from `s` by turns and by crashes followed by a restart, when every turn (also one that
is cut short) satisfies `P`. -/
inductive Lives {D O : Type} (b : Impl) (E : Env D) (name : Str) (clk : Nat → Time)
    (P : Snap D → Op D O → Prop) (s : Sys D b.B) : Sys D b.B → Prop where
  | refl : Lives b E name clk P s s
  | turn {s' : Sys D b.B} (op : Op D O) : Lives b E name clk P s s' → P (b.snap E name s') op →
      Lives b E name clk P s (Sys.step E name b.B clk s' op).1
  | crash {s' : Sys D b.B} (op : Op D O) {w : World b.B} : Lives b E name clk P s s' → P (b.snap E name s') op →
      Sys.CrashIn E name b.B clk s' op w → Lives b E name clk P s (Sys.restart w)

/-- What a crash may leave of the record of the end of a run of `k`, where `v` is before the turn and `vf`
would be after it: nothing is recorded; the id has left the running list; in addition the new job is stored;
the new job is stored and the id has not left the running list (only if the run failed); or everything. -/
inductive Snap.Torn {D : Type} (k : Str) (v vf v' : Snap D) : Prop where
  | nothing (hl : v'.lists = v.lists) (hj : v'.job = v.job)
  | removed (hl : ∀ st, v'.lists st = if st = .running then (v.lists .running).filter (· ≠ k) else v.lists st)
      (hj : v'.job = v.job)
  | unpushed (hl : ∀ st, v'.lists st = if st = .running then (v.lists .running).filter (· ≠ k) else v.lists st)
      (hj : v'.job = vf.job)
  | stored (hl : v'.lists = v.lists) (hj : v'.job = vf.job) (hf : vf.lists .failed = k :: v.lists .failed)
  | all (hl : v'.lists = vf.lists) (hj : v'.job = vf.job)

end AJ
