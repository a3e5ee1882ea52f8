import Verif.Spec.Queue

/-!
# Endless histories in which one job gets its chance

Read this file to see what is asked of the surroundings in C83 and C84.
-/

namespace AJ

/-- Time passes: the clock ends up beyond every point in time. It may stand still or jump back now and then. -/
def Elapses (clk : Nat → Time) : Prop := ∀ T : Time, ∃ i, ∀ i', i ≤ i' → T < clk i'

/-- Job `k` is Finished or Failed. -/
def Snap.Ended {D : Type} (v : Snap D) (k : Str) : Prop := v.status k = some .finished ∨ v.status k = some .failed

/-- The actor is alive and has capacity left, and the queued and the running list are shorter than an `i32` can count. -/
structure Snap.Slack {D : Type} (v : Snap D) : Prop where
  alive : v.alive = true
  room : 1 ≤ v.free
  small : (v.lists .queued).length + (v.lists .running).length < 2 ^ 31

/-- In an endless history no tick finds more than 20 queued entries, as many as it looks at in one go; or ticks again and again leave
capacity free, so that they have looked at all entries. (One of the two is needed: `C31_refuted`.) -/
def Sys.Brief {D O : Type} (b : Impl) (E : Env D) (name : Str) (clk : Nat → Time) (s : Sys D b.B) (ops : Nat → Op D O) : Prop :=
  (∀ n, ops n = .tick → ((b.snap E name (Sys.after E name b.B clk s ops n)).lists .queued).length ≤ 20) ∨
  ∀ m, ∃ n, m ≤ n ∧ ops n = .tick ∧ (b.snap E name (Sys.after E name b.B clk s ops (n + 1))).Slack

/-- An endless history in which nobody submits or cancels `k`, its user code leaves it serialisable and comes to an
end, and ticks with free capacity never cease, which see all queued entries (`Sys.Brief`). -/
structure Sys.Serves {D O : Type} (b : Impl) (E : Env D) (name : Str) (clk : Nat → Time) (k : Str) (s : Sys D b.B)
    (ops : Nat → Op D O) : Prop where
  submit : ∀ n, NoSubmit k (ops n)
  cancel : ∀ n, ops n ≠ .cancel k
  code : ∀ n, CarefulFor E k (b.snap E name (Sys.after E name b.B clk s ops n)) (ops n)
  ends : ∀ n, k ∈ (b.snap E name (Sys.after E name b.B clk s ops n)).inFlight →
    ∃ m, n ≤ m ∧ k ∉ (b.snap E name (Sys.after E name b.B clk s ops m)).inFlight
  ticks : ∀ m, ∃ n, m ≤ n ∧ ops n = .tick ∧ (Sys.after E name b.B clk s ops n).alive = true ∧
    1 ≤ (b.snap E name (Sys.after E name b.B clk s ops n)).free
  short : Sys.Brief b E name clk s ops

/-- An endless history of the whole queue: callers and user code are careful, every execution comes to an end, ticks never
cease, the actor survives, there is capacity for at least one job, and ticks see all queued entries (`Sys.Brief`). -/
structure Sys.Fair {D O : Type} (b : Impl) (E : Env D) (name : Str) (clk : Nat → Time) (s : Sys D b.B)
    (ops : Nat → Op D O) : Prop where
  careful : ∀ n, Careful E (b.snap E name (Sys.after E name b.B clk s ops n)) (ops n)
  ends : ∀ n id, id ∈ (b.snap E name (Sys.after E name b.B clk s ops n)).inFlight →
    ∃ m, n ≤ m ∧ id ∉ (b.snap E name (Sys.after E name b.B clk s ops m)).inFlight
  ticks : ∀ m, ∃ n, m ≤ n ∧ ops n = .tick ∧ (Sys.after E name b.B clk s ops n).alive = true
  capacity : ∀ n, ops n = .tick → 1 ≤ (Sys.after E name b.B clk s ops n).cfg.maxProcessingJobs
  short : Sys.Brief b E name clk s ops

end AJ
