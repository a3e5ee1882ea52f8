import Verif.Proofs.Codec
import Verif.Spec.Queue

/-!
# A concrete job type, used in the examples

`Print { number: i32 }` of the documentation (`job/mod.rs:32-36`), stored as `{"number":1}`, with two
cron schedules: every second, and one that is over.
-/

deriving instance DecidableEq for AJ.Task

namespace AJ.Demo
open Json

/-- Derived `Serialize`/`Deserialize` of `struct Print { number: i32 }`. -/
def data : DataCodec Int where
  enc n := some (.obj [(c!"number", .int n)])
  dec
    | .obj l => (req l c!"number").bind asInt
    | _ => none

/-- The data format is lawful. -/
def dataLawful : data.Lawful where
  norm n := n
  wf d j h := by cases h; exact ⟨WF_int _, trivial⟩
  depth d j h := by cases h; simp [depth, depthm]
  roundtrip d j h := by
    cases h
    show asInt (.int d) = some d
    exact asInt_int d
  decoded_norm _ _ _ := rfl
  decoded_enc _ _ _ := rfl

/-- Two schedules: `"* * * * * *"` fires at every full second, `"over"` has no further slot. -/
def cron (e : Str) : Option (Time → Option Time) :=
  if e = c!"* * * * * *" then some fun t => some ((t / nsPerSec + 1) * nsPerSec)
  else if e = c!"over" then some fun _ => none
  else none

/-- Environment of a release build. -/
def E : Env Int := ⟨jsonCodec data, cron, false⟩

/-- Environment of a debug build. -/
def Edbg : Env Int := ⟨jsonCodec data, cron, true⟩

/-- The environment is lawful. -/
def lawful : E.Lawful := jsonLawful data dataLawful cron false

/-- The environment is lawful. -/
def lawfulDbg : Edbg.Lawful := jsonLawful data dataLawful cron true

/-- A job that is ready at once. -/
def job (id : Str) (n : Int := 1) : Job Int := ⟨JobContext.new id 0, n⟩

/-- User code that returns normally. -/
def good : Executable Int Unit where
  execute d _ := (d, ())

/-- User code whose output counts as failed. -/
def bad : Executable Int Unit where
  execute d _ := (d, ())
  isFailedOutput _ _ := true

/-- A clock that advances one second per read. -/
def clk (n : Nat) : Time := (n : Int) * nsPerSec

/-- The in-memory work queue `print` after a history. -/
def after (ops : List (Op Int Unit)) : Sys Int InMem :=
  (Sys.runOps E c!"print" InMem clk (Sys.init InMem InMem.empty) ops).1

/-- What can be observed of it. -/
def see (ops : List (Op Int Unit)) : Snap Int := Impl.memory.snap E c!"print" (after ops)

theorem runOps_append (ops : List (Op Int Unit)) (op : Op Int Unit) (s : Sys Int InMem) :
    (Sys.runOps E c!"print" InMem clk s (ops ++ [op])).1 =
      (Sys.step E c!"print" InMem clk (Sys.runOps E c!"print" InMem clk s ops).1 op).1 := by
  induction ops generalizing s with
  | nil => rfl
  | cons o ops ih => exact ih _

theorem after_snoc (ops : List (Op Int Unit)) (op : Op Int Unit) :
    (Sys.step E c!"print" Impl.memory.B clk (after ops) op).1 = after (ops ++ [op]) := (runOps_append _ _ _).symm

/-- One more turn. -/
theorem see_snoc (ops : List (Op Int Unit)) (op : Op Int Unit) :
    Impl.memory.snap E c!"print" (Sys.step E c!"print" Impl.memory.B clk (after ops) op).1 = see (ops ++ [op]) := by
  rw [after_snoc]; rfl

theorem see_after (ops : List (Op Int Unit)) : Impl.memory.snap E c!"print" (after ops) = see ops := rfl

/-- A history whose turns satisfy `P`. -/
def Obeys (P : Snap Int → Op Int Unit → Prop) (ops : List (Op Int Unit)) : Prop :=
  ∀ i op, ops[i]? = some op → P (see (ops.take i)) op

theorem Obeys.reach {P : Snap Int → Op Int Unit → Prop} {ops : List (Op Int Unit)} (h : Obeys P ops) :
    Reach Impl.memory E c!"print" clk P (after ops) := by
  have : ∀ n, n ≤ ops.length → Reach Impl.memory E c!"print" clk P (after (ops.take n)) := by
    intro n
    induction n with
    | zero => exact fun _ => .start
    | succ n ih =>
      intro hn
      have e : ops.take (n + 1) = ops.take n ++ [ops[n]] := (List.take_append_getElem (by omega)).symm
      rw [after, e, runOps_append]
      exact Reach.step (b := Impl.memory) _ (ih (by omega)) (h n _ (List.getElem?_eq_getElem (by omega)))
  have h1 := this ops.length (Nat.le_refl _)
  rwa [List.take_length] at h1

/-- The same history on any backend. -/
def on (b : Impl) (ops : List (Op Int Unit)) : Sys Int b.B :=
  (Sys.runOps E c!"print" b.B clk (Sys.init b.B b.empty) ops).1

theorem on_rs (b : Impl) (ops : List (Op Int Unit)) : b.sim.RS (on b ops) (on Impl.spec ops) :=
  (Sim.runOps E c!"print" b.sim (b.okAj _) clk ops _ _ Impl.rs_init).2

theorem see_on (b : Impl) (ops : List (Op Int Unit)) : b.snap E c!"print" (on b ops) = see ops := by
  rw [Impl.snap_eq (on_rs b ops)]
  exact (Impl.snap_eq (on_rs Impl.memory ops)).symm

theorem on_snoc (b : Impl) (ops : List (Op Int Unit)) (op : Op Int Unit) :
    on b (ops ++ [op]) = (Sys.step E c!"print" b.B clk (on b ops) op).1 := by
  unfold on
  generalize (Sys.init b.B b.empty : Sys Int b.B) = s
  induction ops generalizing s with
  | nil => rfl
  | cons o ops ih => exact ih _

theorem Obeys.on {P : Snap Int → Op Int Unit → Prop} {ops : List (Op Int Unit)} (h : Obeys P ops) (b : Impl) :
    Reach b E c!"print" clk P (on b ops) := by
  have : ∀ n, n ≤ ops.length → Reach b E c!"print" clk P (Demo.on b (ops.take n)) := by
    intro n
    induction n with
    | zero => exact fun _ => .start
    | succ n ih =>
      intro hn
      have e : ops.take (n + 1) = ops.take n ++ [ops[n]] := (List.take_append_getElem (by omega)).symm
      rw [e, on_snoc]
      refine Reach.step _ (ih (by omega)) ?_
      rw [see_on]
      exact h n _ (List.getElem?_eq_getElem (by omega))
  have h1 := this ops.length (Nat.le_refl _)
  rwa [List.take_length] at h1

theorem Obeys.nil {P : Snap Int → Op Int Unit → Prop} : Obeys P [] := fun i op h => by simp at h

theorem Obeys.snoc {P : Snap Int → Op Int Unit → Prop} {ops : List (Op Int Unit)} {op : Op Int Unit}
    (h : Obeys P ops) (hop : P (see ops) op) : Obeys P (ops ++ [op]) := by
  intro i o hi
  rcases Nat.lt_trichotomy i ops.length with hl | rfl | hl
  · rw [List.getElem?_append_left hl] at hi
    rw [List.take_append_of_le_length (by omega)]
    exact h i o hi
  · simp at hi
    subst hi
    simpa using hop
  · rw [List.getElem?_eq_none (by simp; omega)] at hi
    cases hi

/-- A check that a turn is careful with `k` and that its user code uses the default `retry_at`. -/
def ok (k : Str) (v : Snap Int) : Op Int Unit → Bool
  | .enqueue j c => j.id ≠ k || (decide (E.Encodable j) && (v.job k).all fun ex =>
      !c.overrideData || ex.isRunning || (c.reRun && ex.isDone) || j.context.jobStatus = ex.context.jobStatus)
  | .finish i x => x.retryAt.isNone && match v.tasks[i]? with
    | some ⟨_, some job⟩ => decide (E.Encodable (WorkQueue.runUserCode x job).1)
    | _ => true
  | _ => true

theorem ok.careful {k : Str} {v : Snap Int} {op : Op Int Unit} (h : ok k v op = true) : CarefulFor E k v op := by
  cases op with
  | enqueue j c =>
    intro hid
    simp only [ok, Bool.or_eq_true, Bool.and_eq_true, decide_eq_true_eq] at h
    rcases h with h | ⟨h1, h2⟩
    · exact absurd hid h
    · refine ⟨h1, fun ex hex ho hr hd => ?_⟩
      rw [hid] at hex
      rw [hex] at h2
      simp only [Option.all_some, Bool.or_eq_true, Bool.and_eq_true, decide_eq_true_eq, ho, hr] at h2
      rcases h2 with ((h2 | h2) | h2) | h2
      · cases h2
      · cases h2
      · rw [← Bool.and_eq_true, hd] at h2; cases h2
      · exact h2
  | finish i x =>
    intro orig job ht hid
    simp only [ok, Bool.and_eq_true, Option.isNone_iff_eq_none] at h
    rw [ht] at h
    refine ⟨by simpa using h.2, fun f r now hx => ?_⟩
    rw [h.1] at hx; cases hx
  | _ => trivial

theorem ok.dflt {k : Str} {v : Snap Int} {op : Op Int Unit} (h : ok k v op = true) : DefaultRetry k v op := by
  intro i x orig job e
  subst e
  simp only [ok, Bool.and_eq_true, Option.isNone_iff_eq_none] at h
  exact fun _ _ => h.1

/-- A check that a turn is not a request about `k`. -/
def calm (k : Str) : Op Int Unit → Bool
  | .enqueue j _ => j.id ≠ k
  | .cancel id => id ≠ k
  | .retry id => id ≠ k
  | _ => true

theorem calm.noSubmit {k : Str} {op : Op Int Unit} (h : calm k op = true) : NoSubmit k op := by
  intro j c e; subst e; simpa [calm] using h

theorem calm.noRetry {k : Str} {op : Op Int Unit} (h : calm k op = true) : op ≠ .retry k := by
  intro e; subst e; simp [calm] at h

theorem calm.noCancel {k : Str} {op : Op Int Unit} (h : calm k op = true) : op ≠ .cancel k := by
  intro e; subst e; simp [calm] at h

/-- A check that all turns of a history are careful with `k`. -/
def okAll (k : Str) (ops : List (Op Int Unit)) : Bool :=
  (List.range ops.length).all fun i => match ops[i]? with
    | some op => ok k (see (ops.take i)) op
    | none => true

theorem okAll.obeys {k : Str} {ops : List (Op Int Unit)} (h : okAll k ops = true) :
    Obeys (fun v op => ok k v op = true) ops := by
  intro i op hi
  have hl : i < ops.length := (List.getElem?_eq_some_iff.mp hi).1
  have := List.all_eq_true.mp h i (List.mem_range.mpr hl)
  rw [hi] at this
  exact this

theorem okAll.reach {k : Str} {ops : List (Op Int Unit)} (h : okAll k ops = true) :
    Reach (O := Unit) Impl.memory E c!"print" clk (CarefulFor E k) (after ops) :=
  Reach.mono (fun _ _ h => ok.careful h) (okAll.obeys h).reach

theorem okAll.on {k : Str} {ops : List (Op Int Unit)} (h : okAll k ops = true) (b : Impl) :
    Reach (O := Unit) b E c!"print" clk (CarefulFor E k) (on b ops) :=
  Reach.mono (fun _ _ h => ok.careful h) ((okAll.obeys h).on b)

/-- Continue a history with turns that are careful with `k` and are no requests about `k`. -/
theorem okAll.later {k : Str} {ops ops' : List (Op Int Unit)} (h : okAll k (ops ++ ops') = true)
    (hc : ops'.all (calm k) = true) {P : Snap Int → Op Int Unit → Prop}
    (hP : ∀ v op, ok k v op = true → calm k op = true → P v op) :
    Later Impl.memory E c!"print" clk P (after ops) (after (ops ++ ops')) := by
  have : ∀ n, n ≤ ops'.length → Later Impl.memory E c!"print" clk P (after ops) (after (ops ++ ops'.take n)) := by
    intro n
    induction n with
    | zero => intro _; rw [List.take_zero, List.append_nil]; exact .refl
    | succ n ih =>
      intro hn
      have hl : n < ops'.length := by omega
      have e : ops ++ ops'.take (n + 1) = (ops ++ ops'.take n) ++ [ops'[n]] := by
        rw [← List.take_append_getElem hl, List.append_assoc]
      rw [e, show after ((ops ++ ops'.take n) ++ [ops'[n]]) = _ from runOps_append _ _ _]
      refine Later.step (b := Impl.memory) _ (ih (by omega)) (hP _ _ ?_ (List.all_eq_true.mp hc _ (List.getElem_mem hl)))
      have := okAll.obeys h (ops.length + n) ops'[n] (by simp [hl])
      rw [List.take_length_add_append] at this
      exact this
  have h1 := this ops'.length (Nat.le_refl _)
  rwa [List.take_length] at h1

/-- A check of all turns of the continuation `ops'` of a history `ops`. -/
def allTurns (chk : Snap Int → Op Int Unit → Bool) (ops ops' : List (Op Int Unit)) : Bool :=
  (List.range ops'.length).all fun i => match ops'[i]? with
    | some op => chk (see (ops ++ ops'.take i)) op
    | none => true

theorem allTurns.later {chk : Snap Int → Op Int Unit → Bool} {ops ops' : List (Op Int Unit)}
    (h : allTurns chk ops ops' = true) {P : Snap Int → Op Int Unit → Prop} (hP : ∀ v op, chk v op = true → P v op) :
    Later Impl.memory E c!"print" clk P (after ops) (after (ops ++ ops')) := by
  have : ∀ n, n ≤ ops'.length → Later Impl.memory E c!"print" clk P (after ops) (after (ops ++ ops'.take n)) := by
    intro n
    induction n with
    | zero => intro _; rw [List.take_zero, List.append_nil]; exact .refl
    | succ n ih =>
      intro hn
      have hl : n < ops'.length := by omega
      have e : ops ++ ops'.take (n + 1) = (ops ++ ops'.take n) ++ [ops'[n]] := by
        rw [← List.take_append_getElem hl, List.append_assoc]
      rw [e, show after ((ops ++ ops'.take n) ++ [ops'[n]]) = _ from runOps_append _ _ _]
      refine Later.step (b := Impl.memory) _ (ih (by omega)) (hP _ _ ?_)
      have := List.all_eq_true.mp h n (List.mem_range.mpr hl)
      rw [List.getElem?_eq_getElem hl] at this
      exact this
  have h1 := this ops'.length (Nat.le_refl _)
  rwa [List.take_length] at h1

/-- A check that the runs that end all fail. -/
def failing (v : Snap Int) : Op Int Unit → Bool
  | .finish i x => match v.tasks[i]? with
    | some ⟨_, some job⟩ => x.fails job
    | _ => true
  | _ => true

theorem failing.always {k : Str} {v : Snap Int} {op : Op Int Unit} (h : failing v op = true) : AlwaysFails k v op := by
  intro i x orig job e ht _
  subst e
  simp only [failing, ht] at h
  exact h

theorem serialisable {x : Executable Int Unit} {job : Job Int} (h : E.Encodable (WorkQueue.runUserCode x job).1)
    (hx : x.retryAt = none) : x.Serialisable E job :=
  ⟨h, fun f r now h => by rw [hx] at h; cases h⟩

/-- A tick starts a job, and its run ends with user code `x`. -/
def round (x : Executable Int Unit) : List (Op Int Unit) := [.tick, .start 0, .finish 0 x]

/-- Job `a` with a retry policy. -/
def flaky (r : Retry) : Job Int := ⟨{ JobContext.new c!"a" 0 with retry := some r }, 7⟩

example : E.codec.dec ((E.codec.enc (job c!"a\n" 5)).getD []) = some (job c!"a\n" 5) := by decide +kernel
example : (E.codec.enc (job c!"a" (-5))) = some c!"{\"context\":{\"job_id\":\"a\",\"job_type\":\"Normal\",\"job_status\":\"Queued\",\"retry\":null,\"created_at\":0,\"enqueue_at\":null,\"run_at\":null,\"complete_at\":null,\"cancel_at\":null,\"run_count\":0},\"data\":{\"number\":-5}}" := by decide +kernel

end AJ.Demo
