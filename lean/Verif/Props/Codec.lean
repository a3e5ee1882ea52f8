import Verif.Proofs.Steps
import Verif.Spec.Queue
import Verif.Props.Demo

/-! # C09–C11: storing and reading jobs -/

namespace AJ.Props
variable {D O : Type}

/-- C09. Whenever a job can be written, reading the written text gives the job back: id, status, retry
counters, timestamps and run count are the same; points in time are truncated to microseconds, retry
durations rounded to microseconds, and the data is what the user's own format makes of it. -/
theorem C09_round_trip (dc : DataCodec D) (L : dc.Lawful) (j : Job D) (s : Str)
    (h : (jsonCodec dc).enc j = some s) :
    (jsonCodec dc).dec s = some
      { context := { j.context with
          jobType := match j.context.jobType with
            | .normal => .normal
            | .scheduledAt t => .scheduledAt (floorUs t)
            | .cron e n k c => .cron e (floorUs n) k { c with endAt := c.endAt.map floorUs }
          retry := j.context.retry.map fun r => { r with
            strategy := match r.strategy with
              | .interval d => .interval (roundUs d)
              | .exponentialBackoff d => .exponentialBackoff (roundUs d) } }
        data := L.norm j.data } := by
  rw [(jsonLawful dc L (fun _ => none) false).roundtrip j s h]
  rcases j with ⟨c, d⟩
  simp only [Job.norm, JobContext.norm, Option.some.injEq, Job.mk.injEq, JobContext.mk.injEq, true_and, and_true]
  have h1 : ∀ t : JobType, t.norm = match t with
      | .normal => .normal
      | .scheduledAt t => .scheduledAt (floorUs t)
      | .cron e n k c => .cron e (floorUs n) k { c with endAt := c.endAt.map floorUs } := by
    intro t; cases t <;> rfl
  have h2 : Retry.norm = fun r : Retry => { r with
      strategy := match r.strategy with
        | .interval d => .interval (roundUs d)
        | .exponentialBackoff d => .exponentialBackoff (roundUs d) } := by
    funext r
    rcases r with ⟨a, b, s⟩
    cases s <;> rfl
  exact ⟨⟨h1 _, by rw [h2]⟩, rfl⟩

/-- C09. A job can be written exactly if the user's data can and a retry duration, if any, is a number of
microseconds that fits an `i64`. -/
theorem C09_writable (dc : DataCodec D) (j : Job D) :
    ((jsonCodec dc).enc j).isSome = true ↔ (dc.enc j.data).isSome = true ∧
      ∀ r d, j.context.retry = some r → (r.strategy = .interval d ∨ r.strategy = .exponentialBackoff d) →
        -(2 ^ 63) ≤ durMicros d ∧ durMicros d < 2 ^ 63 := by
  have hdur : ∀ d, (encDur d).isSome = true ↔ -(2 ^ 63) ≤ durMicros d ∧ durMicros d < 2 ^ 63 := by
    intro d
    unfold encDur
    split
    · next h => simpa [fitsI64] using h
    · next h => simpa [fitsI64] using h
  have hr : (encRetryOpt j.context.retry).isSome = true ↔ ∀ r d, j.context.retry = some r →
      (r.strategy = .interval d ∨ r.strategy = .exponentialBackoff d) →
        -(2 ^ 63) ≤ durMicros d ∧ durMicros d < 2 ^ 63 := by
    cases j.context.retry with
    | none => simp [encRetryOpt]
    | some r =>
      rcases r with ⟨a, b, d | d⟩
      · simp only [encRetryOpt, encRetry, encStrategy, Option.isSome_map, hdur]
        constructor
        · rintro h r d' e he
          cases e
          rcases he with he | he <;> cases he
          exact h
        · intro h; exact h _ d rfl (.inl rfl)
      · simp only [encRetryOpt, encRetry, encStrategy, Option.isSome_map, hdur]
        constructor
        · rintro h r d' e he
          cases e
          rcases he with he | he <;> cases he
          exact h
        · intro h; exact h _ d rfl (.inr rfl)
  rw [← hr]
  simp only [jsonCodec, Option.isSome_map, encJob, encContext]
  cases encRetryOpt j.context.retry <;> cases dc.enc j.data <;> simp

/-- A cron job with a retry policy and times off the microsecond grid. -/
def offGrid : Job Int :=
  ⟨{ JobContext.new c!"ä\"1" 7 with
      jobType := .cron c!"* * * * * *" 1234567 3 { maxRepeat := some 5, endAt := some (-1) }
      retry := some (.new 2 (some 3) (.interval 1500)) }, 42⟩

example : (jsonCodec Demo.data).dec (((jsonCodec Demo.data).enc offGrid).getD []) = some
    ⟨{ JobContext.new c!"ä\"1" 7 with
      jobType := .cron c!"* * * * * *" 1234000 3 { maxRepeat := some 5, endAt := some (-1000) }
      retry := some (.new 2 (some 3) (.interval 2000)) }, 42⟩ := by decide +kernel

/-- C10. Truncation loses less than a microsecond and never moves a time forward; rounding moves a
duration by at most half a microsecond. -/
theorem C10_precision (t d : Int) :
    floorUs t ≤ t ∧ t < floorUs t + 1000 ∧ -500 ≤ roundUs d - d ∧ roundUs d - d ≤ 500 := by
  have h1 : ∀ t : Int, t / 1000 * 1000 ≤ t ∧ t < t / 1000 * 1000 + 1000 := by intro t; omega
  have h2 : ∀ d : Int, 0 ≤ d → -500 ≤ (d + 500) / 1000 * 1000 - d ∧ (d + 500) / 1000 * 1000 - d ≤ 500 := by
    intro d _; omega
  have h3 : ∀ d : Int, -500 ≤ -((-d + 500) / 1000 * 1000) - d ∧ -((-d + 500) / 1000 * 1000) - d ≤ 500 := by
    intro d; omega
  refine ⟨(h1 t).1, (h1 t).2, ?_⟩
  unfold roundUs
  split
  · next h => exact h2 d h
  · exact h3 d

/-- C10. A job that was read can be written again, and reading that gives the same job: further
round trips change nothing. -/
theorem C10_no_drift (dc : DataCodec D) (L : dc.Lawful) (s : Str) (j : Job D)
    (h : (jsonCodec dc).dec s = some j) :
    ∃ s', (jsonCodec dc).enc j = some s' ∧ (jsonCodec dc).dec s' = some j := by
  have LL := jsonLawful dc L (fun _ => none) false
  obtain ⟨s', hs'⟩ := Option.isSome_iff_exists.mp (LL.decoded_enc s j h)
  refine ⟨s', hs', ?_⟩
  have := LL.roundtrip j s' hs'
  rw [LL.decoded_norm s j h] at this
  exact this

example : ((jsonCodec Demo.data).dec (((jsonCodec Demo.data).enc offGrid).getD [])).isSome = true := by
  decide +kernel

/-- The part of C11 that holds: submitting a new, serialisable job is acknowledged, and `get_job` then
returns it, Queued, with the submission time; it is in the queued list. Missing: jobs that cannot be
serialised, see the refutations. -/
theorem C11_readable_partial (b : Impl) (E : Env D) (L : E.Lawful) (name : Str) (clk : Nat → Time)
    (s : Sys D b.B) (hg : b.Good s.w.s) (ha : s.alive = true) (job : Job D) (cfg : EnqueueConfig)
    (hnew : (b.snap E name s).job job.id = none) (he : E.Encodable job) :
    let s' := (Sys.step E name b.B clk s (.enqueue job cfg : Op D O))
    s'.2 = .unit (.ok ()) ∧
    (b.snap E name s'.1).job job.id = some (Job.norm L.normD { job with context := { job.context with
      jobStatus := .queued, enqueueAt := some (clk s.w.t / 1000000) } }) ∧
    (b.snap E name s'.1).lists .queued = job.id :: (b.snap E name s).lists .queued := by
  intro s'
  have := Impl.lift_any (b := b) (E := E) (name := name) (clk := clk) (O := O)
    (Q := fun v op r v' => ∀ job cfg, op = .enqueue job cfg → v.alive = true → v.job job.id = none → E.Encodable job →
      r = .unit (.ok ()) ∧
      v'.job job.id = some (Job.norm L.normD { job with context := { job.context with
        jobStatus := .queued, enqueueAt := some (clk v.reads / 1000000) } }) ∧
      v'.lists .queued = job.id :: v.lists .queued) (fun t op => ?_) hg (.enqueue job cfg)
  · exact this job cfg rfl ha hnew he
  · intro job cfg e ha hn he
    subst e
    have hs := Sys.step_cases (E := E) (name := name) (clk := clk) t ha (.enqueue job cfg : Op D O)
    generalize Sys.step E name SpecB clk t (.enqueue job cfg : Op D O) = p at hs
    cases hs with
    | enqueue j c =>
      have hn' : W.view E t.w job.id = none := hn
      refine ⟨rfl, ?_, ?_⟩
      · show W.view E (W.submit E name clk job cfg t.w) job.id = _
        simp only [W.submit, hn', W.enq, W.view_put, Job.id_asQueued, upd_same]
        obtain ⟨x, hx⟩ := Option.isSome_iff_exists.mp (L.congr job (job.asQueued (clk t.w.t / nsPerMs)) rfl rfl he)
        simp only [Env.encdec, hx, Option.getD_some]
        exact L.roundtrip _ _ hx
      · show W.lst name (W.submit E name clk job cfg t.w) .queued = _
        simp only [W.submit, hn', W.enq, W.lst_put, W.lst_tick, W.lst_setL_same]
        rfl

/-- A job with a retry interval of 400 000 years, which `chrono::Duration` can hold. -/
def longRetry : Job Int :=
  ⟨{ JobContext.new c!"a" 0 with retry := some (.newIntervalRetry none (2 ^ 63 * 1500)) }, 1⟩

/-- C11 is false as stated: with a retry interval that does not fit an `i64` of microseconds, submission is
acknowledged and the job cannot be read. -/
theorem C11_refuted_duration :
    let p := Sys.runOps Demo.E c!"print" InMem Demo.clk (Sys.init InMem InMem.empty)
      [(.enqueue longRetry .newReRun : Op Int Unit)]
    p.2 = [.unit (.ok ())] ∧ (Impl.memory.snap Demo.E c!"print" p.1).job c!"a" = none ∧
      (Impl.memory.snap Demo.E c!"print" p.1).lists .queued = [c!"a"] := by
  refine ⟨rfl, ?_, ?_⟩ <;> decide +kernel

/-- Nested lists, `n` deep: a recursive user type such as `struct T(Vec<T>)`. -/
def nest : Nat → Json
  | 0 => .arr []
  | n + 1 => .arr [nest n]

/-- Nesting depth of such a value. -/
def unnest : Json → Option Nat
  | .arr [] => some 0
  | .arr [j] => (unnest j).map (· + 1)
  | _ => none

/-- Format of a recursive user type. -/
def deepData : DataCodec Nat := ⟨fun n => some (nest n), unnest⟩

/-- Its environment. -/
def deepE : Env Nat := ⟨jsonCodec deepData, fun _ => none, false⟩

/-- C11 is false as stated: data nested deeper than the reader's recursion limit is written, the submission
is acknowledged, and the job cannot be read. -/
theorem C11_refuted_depth :
    let j : Job Nat := ⟨JobContext.new c!"a" 0, 126⟩
    let p := Sys.runOps deepE c!"print" InMem Demo.clk (Sys.init InMem InMem.empty)
      [(.enqueue j .newReRun : Op Nat Unit)]
    deepE.Encodable j ∧ p.2 = [.unit (.ok ())] ∧ (Impl.memory.snap deepE c!"print" p.1).job c!"a" = none := by
  refine ⟨?_, rfl, ?_⟩ <;> decide +kernel

/-- One level less is read back. -/
example : let j : Job Nat := ⟨JobContext.new c!"a" 0, 125⟩
    let p := Sys.runOps deepE c!"print" InMem Demo.clk (Sys.init InMem InMem.empty)
      [(.enqueue j .newReRun : Op Nat Unit)]
    ((Impl.memory.snap deepE c!"print" p.1).job c!"a").map (·.data) = some 125 := by decide +kernel

example : let s : Sys Int InMem := Sys.init InMem InMem.empty
    (Impl.memory.snap Demo.E c!"print" s).job c!"a" = none ∧ Demo.E.Encodable offGrid := by
  refine ⟨?_, ?_⟩ <;> decide +kernel

end AJ.Props
