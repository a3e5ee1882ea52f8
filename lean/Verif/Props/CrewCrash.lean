import Verif.Proofs.CrewCrash
import Verif.Props.Crash

/-!
# Processes of a crew that die inside a turn (C76)

As in `Props/Crew.lean`, processes of one work queue come and go; now they may also die between any two calls of the
backend that a turn makes, and the others go on with what is left behind.
-/

namespace AJ.Props
open W Prog

section
variable {D O : Type} {E : Env D} {name : Str} {clk : Nat → Time} {b : Impl} {k : Str}

/-- C76: processes also die inside turns. With orderly submissions of `k`, at most one execution of `k` is in flight in
all processes together, and none unless it is stored as Running. The turns that die may be of any kind, except a
cancellation of `k` (`C76_refuted_cancel`) and a submission of `k`, which is done, that neither replaces it nor
leaves it alone (`C76_refuted_rerun`). Missing for C76 as stated: these two, turns that overlap (`C53_refuted_twice`),
and other submissions (`C25_refuted`, `C48_duplicate`). -/
theorem C76_crash_one_execution_partial (L : E.Lawful) {c : Crew D b.B}
    (h : CrewLives (O := O) b E name clk (Orderly k) (fun v op => Orderly k v op ∧ MayBeCut k v op) c) :
    c.inFlight.count k ≤ if (b.see E name c.w).status k = some .running then 1 else 0 := by
  obtain ⟨h1, h2, _, _⟩ := crew_once L (fun _ _ h => h) (fun _ _ h => h) h
  split
  · omega
  · next hr => have := h2 hr; omega

/-- C76: in the same histories, what can still lead to an execution of `k` and the executions of it that are in flight
are at most one together: a job is never queued twice and never queued while it is being executed, and a job that is
done is not queued. -/
theorem C76_crash_once_partial (L : E.Lawful) {c : Crew D b.B}
    (h : CrewLives (O := O) b E name clk (Orderly k) (fun v op => Orderly k v op ∧ MayBeCut k v op) c) :
    ((b.see E name c.w).lists .queued).count k + c.inFlight.count k ≤ 1 ∧
    (∀ st : JobStatus, (b.see E name c.w).status k = some st → st.Done → k ∉ (b.see E name c.w).lists .queued) ∧
    c.inFlight.count k ≤ ((b.see E name c.w).lists .running).count k := by
  obtain ⟨h1, _, h3, h4⟩ := crew_once L (fun _ _ h => h) (fun _ _ h => h) h
  have e : ((b.see E name c.w).own k).length = 0 := rfl
  rw [e] at h1 h4
  exact ⟨by omega, fun st hst hd => List.count_eq_zero.mp (h3 st hst hd), by omega⟩

/-- C76: processes also die inside turns. When every turn is orderly with all jobs and is taken by a process whose
capacity is at most `M`, all processes together have at most `M` executions in flight. -/
theorem C76_crash_capacity_partial (L : E.Lawful) {c : Crew D b.B} (M : Nat)
    (h : CrewLives (O := O) b E name clk (fun v op => (∀ k, Orderly k v op) ∧ v.cfg.maxProcessingJobs ≤ M)
      (fun v op => ∀ k, Orderly k v op ∧ MayBeCut k v op) c) :
    c.inFlight.length ≤ M :=
  crew_capacity L (fun _ _ k h => h.1 k) (fun _ _ h => h.2) (fun _ _ k h => h k) h

end

/-! ## Concrete cases -/

section
open Demo

/-- What happens in a crew: something whole, or process `i` dies after `n` steps of its turn. -/
private inductive Event where
  | whole (op : CrewOp Int Unit)
  | dies (i : Nat) (op : Op Int Unit) (n : Nat)

/-- What is left after `n` steps of a turn. -/
private def left (b : Impl) (s : Sys Int b.B) (op : Op Int Unit) (n : Nat) : World b.B :=
  if s.alive = true then match op with
    | .enqueue j c => (WorkQueue.runWithConfig E c!"print" j c).upto b.B clk n s.w
    | .cancel id => (WorkQueue.cancelJob E c!"print" id).upto b.B clk n s.w
    | .tick => (WorkQueue.pickJobsToProcess E c!"print" (Sys.tickFuel c!"print" b.B s.w.s) s.cfg).upto b.B clk n s.w
    | .finish i x => match s.tasks[i]? with
      | some ⟨o, some j⟩ => (WorkQueue.taskFinish E c!"print" x o j).upto b.B clk n s.w
      | _ => s.w
    | _ => s.w
  else s.w

private theorem left_crash (b : Impl) (s : Sys Int b.B) (op : Op Int Unit) (n : Nat) :
    Sys.CrashIn E c!"print" b.B clk s op (left b s op n) := by
  unfold left
  split
  · next ha =>
    cases op with
    | enqueue j c => exact .enqueue ha (Crash.upto _ _ _)
    | cancel id => exact .cancel ha (Crash.upto _ _ _)
    | tick => exact .tick ha (Crash.upto _ _ _)
    | finish i x =>
      simp only
      split
      · next o j h => exact .finish ha h (Crash.upto _ _ _)
      · exact .between _
    | _ => exact .between _
  · exact .between _

private def happen (b : Impl) (c : Crew Int b.B) : Event → Crew Int b.B
  | .whole op => Crew.step E c!"print" b.B clk c op
  | .dies i op n => match c.procs[i]? with
    | some p => c.crash i (left b (p.sys c.w) op n)
    | none => c

private def after (b : Impl) (evs : List Event) : Crew Int b.B := evs.foldl (happen b) (Crew.init b.B b.empty)

/-- A check of one turn, for all jobs. -/
private def orderly (v : Snap Int) (op : Op Int Unit) : Bool :=
  match op with
  | .enqueue j c => match v.job j.id with
    | none => !(v.lists .queued).contains j.id
    | some ex => !(c.overrideData && !ex.isRunning && !(c.reRun && ex.isDone)) || decide (j.context.jobStatus = ex.context.jobStatus)
  | _ => true

private theorem orderly.ok {v : Snap Int} {op : Op Int Unit} (h : orderly v op = true) (k : Str) : Orderly k v op := by
  rintro j c rfl rfl
  unfold orderly at h
  simp only at h
  cases hex : v.job j.id with
  | none =>
    rw [hex] at h
    simp only [Bool.not_eq_true', List.contains_eq_mem, decide_eq_false_iff_not] at h
    exact ⟨fun _ => h, fun ex hex => by cases hex⟩
  | some ex =>
    rw [hex] at h
    refine ⟨fun hn => (by cases hn), fun ex' hex' h1 h2 h3 => ?_⟩
    obtain rfl : ex = ex' := Option.some.inj hex'
    simpa [h1, h2, h3] using h

/-- A check of one turn that is cut short, for all jobs. -/
private def mayCut (v : Snap Int) (op : Op Int Unit) : Bool :=
  match op with
  | .enqueue j c => match v.job j.id with
    | none => true
    | some ex => !(c.reRun && ex.isDone) || (c.overrideData && !j.isDone)
  | .cancel _ => false
  | _ => true

private theorem mayCut.ok {v : Snap Int} {op : Op Int Unit} (h : mayCut v op = true) (k : Str) : MayBeCut k v op := by
  refine ⟨by rintro rfl; exact absurd h (by simp [mayCut]), ?_⟩
  rintro j c ex rfl rfl hex hd hr
  have hd' : ex.isDone = true := Job.done_iff.mpr hd
  simp only [mayCut, hex, hr, hd', Bool.and_self, Bool.not_true, Bool.false_or, Bool.and_eq_true, Bool.not_eq_true'] at h
  refine ⟨h.1, fun hd => ?_⟩
  have := Job.done_iff.mpr hd
  rw [h.2] at this
  cases this

/-- The check of a history. -/
private def fine (b : Impl) (M : Nat) (Q : Snap Int → Op Int Unit → Bool) : Crew Int b.B → List Event → Bool
  | _, [] => true
  | c, ev :: evs => (match ev with
      | .whole (.turn i op) => match c.procs[i]? with
        | some p => let v := b.snap E c!"print" (p.sys c.w); orderly v op && decide (v.cfg.maxProcessingJobs ≤ M)
        | none => true
      | .whole _ => true
      | .dies i op _ => match c.procs[i]? with
        | some p => let v := b.snap E c!"print" (p.sys c.w); orderly v op && Q v op
        | none => true) && fine b M Q (happen b c ev) evs

private theorem fine.lives {b : Impl} {M : Nat} {Q : Snap Int → Op Int Unit → Bool} {evs : List Event} {c : Crew Int b.B}
    (hc : CrewLives (O := Unit) b E c!"print" clk (fun v op => (∀ k, Orderly k v op) ∧ v.cfg.maxProcessingJobs ≤ M)
      (fun v op => ∀ k, Orderly k v op ∧ (Q v op = true)) c) (h : fine b M Q c evs = true) :
    CrewLives (O := Unit) b E c!"print" clk (fun v op => (∀ k, Orderly k v op) ∧ v.cfg.maxProcessingJobs ≤ M)
      (fun v op => ∀ k, Orderly k v op ∧ (Q v op = true)) (evs.foldl (happen b) c) := by
  induction evs generalizing c with
  | nil => exact hc
  | cons ev evs ih =>
    unfold fine at h
    rw [Bool.and_eq_true] at h
    refine ih ?_ h.2
    cases ev with
    | whole op =>
      refine .step op hc ?_
      rintro i op' p rfl hp
      have := h.1
      simp only [hp, Bool.and_eq_true] at this
      exact ⟨orderly.ok this.1, of_decide_eq_true this.2⟩
    | dies i op n =>
      cases hp : c.procs[i]? with
      | some p =>
        have := h.1
        simp only [hp, Bool.and_eq_true] at this
        have e : happen b c (.dies i op n) = c.crash i (left b (p.sys c.w) op n) := by simp only [happen, hp]
        rw [e]
        exact .crash i p op hc hp (fun k => ⟨orderly.ok this.1 k, this.2⟩) (left_crash b _ op n)
      | none =>
        have e : happen b c (.dies i op n) = c := by simp only [happen, hp]
        rw [e]
        exact hc

private theorem fine.after (b : Impl) (Q : Snap Int → Op Int Unit → Bool) (evs : List Event)
    (h : fine b 20 Q (Crew.init b.B b.empty) evs = true) :
    CrewLives (O := Unit) b E c!"print" clk (fun v op => (∀ k, Orderly k v op) ∧ v.cfg.maxProcessingJobs ≤ 20)
      (fun v op => ∀ k, Orderly k v op ∧ (Q v op = true)) (after b evs) :=
  fine.lives .start h

/-- Job `a` is submitted; the process that cancels it dies inside; another process retries it and looks for work twice. -/
private def cancelled (n : Nat) : List Event :=
  [.whole .join, .whole .join, .whole (.turn 0 (.enqueue (job c!"a") .newReRun)), .dies 0 (.cancel c!"a") n,
    .whole (.turn 1 (.retry c!"a")), .whole (.turn 1 .tick), .whole (.turn 1 .tick)]


/-- Job `a` is done; the process that submits it once more without replacing it dies inside; then as before. -/
private def again (n : Nat) : List Event :=
  [.whole .join, .whole .join, .whole (.turn 0 (.enqueue (job c!"a") .newReRun)), .whole (.turn 0 .tick), .whole (.turn 0 (.start 0)),
    .whole (.turn 0 (.finish 0 good)), .dies 0 (.enqueue (job c!"a") ⟨true, false⟩) n,
    .whole (.turn 1 (.retry c!"a")), .whole (.turn 1 .tick), .whole (.turn 1 .tick)]

/-- C76 is false when a process may die inside a cancellation: the job is stored as Canceled but still in the queued list, a
retry puts it there once more, and it is executed twice at once. All turns are orderly and nothing else goes wrong. -/
theorem C76_refuted_cancel : ∃ (cm : Crew Int InMem) (cr : Crew Int RedisB),
    CrewLives (O := Unit) Impl.memory E c!"print" clk (fun v op => ∀ k, Orderly k v op) (fun _ op => op = .cancel c!"a") cm ∧
    CrewLives (O := Unit) Impl.redis E c!"print" clk (fun v op => ∀ k, Orderly k v op) (fun _ op => op = .cancel c!"a") cr ∧
    cm.inFlight = [c!"a", c!"a"] ∧ cr.inFlight = [c!"a", c!"a"] := by
  let Q : Snap Int → Op Int Unit → Bool := fun _ op => match op with | .cancel id => id == c!"a" | _ => false
  have hQ : ∀ (v : Snap Int) (op : Op Int Unit), (∀ k, Orderly k v op ∧ Q v op = true) → op = .cancel c!"a" := by
    intro v op h
    have h := (h []).2
    cases op with
    | cancel id => rw [show id = c!"a" from by simpa [Q] using h]
    | _ => cases h
  exact ⟨after Impl.memory (cancelled 3), after Impl.redis (cancelled 3),
    (fine.after Impl.memory Q (cancelled 3) (by decide +kernel)).mono (fun _ _ h => h.1) hQ,
    (fine.after Impl.redis Q (cancelled 3) (by decide +kernel)).mono (fun _ _ h => h.1) hQ,
    by decide +kernel, by decide +kernel⟩

/-- C76 is false when a process may die inside a submission that runs a done job once more and does not replace it
(`override_data` false): the id is in the queued list, the job still stored as Finished, and a retry puts it there once
more. -/
theorem C76_refuted_rerun : ∃ (cm : Crew Int InMem) (cr : Crew Int RedisB),
    CrewLives (O := Unit) Impl.memory E c!"print" clk (fun v op => ∀ k, Orderly k v op)
      (fun v op => v.status c!"a" = some .finished ∧ ∃ j, op = .enqueue j ⟨true, false⟩ ∧ j.id = c!"a") cm ∧
    CrewLives (O := Unit) Impl.redis E c!"print" clk (fun v op => ∀ k, Orderly k v op)
      (fun v op => v.status c!"a" = some .finished ∧ ∃ j, op = .enqueue j ⟨true, false⟩ ∧ j.id = c!"a") cr ∧
    cm.inFlight = [c!"a", c!"a"] ∧ cr.inFlight = [c!"a", c!"a"] := by
  let Q : Snap Int → Op Int Unit → Bool := fun v op => decide (v.status c!"a" = some .finished) && match op with
    | .enqueue j c => decide (c = ⟨true, false⟩) && j.id == c!"a"
    | _ => false
  have hQ : ∀ (v : Snap Int) (op : Op Int Unit), (∀ k, Orderly k v op ∧ Q v op = true) →
      v.status c!"a" = some .finished ∧ ∃ j, op = .enqueue j ⟨true, false⟩ ∧ j.id = c!"a" := by
    intro v op h
    have h := (h []).2
    simp only [Q, Bool.and_eq_true, decide_eq_true_eq] at h
    refine ⟨h.1, ?_⟩
    cases op with
    | enqueue j c =>
      have h := h.2
      simp only [Bool.and_eq_true, decide_eq_true_eq, beq_iff_eq] at h
      exact ⟨j, by rw [h.1], h.2⟩
    | _ => cases h.2
  exact ⟨after Impl.memory (again 2), after Impl.redis (again 2),
    (fine.after Impl.memory Q (again 2) (by decide +kernel)).mono (fun _ _ h => h.1) hQ,
    (fine.after Impl.redis Q (again 2) (by decide +kernel)).mono (fun _ _ h => h.1) hQ,
    by decide +kernel, by decide +kernel⟩

/-- Three processes. The first submits `a` and dies after `n` steps of the submission of `b`; the second dies after `m` steps of
a tick; the third looks for work twice. -/
private def troubled (n m : Nat) : List Event :=
  [.whole .join, .whole .join, .whole .join, .whole (.turn 0 (.enqueue (job c!"a") .newReRun)), .dies 0 (.enqueue (job c!"b") .newReRun) n,
    .dies 1 .tick m, .whole (.turn 2 .tick), .whole (.turn 2 .tick)]

/-- The hypotheses of the three theorems, with two processes that die inside turns: the second one while `a` is stored as
Running but still queued. -/
example : CrewLives (O := Unit) Impl.redis E c!"print" clk (fun v op => (∀ k, Orderly k v op) ∧ v.cfg.maxProcessingJobs ≤ 20)
      (fun v op => ∀ k, Orderly k v op ∧ MayBeCut k v op) (after Impl.redis (troubled 5 8)) ∧
    CrewLives (O := Unit) Impl.memory E c!"print" clk (Orderly c!"a")
      (fun v op => Orderly c!"a" v op ∧ MayBeCut c!"a" v op) (after Impl.memory (troubled 5 8)) :=
  ⟨(fine.after Impl.redis mayCut (troubled 5 8) (by decide +kernel)).mono (fun _ _ h => h) (fun _ _ h k => ⟨(h k).1, mayCut.ok (h k).2 k⟩),
   (fine.after Impl.memory mayCut (troubled 5 8) (by decide +kernel)).mono (fun _ _ h => h.1 _) (fun _ _ h => ⟨(h c!"a").1, mayCut.ok (h c!"a").2 _⟩)⟩

/-- What the third process executes, by where the second one died: both jobs, `b` only, or nothing; never one twice. -/
example : [0, 4, 8, 9, 14, 15].map (fun m => (after Impl.redis (troubled 5 m)).inFlight) =
    [[c!"a", c!"b"], [c!"a", c!"b"], [c!"a", c!"b"], [c!"b"], [c!"b"], []] := by
  decide +kernel

/-- Where the second process died after step 8, `a` was Running and queued at once before the third one looked. -/
example : let c := after Impl.redis ((troubled 5 8).take 6)
    (Impl.redis.see E c!"print" c.w).status c!"a" = some .running ∧ c.inFlight = [] ∧
    (Impl.redis.see E c!"print" c.w).lists .queued = [c!"b", c!"a"] ∧ (Impl.redis.see E c!"print" c.w).lists .running = [] := by
  decide +kernel

end

end AJ.Props
