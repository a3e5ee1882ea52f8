import Verif.Proofs.Tick
import Verif.Spec.Observe

/-! # Closed forms of the turns of the actor over the specification backend -/

namespace AJ

/-- The cron job has used up its repetitions or is past its end (the tests of `job/mod.rs:198-210`). -/
def CronContext.over (c : CronContext) (total : Int) (now : Time) : Bool :=
  (match c.maxRepeat with | some m => decide (m < total) | none => false) ||
  (match c.endAt with | some e => decide (e < now) | none => false)

/-- Replace the retry state. -/
def Job.withRetry {D : Type} (j : Job D) (r : Retry) : Job D :=
  { j with context := { j.context with retry := some r } }

/-- Replace the job type. -/
def Job.withType {D : Type} (j : Job D) (t : JobType) : Job D :=
  { j with context := { j.context with jobType := t } }

namespace W
variable {D O : Type} (E : Env D) (name : Str) (clk : Nat → Time)

/-- How `next_tick` may end. -/
inductive Next (j : Job D) (w : W) : Out (Option (Job D)) × W → Prop where
  | other (h : ∀ e n k c, j.context.jobType ≠ .cron e n k c) : Next j w (.ok none, tick w)
  | badExpr {e n k c} (h : j.context.jobType = .cron e n k c) (hc : E.cron e = none) :
      Next j w (.ok none, tick w)
  | over {e n k c f} (h : j.context.jobType = .cron e n k c) (hc : E.cron e = some f)
      (ho : c.over k (clk w.t) = true) : Next j w (.ok none, tick (tick w))
  | slot {e n k c f up k'} (h : j.context.jobType = .cron e n k c) (hc : E.cron e = some f)
      (ho : c.over k (clk w.t) = false) (hs : f (clk (w.t + 1)) = some up)
      (hk : addI32 E.overflowChecks k 1 = some k') :
      Next j w (.ok (some (j.withType (.cron e up k' c))), tick (tick w))
  | stuck {e n k c f} (h : j.context.jobType = .cron e n k c) (hc : E.cron e = some f)
      (ho : c.over k (clk w.t) = false) (hs : f (clk (w.t + 1)) = none) :
      Next j w (.ok (some j), tick (tick w))
  | panic {e n k c f up} (h : j.context.jobType = .cron e n k c) (hc : E.cron e = some f)
      (hs : f (clk (w.t + 1)) = some up) (hk : addI32 E.overflowChecks k 1 = none) :
      Next j w (.panicked, tick (tick w))

/-- What `retry_at` may answer: the job with its retry state, the retry time, and the world. -/
inductive Ask (x : Executable D O) (j : Job D) (o : O) (w : W) : Job D → Option Time → W → Prop where
  | noPolicy (h : j.context.retry = none) : Ask x j o w j none w
  | no {r} (h : j.context.retry = some r) (hx : x.retryAt = none)
      (hc : (x.isFailedOutput j.data o && r.shouldRetry) = false) : Ask x j o w j none w
  | yes {r r' t} (h : j.context.retry = some r) (hx : x.retryAt = none)
      (hf : x.isFailedOutput j.data o = true) (hs : r.shouldRetry = true)
      (hr : r.retryAt E.overflowChecks (clk w.t) = some (r', t)) :
      Ask x j o w (j.withRetry r') (some t) (tick w)
  | custom {r f} (h : j.context.retry = some r) (hx : x.retryAt = some f) :
      Ask x j o w (j.withRetry (f j.data r o (clk w.t)).1) (f j.data r o (clk w.t)).2 (tick w)

/-- How the end of an execution may go. -/
inductive Fin (x : Executable D O) (job : Job D) (w : W) : Out Unit × W → Prop where
  | retryPanic {r} (h : job.context.retry = some r) (hx : x.retryAt = none)
      (hf : x.isFailedOutput (WorkQueue.runUserCode x job).1.data (WorkQueue.runUserCode x job).2 = true)
      (hs : r.shouldRetry = true) (hr : r.retryAt E.overflowChecks (clk w.t) = none) :
      Fin x job w (.panicked, tick (say (.hookMsg job.id true) w))
  | again {j2 t w2} (ha : Ask E clk x (WorkQueue.runUserCode x job).1 (WorkQueue.runUserCode x job).2
        (say (.hookMsg job.id true) w) j2 (some t) w2) :
      Fin x job w (.ok (), reEnq E name clk (j2.withType (.scheduledAt t)) w2)
  | nextPanic {j2 w2 w3} (ha : Ask E clk x (WorkQueue.runUserCode x job).1 (WorkQueue.runUserCode x job).2
        (say (.hookMsg job.id true) w) j2 none w2)
      (hn : Next E clk j2 w2 (.panicked, w3)) : Fin x job w (.panicked, w3)
  | next {j2 j3 w2 w3} (ha : Ask E clk x (WorkQueue.runUserCode x job).1 (WorkQueue.runUserCode x job).2
        (say (.hookMsg job.id true) w) j2 none w2)
      (hn : Next E clk j2 w2 (.ok (some j3), w3)) : Fin x job w (.ok (), reEnq E name clk j3 w3)
  | failed {j2 w2 w3} (ha : Ask E clk x (WorkQueue.runUserCode x job).1 (WorkQueue.runUserCode x job).2
        (say (.hookMsg job.id true) w) j2 none w2)
      (hn : Next E clk j2 w2 (.ok none, w3))
      (hf : x.isFailedOutput (WorkQueue.runUserCode x job).1.data (WorkQueue.runUserCode x job).2 = true) :
      Fin x job w (.ok (), flunk E name clk j2 w3)
  | finished {j2 w2 w3} (ha : Ask E clk x (WorkQueue.runUserCode x job).1 (WorkQueue.runUserCode x job).2
        (say (.hookMsg job.id true) w) j2 none w2)
      (hn : Next E clk j2 w2 (.ok none, w3))
      (hf : x.isFailedOutput (WorkQueue.runUserCode x job).1.data (WorkQueue.runUserCode x job).2 = false) :
      Fin x job w (.ok (), fin E name clk j2 w3)

variable {E name clk}

theorem ite_ite_or {α : Type} (a b : Bool) (p q : α) :
    (if a = true then p else if b = true then p else q) = if (a || b) = true then p else q := by
  cases a <;> cases b <;> rfl

theorem next_cases (j : Job D) (w : W) : Next E clk j w ((Job.nextTick E j).run SpecB clk w) := by
  unfold Job.nextTick
  simp only [Prog.bind_eq, Prog.run_bind, Prog.run_getNow, Prog.contRun_ok]
  cases hj : j.context.jobType with
  | normal => exact .other (by simp [hj])
  | scheduledAt t => exact .other (by simp [hj])
  | cron e n k c =>
    simp only
    cases hc : E.cron e with
    | none => exact .badExpr hj hc
    | some f =>
      simp only [Prog.run_bind, Prog.run_getNow, Prog.contRun_ok]
      cases hs : f (clk (w.t + 1)) with
      | none =>
        simp only [Prog.pure_eq, Prog.run_ret, Prog.contRun_ok]
        rw [ite_ite_or]
        change Next E clk j w (Prog.run _ _ (if c.over k (clk w.t) = true then _ else _) _)
        cases ho : c.over k (clk w.t) with
        | true => exact .over hj hc ho
        | false => exact .stuck hj hc ho hs
      | some up =>
        cases hk : addI32 E.overflowChecks k 1 with
        | none =>
          simp only [Prog.run_bind, Prog.run_orPanic_none, Prog.contRun_panicked]
          exact .panic hj hc hs hk
        | some k' =>
          simp only [Prog.run_bind, Prog.run_orPanic_some, Prog.contRun_ok, Prog.pure_eq,
            Prog.run_ret]
          rw [ite_ite_or]
          change Next E clk j w (Prog.run _ _ (if c.over k (clk w.t) = true then _ else _) _)
          cases ho : c.over k (clk w.t) with
          | true => exact .over hj hc ho
          | false => exact .slot hj hc ho hs hk

theorem withRetry_self {j : Job D} {r : Retry} (h : j.context.retry = some r) : j.withRetry r = j := by
  rcases j with ⟨c, d⟩
  rcases c
  simp only at h
  subst h
  rfl

theorem continueWith_cases (x : Executable D O) (job j2 : Job D) (w w2 : W) (failed : Bool)
    (hf : failed = x.isFailedOutput (WorkQueue.runUserCode x job).1.data (WorkQueue.runUserCode x job).2)
    (ha : Ask E clk x (WorkQueue.runUserCode x job).1 (WorkQueue.runUserCode x job).2
        (say (.hookMsg job.id true) w) j2 none w2) :
    Fin E name clk x job w (Prog.run SpecB clk ((Job.nextTick E j2).bind fun r => match r with
      | some next => WorkQueue.reEnqueue E name next
      | none => if failed then WorkQueue.markJobIsFailed E name j2 else WorkQueue.markJobIsFinished E name j2) w2) := by
  rw [Prog.run_bind]
  have hn := next_cases (E := E) (clk := clk) j2 w2
  generalize (Job.nextTick E j2).run SpecB clk w2 = p at hn
  rcases p with ⟨(r | e | _ | _), w3⟩
  · rcases r with _ | j3
    · simp only [Prog.contRun_ok]
      cases failed with
      | true => simp only [if_true, WorkQueue.run_markFailed]; exact .failed ha hn hf.symm
      | false => simp only [Bool.false_eq_true, if_false, WorkQueue.run_markFinished]; exact .finished ha hn hf.symm
    · simp only [Prog.contRun_ok, WorkQueue.run_reEnqueue]
      exact .next ha hn
  · cases hn
  · exact .nextPanic ha hn
  · cases hn

theorem fin_cases (x : Executable D O) (job : Job D) (w : W) :
    Fin E name clk x job w ((WorkQueue.executeFinish E name x job).run SpecB clk w) := by
  unfold WorkQueue.executeFinish
  have hctx : (WorkQueue.runUserCode x job).1.context = job.context := rfl
  have hid : (WorkQueue.runUserCode x job).1.id = job.id := rfl
  have hcont := fun j2 w2 => continueWith_cases (E := E) (name := name) (clk := clk) x job j2 w w2 _ rfl
  generalize hru : WorkQueue.runUserCode x job = ru at *
  rcases ru with ⟨j1, o⟩
  simp only at *
  simp only [Prog.bind_eq, Prog.run_bind, Prog.run_send, Prog.contRun_ok, hid]
  change Fin E name clk x job w (Prog.run SpecB clk _ (say (.hookMsg job.id true) w))
  cases hr : j1.context.retry with
  | none => exact hcont j1 _ (.noPolicy hr)
  | some r =>
    simp only [Prog.run_bind]
    unfold Executable.callRetryAt
    cases hx : x.retryAt with
    | none =>
      simp only [defaultRetryAt]
      cases hb : (x.isFailedOutput j1.data o && r.shouldRetry) with
      | false =>
        simp only [Bool.false_eq_true, if_false, Prog.pure_eq, Prog.run_ret, Prog.contRun_ok]
        have := hcont j1 _ (.no hr hx hb)
        have e := withRetry_self hr
        unfold Job.withRetry at e
        rw [e]
        exact this
      | true =>
        simp only [Bool.and_eq_true] at hb
        simp only [if_true, Prog.bind_eq, Prog.run_bind, Prog.run_getNow, Prog.contRun_ok]
        have ht : (say (.hookMsg job.id true) w).t = w.t := rfl
        cases hra : r.retryAt E.overflowChecks (clk w.t) with
        | none =>
          rw [ht, hra]
          simp only [Prog.run_orPanic_none, Prog.contRun_panicked]
          exact .retryPanic (by rw [← hctx]; exact hr) hx (by rw [hru]; exact hb.1) hb.2 hra
        | some p =>
          rcases p with ⟨r', t⟩
          rw [ht, hra]
          simp only [Prog.run_orPanic_some, Prog.contRun_ok, Prog.pure_eq, Prog.run_ret,
            WorkQueue.run_reEnqueue]
          refine .again (j2 := j1.withRetry r') (t := t) (w2 := tick (say (.hookMsg job.id true) w)) ?_
          rw [hru]
          exact .yes hr hx hb.1 hb.2 hra
    | some f =>
      simp only [Prog.bind_eq, Prog.run_bind, Prog.run_getNow, Prog.contRun_ok, Prog.pure_eq, Prog.run_ret]
      have ht : (say (.hookMsg job.id true) w).t = w.t := rfl
      have ha := Ask.custom (E := E) (clk := clk) (o := o) (w := say (.hookMsg job.id true) w) hr hx
      rw [ht] at ha ⊢
      generalize f j1.data r o (clk w.t) = p at ha ⊢
      rcases p with ⟨r', _ | t⟩
      · exact hcont _ _ ha
      · simp only [WorkQueue.run_reEnqueue]
        refine .again (j2 := j1.withRetry r') (t := t) (w2 := tick (say (.hookMsg job.id true) w)) ?_
        rw [hru]; exact ha

/-- `taskFinish` ends like `executeFinish`: over the specification no call fails. -/
theorem task_cases (x : Executable D O) (orig job : Job D) (w : W) :
    Fin E name clk x job w ((WorkQueue.taskFinish E name x orig job).run SpecB clk w) := by
  have h := fin_cases (E := E) (name := name) (clk := clk) x job w
  unfold WorkQueue.taskFinish
  simp only [Prog.bind_eq, Prog.run_bind, Prog.run_catchErr]
  generalize (WorkQueue.executeFinish E name x job).run SpecB clk w = p at h ⊢
  rcases p with ⟨(r | e | _ | _), w3⟩
  · exact h
  · cases h
  · exact h
  · cases h

end W

namespace Sys
open W
variable {D O : Type} (E : Env D) (name : Str) (clk : Nat → Time)

/-- The turns of a live actor over the specification. -/
inductive Step (s : Sys D SpecB) : Op D O → Sys D SpecB × Resp D → Prop where
  | enqueue (j c) : Step s (.enqueue j c) ({ s with w := submit E name clk j c s.w }, .unit (.ok ()))
  | cancel (k) : Step s (.cancel k) ({ s with w := cancel E name clk k s.w }, .unit (.ok ()))
  | get (k) : Step s (.get k) (s, .job (view E s.w k))
  | retry (k) : Step s (.retry k) ({ s with w := retry E name clk k s.w }, .bool (.ok (retryAnswer E k s.w)))
  | config (c) : Step s (.config c) ({ s with cfg := c }, .unit (.ok ()))
  | tick (k)
      (hk : (lst name s.w .queued).length < 2 ^ 31 →
        (turns E name clk (free name s.cfg s.w) k (s.w, [])).2.length ≥ free name s.cfg s.w ∨
        (lst name s.w .queued).length ≤ k)
      (hk20 : (lst name s.w .queued).length ≤ 20 →
        (free name s.cfg s.w = 0 ∧ k = 0) ∨ k = (lst name s.w .queued).length) :
      Step s .tick ({ s with
        w := (turns E name clk (free name s.cfg s.w) k (s.w, [])).1
        tasks := s.tasks ++ (turns E name clk (free name s.cfg s.w) k (s.w, [])).2.map fun j => ⟨j, none⟩ }, .silent)
  | tickPanic (h : E.overflowChecks = true) (hl : wrapI32 (lst name s.w .queued).length < -(2 ^ 31) + 20) :
      Step s .tick ({ s with tasks := [], alive := false }, .silent)
  | started (i orig) (h : s.tasks[i]? = some ⟨orig, none⟩) (hc : orig.isCancelled = false) :
      Step s (.start i) ({ s with
        w := say (.ran orig.counted.context) (say (.hookMsg orig.id true) s.w)
        tasks := s.tasks.set i ⟨orig, some orig.counted⟩ }, .silent)
  | startCancelled (i orig) (h : s.tasks[i]? = some ⟨orig, none⟩) (hc : orig.isCancelled = true) :
      Step s (.start i) ({ s with
        w := setL name .canceled (orig.id :: lst name s.w .canceled) s.w
        tasks := s.tasks.eraseIdx i }, .silent)
  | noStart (i) (h : ∀ orig, s.tasks[i]? ≠ some ⟨orig, none⟩) : Step s (.start i) (s, .silent)
  | finished (i x orig job w) (h : s.tasks[i]? = some ⟨orig, some job⟩) (hf : Fin E name clk x job s.w (.ok (), w)) :
      Step s (.finish i x) ({ s with w := w, tasks := s.tasks.eraseIdx i }, .silent)
  | finishPanic (i x orig job w) (h : s.tasks[i]? = some ⟨orig, some job⟩)
      (hf : Fin E name clk x job s.w (.panicked, w)) :
      Step s (.finish i x) ({ s with w := w, tasks := [], alive := false }, .silent)
  | noFinish (i x) (h : ∀ orig job, s.tasks[i]? ≠ some ⟨orig, some job⟩) : Step s (.finish i x) (s, .silent)
  | userPanic (i orig job) (h : s.tasks[i]? = some ⟨orig, some job⟩) :
      Step s (.userPanic i) ({ s with tasks := [], alive := false }, .silent)
  | noUserPanic (i) (h : ∀ orig job, s.tasks[i]? ≠ some ⟨orig, some job⟩) : Step s (.userPanic i) (s, .silent)

variable {E name clk}

theorem tickFuel_spec (w : W) : tickFuel name SpecB w.s = (lst name w .queued).length + 1 := rfl

theorem step_dead (s : Sys D SpecB) (h : s.alive = false) (op : Op D O) :
    step E name SpecB clk s op = (s, deadResp op) := by simp [step, h]

theorem step_cases (s : Sys D SpecB) (h : s.alive = true) (op : Op D O) :
    Step E name clk s op (step E name SpecB clk s op) := by
  unfold step
  rw [if_pos h]
  cases op with
  | enqueue j c => simp only [handle, WorkQueue.run_runWithConfig]; exact .enqueue j c
  | cancel k => simp only [handle, WorkQueue.run_cancelJob]; exact .cancel k
  | get k => simp only [handle, WorkQueue.run_getJob]; exact .get k
  | retry k => simp only [handle, WorkQueue.run_retryJob]; exact .retry k
  | config c => exact .config c
  | tick =>
    simp only [tickFuel_spec]
    by_cases h20 : (lst name s.w .queued).length ≤ 20
    · obtain ⟨k, h1, h2, h3⟩ := run_pick_small (E := E) (clk := clk) (lst name s.w .queued).length s.cfg s.w h20
      rw [h3]
      refine .tick k (fun _ => ?_) (fun _ => h2)
      rcases h2 with ⟨h2, _⟩ | h2
      · exact .inl (by rw [h2]; exact Nat.zero_le _)
      · exact .inr (Nat.le_of_eq h2.symm)
    · rcases WorkQueue.run_pickJobs E name clk ((lst name s.w .queued).length + 1) s.cfg s.w (by omega) with
        ⟨k, h1, h2⟩ | ⟨h1, h2, h3⟩
      · rw [h1]; exact .tick k h2 (fun h => absurd h h20)
      · rw [h1]; exact .tickPanic h2 h3
  | start i =>
    simp only
    rcases ht : s.tasks[i]? with _ | ⟨orig, _ | job⟩
    · exact .noStart i (by simp [ht])
    · simp only
      cases hc : orig.isCancelled with
      | true => simp [WorkQueue.executeStart, hc, WorkQueue.markJobIsCanceled, Prog.run_bind]; exact .startCancelled i orig ht hc
      | false =>
        have e : (WorkQueue.executeStart name orig).run SpecB clk s.w =
            (.ok (some orig.counted), say (.ran orig.counted.context) (say (.hookMsg orig.id true) s.w)) := by
          unfold WorkQueue.executeStart
          rw [hc]
          rfl
        rw [e]
        exact .started i orig ht hc
    · exact .noStart i (by simp [ht])
  | finish i x =>
    simp only
    rcases ht : s.tasks[i]? with _ | ⟨orig, _ | job⟩
    · exact .noFinish i x (by simp [ht])
    · exact .noFinish i x (by simp [ht])
    · simp only
      have hf := task_cases (E := E) (name := name) (clk := clk) x orig job s.w
      generalize (WorkQueue.taskFinish E name x orig job).run SpecB clk s.w = p at hf ⊢
      rcases p with ⟨(r | e | _ | _), w3⟩
      · exact .finished i x orig job w3 ht hf
      · cases hf
      · exact .finishPanic i x orig job w3 ht hf
      · cases hf
  | userPanic i =>
    simp only
    rcases ht : s.tasks[i]? with _ | ⟨orig, _ | job⟩
    · exact .noUserPanic i (by simp [ht])
    · exact .noUserPanic i (by simp [ht])
    · exact .userPanic i orig job ht

end Sys
end AJ
