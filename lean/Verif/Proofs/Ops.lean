import Verif.Proofs.Runs
import Verif.Proofs.TickFacts
import Verif.Model.Client

/-! # What single requests do, on any backend -/

namespace AJ
open W

section
variable {D O : Type} {E : Env D} {name : Str} {clk : Nat → Time} {b : Impl}

theorem Job.done_iff {j : Job D} : j.isDone = true ↔ j.context.jobStatus.Done := by
  unfold Job.isDone JobStatus.Done
  cases j.context.jobStatus <;> simp

theorem Job.isRunning_iff {j : Job D} : j.isRunning = true ↔ j.context.jobStatus = .running := by
  simp [Job.isRunning]

theorem Job.isQueued_iff {j : Job D} : j.isQueued = true ↔ j.context.jobStatus = .queued := by
  simp [Job.isQueued]

/-- What a request about job `k` leaves alone. -/
structure Snap.Only (v v' : Snap D) (k : Str) : Prop where
  tasks : v'.tasks = v.tasks
  cfg : v'.cfg = v.cfg
  alive : v'.alive = v.alive
  jobs : ∀ id, id ≠ k → v'.job id = v.job id
  counts : ∀ id, id ≠ k → ∀ st, (v'.lists st).count id = (v.lists st).count id

theorem Snap.Only.refl (v : Snap D) (k : Str) : v.Only v k := ⟨rfl, rfl, rfl, fun _ _ => rfl, fun _ _ _ => rfl⟩

theorem only_of_touch {s : Sys D SpecB} {w : W} {k : Str} (h : Touch E name k s.w w) :
    (Sys.obs E name s).Only (Sys.obs E name { s with w := w }) k :=
  ⟨rfl, rfl, rfl, h.view, h.count⟩

/-- What `cancel_job` does. -/
def CancelSpec (clk : Nat → Time) (k : Str) (v : Snap D) (r : Resp D) (v' : Snap D) : Prop :=
  r = .unit (.ok ()) ∧ v.Only v' k ∧
  (∀ j, v.job k = some j → j.context.jobStatus = .queued →
    v'.job k = some { j with context := { j.context with jobStatus := .canceled, cancelAt := some (clk v.reads / 1000000) } } ∧
    v'.lists .queued = (v.lists .queued).filter (· ≠ k) ∧
    (∀ st : JobStatus, st ≠ .queued → v'.lists st = v.lists st) ∧
    v'.log = v.log ++ [.statusMsg k .canceled] ∧ v'.reads = v.reads + 1) ∧
  ((∀ j, v.job k = some j → j.context.jobStatus ≠ .queued) → v' = v)

theorem cancel_spec (L : E.Lawful) (s : Sys D SpecB) (hk : Keyed E s.w) (ha : s.alive = true) (k : Str) :
    CancelSpec clk k (Sys.obs E name s) (Sys.step E name SpecB clk s (.cancel k : Op D O)).2
      (Sys.obs E name (Sys.step E name SpecB clk s (.cancel k : Op D O)).1) := by
  have hs := Sys.step_cases (E := E) (name := name) (clk := clk) s ha (.cancel k : Op D O)
  generalize Sys.step E name SpecB clk s (.cancel k : Op D O) = p at hs
  cases hs
  refine ⟨rfl, only_of_touch (Touch.cancel hk k), fun j hj hq => ?_, fun h => ?_⟩
  · have hj' : view E s.w k = some j := hj
    have hid := hk k j hj'
    have hst : L.Stored j := Env.Lawful.stored_view hj'
    have e : cancel E name clk k s.w = canc E name clk k j s.w := by
      unfold cancel; rw [hj']; simp only; rw [if_pos (Job.isQueued_iff.mpr hq)]
    rw [e]
    refine ⟨?_, ?_, fun st hne => ?_, ?_, rfl⟩
    · show view E (canc E name clk k j s.w) k = _
      unfold canc
      simp only [view_setL, view_put, Job.id_asCanceled, hid, upd_same]
      exact (hst.asCanceled _).encdec
    · show lst name (canc E name clk k j s.w) .queued = _
      unfold canc; simp
    · show lst name (canc E name clk k j s.w) st = _
      unfold canc; rw [lst_setL_ne hne]; rfl
    · show (canc E name clk k j s.w).log = _
      unfold canc; simp [hid]
  · have e : cancel E name clk k s.w = s.w := by
      unfold cancel
      cases hv : view E s.w k with
      | none => rfl
      | some j => simp only; rw [if_neg fun e => h j hv (Job.isQueued_iff.mp e)]
    rw [e]

/-- What `retry_job` does. -/
def RetrySpec (clk : Nat → Time) (k : Str) (v : Snap D) (r : Resp D) (v' : Snap D) : Prop :=
  v.Only v' k ∧
  (∀ j, v.job k = some j → j.context.jobStatus.Done →
    r = .bool (.ok true) ∧
    v'.job k = some { j with context := { j.context with jobStatus := .queued, enqueueAt := some (clk v.reads / 1000000) } } ∧
    v'.lists .queued = k :: v.lists .queued ∧
    v'.lists j.context.jobStatus = (v.lists j.context.jobStatus).filter (· ≠ k) ∧
    (∀ st : JobStatus, st ≠ .queued → st ≠ j.context.jobStatus → v'.lists st = v.lists st) ∧
    v'.log = v.log ++ [.statusMsg k .queued] ∧ v'.reads = v.reads + 1) ∧
  ((∀ j, v.job k = some j → ¬ j.context.jobStatus.Done) → r = .bool (.ok false) ∧ v' = v)

theorem retry_spec (L : E.Lawful) (s : Sys D SpecB) (hk : Keyed E s.w) (ha : s.alive = true) (k : Str) :
    RetrySpec clk k (Sys.obs E name s) (Sys.step E name SpecB clk s (.retry k : Op D O)).2
      (Sys.obs E name (Sys.step E name SpecB clk s (.retry k : Op D O)).1) := by
  have hs := Sys.step_cases (E := E) (name := name) (clk := clk) s ha (.retry k : Op D O)
  generalize Sys.step E name SpecB clk s (.retry k : Op D O) = p at hs
  cases hs
  refine ⟨only_of_touch (Touch.retry hk k), fun j hj hd => ?_, fun h => ?_⟩
  · have hj' : view E s.w k = some j := hj
    have hid := hk k j hj'
    have hst : L.Stored j := Env.Lawful.stored_view hj'
    have hdone := Job.done_iff.mpr hd
    have hne : j.context.jobStatus ≠ .queued := by rintro e; rw [e] at hd; simp [JobStatus.Done] at hd
    have e : W.retry E name clk k s.w = reEnq E name clk j s.w := by
      unfold W.retry; rw [hj']; simp only; rw [if_pos hdone]
    have e' : retryAnswer E k s.w = true := by unfold retryAnswer; rw [hj']; exact hdone
    rw [e, e']
    refine ⟨rfl, ?_, ?_, ?_, fun st h1 h2 => ?_, ?_, rfl⟩
    · show view E (reEnq E name clk j s.w) k = _
      unfold reEnq
      simp only [view_setL, view_put, Job.id_asQueued, hid, upd_same]
      exact (hst.asQueued _).encdec
    · show lst name (reEnq E name clk j s.w) .queued = _
      unfold reEnq; simp [lst_setL_ne (Ne.symm hne), hid]
    · show lst name (reEnq E name clk j s.w) j.context.jobStatus = _
      unfold reEnq; simp [lst_setL_ne hne, hid]
    · show lst name (reEnq E name clk j s.w) st = _
      unfold reEnq; simp only; rw [lst_setL_ne h1]; simp [lst_setL_ne h2]
    · show (reEnq E name clk j s.w).log = _
      unfold reEnq; simp [hid]
  · have hn : ∀ j, view E s.w k = some j → ¬ j.isDone = true := fun j hj e => h j hj (Job.done_iff.mp e)
    cases hv : view E s.w k with
    | none =>
      have e : W.retry E name clk k s.w = s.w := by unfold W.retry; rw [hv]
      have e' : retryAnswer E k s.w = false := by unfold retryAnswer; rw [hv]
      rw [e, e']; exact ⟨rfl, rfl⟩
    | some j =>
      have e : W.retry E name clk k s.w = s.w := by unfold W.retry; rw [hv]; simp only; rw [if_neg (hn j hv)]
      have e' : retryAnswer E k s.w = false := by
        unfold retryAnswer; rw [hv]; exact Bool.eq_false_iff.mpr (hn j hv)
      rw [e, e']; exact ⟨rfl, rfl⟩

/-- What submitting `job` does. -/
def SubmitSpec (L : E.Lawful) (clk : Nat → Time) (job : Job D) (cfg : EnqueueConfig) (v : Snap D) (r : Resp D)
    (v' : Snap D) : Prop :=
  r = .unit (.ok ()) ∧ v.Only v' job.id ∧
  -- unknown, or done and to be run again: queued
  ((v.job job.id = none ∨ ∃ ex, v.job job.id = some ex ∧ ex.context.jobStatus.Done ∧ cfg.reRun = true) →
    v'.lists .queued = job.id :: v.lists .queued ∧ (∀ st : JobStatus, st ≠ .queued → v'.lists st = v.lists st) ∧
    v'.log = v.log ++ [.statusMsg job.id .queued] ∧ v'.reads = v.reads + 1 ∧
    (E.Encodable job → v'.job job.id = some ((({ job with context := { job.context with
      jobStatus := .queued, enqueueAt := some (clk v.reads / 1000000) } } : Job D)).norm L.normD))) ∧
  -- otherwise at most the stored job is replaced
  (∀ ex, v.job job.id = some ex → ¬ (ex.context.jobStatus.Done ∧ cfg.reRun = true) →
    v'.lists = v.lists ∧ v'.log = v.log ∧ v'.reads = v.reads ∧
    (cfg.overrideData = false ∨ ex.context.jobStatus = .running → v' = v) ∧
    (cfg.overrideData = true → ex.context.jobStatus ≠ .running → E.Encodable job →
      v'.job job.id = some (job.norm L.normD)))

theorem submit_spec (L : E.Lawful) (s : Sys D SpecB) (ha : s.alive = true) (job : Job D) (cfg : EnqueueConfig) :
    SubmitSpec L clk job cfg (Sys.obs E name s) (Sys.step E name SpecB clk s (.enqueue job cfg : Op D O)).2
      (Sys.obs E name (Sys.step E name SpecB clk s (.enqueue job cfg : Op D O)).1) := by
  have hs := Sys.step_cases (E := E) (name := name) (clk := clk) s ha (.enqueue job cfg : Op D O)
  generalize Sys.step E name SpecB clk s (.enqueue job cfg : Op D O) = p at hs
  cases hs
  have henq : ∀ w, lst name w = lst name s.w → w.t = s.w.t → w.log = s.w.log →
      let v' := Sys.obs E name ({ s with w := enq E name clk job w } : Sys D SpecB)
      v'.lists .queued = job.id :: lst name s.w .queued ∧
      (∀ st : JobStatus, st ≠ .queued → v'.lists st = lst name s.w st) ∧
      v'.log = s.w.log ++ [.statusMsg job.id .queued] ∧ v'.reads = s.w.t + 1 ∧
      (E.Encodable job → v'.job job.id = some ((({ job with context := { job.context with
        jobStatus := .queued, enqueueAt := some (clk s.w.t / 1000000) } } : Job D)).norm L.normD)) := by
    intro w h1 h2 h3 v'
    refine ⟨?_, fun st hne => ?_, ?_, ?_, fun he => ?_⟩
    · show lst name (enq E name clk job w) .queued = _
      unfold enq; simp [h1]
    · show lst name (enq E name clk job w) st = _
      unfold enq; simp [lst_setL_ne hne, h1]
    · show (enq E name clk job w).log = _
      unfold enq; simp [h3]
    · show (enq E name clk job w).t = _
      unfold enq; simp [h2]
    · show view E (enq E name clk job w) job.id = _
      unfold enq
      rw [view_put, Job.id_asQueued, upd_same, h2]
      exact Env.Lawful.encdec_enc (L.congr' (j := job) rfl rfl he)
  refine ⟨rfl, only_of_touch (Touch.submit job cfg s.w), fun h => ?_, fun ex hex hn => ?_⟩
  · rcases h with h | ⟨ex, hex, hd, hr⟩
    · have h' : view E s.w job.id = none := h
      have e : submit E name clk job cfg s.w = enq E name clk job s.w := by unfold submit; rw [h']
      rw [e]
      exact henq s.w rfl rfl rfl
    · have h' : view E s.w job.id = some ex := hex
      have e : submit E name clk job cfg s.w =
          enq E name clk job (if cfg.overrideData && !ex.isRunning then W.upsert E job.id job s.w else s.w) := by
        unfold submit; rw [h']; simp only
        rw [if_pos (by rw [Bool.and_eq_true]; exact ⟨hr, Job.done_iff.mpr hd⟩)]
      rw [e]
      refine henq _ ?_ ?_ ?_ <;> split <;> rfl
  · have h' : view E s.w job.id = some ex := hex
    have e : submit E name clk job cfg s.w =
        (if cfg.overrideData && !ex.isRunning then W.upsert E job.id job s.w else s.w) := by
      unfold submit; rw [h']; simp only
      rw [if_neg (by rw [Bool.and_eq_true]; exact fun e => hn ⟨Job.done_iff.mp e.2, e.1⟩)]
    rw [e]
    refine ⟨?_, ?_, ?_, fun h => ?_, fun ho hr he => ?_⟩
    · show lst name (if _ then _ else _) = _
      split <;> rfl
    · show World.log (if _ then _ else _) = _
      split <;> rfl
    · show World.t (if _ then _ else _) = _
      split <;> rfl
    · rw [if_neg]
      rcases h with h | h
      · simp [h]
      · simp [Job.isRunning, h]
    · have hc : (cfg.overrideData && !ex.isRunning) = true := by simp [ho, Job.isRunning, hr]
      show view E (if _ then _ else _) job.id = _
      rw [if_pos hc, view_upsert, upd_same]
      exact Env.Lawful.encdec_enc he

/-- Without free capacity a tick changes nothing. -/
theorem tick_full (s : Sys D SpecB) (ha : s.alive = true)
    (h : s.cfg.maxProcessingJobs ≤ (lst name s.w .running).length) :
    (Sys.step E name SpecB clk s (.tick : Op D O)).1 = s := by
  have e : (WorkQueue.pickJobsToProcess E name (Sys.tickFuel name SpecB s.w.s) s.cfg).run SpecB clk s.w = (.ok [], s.w) := by
    unfold WorkQueue.pickJobsToProcess
    simp only [Prog.bind_eq, Prog.run_bind, Prog.run_queueCount, Prog.contRun_ok]
    rw [if_pos h]; rfl
  unfold Sys.step
  rw [if_pos ha]
  simp only
  rw [e]
  simp

variable (L : E.Lawful) {s : Sys D b.B} (hg : b.Good s.w.s) (hk : (b.snap E name s).Keyed) (ha : s.alive = true)
include L hg hk ha

theorem cancel_any (k : Str) :
    CancelSpec clk k (b.snap E name s) (Sys.step E name b.B clk s (.cancel k : Op D O)).2
      (b.snap E name (Sys.step E name b.B clk s (.cancel k : Op D O)).1) :=
  Impl.lift_any (Q := fun v op r v' => v.Keyed → v.alive = true → op = .cancel k → CancelSpec clk k v r v')
    (fun t op hk ha e => by subst e; exact cancel_spec L t hk ha k) hg (.cancel k) hk ha rfl

theorem retry_any (k : Str) :
    RetrySpec clk k (b.snap E name s) (Sys.step E name b.B clk s (.retry k : Op D O)).2
      (b.snap E name (Sys.step E name b.B clk s (.retry k : Op D O)).1) :=
  Impl.lift_any (Q := fun v op r v' => v.Keyed → v.alive = true → op = .retry k → RetrySpec clk k v r v')
    (fun t op hk ha e => by subst e; exact retry_spec L t hk ha k) hg (.retry k) hk ha rfl

omit hk

theorem submit_any (job : Job D) (cfg : EnqueueConfig) :
    SubmitSpec L clk job cfg (b.snap E name s) (Sys.step E name b.B clk s (.enqueue job cfg : Op D O)).2
      (b.snap E name (Sys.step E name b.B clk s (.enqueue job cfg : Op D O)).1) :=
  Impl.lift_any (Q := fun v op r v' => v.alive = true → op = .enqueue job cfg → SubmitSpec L clk job cfg v r v')
    (fun t op ha e => by subst e; exact submit_spec L t ha job cfg) hg (.enqueue job cfg) ha rfl

omit L

theorem get_any (k : Str) :
    (Sys.step E name b.B clk s (.get k : Op D O)).2 = .job ((b.snap E name s).job k) ∧
    b.snap E name (Sys.step E name b.B clk s (.get k : Op D O)).1 = b.snap E name s := by
  refine Impl.lift_any (E := E) (name := name) (clk := clk)
    (Q := fun v op r v' => v.alive = true → op = .get k → r = .job (v.job k) ∧ v' = v)
    (fun t op ha e => ?_) hg (.get k : Op D O) ha rfl
  subst e
  have hs := Sys.step_cases (E := E) (name := name) (clk := clk) t ha (.get k : Op D O)
  generalize Sys.step E name SpecB clk t (.get k : Op D O) = p at hs
  cases hs
  exact ⟨rfl, rfl⟩

theorem config_any (c : WorkQueueConfig) :
    (Sys.step E name b.B clk s (.config c : Op D O)).2 = .unit (.ok ()) ∧
    b.snap E name (Sys.step E name b.B clk s (.config c : Op D O)).1 = { b.snap E name s with cfg := c } := by
  refine Impl.lift_any (E := E) (name := name) (clk := clk)
    (Q := fun v op r v' => v.alive = true → op = .config c → r = .unit (.ok ()) ∧ v' = { v with cfg := c })
    (fun t op ha e => ?_) hg (.config c : Op D O) ha rfl
  subst e
  have hs := Sys.step_cases (E := E) (name := name) (clk := clk) t ha (.config c : Op D O)
  generalize Sys.step E name SpecB clk t (.config c : Op D O) = p at hs
  cases hs
  exact ⟨rfl, rfl⟩

theorem tick_full_any (h : (b.snap E name s).cfg.maxProcessingJobs ≤ ((b.snap E name s).lists .running).length) :
    b.snap E name (Sys.step E name b.B clk s (.tick : Op D O)).1 = b.snap E name s := by
  refine Impl.lift_any (E := E) (name := name) (clk := clk)
    (Q := fun v op r v' => v.alive = true → op = .tick → v.cfg.maxProcessingJobs ≤ (v.lists .running).length → v' = v)
    (fun t op ha e h => ?_) hg (.tick : Op D O) ha rfl h
  subst e
  exact congrArg (Sys.obs E name) (tick_full t ha h)

end

theorem good_step {D O : Type} {E : Env D} {name : Str} {clk : Nat → Time} {b : Impl} {s : Sys D b.B}
    (hg : b.Good s.w.s) (op : Op D O) : b.Good (Sys.step E name b.B clk s op).1.w.s := by
  obtain ⟨t, hr⟩ := Impl.rs_of_good hg
  exact ⟨_, (Impl.rs_step (E := E) (name := name) (clk := clk) hr op).2.w.s⟩

end AJ
