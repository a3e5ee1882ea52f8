import Verif.Proofs.Adrift
import Verif.Props.Demo

/-!
# Requests: cancel, retry by hand, resubmission, update, configuration

On any backend, in any state in which the backend is intact (`Good`) and jobs are stored under their ids
(`Keyed`), which holds after every history (`reachable_good_keyed`).
-/

namespace AJ.Props
open W

section
variable {D O : Type} {E : Env D} {name : Str} {clk : Nat → Time} {b : Impl} {k : Str}

/-- C33: `cancel_job` always returns `Ok`. A Queued job is then stored as Canceled with the time, and all its
entries are gone from the queued list; for a job that is running or done, and for an unknown id, nothing at
all changes. Other jobs are never touched. Missing for C33 as stated: `Ok` does not mean that the job is
cancelled (`C33_refuted`). -/
theorem C33_cancel_partial (L : E.Lawful) (s : Sys D b.B) (hg : b.Good s.w.s) (hk : (b.snap E name s).Keyed)
    (ha : s.alive = true) :
    let v := b.snap E name s
    let v' := b.snap E name (Sys.step E name b.B clk s (.cancel k : Op D O)).1
    (Sys.step E name b.B clk s (.cancel k : Op D O)).2 = .unit (.ok ()) ∧
    (∀ j, v.job k = some j → j.context.jobStatus = .queued →
      v'.job k = some { j with context := { j.context with
        jobStatus := .canceled, cancelAt := some (clk v.reads / 1000000) } } ∧
      k ∉ v'.lists .queued ∧ v'.lists .queued = (v.lists .queued).filter (· ≠ k) ∧
      ∀ st : JobStatus, st ≠ .queued → v'.lists st = v.lists st) ∧
    (v.status k ≠ some .queued → v' = v) ∧
    v'.tasks = v.tasks ∧ ∀ id, id ≠ k → v'.job id = v.job id := by
  intro v v'
  obtain ⟨h1, h2, h3, h4⟩ := cancel_any (O := O) (clk := clk) L hg hk ha k
  refine ⟨h1, fun j hj hq => ?_, fun h => h4 fun j hj e => h (by rw [status_of hj, e]), h2.tasks, h2.jobs⟩
  obtain ⟨h5, h6, h7, _⟩ := h3 j hj hq
  refine ⟨h5, ?_, h6, h7⟩
  show k ∉ (b.snap E name _).lists .queued
  rw [h6]; simp

/-- C34: `retry_job` answers `true` exactly if the job exists and is Finished, Failed or Canceled. -/
theorem C34_retry_answer (L : E.Lawful) (s : Sys D b.B) (hg : b.Good s.w.s) (hk : (b.snap E name s).Keyed)
    (ha : s.alive = true) :
    let v := b.snap E name s
    (∃ a, (Sys.step E name b.B clk s (.retry k : Op D O)).2 = .bool (.ok a) ∧
      (a = true ↔ ∃ j, v.job k = some j ∧ j.context.jobStatus.Done)) := by
  intro v
  obtain ⟨_, h3, h4⟩ := retry_any (O := O) (clk := clk) L hg hk ha k
  by_cases h : ∃ j, v.job k = some j ∧ j.context.jobStatus.Done
  · obtain ⟨j, hj, hd⟩ := h
    exact ⟨true, (h3 j hj hd).1, fun _ => ⟨j, hj, hd⟩, fun _ => rfl⟩
  · exact ⟨false, (h4 fun j hj hd => h ⟨j, hj, hd⟩).1, nofun, fun h' => absurd h' h⟩

/-- C34: in a history that is orderly with `k`, retrying a done job stores it as Queued, puts its id at the front of the
queued list where it now is exactly once, and removes it from the list of its old status; any other call
changes nothing. Other jobs are never touched. -/
theorem C34_manual_retry (L : E.Lawful) (s : Sys D b.B) (hs : Reach (O := O) b E name clk (Orderly k) s)
    (ha : s.alive = true) :
    let v := b.snap E name s
    let v' := b.snap E name (Sys.step E name b.B clk s (.retry k : Op D O)).1
    (∀ j, v.job k = some j → j.context.jobStatus.Done →
      v'.job k = some { j with context := { j.context with
        jobStatus := .queued, enqueueAt := some (clk v.reads / 1000000) } } ∧
      v'.lists .queued = k :: v.lists .queued ∧ (v'.lists .queued).count k = 1 ∧
      k ∉ v'.lists j.context.jobStatus ∧
      ∀ st : JobStatus, st ≠ .queued → st ≠ j.context.jobStatus → v'.lists st = v.lists st) ∧
    ((¬ ∃ j, v.job k = some j ∧ j.context.jobStatus.Done) → v' = v) ∧
    v'.tasks = v.tasks ∧ ∀ id, id ≠ k → v'.job id = v.job id := by
  intro v v'
  obtain ⟨h2, h3, h4⟩ := retry_any (O := O) (clk := clk) L hs.good (reach_keyed L hs) ha k
  refine ⟨fun j hj hd => ?_, fun h => (h4 fun j hj hd => h ⟨j, hj, hd⟩).2, h2.tasks, h2.jobs⟩
  obtain ⟨_, h5, h6, h7, h8, _⟩ := h3 j hj hd
  have hq : v'.lists .queued = k :: v.lists .queued := h6
  refine ⟨h5, hq, ?_, ?_, h8⟩
  · have := (solo_of L hs hj).queued
    have e : v.status k ≠ some .queued := by
      rw [status_of hj]; rintro e; rw [Option.some.inj e] at hd; simp [JobStatus.Done] at hd
    have h0 : (v.lists .queued).count k = 0 := by
      have h1 : (v.lists .queued).count k = if v.status k = some .queued then 1 else 0 := this
      rw [h1, if_neg e]
    rw [hq, List.count_cons_self, h0]
  · show k ∉ (b.snap E name _).lists j.context.jobStatus
    rw [h7]; simp

/-- C36: submitting a job whose id exists. Nothing is ever queued a second time while the job is queued or
running, and a running job is not replaced. The job is queued (once more) exactly if `re_run` is set and it is
done. The stored job is replaced if `override_data` is set and the job is not running; if `override_data` is
not set it is kept, unless the job is run again. Missing for C36 as stated: without `override_data` the stored
job is replaced all the same when a done job is run again (`C36_refuted`). -/
theorem C36_resubmission_partial (L : E.Lawful) (s : Sys D b.B) (hg : b.Good s.w.s) (ha : s.alive = true)
    (job ex : Job D) (cfg : EnqueueConfig) (hex : (b.snap E name s).job job.id = some ex) :
    let v := b.snap E name s
    let v' := b.snap E name (Sys.step E name b.B clk s (.enqueue job cfg : Op D O)).1
    (Sys.step E name b.B clk s (.enqueue job cfg : Op D O)).2 = .unit (.ok ()) ∧
    v'.tasks = v.tasks ∧ (∀ id, id ≠ job.id → v'.job id = v.job id) ∧
    (∀ st : JobStatus, st ≠ .queued → v'.lists st = v.lists st) ∧
    v'.lists .queued = (if cfg.reRun = true ∧ ex.context.jobStatus.Done then [job.id] else []) ++ v.lists .queued ∧
    (cfg.reRun = true ∧ ex.context.jobStatus.Done → E.Encodable job →
      v'.job job.id = some (Job.norm L.normD { job with context := { job.context with
        jobStatus := .queued, enqueueAt := some (clk v.reads / 1000000) } })) ∧
    (¬ (cfg.reRun = true ∧ ex.context.jobStatus.Done) →
      (cfg.overrideData = false ∨ ex.context.jobStatus = .running → v' = v) ∧
      (cfg.overrideData = true ∧ ex.context.jobStatus ≠ .running → E.Encodable job →
        v'.job job.id = some (job.norm L.normD))) := by
  intro v v'
  obtain ⟨h1, h2, h3, h4⟩ := submit_any (O := O) (name := name) (clk := clk) L hg ha job cfg
  by_cases hc : cfg.reRun = true ∧ ex.context.jobStatus.Done
  · obtain ⟨h5, h6, _, _, h7⟩ := h3 (.inr ⟨ex, hex, hc.2, hc.1⟩)
    exact ⟨h1, h2.tasks, h2.jobs, h6, by rw [if_pos hc]; exact h5, fun _ => h7, fun h => absurd hc h⟩
  · obtain ⟨h5, _, _, h6, h7⟩ := h4 ex hex (fun h => hc ⟨h.2, h.1⟩)
    refine ⟨h1, h2.tasks, h2.jobs, fun st _ => congrFun h5 st, ?_, fun h => absurd h hc, fun _ => ⟨h6, fun h => h7 h.1 h.2⟩⟩
    rw [if_neg hc]; exact congrFun h5 .queued

/-- C37: submitting with `new_skip_if_finished` a copy of a done job that carries a done status leaves the job
done, and `retry_job` works on it. Missing for C37 as stated: jobs built by `Job::new` and the other builders
carry status Queued, for which it is false (`C37_stranded`, `C37_refuted`). -/
theorem C37_skip_partial (L : E.Lawful) (s : Sys D b.B) (hg : b.Good s.w.s) (hk : (b.snap E name s).Keyed)
    (ha : s.alive = true) (job ex : Job D)
    (hex : (b.snap E name s).job job.id = some ex) (hd : ex.context.jobStatus.Done)
    (he : E.Encodable job) (hj : job.context.jobStatus.Done) :
    let s1 := (Sys.step E name b.B clk s (.enqueue job .newSkipIfFinished : Op D O)).1
    let v := b.snap E name s
    let v1 := b.snap E name s1
    v1.lists = v.lists ∧ v1.job job.id = some (job.norm L.normD) ∧
    (Sys.step E name b.B clk s1 (.retry job.id : Op D O)).2 = .bool (.ok true) ∧
    job.id ∈ (b.snap E name (Sys.step E name b.B clk s1 (.retry job.id : Op D O)).1).lists .queued := by
  intro s1 v v1
  obtain ⟨_, h2, _, h4⟩ := submit_any (O := O) (name := name) (clk := clk) L hg ha job .newSkipIfFinished
  obtain ⟨h5, _, _, _, h7⟩ := h4 ex hex (fun h => by cases h.2)
  have hjob : v1.job job.id = some (job.norm L.normD) :=
    h7 rfl (by rintro e; rw [e] at hd; simp [JobStatus.Done] at hd) he
  have hk1 : v1.Keyed := by
    intro id j h
    by_cases e : id = job.id
    · subst e; rw [hjob] at h; cases h; rfl
    · exact hk id j ((h2.jobs id e).symm.trans h)
  have ha1 : s1.alive = true := h2.alive.trans ha
  obtain ⟨h8, h9, h10, _⟩ := (retry_any (O := O) (clk := clk) L (good_step hg _) hk1 ha1 job.id).2.1 _ hjob hj
  refine ⟨h5, hjob, h8, ?_⟩
  rw [h10]; exact List.mem_cons_self

/-- C37 fails for every done job: submitting a freshly built job (status Queued) with its id and
`new_skip_if_finished` strands it. In all later histories in which nobody cancels `k` and submissions of `k` are
again freshly built, `k` is never run; `retry_job` answers `false`, and submitting it with `run()` does not
queue it. -/
theorem C37_stranded (L : E.Lawful) (s : Sys D b.B) (hs : Reach (O := O) b E name clk (Orderly k) s)
    (ha : s.alive = true) (job ex : Job D) (hid : job.id = k) (hex : (b.snap E name s).job k = some ex)
    (hd : ex.context.jobStatus.Done) (he : E.Encodable job) (hj : job.context.jobStatus = .queued)
    (s' : Sys D b.B)
    (h : Later (O := O) b E name clk (fun _ op => op ≠ .cancel k ∧ ∀ j c, op = .enqueue j c → j.id = k →
        E.Encodable j ∧ j.context.jobStatus = .queued)
      (Sys.step E name b.B clk s (.enqueue job .newSkipIfFinished : Op D O)).1 s') :
    let v := b.snap E name s
    let v' := b.snap E name s'
    v'.runs k = v.runs k ∧ k ∉ v'.inFlight ∧ k ∉ v'.lists .queued ∧
    (s'.alive = true → (Sys.step E name b.B clk s' (.retry k : Op D O)).2 = .bool (.ok false) ∧
      ∀ j, j.id = k →
        k ∉ (b.snap E name (Sys.step E name b.B clk s' (.enqueue j .newReRun : Op D O)).1).lists .queued) := by
  intro v v'
  subst hid
  have hsolo := solo_of L hs hex
  obtain ⟨_, h2, _, h4⟩ := submit_any (O := O) (name := name) (clk := clk) L hs.good ha job .newSkipIfFinished
  obtain ⟨h5, h5', _, _, h7⟩ := h4 ex hex (fun h => by cases h.2)
  have hnr : ex.context.jobStatus ≠ .running := by rintro e; rw [e] at hd; simp [JobStatus.Done] at hd
  have hnq : ex.context.jobStatus ≠ .queued := by rintro e; rw [e] at hd; simp [JobStatus.Done] at hd
  have hjob := h7 rfl hnr he
  have hstr : Stranded job.id (b.snap E name (Sys.step E name b.B clk s (.enqueue job .newSkipIfFinished : Op D O)).1) := by
    refine ⟨⟨_, hjob, .inl hj⟩, ?_, ?_⟩
    · rw [h5, ← List.count_eq_zero, hsolo.queued, if_neg]
      rw [status_of hex]; exact fun e => hnq (Option.some.inj e)
    · unfold Snap.own; rw [h2.tasks]
      exact hsolo.idle' hex hnr
  obtain ⟨hg', hT', hstr', hruns⟩ := stranded_later L (good_step hs.good _) (tidy_step L hs.good (tidy_reach L hs) _) hstr
    (fun _ op hp => ⟨hp.1, fun j c e hid => ⟨(hp.2 j c e hid).1, .inl (hp.2 j c e hid).2⟩⟩) h
  refine ⟨hruns.trans (runs_same ?_), not_inFlight hstr'.own, hstr'.queued, fun ha' => ?_⟩
  · unfold Snap.mine; rw [h5']
  · obtain ⟨⟨j', hj', hst'⟩, hq', _⟩ := hstr'
    have hnd : ¬ j'.context.jobStatus.Done := by rcases hst' with e | e <;> rw [e] <;> simp [JobStatus.Done]
    refine ⟨((retry_any (O := O) (clk := clk) L hg' hT'.keyed ha' job.id).2.2 fun j'' e => ?_).1, fun j hid => ?_⟩
    · rw [hj'] at e; cases e; exact hnd
    · have hj'' : (b.snap E name s').job j.id = some j' := by rw [hid]; exact hj'
      have := ((submit_any (O := O) (name := name) (clk := clk) L hg' ha' j .newReRun).2.2.2 j' hj'' (fun h => hnd h.1)).1
      rw [this]; exact hq'

/-- C61: `update_work_queue` changes the configuration and nothing else. The next tick starts at most as many
jobs as the new capacity leaves room for, and if it leaves none (in particular if it is 0) the tick changes
nothing. -/
theorem C61_config (L : E.Lawful) (s : Sys D b.B) (hg : b.Good s.w.s) (hk : (b.snap E name s).Keyed)
    (ha : s.alive = true) (c : WorkQueueConfig) :
    let s1 := (Sys.step E name b.B clk s (.config c : Op D O)).1
    let s2 := (Sys.step E name b.B clk s1 (.tick : Op D O)).1
    let v := b.snap E name s
    (Sys.step E name b.B clk s (.config c : Op D O)).2 = .unit (.ok ()) ∧
    b.snap E name s1 = { v with cfg := c } ∧
    (b.snap E name s2).tasks.length ≤ v.tasks.length + (c.maxProcessingJobs - (v.lists .running).length) ∧
    (c.maxProcessingJobs ≤ (v.lists .running).length → b.snap E name s2 = { v with cfg := c }) := by
  intro s1 s2 v
  obtain ⟨h1, h2⟩ := config_any (O := O) (E := E) (name := name) (clk := clk) hg ha c
  have hg1 : b.Good s1.w.s := good_step hg _
  have e1 : b.snap E name s1 = { v with cfg := c } := h2
  have ha1 : s1.alive = true := by
    have : (b.snap E name s1).alive = true := by rw [e1]; exact ha
    exact this
  refine ⟨h1, e1, ?_, fun hm => ?_⟩
  · have hk1 : (b.snap E name s1).Keyed := by rw [e1]; exact hk
    rcases tick_facts_any (O := O) (clk := clk) b L s1 hg1 hk1 ha1 with ⟨st, h, _⟩ | ⟨h, _⟩
    · have hc := h.ticked.capacity
      have ht : (b.snap E name s2).tasks = _ := h.ticked.tasks
      rw [ht, List.length_append, List.length_map]
      rw [e1] at hc ⊢
      exact Nat.add_le_add_left hc _
    · have : (b.snap E name s2).tasks = [] := by
        show (b.snap E name (Sys.step E name b.B clk s1 .tick).1).tasks = []
        rw [h]
      rw [this]; exact Nat.zero_le _
  · have := tick_full_any (O := O) (E := E) (name := name) (clk := clk) hg1 ha1 (by rw [e1]; exact hm)
    rw [← e1]; exact this

/-! ## `update_job` -/

/-- The parts of a job that `update_job` sets or keeps. -/
structure Updated (j : Job D) (d : D) (j' : Job D) : Prop where
  id : j'.id = j.id
  data : j'.data = d
  jobType : j'.context.jobType = j.context.jobType
  retry : j'.context.retry = j.context.retry
  runCount : j'.context.runCount = j.context.runCount

/-- C35, when no turn comes between the two messages of `update_job(id, d, None)`: a Queued job is stored with
the new data and its old context, and nothing else changes; for a running job and an unknown id nothing
changes; a done job is queued again, with the new data and its old schedule, retry state and run count.
`C35_next_run_partial` has the later histories. Missing for C35 as stated: turns between the two messages, with
which it is false (`C35_refuted_race`). -/
theorem C35_update_partial (L : E.Lawful) (s : Sys D b.B) (hg : b.Good s.w.s) (hk : (b.snap E name s).Keyed)
    (ha : s.alive = true) (d : D) :
    let r := Client.updateJob (O := O) E name b.B clk s k d none
    let v := b.snap E name s
    let v' := b.snap E name r.1
    r.2 = .unit (.ok ()) ∧ v'.tasks = v.tasks ∧ (∀ id, id ≠ k → v'.job id = v.job id) ∧
    (∀ j, v.job k = some j → j.context.jobStatus = .queued → E.Encodable ⟨j.context, d⟩ →
      v' = { v with job := v'.job } ∧ v'.job k = some ⟨j.context, L.normD d⟩) ∧
    (v.status k = some .running ∨ v.job k = none → v' = v) ∧
    (∀ j, v.job k = some j → j.context.jobStatus.Done → E.Encodable ⟨j.context, d⟩ →
      v'.lists .queued = k :: v.lists .queued ∧
      v'.job k = some ⟨{ j.context with jobStatus := .queued, enqueueAt := some (clk v.reads / 1000000) }, L.normD d⟩) := by
  intro r v v'
  obtain ⟨g1, g2⟩ := get_any (O := O) (E := E) (name := name) (clk := clk) hg ha k
  have hg1 : b.Good (Sys.step E name b.B clk s (.get k : Op D O)).1.w.s := good_step hg _
  have ha1 : (Sys.step E name b.B clk s (.get k : Op D O)).1.alive = true :=
    (congrArg Snap.alive g2).trans ha
  have hnorm : ∀ j, v.job k = some j → j.id = k ∧ j.context.norm = j.context := by
    intro j hj
    refine ⟨hk k j hj, ?_⟩
    have : L.Stored j := Impl.lift_any (E := E) (name := name) (clk := clk)
      (Q := fun v _ _ _ => ∀ j, v.job k = some j → L.Stored j)
      (fun t _ j h => Env.Lawful.stored_view (E := E) (w := t.w) h) hg (.get k : Op D O) j hj
    have := congrArg Job.context this.1
    exact this
  have er : r = match (v.job k) with
      | some job => Sys.step E name b.B clk (Sys.step E name b.B clk s (.get k : Op D O)).1
        (.enqueue ⟨job.context, d⟩ .newReRun : Op D O)
      | none => ((Sys.step E name b.B clk s (.get k : Op D O)).1, .unit (.ok ())) := by
    show Client.updateJob (O := O) E name b.B clk s k d none = _
    unfold Client.updateJob
    simp only
    rw [g1]
    show (match Client.updateMsg (O := O) (v.job k) d none with | some msg => _ | none => _) = _
    unfold Client.updateMsg
    cases v.job k <;> rfl
  cases hjob : v.job k with
  | none =>
    rw [hjob] at er
    have e : v' = v := by show b.snap E name r.1 = _; rw [er]; exact g2
    refine ⟨by rw [er], by rw [e], fun _ _ => by rw [e], fun j h => absurd h (by simp), fun _ => e,
      fun j h => absurd h (by simp)⟩
  | some j =>
    rw [hjob] at er
    obtain ⟨hid, hn⟩ := hnorm j hjob
    simp only at er
    have hid' : (⟨j.context, d⟩ : Job D).id = k := hid
    obtain ⟨h1, h2, h3, h4⟩ := submit_any (O := O) (name := name) (clk := clk) L hg1 ha1 ⟨j.context, d⟩ .newReRun
    rw [← er] at h1 h2 h3 h4
    rw [g2, hid'] at h2 h3 h4
    refine ⟨h1, h2.tasks, h2.jobs, fun j' e hq he => ?_, fun hr => ?_, fun j' e hd he => ?_⟩
    · cases e
      obtain ⟨k1, k2, k3, _, k4⟩ := h4 j hjob (fun h => by rw [hq] at h; simp [JobStatus.Done] at h)
      refine ⟨?_, ?_⟩
      · have a1 : v'.lists = v.lists := k1
        have a2 : v'.log = v.log := k2
        have a3 : v'.reads = v.reads := k3
        have a4 : v'.tasks = v.tasks := h2.tasks
        have a5 : v'.cfg = v.cfg := h2.cfg
        have a6 : v'.alive = v.alive := h2.alive
        rw [← a1, ← a2, ← a3, ← a4, ← a5, ← a6]
      · have := k4 rfl (by rw [hq]; simp) he
        rw [Job.norm, hn] at this
        exact this
    · rcases hr with hr | hr
      · obtain ⟨j', e, hst⟩ := status_some hr
        rw [hjob] at e; cases e
        exact (h4 j hjob (fun h => by rw [hst] at h; simp [JobStatus.Done] at h)).2.2.2.1 (.inr hst)
      · cases hr
    · cases e
      obtain ⟨k1, _, _, _, k2⟩ := h3 (.inr ⟨j, hjob, hd, rfl⟩)
      refine ⟨k1, ?_⟩
      have := k2 he
      have hn' : JobContext.norm { j.context with jobStatus := .queued, enqueueAt := some (clk v.reads / 1000000) } =
          { j.context with jobStatus := .queued, enqueueAt := some (clk v.reads / 1000000) } := by
        unfold JobContext.norm at hn ⊢
        have e1 := congrArg JobContext.jobType hn
        have e2 := congrArg JobContext.retry hn
        simp only at e1 e2
        rw [e1, e2]
      rw [Job.norm, hn'] at this
      exact this

/-- C68, when no turn comes between the two messages of `update_job(id, d, Some(c))` and `c` carries the id of the
job: a Queued job is stored with `d` and `c` (as far as JSON keeps it), and nothing else changes; for a running job
and an unknown id nothing changes; a done job is queued again with `d` and `c`. `C68_late_partial` allows turns between the messages.
Missing for C68 as stated: contexts with another id, for which it is false (`C68_refuted_id`). -/
theorem C68_context_partial (L : E.Lawful) (s : Sys D b.B) (hg : b.Good s.w.s) (ha : s.alive = true) (d : D)
    (c : JobContext) (hc : c.jobId = k) (he : E.Encodable ⟨c, d⟩) :
    let r := Client.updateJob (O := O) E name b.B clk s k d (some c)
    let v := b.snap E name s
    let v' := b.snap E name r.1
    r.2 = .unit (.ok ()) ∧ v'.tasks = v.tasks ∧ (∀ id, id ≠ k → v'.job id = v.job id) ∧
    (v.status k = some .queued → v' = { v with job := v'.job } ∧ v'.job k = some ⟨c.norm, L.normD d⟩) ∧
    (v.status k = some .running ∨ v.job k = none → v' = v) ∧
    (∀ j, v.job k = some j → j.context.jobStatus.Done →
      v'.lists .queued = k :: v.lists .queued ∧
      v'.job k = some ⟨{ c.norm with jobStatus := .queued, enqueueAt := some (clk v.reads / 1000000) }, L.normD d⟩) := by
  intro r v v'
  obtain ⟨g1, g2⟩ := get_any (O := O) (E := E) (name := name) (clk := clk) hg ha k
  have hg1 : b.Good (Sys.step E name b.B clk s (.get k : Op D O)).1.w.s := good_step hg _
  have ha1 : (Sys.step E name b.B clk s (.get k : Op D O)).1.alive = true :=
    (congrArg Snap.alive g2).trans ha
  have er : r = match (v.job k) with
      | some _ => Sys.step E name b.B clk (Sys.step E name b.B clk s (.get k : Op D O)).1
        (.enqueue ⟨c, d⟩ .newReRun : Op D O)
      | none => ((Sys.step E name b.B clk s (.get k : Op D O)).1, .unit (.ok ())) := by
    show Client.updateJob (O := O) E name b.B clk s k d (some c) = _
    unfold Client.updateJob
    simp only
    rw [g1]
    show (match Client.updateMsg (O := O) (v.job k) d (some c) with | some msg => _ | none => _) = _
    unfold Client.updateMsg
    cases v.job k <;> rfl
  cases hjob : v.job k with
  | none =>
    rw [hjob] at er
    have e : v' = v := by show b.snap E name r.1 = _; rw [er]; exact g2
    refine ⟨by rw [er], by rw [e], fun _ _ => by rw [e], fun h => ?_, fun _ => e, fun j h => absurd h (by simp)⟩
    obtain ⟨j, e, _⟩ := status_some h
    rw [hjob] at e; cases e
  | some j =>
    rw [hjob] at er
    simp only at er
    have hid' : (⟨c, d⟩ : Job D).id = k := hc
    obtain ⟨h1, h2, h3, h4⟩ := submit_any (O := O) (name := name) (clk := clk) L hg1 ha1 ⟨c, d⟩ .newReRun
    rw [← er] at h1 h2 h3 h4
    rw [g2, hid'] at h2 h3 h4
    refine ⟨h1, h2.tasks, h2.jobs, fun hq => ?_, fun hr => ?_, fun j' e hd => ?_⟩
    · obtain ⟨j', e, hq⟩ := status_some hq
      rw [hjob] at e; cases e
      obtain ⟨k1, k2, k3, _, k4⟩ := h4 j hjob (fun h => by rw [hq] at h; simp [JobStatus.Done] at h)
      refine ⟨?_, k4 rfl (by rw [hq]; simp) he⟩
      have a1 : v'.lists = v.lists := k1
      have a2 : v'.log = v.log := k2
      have a3 : v'.reads = v.reads := k3
      have a4 : v'.tasks = v.tasks := h2.tasks
      have a5 : v'.cfg = v.cfg := h2.cfg
      have a6 : v'.alive = v.alive := h2.alive
      rw [← a1, ← a2, ← a3, ← a4, ← a5, ← a6]
    · rcases hr with hr | hr
      · obtain ⟨j', e, hst⟩ := status_some hr
        rw [hjob] at e; cases e
        exact (h4 j hjob (fun h => by rw [hst] at h; simp [JobStatus.Done] at h)).2.2.2.1 (.inr hst)
      · cases hr
    · cases e
      obtain ⟨k1, _, _, _, k2⟩ := h3 (.inr ⟨j, hjob, hd, rfl⟩)
      exact ⟨k1, k2 he⟩

/-- C68 with turns between the two messages: when `update_job(id, d, Some(c))` has found a job, whatever it was, the
second message has the effect of `C68_context_partial` on the state `s` it arrives in. -/
theorem C68_late_partial (L : E.Lawful) (s : Sys D b.B) (hg : b.Good s.w.s) (ha : s.alive = true) (d : D)
    (c : JobContext) (hc : c.jobId = k) (he : E.Encodable ⟨c, d⟩) (found : Job D) (msg : Op D O)
    (hm : Client.updateMsg (some found) d (some c) = some msg) :
    let r := Sys.step E name b.B clk s msg
    let v := b.snap E name s
    let v' := b.snap E name r.1
    r.2 = .unit (.ok ()) ∧ v'.tasks = v.tasks ∧ (∀ id, id ≠ k → v'.job id = v.job id) ∧
    (v.status k = some .queued → v' = { v with job := v'.job } ∧ v'.job k = some ⟨c.norm, L.normD d⟩) ∧
    (v.status k = some .running → v' = v) ∧
    (∀ j, v.job k = some j → j.context.jobStatus.Done →
      v'.lists .queued = k :: v.lists .queued ∧
      v'.job k = some ⟨{ c.norm with jobStatus := .queued, enqueueAt := some (clk v.reads / 1000000) }, L.normD d⟩) := by
  intro r v v'
  have hm' : msg = .enqueue ⟨c, d⟩ .newReRun := (Option.some.inj hm).symm
  have er : r = Sys.step E name b.B clk s (.enqueue ⟨c, d⟩ .newReRun : Op D O) := by
    show Sys.step E name b.B clk s msg = _; rw [hm']
  have hid' : (⟨c, d⟩ : Job D).id = k := hc
  obtain ⟨h1, h2, h3, h4⟩ := submit_any (O := O) (name := name) (clk := clk) L hg ha ⟨c, d⟩ .newReRun
  rw [← er] at h1 h2 h3 h4
  rw [hid'] at h2 h3 h4
  refine ⟨h1, h2.tasks, h2.jobs, fun hq => ?_, fun hr => ?_, fun j' e hd => ?_⟩
  · obtain ⟨j, e, hq⟩ := status_some hq
    obtain ⟨k1, k2, k3, _, k4⟩ := h4 j e (fun h => by rw [hq] at h; simp [JobStatus.Done] at h)
    refine ⟨?_, k4 rfl (by rw [hq]; simp) he⟩
    have a1 : v'.lists = v.lists := k1
    have a2 : v'.log = v.log := k2
    have a3 : v'.reads = v.reads := k3
    have a4 : v'.tasks = v.tasks := h2.tasks
    have a5 : v'.cfg = v.cfg := h2.cfg
    have a6 : v'.alive = v.alive := h2.alive
    rw [← a1, ← a2, ← a3, ← a4, ← a5, ← a6]
  · obtain ⟨j, e, hst⟩ := status_some hr
    exact (h4 j e (fun h => by rw [hst] at h; simp [JobStatus.Done] at h)).2.2.2.1 (.inr hst)
  · obtain ⟨k1, _, _, _, k2⟩ := h3 (.inr ⟨j', e, hd, rfl⟩)
    exact ⟨k1, k2 he⟩

/-- C35 with turns between the two messages: `update_job(id, d, None)` found job `j` in state `s₁`, and its second
message arrives in state `s`. If the stored job is still `j`, the effect is that of `C35_update_partial`, whatever
happened to other jobs, lists and executions meanwhile; if the job has been started meanwhile nothing changes. Missing
for C35 as stated: other changes of job `k` between the two messages (`C35_refuted_race`). -/
theorem C35_late_partial (L : E.Lawful) (s₁ s : Sys D b.B) (hg₁ : b.Good s₁.w.s) (hk₁ : (b.snap E name s₁).Keyed)
    (hg : b.Good s.w.s) (ha : s.alive = true) (d : D) (j : Job D) (hj : (b.snap E name s₁).job k = some j)
    (he : E.Encodable ⟨j.context, d⟩) (msg : Op D O)
    (hm : Client.updateMsg ((b.snap E name s₁).job k) d none = some msg) :
    let r := Sys.step E name b.B clk s msg
    let v := b.snap E name s
    let v' := b.snap E name r.1
    r.2 = .unit (.ok ()) ∧ v'.tasks = v.tasks ∧ (∀ id, id ≠ k → v'.job id = v.job id) ∧
    (v.job k = some j → j.context.jobStatus = .queued →
      v' = { v with job := v'.job } ∧ v'.job k = some ⟨j.context, L.normD d⟩) ∧
    (v.status k = some .running → v' = v) ∧
    (v.job k = some j → j.context.jobStatus.Done →
      v'.lists .queued = k :: v.lists .queued ∧
      v'.job k = some ⟨{ j.context with jobStatus := .queued, enqueueAt := some (clk v.reads / 1000000) }, L.normD d⟩) := by
  intro r v v'
  rw [hj] at hm
  have hn : j.context.norm = j.context := by
    have : L.Stored j := Impl.lift_any (E := E) (name := name) (clk := clk)
      (Q := fun v _ _ _ => ∀ j, v.job k = some j → L.Stored j)
      (fun t _ j h => Env.Lawful.stored_view (E := E) (w := t.w) h) hg₁ (.get k : Op D O) j hj
    exact congrArg Job.context this.1
  obtain ⟨h1, h2, h3, h4, h5, h6⟩ := C68_late_partial (O := O) (name := name) (clk := clk) (k := k) L s hg ha d j.context
    (hk₁ k j hj) he j msg hm
  rw [hn] at h4 h6
  exact ⟨h1, h2, h3, fun e hq => h4 (by rw [status_of e, hq]), h5, fun e hd => h6 j e hd⟩

/-- C35, later histories: from a state in which the stored job `k` is Queued with data `d` (as `C35_update_partial`
leaves it), reached by orderly submissions of `k`, as long as `k` is not submitted again and has not been run, it is stored with `d` and the same
schedule, retry state and run count; and the turn in which it is run next hands exactly that job, with the run
counted, to the user code. -/
theorem C35_next_run_partial (L : E.Lawful) (s s' : Sys D b.B)
    (hs : Reach (O := O) b E name clk (Orderly k) s) (j : Job D) (d : D)
    (hj : (b.snap E name s).job k = some j) (hq : j.context.jobStatus = .queued) (hd : j.data = d)
    (h : Later (O := O) b E name clk (fun _ op => NoSubmit k op) s s') (op : Op D O) (hop : NoSubmit k op) :
    let v := b.snap E name s
    let v' := b.snap E name s'
    let v'' := b.snap E name (Sys.step E name b.B clk s' op).1
    v'.runs k = v.runs k →
      (∃ j', v'.job k = some j' ∧ Updated j d j') ∧
      (v''.runs k ≠ v'.runs k → ∃ i j', op = .start i ∧ v'.tasks[i]? = some ⟨j', none⟩ ∧
        v''.own k = [⟨j', some j'.counted⟩] ∧ Updated j d j' ∧ v''.runs k = v.runs k ++ [j'.counted.context]) := by
  intro v v' v'' hruns
  have hso := solo_of L hs hj
  have key : (v.runs k).length < (v'.runs k).length ∨ ((v'.runs k = v.runs k ∧
      (∀ t ∈ v'.own k, t.executing = none) ∧ ∃ j', v'.job k = some j' ∧ Updated j d j') ∧ Solo k v') := by
    have ho0 : v.own k = [] := hso.idle' hj (by rw [hq]; simp)
    have := later_track L (I := fun u => (v.runs k).length < (u.runs k).length ∨
      (u.runs k = v.runs k ∧ (∀ t ∈ u.own k, t.executing = none) ∧ ∃ j', u.job k = some j' ∧ Updated j d j'))
      (fun _ _ h => h) hs hso h (.inr ⟨rfl, fun t ht => (by
        have h1 : t ∈ v.own k := ht
        rw [ho0] at h1; cases h1), j, hj, rfl, hd, rfl, rfl, rfl⟩) ?_
    · rcases this with ⟨h1 | h1, h2⟩ | ⟨_, u, h1 | ⟨_, h1, _⟩, h2, _, j1, _, _, h3⟩
      · exact .inl h1
      · exact .inr ⟨h1, h2⟩
      · exact .inl (by rw [h2]; exact h1)
      · have := h1 ⟨j1, some j1.counted⟩ (by rw [h3]; exact List.mem_singleton.mpr rfl)
        cases this
    intro u u' op hp hsolo hst _ hl ih
    have hmono : (u.runs k).length ≤ (u'.runs k).length ∧ ((u'.runs k) = u.runs k ∨ (u.runs k).length < (u'.runs k).length) := by
      cases hl with
      | same op hj ho hm ha => rw [runs_same hm]; exact ⟨Nat.le_refl _, .inl rfl⟩
      | submit j' c hid he hold hj ho ho' hm ha ha' ht => rw [runs_msg hm]; exact ⟨Nat.le_refl _, .inl rfl⟩
      | replace j' c ex hid he hold hr hdn hov hst hj ho ho' hm ha ha' => rw [runs_same hm]; exact ⟨Nat.le_refl _, .inl rfl⟩
      | cancel j' hold hq hj ho ho' hm ha ha' ht => rw [runs_msg hm]; exact ⟨Nat.le_refl _, .inl rfl⟩
      | retry j' hold hdn hj ho ho' hm ha ha' ht => rw [runs_msg hm]; exact ⟨Nat.le_refl _, .inl rfl⟩
      | pick j' i hold hq hi hi' hdue hj ho ho' hm ha ha' => rw [runs_msg hm]; exact ⟨Nat.le_refl _, .inl rfl⟩
      | run j' i hold hq ht ho hj ho' hm ha ha' => rw [runs_run hm]; simp
      | finish j' j'' i x w w' hold hq ht ho hw hw' hf he hs hj ho' hm ha ha' => rw [runs_end hm]; exact ⟨Nat.le_refl _, .inl rfl⟩
      | died op hj ho' hm ha ha' => obtain ⟨l, h1, h2⟩ := hm; rw [runs_hooks h1 h2]; exact ⟨Nat.le_refl _, .inl rfl⟩
    rcases ih with ih | ⟨ih, hph, j', hj', hu⟩
    · exact .inl (Nat.lt_of_lt_of_le ih hmono.1)
    · rcases hmono.2 with hr | hr
      swap
      · rw [ih] at hr; exact .inl hr
      refine .inr ⟨hr.trans ih, ?_⟩
      cases hl with
      | same op hj ho hm ha => exact ⟨by rw [ho]; exact hph, j', hj.trans hj', hu⟩
      | submit j1 c hid => exact (hp j1 c rfl hid).elim
      | replace j1 c ex hid => exact (hp j1 c rfl hid).elim
      | cancel j1 hold hq hj ho ho' =>
        rw [hj'] at hold; cases hold
        exact ⟨(by rw [ho']; intro t ht; cases ht), _, hj, hu.id, hu.data, hu.jobType, hu.retry, hu.runCount⟩
      | retry j1 hold hdn hj ho ho' =>
        rw [hj'] at hold; cases hold
        exact ⟨(by rw [ho']; intro t ht; cases ht), _, hj, hu.id, hu.data, hu.jobType, hu.retry, hu.runCount⟩
      | pick j1 i hold hq hi hi' hdue hj ho ho' =>
        rw [hj'] at hold; cases hold
        exact ⟨by rw [ho']; simp, _, hj, hu.id, hu.data, hu.jobType, hu.retry, hu.runCount⟩
      | run j1 i hold hq ht ho hj ho' hm => rw [runs_run hm] at hr; simp at hr
      | finish j1 j2 i x w w' hold hq ht ho =>
        have := hph ⟨j1, some j1.counted⟩ (by rw [ho]; exact List.mem_singleton.mpr rfl)
        cases this
      | died op hj ho' => exact ⟨(by rw [ho']; intro t ht; cases ht), j', hj.trans hj', hu⟩
  rcases key with key | ⟨⟨_, _, j', hj', hu⟩, hso'⟩
  · rw [hruns] at key; exact absurd key (Nat.lt_irrefl _)
  refine ⟨⟨j', hj', hu⟩, fun hne => ?_⟩
  have hl' : Life E L name clk k v' v'' op := by
    rcases orderly_life L (h.reach hs fun _ _ h => NoSubmit.orderly h) hso' op hop.orderly with ⟨_, hl⟩ | ⟨_, hl, _⟩
    · exact hl
    · exact absurd hl hne
  revert hl' hne
  generalize v'' = u
  intro hne hl
  cases hl with
  | same op hj ho hm ha => exact absurd (runs_same hm) hne
  | submit j1 c hid he hold hj ho ho' hm ha ha' ht => exact absurd (runs_msg hm) hne
  | replace j1 c ex hid he hold hr hdn hov hst hj ho ho' hm ha ha' => exact absurd (runs_same hm) hne
  | cancel j1 hold hq hj ho ho' hm ha ha' ht => exact absurd (runs_msg hm) hne
  | retry j1 hold hdn hj ho ho' hm ha ha' ht => exact absurd (runs_msg hm) hne
  | pick j1 i hold hq hi hi' hdue hj ho ho' hm ha ha' => exact absurd (runs_msg hm) hne
  | run j1 i hold hq ht ho hj ho' hm ha ha' =>
    rw [hj'] at hold; cases hold
    exact ⟨i, j', rfl, ht, ho', hu, by rw [runs_run hm, hruns]⟩
  | finish j1 j2 i x w w' hold hq ht ho hw hw' hf he hs hj ho' hm ha ha' => exact absurd (runs_end hm) hne
  | died op hj ho' hm ha ha' => obtain ⟨l, h1, h2⟩ := hm; exact absurd (runs_hooks h1 h2) hne

end

/-! ## Concrete cases, and where the properties fail -/

section
open Demo AJ.Props

/-- Job `a` has finished, `b` runs, `c` waits. -/
def threeJobs : List (Op Int Unit) :=
  [.config { maxProcessingJobs := 1 }, .enqueue (job c!"a") .newReRun] ++ round good ++
  [.enqueue (job c!"b") .newReRun, .tick, .enqueue (job c!"c") .newReRun]

/-- The stored job `a`. -/
def copyA : Job Int := ((see threeJobs).job c!"a").getD (job [])

example : (see threeJobs).job c!"a" = some copyA := by decide +kernel
example : (see threeJobs).status c!"a" = some .finished ∧ (see threeJobs).status c!"b" = some .running ∧
    (see threeJobs).status c!"c" = some .queued := by decide +kernel

theorem threeJobs_reach (k : Str) (h : okAll k threeJobs = true) :
    Reach (O := Unit) Impl.memory E c!"print" clk (CarefulFor E k) (after threeJobs) := okAll.reach h

/-- The hypotheses of the theorems on single requests. -/
example : Impl.memory.Good (World.s (B := Impl.memory.B) (Sys.w (B := Impl.memory.B) (after threeJobs))) ∧ (see threeJobs).Keyed ∧ (after threeJobs).alive = true := by
  have h := threeJobs_reach c!"a" (by decide +kernel)
  have hg := h.good
  refine ⟨hg, ?_, by decide +kernel⟩
  exact reach_keyed (b := Impl.memory) (name := c!"print") lawful h

/-- Cancelling the waiting job. -/
example : (see (threeJobs ++ [.cancel c!"c"])).status c!"c" = some .canceled ∧
    (see (threeJobs ++ [.cancel c!"c"])).lists .queued = [] := by decide +kernel

/-- C33 is false as stated: `cancel_job` returns `Ok` for the running job `b` and for the unknown id `x`; `b`
goes on and finishes, and `x` does not exist. -/
theorem C33_refuted :
    (∀ k, (Sys.step E c!"print" InMem clk (after threeJobs) (.cancel k : Op Int Unit)).2 = .unit (.ok ())) ∧
    (see (threeJobs ++ [.cancel c!"b"])).status c!"b" = some .running ∧
    (see (threeJobs ++ [.cancel c!"b", .start 0, .finish 0 good])).status c!"b" = some .finished ∧
    (see (threeJobs ++ [.cancel c!"x"])).status c!"x" = none := by
  refine ⟨fun k => ?_, by decide +kernel, by decide +kernel, by decide +kernel⟩
  have h := threeJobs_reach c!"a" (by decide +kernel)
  exact (C33_cancel_partial (O := Unit) (name := c!"print") (b := Impl.memory) (clk := clk) lawful _ h.good (reach_keyed lawful h) (by decide +kernel)).1

/-- Retrying the finished job by hand, and failing to retry the other two. -/
example : (see (threeJobs ++ [.retry c!"a"])).lists .queued = [c!"a", c!"c"] ∧
    (see threeJobs).lists .finished = [c!"a"] ∧ (see (threeJobs ++ [.retry c!"a"])).lists .finished = [] ∧
    (see (threeJobs ++ [.retry c!"a"])).status c!"a" = some .queued ∧
    (see (threeJobs ++ [.retry c!"b", .retry c!"c", .retry c!"x"])).lists .queued = [c!"c"] := by decide +kernel

/-- C36 is false as stated: submitting the finished job `a` with `re_run` but without `override_data` replaces
the stored data 1 by 9 (and the run count by 0). -/
theorem C36_refuted :
    let cfg : EnqueueConfig := { reRun := true, overrideData := false }
    ((see threeJobs).job c!"a").map (fun j => (j.data, j.context.runCount)) = some (1, 1) ∧
    ((see (threeJobs ++ [.enqueue (job c!"a" 9) cfg])).job c!"a").map (fun j => (j.data, j.context.runCount)) =
      some (9, 0) := by decide +kernel

/-- With `re_run` unset and `override_data` unset nothing changes; with `override_data` the waiting job is
replaced; the running job never is. -/
example : (see (threeJobs ++ [.enqueue (job c!"a" 9) ⟨false, false⟩])).job c!"a" = (see threeJobs).job c!"a" ∧
    (see (threeJobs ++ [.enqueue (job c!"c" 9) .newReRun])).job c!"c" = some (job c!"c" 9) ∧
    (see (threeJobs ++ [.enqueue (job c!"c" 9) .newReRun])).lists .queued = [c!"c"] ∧
    (see (threeJobs ++ [.enqueue (job c!"b" 9) .newReRun])).job c!"b" = (see threeJobs).job c!"b" := by decide +kernel

/-- C37 is false as stated: a freshly built job `a` submitted with `new_skip_if_finished` is reported as Queued
but is in no queue; `run()` and `retry_job` do not help, and ticks do not start it although there is room. -/
theorem C37_refuted :
    let ops := threeJobs ++ [.enqueue (job c!"a") .newSkipIfFinished, .config {}, .enqueue (job c!"a") .newReRun,
      .retry c!"a", .tick, .tick]
    (see ops).status c!"a" = some .queued ∧ (see ops).inFlight = [c!"b", c!"c"] ∧ (see ops).lists .queued = [] := by
  decide +kernel

/-- The hypotheses of `C37_stranded`. -/
example : ∃ ex, (see threeJobs).job c!"a" = some ex ∧ ex.context.jobStatus.Done ∧ E.Encodable (job c!"a") ∧
    (job c!"a").context.jobStatus = .queued ∧
    Later (O := Unit) Impl.memory E c!"print" clk (fun _ op => op ≠ .cancel c!"a" ∧ ∀ j c, op = .enqueue j c → j.id = c!"a" →
        E.Encodable j ∧ j.context.jobStatus = .queued)
      (after (threeJobs ++ [.enqueue (job c!"a") .newSkipIfFinished]))
      (after (threeJobs ++ [.enqueue (job c!"a") .newSkipIfFinished] ++ [.config {}, .tick, .enqueue (job c!"a") .newReRun])) := by
  refine ⟨copyA, by decide +kernel, by decide +kernel,
    by decide +kernel, rfl, ?_⟩
  let chk : Snap Int → Op Int Unit → Bool := fun _ op => match op with
    | .cancel id => id ≠ c!"a"
    | .enqueue j _ => decide (E.Encodable j) && decide (j.context.jobStatus = .queued)
    | _ => true
  refine allTurns.later (chk := chk) (by decide +kernel) fun v op h => ?_
  cases op with
  | cancel id => exact ⟨by simpa [chk] using h, fun _ _ e => by cases e⟩
  | enqueue j c =>
    refine ⟨by simp, fun _ _ e _ => ?_⟩
    cases e
    simpa [chk] using h
  | _ => exact ⟨by simp, fun _ _ e => by cases e⟩

/-- A copy of the finished job keeps it done (`C37_skip_partial`). -/
example : ∃ ex, (see threeJobs).job c!"a" = some ex ∧ ex.context.jobStatus.Done ∧ E.Encodable ex ∧
    (see (threeJobs ++ [.enqueue ex .newSkipIfFinished])).status c!"a" = some .finished ∧
    (see (threeJobs ++ [.enqueue ex .newSkipIfFinished, .retry c!"a"])).lists .queued = [c!"a", c!"c"] :=
  ⟨copyA, by decide +kernel⟩

/-- Capacity 0 stops new starts and does not touch the running job. -/
example : (see (threeJobs ++ [.config { maxProcessingJobs := 0 }, .tick])).inFlight = [c!"b"] ∧
    (see (threeJobs ++ [.config { maxProcessingJobs := 2 }, .tick])).inFlight = [c!"b", c!"c"] := by decide +kernel

/-- `update_job` on the waiting job, and its next run. -/
example :
    ((see (threeJobs ++ [.get c!"c"])).job c!"c").isSome = true ∧
    (let s := (Client.updateJob (O := Unit) E c!"print" InMem clk (after threeJobs) c!"c" 9 none).1
     (Impl.memory.snap E c!"print" s).job c!"c" = some ⟨{ (job c!"c").context with enqueueAt := some 8000 }, 9⟩) := by decide +kernel

/-- `update_job` with a context on the waiting job, on the finished one, and on the running one. -/
def laterContext (id : Str) : JobContext := { JobContext.new id 5 with jobType := .scheduledAt (60 * nsPerSec) }

/-- The state of the work queue after `update_job`. -/
def updated (id : Str) (c : JobContext) : Snap Int :=
  Impl.memory.snap E c!"print" (Client.updateJob (O := Unit) E c!"print" InMem clk (after threeJobs) id 9 (some c)).1

example :
    (updated c!"c" (laterContext c!"c")).job c!"c" = some ⟨laterContext c!"c", 9⟩ ∧
    (updated c!"a" (laterContext c!"a")).lists .queued = c!"a" :: (see threeJobs).lists .queued ∧
    ((updated c!"a" (laterContext c!"a")).job c!"a").map (fun j => (j.data, j.context.jobType)) =
      some (9, .scheduledAt (60 * nsPerSec)) ∧
    (updated c!"b" (laterContext c!"b")).job c!"b" = (see threeJobs).job c!"b" := by decide +kernel

theorem threeJobs_alive : (see threeJobs).alive = true := by decide +kernel
theorem threeJobs_waits : (see threeJobs).status c!"c" = some .queued := by decide +kernel
theorem laterContext_enc : E.Encodable ⟨laterContext c!"c", 9⟩ := by decide +kernel

/-- `C68_context_partial` for the waiting job, on every backend. -/
example (b : Impl) :
    (b.snap E c!"print" (Client.updateJob (O := Unit) E c!"print" b.B clk (on b threeJobs) c!"c" 9
      (some (laterContext c!"c"))).1).job c!"c" = some ⟨(laterContext c!"c").norm, lawful.normD 9⟩ := by
  have ha : (b.snap E c!"print" (on b threeJobs)).alive = true := by rw [see_on]; exact threeJobs_alive
  have h := C68_context_partial (O := Unit) (name := c!"print") (clk := clk) (k := c!"c") lawful (on b threeJobs)
    (okAll.on (k := c!"a") (ops := threeJobs) (by decide +kernel) b).good ha 9 (laterContext c!"c") rfl laterContext_enc
  rw [see_on] at h
  exact (h.2.2.2.1 threeJobs_waits).2

/-- C68 is false for a context with another id, such as a fresh one: `update_job` of the waiting job `c` leaves `c` as it
was and queues a new job `d`. -/
theorem C68_refuted_id :
    (see threeJobs).status c!"c" = some .queued ∧ (see threeJobs).job c!"d" = none ∧
    (updated c!"c" (laterContext c!"d")).job c!"c" = (see threeJobs).job c!"c" ∧
    (updated c!"c" (laterContext c!"d")).lists .queued = c!"d" :: (see threeJobs).lists .queued ∧
    ((updated c!"c" (laterContext c!"d")).job c!"d").map (·.data) = some 9 := by decide +kernel

/-- After `threeJobs`, `b` is run to its end and a fourth job is submitted. -/
def busyMeanwhile : List (Op Int Unit) := threeJobs ++ [.start 0, .finish 0 good, .enqueue (job c!"d") .newReRun]

/-- The stored job `c`. -/
def copyC : Job Int := ((see threeJobs).job c!"c").getD (job [])

theorem copyC_read : (see threeJobs).job c!"c" = some copyC := by decide +kernel
theorem copyC_kept : (see busyMeanwhile).job c!"c" = some copyC := by decide +kernel
theorem copyC_waits : copyC.context.jobStatus = .queued := by decide +kernel
theorem busyMeanwhile_alive : (see busyMeanwhile).alive = true := by decide +kernel

/-- `C35_late_partial` with these turns between the two messages of `update_job` of the waiting job `c`, on every
backend. -/
example (b : Impl) (msg : Op Int Unit) (hm : Client.updateMsg ((b.snap E c!"print" (on b threeJobs)).job c!"c") 9 none = some msg) :
    (b.snap E c!"print" (Sys.step E c!"print" b.B clk (on b busyMeanwhile) msg).1).job c!"c" =
      some ⟨copyC.context, lawful.normD 9⟩ := by
  have hr := okAll.on (k := c!"a") (ops := threeJobs) (by decide +kernel) b
  have ha : (b.snap E c!"print" (on b busyMeanwhile)).alive = true := by rw [see_on]; exact busyMeanwhile_alive
  have h := C35_late_partial (O := Unit) (name := c!"print") (clk := clk) (k := c!"c") lawful (on b threeJobs)
    (on b busyMeanwhile) hr.good (tidy_reach lawful hr).keyed
    (okAll.on (k := c!"a") (ops := busyMeanwhile) (by decide +kernel) b).good ha 9 copyC
    (by rw [see_on]; exact copyC_read) (by decide +kernel) msg hm
  exact (h.2.2.2.1 (by rw [see_on]; exact copyC_kept) copyC_waits).2

/-- `C68_late_partial` in the same situation. -/
example (b : Impl) (msg : Op Int Unit) (hm : Client.updateMsg (some copyC) 9 (some (laterContext c!"c")) = some msg) :
    (b.snap E c!"print" (Sys.step E c!"print" b.B clk (on b busyMeanwhile) msg).1).job c!"c" =
      some ⟨(laterContext c!"c").norm, lawful.normD 9⟩ := by
  have ha : (b.snap E c!"print" (on b busyMeanwhile)).alive = true := by rw [see_on]; exact busyMeanwhile_alive
  have h := C68_late_partial (O := Unit) (name := c!"print") (clk := clk) (k := c!"c") lawful (on b busyMeanwhile)
    (okAll.on (k := c!"a") (ops := busyMeanwhile) (by decide +kernel) b).good ha 9 (laterContext c!"c") rfl
    laterContext_enc copyC msg hm
  exact (h.2.2.2.1 (by rw [see_on]; unfold Snap.status; rw [copyC_kept]; exact congrArg some copyC_waits)).2

/-- Job `a` may fail once; its first run is under way. -/
def underWay : List (Op Int Unit) :=
  [.enqueue (flaky { maxRetries := some 1, retriedTimes := 0, strategy := .interval nsPerSec }) .newReRun, .tick, .start 0]

/-- C35 is false when turns come between the two messages of `update_job`: `update_job` reads the job while it
runs, the run fails and is put back with one retry used up, and then the second message arrives. The waiting
job is now stored as Running, its retry time is lost and the retry counter is back at 0. -/
theorem C35_refuted_race :
    let ops := underWay ++ [.finish 0 bad]
    ∃ msg, Client.updateMsg (O := Unit) ((see underWay).job c!"a") 9 none = some msg ∧
    ((see ops).job c!"a").map (fun j => (j.context.jobStatus, j.context.jobType, j.context.retry.map (·.retriedTimes))) =
      some (.queued, .scheduledAt (4 * nsPerSec), some 1) ∧
    ((see (ops ++ [msg])).job c!"a").map (fun j => (j.context.jobStatus, j.context.jobType, j.context.retry.map (·.retriedTimes), j.data)) =
      some (.running, .normal, some 0, 9) ∧
    (see (ops ++ [msg])).lists .queued = [c!"a"] ∧ (see (ops ++ [msg])).inFlight = [] := by
  refine ⟨.enqueue ⟨(((see underWay).job c!"a").getD (job [])).context, 9⟩ .newReRun, ?_, ?_⟩
  · have h : ∃ j, (see underWay).job c!"a" = some j := Option.isSome_iff_exists.mp (by decide +kernel)
    obtain ⟨j, hj⟩ := h
    rw [hj]; rfl
  · decide +kernel

end
end AJ.Props
