import Verif.Proofs.FaultTick
import Verif.Proofs.RunEnd
import Verif.Props.Crash

/-!
# Failing backends (C51, C52, C64, C65)

Any call of a turn may fail, with or without having had its effect (`Faulty`, `Sys.stepWith`). In the scripts
here no other process uses the backend (`Alone`).
-/

namespace AJ.Props
open W Prog

section
variable {D O : Type} {E : Env D} {name : Str} {clk : Nat → Time} {b : Impl} {k : Str} {script : Nat → Fate}

private theorem own_nil {v : Snap D} (h : v.own k = []) : k ∉ v.inFlight := by
  intro hm
  obtain ⟨u, hu, e⟩ := List.mem_map.mp hm
  have : u ∈ v.own k := List.mem_filter.mpr ⟨hu, by simpa using e⟩
  rw [h] at this; cases this

private theorem encdec_status (L : E.Lawful) {j j' : Job D} (h : E.encdec j = some j') : j'.context.jobStatus = j.context.jobStatus := by
  rw [encdec_some L h]; rfl

private theorem tidy_with_any (L : E.Lawful) (hA : Alone script) {s : Sys D b.B} (hg : b.Good s.w.s) (hT : (b.snap E name s).Tidy)
    (op : Op D O) : b.Good (Sys.stepWith E name b.B clk script s op).1.w.s ∧
      (b.snap E name (Sys.stepWith E name b.B clk script s op).1).Tidy := by
  obtain ⟨t, hr⟩ := Impl.rs_of_good hg
  obtain ⟨_, h2⟩ := faulty_mirror (E := E) (name := name) (clk := clk) hA.ok hr op
  rw [Impl.snap_eq hr] at hT
  refine ⟨⟨_, h2.w.s⟩, ?_⟩
  rw [Impl.snap_eq h2]
  exact tidy_iff.mpr (tidy_with L hA.all (tidy_iff.mp hT) op)

/-! ## C51 -/

/-- C51 is false for every queued job: when the storage read of its resubmission fails, it is taken for a new
job. The submission returns `Ok` and the job is in the queued list twice. -/
theorem C51_refuted (L : E.Lawful) {s : Sys D b.B} (hs : Reach (O := O) b E name clk (Orderly k) s) (ha : s.alive = true)
    (hq : (b.snap E name s).status k = some .queued) (job : Job D) (hid : job.id = k) (cfg : EnqueueConfig) :
    let p := Sys.stepWith E name b.B clk (faultAt 0) s (.enqueue job cfg : Op D O)
    p.2 = .unit (.ok ()) ∧ ((b.snap E name p.1).lists .queued).count k = 2 := by
  intro p
  subst hid
  obtain ⟨j, hj, _⟩ := Option.map_eq_some_iff.mp hq
  have hc := (solo_of L hs hj).queued
  rw [if_pos hq] at hc
  obtain ⟨t, hr⟩ := Impl.rs_of_good hs.good
  obtain ⟨h1, h2⟩ := faulty_mirror (E := E) (name := name) (clk := clk) (script := faultAt 0) (alone_faultAt 0).ok hr (.enqueue job cfg : Op D O)
  obtain ⟨n, hn⟩ := submit_unread (E := E) (name := name) (clk := clk) job cfg t.w
  have e := stepWith_enqueue (O := O) (t := t) (by rw [← hr.alive]; exact ha) hn
  rw [Impl.snap_eq h2, h1, e]
  rw [Impl.snap_eq hr] at hc
  refine ⟨rfl, ?_⟩
  have hc : (lst name t.w .queued).count job.id = 1 := hc
  show (lst name (enq E name clk job t.w) .queued).count job.id = 2
  unfold enq
  rw [lst_put, lst_tick, lst_setL_same, List.count_cons_self, hc]

/-- C51: if the read does not fail, the resubmission of a job that is queued (more generally, of one that is not
to be run again) changes no list, whichever of its other calls fail. Missing for C51 as stated: failures of the
read (`C51_refuted`). -/
theorem C51_read_partial (hA : Alone script) (h0 : (script 0).fault = .none) {s : Sys D b.B} (hg : b.Good s.w.s)
    (job : Job D) (cfg : EnqueueConfig) {ex : Job D} (hex : (b.snap E name s).job job.id = some ex)
    (hd : ¬ (cfg.reRun = true ∧ ex.context.jobStatus.Done)) :
    (b.snap E name (Sys.stepWith E name b.B clk script s (.enqueue job cfg : Op D O)).1).lists = (b.snap E name s).lists := by
  obtain ⟨t, hr⟩ := Impl.rs_of_good hg
  obtain ⟨_, h2⟩ := faulty_mirror (E := E) (name := name) (clk := clk) (script := script) hA.ok hr (.enqueue job cfg : Op D O)
  rw [Impl.snap_eq h2, Impl.snap_eq hr]
  rw [Impl.snap_eq hr] at hex
  have hex : view E t.w job.id = some ex := hex
  have hnd : (cfg.reRun && ex.isDone) = false := by
    rw [Bool.eq_false_iff]
    intro h
    simp only [Bool.and_eq_true, Job.isDone, Bool.or_eq_true, decide_eq_true_eq] at h
    refine hd ⟨h.1, ?_⟩
    rcases h.2 with (h | h) | h <;> simp [JobStatus.Done, h]
  show lst name (Sys.stepWith E name SpecB clk script t (.enqueue job cfg : Op D O)).1.w = lst name t.w
  have hcr := Sys.crash_step (E := E) (name := name) (clk := clk) (t.faulty script) (.enqueue job cfg : Op D O)
  rw [stepWith_ne _ (by intro e; cases e)]
  show lst name (wld (Sys.step E name (Faulty SpecB script) clk (t.faulty script) (.enqueue job cfg : Op D O)).1.w.s.1) = _
  generalize (Sys.step E name (Faulty SpecB script) clk (t.faulty script) (.enqueue job cfg : Op D O)).1.w = w' at hcr ⊢
  cases hcr with
  | between => rfl
  | enqueue _ h =>
    rcases Crash.fw_after_get hA (w := t.w) (i := 0) h with h | ⟨r, hr, h⟩
    · rw [h]; rfl
    · have hr : r = some ex := by
        rcases hr with ⟨h, _⟩ | ⟨_, h⟩
        · exact absurd h0 h
        · rw [h, hex]
      subst hr
      have hI := faulty_inv (script := script) (B := SpecB) (I := fun s => lst name (wld s) = lst name t.w)
        (ok := fun op => ∃ v, op = .storageUpsert STORAGE_HASH job.id v) (fun op s h1 h2 => by obtain ⟨v, rfl⟩ := h1; exact h2) hA.all
      refine Crash.sat (B := Faulty SpecB script) (I := fun s => lst name (wld s.1) = lst name t.w) hI (post := fun _ => True) ?_ rfl h
      simp only [hnd, Bool.false_eq_true, if_false, bind_eq, pure_eq]
      split
      · exact Sat.bind (post := fun _ => True) (Sat.callQ (op := .storageUpsert _ _ _) ⟨_, rfl⟩) fun _ _ => trivial
      · trivial

/-! ## C52 -/

section
variable {B : Backend} {w w' : World B}

/-- C52 for submissions, on an arbitrary backend: a submission that returns `Ok` had no failed write. -/
theorem C52_submit {job : Job D} {cfg : EnqueueConfig}
    (h : (WorkQueue.runWithConfig E name job cfg).run B clk w = (.ok (), w')) :
    ∀ op good, (op, good) ∈ (WorkQueue.runWithConfig E name job cfg).trace B clk w → op.isWrite = true → good = true :=
  fun _ _ hm hw => (WorkQueue.strict_submit (hid := fun _ => False) job cfg).trace h hm hw id

/-- C52 for cancellations. -/
theorem C52_cancel (h : (WorkQueue.cancelJob E name k).run B clk w = (.ok (), w')) :
    ∀ op good, (op, good) ∈ (WorkQueue.cancelJob E name k).trace B clk w → op.isWrite = true → good = true :=
  fun _ _ hm hw => (WorkQueue.strict_cancel (hid := fun _ => False) k).trace h hm hw id

/-- C52 for the scan of a tick. -/
theorem C52_pick {fuel : Nat} {cfg : WorkQueueConfig} {jobs : List (Job D)}
    (h : (WorkQueue.pickJobsToProcess E name fuel cfg).run B clk w = (.ok jobs, w')) :
    ∀ op good, (op, good) ∈ (WorkQueue.pickJobsToProcess E name fuel cfg).trace B clk w → op.isWrite = true → good = true :=
  fun _ _ hm hw => (WorkQueue.strict_pick (hid := fun _ => False) fuel cfg).trace h hm hw id

/-- C52 for manual retries: if `retry_job` returns `Ok`, the only write that may have failed is adding the id to
the queued list. Missing for C52 as stated: that one (`C52_retry_lost`). -/
theorem C52_retry_partial {r : Bool} (h : (WorkQueue.retryJob E name k).run B clk w = (.ok r, w')) :
    ∀ op good, (op, good) ∈ (WorkQueue.retryJob E name k).trace B clk w → op.isWrite = true →
      (∀ id, op ≠ .queuePush (formatQueueName name .queued) id) → good = true :=
  fun _ _ hm hw hne => (WorkQueue.strict_retry k).trace h hm hw fun ⟨id, e⟩ => hne id e

/-- C52 for the end of a run: if recording it returns `Ok`, the job was stored. Missing for C52 as stated: the
removal from the running list and the addition to another list may have failed (`C52_finish_lost`,
`C52_slot_leak`). -/
theorem C52_finish_partial {x : Executable D O} {job : Job D}
    (h : (WorkQueue.executeFinish E name x job).run B clk w = (.ok (), w')) :
    ∀ key v good, (.storageUpsert STORAGE_HASH key v, good) ∈ (WorkQueue.executeFinish E name x job).trace B clk w → good = true := by
  have hs : (WorkQueue.executeFinish E name x job).Strict (WorkQueue.Hidden name) := by
    rw [WorkQueue.executeFinish_eq]
    refine Strict.bind ?_ fun p => ?_
    · have h := WorkQueue.sat_plan (E := E) x job
      generalize WorkQueue.plan E x job = p at h
      induction p with
      | call op k ih => exact h.1.elim
      | now k ih => exact fun t => ih t (h t)
      | emit e k ih => exact ih h
      | _ => trivial
    · cases p with
      | again j => exact WorkQueue.Strict.mono (fun op ⟨id, e⟩ => .inr ⟨_, id, e⟩) (WorkQueue.strict_reEnqueue j)
      | failed j => exact WorkQueue.strict_markFailed j
      | finished j => exact WorkQueue.strict_markFinished j
  intro key v good hm
  refine hs.trace h hm rfl ?_
  rintro (⟨id, e⟩ | ⟨st, id, e⟩) <;> cases e

end

/-- C52 is false for every manual retry of a done job: when adding the id to the queued list fails, `retry_job`
answers `Ok(true)`, and the job is stored as Queued without being in the queued list. It never runs, through any
further turns, crashes and restarts, as long as it is not cancelled first. -/
theorem C52_retry_lost (L : E.Lawful) {s : Sys D b.B} (hs : Reach (O := O) b E name clk (Orderly k) s) (ha : s.alive = true)
    {j : Job D} (hj : (b.snap E name s).job k = some j) (hd : j.context.jobStatus.Done) :
    let p := Sys.stepWith E name b.B clk (faultAt 3) s (.retry k : Op D O)
    p.2 = .bool (.ok true) ∧ (b.snap E name p.1).status k = some .queued ∧
    ∀ s', Lives (O := O) b E name clk (fun _ op => NoRescue E k op) p.1 s' →
      k ∉ (b.snap E name s').lists .queued ∧ k ∉ (b.snap E name s').inFlight := by
  intro p
  have hsolo := solo_of L hs hj
  have hT := tidy_reach L hs
  have hstat : (b.snap E name s).status k = some j.context.jobStatus := by simp [Snap.status, hj]
  have hne : ∀ st, st = .queued ∨ st = .running → (b.snap E name s).status k ≠ some st := by
    intro st hst e
    rw [hstat] at e
    injection e with e
    rcases hd with h | h | h <;> rcases hst with h' | h' <;> rw [h, h'] at e <;> cases e
  have hnq : k ∉ (b.snap E name s).lists .queued := by
    rw [← List.count_eq_zero, hsolo.queued, if_neg (hne _ (.inl rfl))]
  have hown := hsolo.idle (hne _ (.inr rfl))
  obtain ⟨t, hr⟩ := Impl.rs_of_good hs.good
  obtain ⟨h1, h2⟩ := faulty_mirror (E := E) (name := name) (clk := clk) (script := faultAt 3) (alone_faultAt 3).ok hr (.retry k : Op D O)
  obtain ⟨hg2, hT2⟩ := tidy_with_any (O := O) (name := name) (clk := clk) L (alone_faultAt 3) hs.good hT (.retry k)
  rw [Impl.snap_eq hr] at hj hnq hown
  have hT' : (Impl.spec.snap E name t).Tidy := by rw [← Impl.snap_eq hr]; exact hT
  have hj : view E t.w k = some j := hj
  have hid : j.id = k := hT'.keyed k j hj
  have hdone : j.isDone = true := by rcases hd with e | e | e <;> simp [Job.isDone, e]
  have e := stepWith_retry (O := O) (t := t) (by rw [← hr.alive]; exact ha) (retry_unpushed (E := E) (name := name) (clk := clk) hj hdone)
  have hsn := Impl.snap_eq (E := E) (name := name) h2
  rw [e] at hsn
  have hv : (b.snap E name p.1).job k = some (j.asQueued (clk t.w.t / nsPerMs)) := by
    rw [hsn]
    show view E (unpushed E name clk j t.w) k = _
    unfold unpushed
    rw [view_put, ← hid]
    simp only [Job.id_asQueued, upd_same]
    exact ((Env.Lawful.stored_view (L := L) hj).asQueued _).encdec
  have hst : (b.snap E name p.1).status k = some .queued := by simp [Snap.status, hv]
  refine ⟨by rw [h1, e], hst, fun s' hl => ?_⟩
  have hstr : Stranded k (b.snap E name p.1) := by
    refine ⟨⟨_, hv, .inl rfl⟩, ?_, ?_⟩
    · rw [hsn]
      show k ∉ lst name (unpushed E name clk j t.w) .queued
      unfold unpushed
      rw [lst_put, lst_tick, lst_setL]
      split
      · exact fun hm => hnq (List.mem_of_mem_filter (by next h => rw [← h] at hm; exact hm))
      · exact hnq
    · rw [hsn]; exact hown
  obtain ⟨_, _, h5⟩ := stranded_lives L hg2 hT2 hstr (fun _ _ h => h) hl
  exact ⟨h5.queued, own_nil h5.own⟩

/-- C52 is false for every run whose end puts the job back into the queue (a retry or the next cron slot): when
adding the id to the queued list fails, only a log line tells. The job is stored as Queued, is not in the queued
list, and never runs again unless it is cancelled first. -/
theorem C52_finish_lost (L : E.Lawful) {s : Sys D b.B} (hs : Reach (O := O) b E name clk (Orderly k) s)
    (ha : s.alive = true) {i : Nat} {orig job : Job D} (ht : (b.snap E name s).tasks[i]? = some ⟨orig, some job⟩) (hid : orig.id = k)
    (x : Executable D O)
    (hq : (b.snap E name (Sys.step E name b.B clk s (.finish i x)).1).status k = some .queued) :
    let s1 := (Sys.stepWith E name b.B clk (faultAt 2) s (.finish i x)).1
    s1.alive = true ∧ (b.snap E name s1).status k = some .queued ∧
    ∀ s', Lives (O := O) b E name clk (fun _ op => NoRescue E k op) s1 s' →
      k ∉ (b.snap E name s').lists .queued ∧ k ∉ (b.snap E name s').inFlight := by
  intro s1
  obtain ⟨hj, hst, _, _, hjob⟩ := reach_task L hs ha ht hid
  have hjob := hjob job rfl
  have hst' : job.context.jobStatus = .running := by rw [hjob]; exact hst
  have hjid : job.id = k := by rw [hjob]; exact hid
  have hsolo := solo_of L hs hj
  have hstat : (b.snap E name s).status k = some .running := by simp [Snap.status, hj, hst]
  have hnq : k ∉ (b.snap E name s).lists .queued := by
    rw [← List.count_eq_zero, hsolo.queued, if_neg (by simp [hstat])]
  obtain ⟨j', hj', _⟩ := Option.map_eq_some_iff.mp hq
  have hs2 := solo_of (b := b) (O := O) (name := name) (clk := clk) L (Reach.step (.finish i x) hs (by intro j c e; cases e)) hj'
  have hown := hs2.idle (by rw [hq]; simp)
  obtain ⟨t, hr⟩ := Impl.rs_of_good hs.good
  obtain ⟨_, h2⟩ := faulty_mirror (E := E) (name := name) (clk := clk) (script := faultAt 2) (alone_faultAt 2).ok hr (.finish i x)
  obtain ⟨hg2, hT2⟩ := tidy_with_any (O := O) (name := name) (clk := clk) L (alone_faultAt 2) hs.good (tidy_reach L hs) (.finish i x)
  obtain ⟨_, hr'⟩ := Impl.rs_step (E := E) (name := name) (clk := clk) hr (.finish i x)
  rw [Impl.snap_eq hr'] at hq hown
  rw [Impl.snap_eq hr] at hnq ht hj
  have ha' : t.alive = true := by rw [← hr.alive]; exact ha
  have ht : t.tasks[i]? = some ⟨orig, some job⟩ := ht
  have hnq : k ∉ lst name t.w .queued := hnq
  have hj : view E t.w k = some orig := hj
  have hq : (view E (Sys.step E name SpecB clk t (.finish i x)).1.w k).map (·.context.jobStatus) = some .queued := hq
  rw [step_finish_w ha' ht] at hq
  obtain ⟨pl, w1, hp, hs1, hof, hw⟩ := plan_of_changed (E := E) (name := name) (clk := clk) (x := x) (orig := orig) (job := job) (w := t.w) (by
    rw [hjid]
    intro e
    rw [← e, hj] at hq
    simp [hst] at hq)
  rw [hw, run_act] at hq
  have hpid : pl.job.id = k := hof.1.trans hjid
  have hag : ∃ j2, pl = .again j2 := by
    cases pl with
    | again j2 => exact ⟨j2, rfl⟩
    | failed j2 =>
      have hpid : j2.id = k := hpid
      rw [← hpid] at hq
      simp only [flunk, view_setL, view_put, Job.id_asFailed, upd_same] at hq
      obtain ⟨j3, h3, h4⟩ := Option.map_eq_some_iff.mp hq
      have := encdec_status L h3
      rw [h4] at this; cases this
    | finished j2 =>
      have hpid : j2.id = k := hpid
      rw [← hpid] at hq
      simp only [fin, view_setL, view_put, Job.id_asFinished, upd_same] at hq
      obtain ⟨j3, h3, h4⟩ := Option.map_eq_some_iff.mp hq
      have := encdec_status L h3
      rw [h4] at this; cases this
  obtain ⟨j2, rfl⟩ := hag
  have hj2 : j2.context.jobStatus = .running := hof.2.1.trans hst'
  have e := stepWith_finish (E := E) (name := name) (clk := clk) ha' ht (x := x) (taskFinish_with (orig := orig) (name := name) hp
    (reEnqueue_unpushed (E := E) (name := name) (clk := clk) (alone_faultAt 2) (i := 0) rfl rfl rfl j2 w1))
  have hsn := Impl.snap_eq (E := E) (name := name) h2
  rw [e] at hsn
  have hv : (b.snap E name s1).status k = some .queued := by
    rw [hsn]
    show (view E (unpushed E name clk j2 w1) k).map (·.context.jobStatus) = some .queued
    rw [← hq]
    simp [unpushed, reEnq]
  refine ⟨by rw [h2.alive, e]; exact ha', hv, fun s' hl => ?_⟩
  obtain ⟨j3, hj3, hs3⟩ := Option.map_eq_some_iff.mp hv
  have hstr : Stranded k (b.snap E name s1) := by
    refine ⟨⟨_, hj3, .inl hs3⟩, ?_, ?_⟩
    · rw [hsn]
      show k ∉ lst name (unpushed E name clk j2 w1) .queued
      unfold unpushed
      rw [lst_put, lst_tick, hj2, lst_setL_ne (by simp), lst_of_s hs1]
      exact hnq
    · rw [hsn]
      have htasks : (Sys.step E name SpecB clk t (.finish i x)).1.tasks = t.tasks.eraseIdx i := by
        unfold Sys.step
        rw [if_pos ha']
        simp only [ht]
        have : (WorkQueue.taskFinish E name x orig job).run SpecB clk t.w = (.ok (), reEnq E name clk j2 w1) := by
          unfold WorkQueue.taskFinish
          rw [WorkQueue.executeFinish_eq]
          simp only [bind_eq, run_bind, run_catchErr, hp, contRun_ok, run_act]
          rfl
        rw [this]
      have hown : (Sys.step E name SpecB clk t (.finish i x)).1.tasks.filter (fun u => u.orig.id = k) = [] := hown
      rw [htasks] at hown
      exact hown
  obtain ⟨_, _, h5⟩ := stranded_lives L hg2 hT2 hstr (fun _ _ h => h) hl
  exact ⟨h5.queued, own_nil h5.own⟩

/-- C52 is false for every run that finishes: when the removal from the running list fails, the job is stored as
Finished and added to the finished list, and still occupies a slot of the running list. -/
theorem C52_slot_leak (L : E.Lawful) {s : Sys D b.B} (hs : Reach (O := O) b E name clk (Orderly k) s)
    (ha : s.alive = true) {i : Nat} {orig job : Job D} (ht : (b.snap E name s).tasks[i]? = some ⟨orig, some job⟩) (hid : orig.id = k)
    (x : Executable D O)
    (hq : (b.snap E name (Sys.step E name b.B clk s (.finish i x)).1).status k = some .finished) :
    let s1 := (Sys.stepWith E name b.B clk (faultAt 0) s (.finish i x)).1
    s1.alive = true ∧ (b.snap E name s1).status k = some .finished ∧
    (b.snap E name s1).lists .finished = k :: (b.snap E name s).lists .finished ∧
    (b.snap E name s1).lists .running = (b.snap E name s).lists .running ∧ k ∈ (b.snap E name s1).lists .running := by
  intro s1
  obtain ⟨hj, hst, _, _, hjob⟩ := reach_task L hs ha ht hid
  have hjob := hjob job rfl
  have hst' : job.context.jobStatus = .running := by rw [hjob]; exact hst
  have hjid : job.id = k := by rw [hjob]; exact hid
  have hsolo := solo_of L hs hj
  have hstat : (b.snap E name s).status k = some .running := by simp [Snap.status, hj, hst]
  have hin : k ∈ (b.snap E name s).lists .running := by
    rw [← List.count_pos_iff, hsolo.running, if_pos hstat]; omega
  obtain ⟨t, hr⟩ := Impl.rs_of_good hs.good
  obtain ⟨_, h2⟩ := faulty_mirror (E := E) (name := name) (clk := clk) (script := faultAt 0) (alone_faultAt 0).ok hr (.finish i x)
  obtain ⟨_, hr'⟩ := Impl.rs_step (E := E) (name := name) (clk := clk) hr (.finish i x)
  rw [Impl.snap_eq hr'] at hq
  rw [Impl.snap_eq hr] at ht hj hin
  rw [Impl.snap_eq hr]
  have ha' : t.alive = true := by rw [← hr.alive]; exact ha
  have ht : t.tasks[i]? = some ⟨orig, some job⟩ := ht
  have hj : view E t.w k = some orig := hj
  have hq : (view E (Sys.step E name SpecB clk t (.finish i x)).1.w k).map (·.context.jobStatus) = some .finished := hq
  rw [step_finish_w ha' ht] at hq
  obtain ⟨pl, w1, hp, hs1, hof, hw⟩ := plan_of_changed (E := E) (name := name) (clk := clk) (x := x) (orig := orig) (job := job) (w := t.w) (by
    rw [hjid]
    intro e
    rw [← e, hj] at hq
    simp [hst] at hq)
  rw [hw, run_act] at hq
  have hpid : pl.job.id = k := hof.1.trans hjid
  have hag : ∃ j2, pl = .finished j2 := by
    cases pl with
    | finished j2 => exact ⟨j2, rfl⟩
    | failed j2 =>
      have hpid : j2.id = k := hpid
      rw [← hpid] at hq
      simp only [flunk, view_setL, view_put, Job.id_asFailed, upd_same] at hq
      obtain ⟨j3, h3, h4⟩ := Option.map_eq_some_iff.mp hq
      have := encdec_status L h3
      rw [h4] at this; cases this
    | again j2 =>
      have hpid : j2.id = k := hpid
      rw [← hpid] at hq
      simp only [reEnq, view_setL, view_put, Job.id_asQueued, upd_same] at hq
      obtain ⟨j3, h3, h4⟩ := Option.map_eq_some_iff.mp hq
      have := encdec_status L h3
      rw [h4] at this; cases this
  obtain ⟨j2, rfl⟩ := hag
  have hpid : j2.id = k := hpid
  have e := stepWith_finish (E := E) (name := name) (clk := clk) ha' ht (x := x) (taskFinish_with (orig := orig) (name := name) hp
    (markFinished_kept (E := E) (name := name) (clk := clk) j2 w1))
  have hsn := Impl.snap_eq (E := E) (name := name) h2
  rw [e] at hsn
  have hl := lst_of_s (name := name) hs1
  have hrun : (b.snap E name s1).lists .running = lst name t.w .running := by
    rw [hsn]
    show lst name (setL name .finished (j2.id :: lst name w1 .finished) (put E (j2.asFinished (clk w1.t / nsPerMs)) (tick w1))) .running = _
    rw [lst_setL_ne (by simp), lst_put, lst_tick, hl]
  refine ⟨by rw [h2.alive, e]; exact ha', ?_, ?_, hrun, by rw [hrun]; exact hin⟩
  · rw [hsn]
    show (view E (setL name .finished (j2.id :: lst name w1 .finished) (put E (j2.asFinished (clk w1.t / nsPerMs)) (tick w1))) k).map (·.context.jobStatus) = some .finished
    rw [← hq]
    simp [fin]
  · rw [hsn]
    show lst name (setL name .finished (j2.id :: lst name w1 .finished) (put E (j2.asFinished (clk w1.t / nsPerMs)) (tick w1))) .finished = _
    rw [lst_setL_same, hpid, hl]
    rfl

/-! ## C64 -/

/-- C64: backend errors during a request about one job, or during an execution of it, do not reach other jobs:
whichever calls fail, the stored value of every other job `k`, its entries in the lists and (unless the actor
dies) its executions are as before. -/
theorem C64_spared (L : E.Lawful) (hA : Alone script) {s : Sys D b.B} (hg : b.Good s.w.s) (hT : (b.snap E name s).Tidy)
    (op : Op D O) (ho : op ≠ .tick) (hn : NotAbout k op) (hot : OtherTask k (b.snap E name s) op) :
    let v := b.snap E name s
    let v' := b.snap E name (Sys.stepWith E name b.B clk script s op).1
    v'.job k = v.job k ∧ (∀ st, (v'.lists st).count k = (v.lists st).count k) ∧ (v'.alive = true → v'.own k = v.own k) := by
  intro v v'
  obtain ⟨t, hr⟩ := Impl.rs_of_good hg
  obtain ⟨_, h2⟩ := faulty_mirror (E := E) (name := name) (clk := clk) hA.ok hr op
  have e := Impl.snap_eq (E := E) (name := name) hr
  have e' := Impl.snap_eq (E := E) (name := name) h2
  rw [e] at hT hot
  have hsp := spares_with (clk := clk) L hA (tidy_iff.mp hT) op ho hn hot
  show (b.snap E name _).job k = (b.snap E name s).job k ∧ (∀ st, ((b.snap E name _).lists st).count k = ((b.snap E name s).lists st).count k) ∧
    ((b.snap E name _).alive = true → (b.snap E name _).own k = (b.snap E name s).own k)
  rw [e, e']
  refine ⟨hsp.view, hsp.count, fun ha => ?_⟩
  have h3 := own_step (E := E) (name := name) (clk := clk) (s := t.faulty script) (k := k) op ho (fun i u hu h => hot i u hu h) (by
    have ha : (Sys.stepWith E name SpecB clk script t op).1.alive = true := ha
    rw [stepWith_ne _ ho] at ha
    exact ha)
  show (Sys.stepWith E name SpecB clk script t op).1.tasks.filter _ = _
  rw [stepWith_ne _ ho]
  exact h3

/-! ## C65 -/

/-- C65: whatever fails during a tick, no id is lost or duplicated: the queued and the running list together
hold what they held before, the other lists are the same, and every job is stored as it was or with the mark
Running in addition. At most the capacity of executions is started, of different jobs. Missing for C65 as stated:
ids moved to the running list before the error are not executed (`C65_refuted`). -/
theorem C65_kept_partial (L : E.Lawful) (hA : Alone script) {s : Sys D b.B} (hg : b.Good s.w.s) (hk : (b.snap E name s).Keyed) :
    let v := b.snap E name s
    let v' := b.snap E name (Sys.stepWith E name b.B clk script s (.tick : Op D O)).1
    (v'.lists .queued ++ v'.lists .running).Perm (v.lists .queued ++ v.lists .running) ∧
    (∀ st, st ≠ .queued → st ≠ .running → v'.lists st = v.lists st) ∧
    (∀ id, v'.job id = v.job id ∨ ∃ j ms, v.job id = some j ∧
      v'.job id = some { j with context := { j.context with jobStatus := .running, runAt := some ms } }) ∧
    (v'.alive = true → ∃ started : List (Job D), v'.tasks = v.tasks ++ started.map (fun j => ⟨j, none⟩) ∧
      started.length ≤ v.cfg.maxProcessingJobs ∧ (started.map Job.id).Nodup ∧ ∀ j ∈ started, j.context.jobStatus = .running) := by
  obtain ⟨t, hr⟩ := Impl.rs_of_good hg
  obtain ⟨_, h2⟩ := faulty_mirror (E := E) (name := name) (clk := clk) hA.ok hr (.tick : Op D O)
  rw [Impl.snap_eq hr] at hk ⊢
  rw [Impl.snap_eq h2]
  intro v v'
  have hk : Keyed E t.w := hk
  have hsat := WorkQueue.picks_pick (E := E) (name := name) (Sys.tickFuel name SpecB t.w.s) t.cfg
  have hI := faulty_inv (script := script) (B := SpecB) (I := fun s => Kept name t.w (wld s)) (ok := PickOp name)
    (fun op s h1 h2 => kept_step t.w op s h1 h2) hA.all
  have h3 := Sat.inv (B := Faulty SpecB script) (clk := clk) (I := fun s => Kept name t.w (wld s.1)) hsat hI (w := fw script t.w 0)
    ⟨List.Perm.refl _, fun _ _ _ => rfl⟩
  have h4 := marked_pick (name := name) (clk := clk) hA L (Sys.tickFuel name SpecB t.w.s) t.cfg hk (i := 0) (Crash.last _ (fw script t.w 0))
  have hres : v = Sys.obs E name t := rfl
  have hres' : v' = Sys.obs E name (Sys.tickWith E name SpecB clk script t).1 := rfl
  rw [hres, hres']
  clear_value v v'
  unfold Sys.tickWith
  split
  swap
  · next ha =>
    exact ⟨List.Perm.refl _, fun _ _ _ => rfl, fun id => .inl rfl, fun h => absurd h ha⟩
  next ha =>
  have hb := fun jobs w' => hsat.run (B := Faulty SpecB script) (clk := clk) (w := fw script t.w 0) (w' := w') (a := jobs)
  dsimp only
  rw [show (t.faulty script).w = fw script t.w 0 from rfl]
  generalize (WorkQueue.pickJobsToProcess E name (Sys.tickFuel name SpecB t.w.s) t.cfg).run (Faulty SpecB script) clk (fw script t.w 0) = q at h3 h4 hb ⊢
  obtain ⟨r, w⟩ := q
  have h4' : ∀ id, view E (wld w.s.1) id = view E t.w id ∨ ∃ j ms, view E t.w id = some j ∧
      view E (wld w.s.1) id = some { j with context := { j.context with jobStatus := .running, runAt := some ms } } := h4
  cases r with
  | ok jobs =>
    refine ⟨h3.perm, h3.lists, h4', fun _ => ⟨jobs, rfl, ?_⟩⟩
    have := hb jobs w rfl
    exact ⟨this.le, this.once, this.running⟩
  | err e => exact ⟨h3.perm, h3.lists, h4', fun _ => ⟨[], by simp [Sys.obs, Sys.mended, Sys.faulty], by simp, by simp, fun _ h => by cases h⟩⟩
  | panicked => exact ⟨h3.perm, h3.lists, h4', fun h => by cases h⟩
  | diverged => exact ⟨h3.perm, h3.lists, h4', fun h => by cases h⟩

/-- C65, C29: a tick on a failing backend ends, and the actor survives it. -/
theorem C65_ends (hA : Alone script) {s : Sys D b.B} (hg : b.Good s.w.s) (ha : s.alive = true)
    (hl : ((b.snap E name s).lists .queued).length < 2 ^ 31) :
    (Sys.stepWith E name b.B clk script s (.tick : Op D O)).1.alive = true := by
  obtain ⟨t, hr⟩ := Impl.rs_of_good hg
  obtain ⟨_, h2⟩ := faulty_mirror (E := E) (name := name) (clk := clk) hA.ok hr (.tick : Op D O)
  rw [Impl.snap_eq hr] at hl
  have hl : (lst name t.w .queued).length < 2 ^ 31 := hl
  have ha : t.alive = true := by rw [← hr.alive]; exact ha
  rw [h2.alive]
  show (Sys.tickWith E name SpecB clk script t).1.alive = true
  have h := ends_pick (E := E) (clk := clk) hA t.cfg t.w 0 hl
  unfold Sys.tickWith
  rw [if_pos ha]
  dsimp only
  rw [show (t.faulty script).w = fw script t.w 0 from rfl]
  rcases h with ⟨e, h⟩ | ⟨jobs, w, h⟩
  · generalize (WorkQueue.pickJobsToProcess E name (Sys.tickFuel name SpecB t.w.s) t.cfg).run (Faulty SpecB script) clk (fw script t.w 0) = q at h ⊢
    obtain ⟨r, w⟩ := q
    cases h
    exact ha
  · rw [h]; exact ha

end

/-! ## Concrete cases -/

section
open Demo

deriving instance DecidableEq for Except, Resp

/-- A turn on a failing in-memory backend. -/
def failingTurn (script : Nat → Fate) (ops : List (Op Int Unit)) (op : Op Int Unit) : Sys Int InMem × Resp Int :=
  Sys.stepWith E c!"print" InMem clk script (after ops) op

theorem look_failing (b : Impl) {script : Nat → Fate} (hA : Alone script) (ops : List (Op Int Unit)) (op : Op Int Unit) :
    b.snap E c!"print" (Sys.stepWith E c!"print" b.B clk script (on b ops) op).1 = look (failingTurn script ops op).1 := by
  have h1 := (faulty_mirror (E := E) (name := c!"print") (clk := clk) hA.ok (on_rs b ops) op).2
  have h2 := (faulty_mirror (E := E) (name := c!"print") (clk := clk) hA.ok (on_rs Impl.memory ops) op).2
  rw [Impl.snap_eq h1]
  exact (Impl.snap_eq h2).symm

/-- Jobs `a` and `b` wait. -/
def pair : List (Op Int Unit) := [.enqueue (job c!"a") .newReRun, .enqueue (job c!"b") .newReRun]

/-- C65 is false: two jobs wait, and in the tick that picks both, storing the second one fails. The first job
has been marked Running and moved, and its execution is forgotten with the error. It stays Running for ever and
keeps its slot, on any backend and through any further turns, crashes and restarts. -/
theorem C65_refuted (b : Impl) :
    let s1 := (Sys.stepWith E c!"print" b.B clk (faultAt 7) (on b pair) (.tick : Op Int Unit)).1
    Reach (O := Unit) b E c!"print" clk (Orderly c!"a") (on b pair) ∧ s1.alive = true ∧
    ∀ s', Lives (O := Unit) b E c!"print" clk (fun _ _ => True) s1 s' →
      let v' := b.snap E c!"print" s'
      v'.status c!"a" = some .running ∧ c!"a" ∉ v'.inFlight ∧ c!"a" ∉ v'.lists .queued ∧ (v'.lists .running).count c!"a" = 1 := by
  intro s1
  have hr : Reach (O := Unit) b E c!"print" clk (Orderly c!"a") (on b pair) := (okAll.on (by decide +kernel) b).orderly lawful
  have e := look_failing b (alone_faultAt 7) pair .tick
  obtain ⟨hg, hT⟩ := tidy_with_any (O := Unit) (clk := clk) lawful (alone_faultAt 7) hr.good (tidy_reach lawful hr) .tick
  have hst : (b.snap E c!"print" s1).status c!"a" = some .running := by rw [e]; decide +kernel
  have hal : (b.snap E c!"print" s1).alive = true := by rw [e]; decide +kernel
  have hown : (b.snap E c!"print" s1).own c!"a" = [] := by rw [e]; decide +kernel
  have hq : c!"a" ∉ (b.snap E c!"print" s1).lists .queued := by rw [e]; decide +kernel
  have hrun : ((b.snap E c!"print" s1).lists .running).count c!"a" = 1 := by rw [e]; decide +kernel
  refine ⟨hr, hal, fun s' hl => ?_⟩
  obtain ⟨j, hj, hs⟩ := Option.map_eq_some_iff.mp hst
  obtain ⟨_, _, h1, h2, h3⟩ := adrift_lives lawful hg hT hj hs hq hown hl
  refine ⟨by simp [Snap.status, h1, hs], own_nil h2, ?_, by rw [h3, hrun]⟩
  rw [← List.count_eq_zero, h3, List.count_eq_zero]; exact hq

/-- Job `a` is done. -/
def doneRun : List (Op Int Unit) := [.enqueue (job c!"a") .newReRun, .tick, .start 0, .finish 0 good]

/-- The hypotheses of `C51_refuted` and of `C51_read_partial`. -/
example (b : Impl) : Reach (O := Unit) b E c!"print" clk (Orderly c!"a") (on b waiting) ∧ (on b waiting).alive = true ∧
    (b.snap E c!"print" (on b waiting)).status c!"a" = some .queued := by
  refine ⟨(okAll.on (by decide +kernel) b).orderly lawful, ?_, by rw [see_on]; decide +kernel⟩
  show (b.snap E c!"print" (on b waiting)).alive = true
  rw [see_on]; decide +kernel

/-- C51: the two entries lead to two executions of the same job at the same time. -/
example :
    let s := (failingTurn (faultAt 0) waiting (.enqueue (job c!"a") .newReRun)).1
    (look s).lists .queued = [c!"a", c!"a"] ∧ (look (further s [.tick, .tick])).inFlight = [c!"a", c!"a"] := by
  decide +kernel

/-- C51: an override whose write fails. -/
example :
    let p := failingTurn (faultAt 1) waiting (.enqueue (job c!"a" 5) { (.newReRun : EnqueueConfig) with overrideData := true })
    p.2 = .unit (.error .redis) ∧ (look p.1).lists .queued = [c!"a"] := by
  decide +kernel

/-- C52: a submission returns `Ok`, with its calls; and one that reports its failed write. -/
example :
    let p := WorkQueue.runWithConfig E c!"print" (job c!"a") .newReRun
    (p.run InMem clk (after []).w).1 = .ok () ∧ (p.trace InMem clk (after []).w).map (fun c => (c.1.isWrite, c.2)) = [(false, true), (true, true), (true, true)] ∧
    (failingTurn (faultAt 1) [] (.enqueue (job c!"a") .newReRun)).2 = .unit (.error .redis) ∧
    (failingTurn (faultAt 2) [] (.enqueue (job c!"a") .newReRun)).2 = .unit (.error .redis) := by
  decide +kernel

/-- The hypotheses of `C52_retry_lost`, and the answer. -/
example (b : Impl) : Reach (O := Unit) b E c!"print" clk (Orderly c!"a") (on b doneRun) ∧
    (b.snap E c!"print" (on b doneRun)).status c!"a" = some .finished ∧
    (failingTurn (faultAt 3) doneRun (.retry c!"a")).2 = .bool (.ok true) ∧
    (look (further (failingTurn (faultAt 3) doneRun (.retry c!"a")).1 [.tick])).tasks = [] := by
  refine ⟨(okAll.on (by decide +kernel) b).orderly lawful, by rw [see_on]; decide +kernel, by decide +kernel, by decide +kernel⟩

/-- The hypotheses of `C52_finish_lost`: the first execution of `a` fails and is to be retried. -/
example : okAll c!"a" midRun = true ∧ (see midRun).alive = true ∧
    (see (midRun ++ [.finish 0 bad])).status c!"a" = some .queued ∧
    (see midRun).tasks.map (fun t => (t.orig.id, t.executing.isSome)) = [(c!"a", true)] ∧
    (look (further (failingTurn (faultAt 2) midRun (.finish 0 bad)).1 [.tick, .tick])).tasks = [] := by
  decide +kernel

/-- The hypotheses of `C52_slot_leak`: `a` finishes, and the queue counts it as running afterwards. -/
example : okAll c!"a" (doneRun.take 3) = true ∧ (see doneRun).status c!"a" = some .finished ∧
    (look (failingTurn (faultAt 0) (doneRun.take 3) (.finish 0 good)).1).lists .running = [c!"a"] := by
  decide +kernel

/-- C64: the cancellation of `a` fails half-way, `b` is untouched. -/
example :
    let s := (failingTurn (faultAt 2) pair (.cancel c!"a")).1
    (look s).job c!"b" = (see pair).job c!"b" ∧ (look s).lists .queued = [c!"b", c!"a"] ∧ (look s).status c!"a" = some .canceled := by
  decide +kernel

/-- C65: the hypotheses of `C65_kept_partial` hold on every history, and here is a tick that fails. -/
example (b : Impl) : b.Good (on b pair).w.s ∧ (b.snap E c!"print" (on b pair)).Keyed := by
  have hr : Reach (O := Unit) b E c!"print" clk (Orderly c!"a") (on b pair) := (okAll.on (by decide +kernel) b).orderly lawful
  exact ⟨hr.good, (tidy_reach lawful hr).keyed⟩

example : (look (failingTurn (faultAt 7) pair .tick).1).lists .running = [c!"a"] ∧
    (look (failingTurn (faultAt 7) pair .tick).1).lists .queued = [c!"b"] ∧
    (look (failingTurn (faultAt 7) pair .tick).1).tasks = [] ∧
    (look (failingTurn (faultAt 4) pair .tick).1).lists .queued = [c!"b", c!"a"] := by
  decide +kernel

end
end AJ.Props
