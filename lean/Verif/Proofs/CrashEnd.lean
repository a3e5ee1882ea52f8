import Verif.Proofs.CrashJobs

/-! # Crash points of the end of a run and of a submission -/

namespace AJ
open W Prog

namespace Prog
variable {α β : Type} {B : Backend} {clk : Nat → Time}

theorem Crash.left {p : Prog α} {f : α → Prog β} {w w' : World B} (h : p.Crash B clk w w') : (p.bind f).Crash B clk w w' := by
  induction p generalizing w with
  | ret a => cases h; exact .refl _ _
  | fail e => exact h
  | panic => exact h
  | diverge => exact h
  | call op k ih => exact h.imp id (ih _)
  | now k ih => exact h.imp id (ih _)
  | emit e k ih => exact h.imp id ih

theorem Crash.right {p : Prog α} {f : α → Prog β} {w w1 w' : World B} {a : α} (h1 : p.run B clk w = (.ok a, w1))
    (h : (f a).Crash B clk w1 w') : (p.bind f).Crash B clk w w' := by
  induction p generalizing w with
  | ret a => cases h1; exact h
  | fail e => cases h1
  | panic => cases h1
  | diverge => cases h1
  | call op k ih => exact .inr (ih _ h1)
  | now k ih => exact .inr (ih _ h1)
  | emit e k ih => exact .inr (ih h1)

theorem Crash.toCatchErr {p : Prog α} {w w' : World B} (h : p.Crash B clk w w') : p.catchErr.Crash B clk w w' := by
  induction p generalizing w with
  | ret a => exact h
  | fail e => exact h
  | panic => exact h
  | diverge => exact h
  | call op k ih => exact h.imp id (ih _)
  | now k ih => exact h.imp id (ih _)
  | emit e k ih => exact h.imp id ih

theorem bind_assoc' {γ : Type} (p : Prog α) (f : α → Prog β) (g : β → Prog γ) :
    (p.bind f).bind g = p.bind fun a => (f a).bind g := by
  induction p with
  | ret a => rfl
  | fail e => rfl
  | panic => rfl
  | diverge => rfl
  | call op k ih => exact congrArg (Prog.call op) (funext fun r => ih r)
  | now k ih => exact congrArg Prog.now (funext fun r => ih r)
  | emit e k ih => exact congrArg (Prog.emit e) ih

theorem Sat.run {ok : BOp → Prop} {post : α → Prop} {p : Prog α} (hp : p.Sat ok post) {w w' : World B} {a : α}
    (h : p.run B clk w = (.ok a, w')) : post a := by
  induction p generalizing w with
  | ret b => cases h; exact hp
  | fail e => cases h
  | panic => cases h
  | diverge => cases h
  | call op k ih => exact ih _ (hp.2 _) h
  | now k ih => exact ih _ (hp _) h
  | emit e k ih => exact ih hp h

theorem Sat.ite {ok : BOp → Prop} {post : α → Prop} {c : Prop} [Decidable c] {p q : Prog α} (hp : p.Sat ok post)
    (hq : q.Sat ok post) : (if c then p else q).Sat ok post := by split <;> assumption

/-- A program without backend calls leaves the backend alone. -/
theorem Sat.quiet {post : α → Prop} {p : Prog α} (hp : p.Sat (fun _ => False) post) {w w' : World B}
    (h : p.Crash B clk w w') : w'.s = w.s :=
  Crash.sat (I := fun s => s = w.s) (fun _ _ h => h.elim) hp rfl h

/-- Crash points over the specification are crash points over every backend like it. -/
theorem Crash.sim' {ok : BOp → Prop} (S : Sim B ok) {p : Prog α} (hp : p.AllOps ok) {w : World B} {v v' : World SpecB}
    (hr : S.RW w v) (h : p.Crash SpecB clk v v') : ∃ w', p.Crash B clk w w' ∧ S.RW w' v' := by
  induction p generalizing w v with
  | ret a => cases h; exact ⟨w, rfl, hr⟩
  | fail e => cases h; exact ⟨w, rfl, hr⟩
  | panic => cases h; exact ⟨w, rfl, hr⟩
  | diverge => cases h; exact ⟨w, rfl, hr⟩
  | call op k ih =>
    rcases h with rfl | h
    · exact ⟨w, .inl rfl, hr⟩
    · obtain ⟨h1, h2⟩ := S.step op w.s v.s hp.1 hr.s
      obtain ⟨w', h3, h4⟩ := ih _ (hp.2 _) (w := { w with s := (B.exec op w.s).2 }) (v := { v with s := (Spec.exec op v.s).2 })
        ⟨h2, hr.t, hr.log⟩ h
      refine ⟨w', .inr ?_, h4⟩
      rw [h1]; exact h3
  | now k ih =>
    rcases h with rfl | h
    · exact ⟨w, .inl rfl, hr⟩
    · obtain ⟨w', h3, h4⟩ := ih _ (hp _) (w := { w with t := v.t + 1 }) (v := { v with t := v.t + 1 }) ⟨hr.s, rfl, hr.log⟩ h
      refine ⟨w', .inr ?_, h4⟩
      rw [hr.t]; exact h3
  | emit e k ih =>
    rcases h with rfl | h
    · exact ⟨w, .inl rfl, hr⟩
    · obtain ⟨w', h3, h4⟩ := ih hp (w := { w with log := w.log ++ [e] }) (v := { v with log := v.log ++ [e] })
        ⟨hr.s, hr.t, by simp [hr.log]⟩ h
      exact ⟨w', .inr h3, h4⟩

end Prog

section
variable {D O : Type} {E : Env D} {name : Str} {clk : Nat → Time} {b : Impl} {k : Str}

/-- Crashes over the specification, on any backend. -/
theorem crash_mirror' {s : Sys D b.B} {t : Sys D SpecB} (hr : b.sim.RS s t) {op : Op D O} {v : W}
    (h : Sys.CrashIn E name SpecB clk t op v) :
    ∃ w, Sys.CrashIn E name b.B clk s op w ∧ b.sim.RS (Sys.restart w : Sys D b.B) (Sys.restart v) := by
  have lift : ∀ {α : Type} {p : Prog α}, p.Aj name → p.AllOps b.ok := fun hp => hp.mono (b.okAj name)
  have fin : ∀ {w : World b.B}, Sys.CrashIn E name b.B clk s op w → b.sim.RW w v →
      ∃ w, Sys.CrashIn E name b.B clk s op w ∧ b.sim.RS (Sys.restart w : Sys D b.B) (Sys.restart v) :=
    fun {w} h1 h2 => ⟨w, h1, h2, rfl, rfl, rfl⟩
  have ha' : t.alive = true → s.alive = true := fun h => by rw [hr.alive]; exact h
  cases h with
  | between => exact fin (.between op) hr.w
  | enqueue ha h =>
    obtain ⟨v, h1, h2⟩ := Crash.sim' b.sim (lift (WorkQueue.aj_runWithConfig E name _ _)) hr.w h
    exact fin (.enqueue (ha' ha) h1) h2
  | cancel ha h =>
    obtain ⟨v, h1, h2⟩ := Crash.sim' b.sim (lift (WorkQueue.aj_cancelJob E name _)) hr.w h
    exact fin (.cancel (ha' ha) h1) h2
  | get ha h =>
    obtain ⟨v, h1, h2⟩ := Crash.sim' b.sim (lift (WorkQueue.aj_getJob E name _)) hr.w h
    exact fin (.get (ha' ha) h1) h2
  | retry ha h =>
    obtain ⟨v, h1, h2⟩ := Crash.sim' b.sim (lift (WorkQueue.aj_retryJob E name _)) hr.w h
    exact fin (.retry (ha' ha) h1) h2
  | tick ha h =>
    have hq := (b.sim.step (.queueCount (formatQueueName name .queued)) s.w.s t.w.s (b.okAj name _ (.count _)) hr.w.s).1
    have hf : Sys.tickFuel name b.B s.w.s = Sys.tickFuel name SpecB t.w.s := by
      unfold Sys.tickFuel; rw [hq]
    rw [← hf, ← hr.cfg] at h
    obtain ⟨v, h1, h2⟩ := Crash.sim' b.sim (lift (WorkQueue.aj_pickJobs E name _ _)) hr.w h
    exact fin (.tick (ha' ha) h1) h2
  | start ha ht h =>
    obtain ⟨v, h1, h2⟩ := Crash.sim' b.sim (lift (WorkQueue.aj_executeStart name _)) hr.w h
    exact fin (.start (ha' ha) (by rw [hr.tasks]; exact ht) h1) h2
  | finish ha ht h =>
    obtain ⟨v, h1, h2⟩ := Crash.sim' b.sim (lift (WorkQueue.aj_taskFinish E name _ _ _)) hr.w h
    exact fin (.finish (ha' ha) (by rw [hr.tasks]; exact ht) h1) h2

/-! ## The end of a run: first the decision, then the writes -/

/-- What is to be done at the end of a run. -/
inductive Plan (D : Type) where
  | again (j : Job D)
  | failed (j : Job D)
  | finished (j : Job D)

/-- The job to be stored. -/
def Plan.job : Plan D → Job D
  | .again j => j
  | .failed j => j
  | .finished j => j

namespace WorkQueue

/-- The decision. -/
def planNext (E : Env D) (failed : Bool) (job : Job D) : Prog (Plan D) :=
  (Job.nextTick E job).bind fun r => match r with
    | some next => .ret (.again next)
    | none => .ret (if failed then .failed job else .finished job)

/-- The decision. -/
def plan (E : Env D) (x : Executable D O) (job : Job D) : Prog (Plan D) :=
  (Prog.send (.hookMsg job.id true)).bind fun _ =>
  let job' := (runUserCode x job).1
  let o := (runUserCode x job).2
  match job'.context.retry with
  | some r => (x.callRetryAt E.overflowChecks job'.data r o).bind fun p => match p.2 with
    | some t => .ret (.again { job' with context := { job'.context with retry := some p.1, jobType := .scheduledAt t } })
    | none => planNext E (x.isFailedOutput job'.data o) { job' with context := { job'.context with retry := some p.1 } }
  | none => planNext E (x.isFailedOutput job'.data o) job'

/-- The writes. -/
def act (E : Env D) (name : Str) : Plan D → Prog Unit
  | .again j => reEnqueue E name j
  | .failed j => markJobIsFailed E name j
  | .finished j => markJobIsFinished E name j

theorem planNext_act (failed : Bool) (job : Job D) :
    ((Job.nextTick E job).bind fun r => match r with
      | some next => reEnqueue E name next
      | none => if failed then markJobIsFailed E name job else markJobIsFinished E name job)
    = (planNext E failed job).bind (act E name) := by
  unfold planNext
  rw [bind_assoc']
  congr 1
  funext r
  cases r with
  | some n => rfl
  | none => cases failed <;> rfl

theorem executeFinish_eq (x : Executable D O) (job : Job D) :
    executeFinish E name x job = (plan E x job).bind (act E name) := by
  unfold executeFinish plan
  have hid : (runUserCode x job).1.id = job.id := rfl
  generalize runUserCode x job = ru at *
  obtain ⟨j1, o⟩ := ru
  simp only at hid
  simp only [bind_eq, bind_assoc', hid]
  congr 1
  funext _
  cases hr : j1.context.retry with
  | none => exact planNext_act _ _
  | some r =>
    simp only [bind_assoc']
    congr 1
    funext p
    obtain ⟨r', at?⟩ := p
    cases at? with
    | none => exact planNext_act _ _
    | some t => rfl

end WorkQueue

/-- The plan keeps id, status and run count. -/
def Plan.Of (job : Job D) (p : Plan D) : Prop :=
  p.job.id = job.id ∧ p.job.context.jobStatus = job.context.jobStatus ∧ p.job.context.runCount = job.context.runCount

namespace WorkQueue

theorem sat_planNext (failed : Bool) (job : Job D) :
    (planNext E failed job).Sat (fun _ => False) (Plan.Of job) := by
  unfold planNext
  refine Sat.bind (post := fun r => ∀ n, r = some n → n.id = job.id ∧ n.context.jobStatus = job.context.jobStatus ∧
    n.context.runCount = job.context.runCount) ?_ fun r hr => ?_
  · unfold Job.nextTick
    intro now
    simp only [Prog.bind_eq, ret_bind]
    split
    · split
      · intro n h; cases h
      · refine Sat.bind (post := fun _ => True) (fun _ => trivial) fun now2 _ => ?_
        refine Sat.bind (post := fun n => n.id = job.id ∧ n.context.jobStatus = job.context.jobStatus ∧
          n.context.runCount = job.context.runCount) ?_ fun n hn => ?_
        · split
          · refine Sat.bind (post := fun _ => True) ?_ fun _ _ => ⟨rfl, rfl, rfl⟩
            generalize addI32 _ _ _ = o
            cases o <;> trivial
          · exact ⟨rfl, rfl, rfl⟩
        · rw [ite_ite_or]
          refine Sat.ite ?_ ?_
          · intro n h; cases h
          · intro n' h; cases h; exact hn
    · intro n h; cases h
  · cases r with
    | some n => exact hr n rfl
    | none => cases failed <;> exact ⟨rfl, rfl, rfl⟩

theorem sat_plan (x : Executable D O) (job : Job D) : (plan E x job).Sat (fun _ => False) (Plan.Of job) := by
  unfold plan
  have hctx : (runUserCode x job).1.context = job.context := rfl
  generalize runUserCode x job = ru at *
  obtain ⟨j1, o⟩ := ru
  simp only at hctx
  have hof : ∀ j2 : Job D, j2.context.jobId = j1.context.jobId → j2.context.jobStatus = j1.context.jobStatus → 
      j2.context.runCount = j1.context.runCount →
      ∀ p : Plan D, Plan.Of j2 p → Plan.Of job p := by
    intro j2 h1 h2 h3 p hp
    rw [hctx] at h1 h2 h3
    exact ⟨hp.1.trans h1, hp.2.1.trans h2, hp.2.2.trans h3⟩
  refine Sat.bind (post := fun _ => True) (by trivial) fun _ _ => ?_
  simp only
  split
  · refine Sat.bind (post := fun _ => True) ?_ fun p _ => ?_
    · unfold Executable.callRetryAt
      split
      · unfold defaultRetryAt
        split
        · refine Sat.bind (post := fun _ => True) (fun _ => trivial) fun now _ => ?_
          refine Sat.bind (post := fun _ => True) ?_ fun _ _ => trivial
          generalize Retry.retryAt _ _ _ = q
          cases q <;> trivial
        · trivial
      · exact fun _ => trivial
    · split
      · exact hof j1 rfl rfl rfl _ ⟨rfl, rfl, rfl⟩
      · refine (sat_planNext _ _).weaken (hof _ ?_ ?_ ?_) <;> rfl
  · exact (sat_planNext _ _).weaken (hof _ rfl rfl rfl)

end WorkQueue

/-- How far the end of a run of `k` got. -/
inductive Torn (E : Env D) (name : Str) (k : Str) (w wf w' : W) : Prop where
  | nothing (hl : lst name w' = lst name w) (hv : view E w' = view E w)
  | removed (hl : ∀ st, lst name w' st = if st = .running then (lst name w .running).filter (· ≠ k) else lst name w st)
      (hv : view E w' = view E w)
  | unpushed (hl : ∀ st, lst name w' st = if st = .running then (lst name w .running).filter (· ≠ k) else lst name w st)
      (hv : view E w' = view E wf)
  | stored (hl : lst name w' = lst name w) (hv : view E w' = view E wf) (hf : lst name wf .failed = k :: lst name w .failed)
  | all (hl : lst name w' = lst name wf) (hv : view E w' = view E wf)

theorem lst_drop (k : Str) (st : JobStatus) (w : W) (st' : JobStatus) :
    lst name (setL name st ((lst name w st).filter (· ≠ k)) w) st' =
      if st' = st then (lst name w st).filter (· ≠ k) else lst name w st' := lst_setL ..

theorem crash_save {j : Job D} {w w' : W} (h : (Job.saveAndNotify E j).Crash SpecB clk w w') :
    w' = w ∨ w' = upsert E j.id j w ∨ w' = put E j w := by
  rcases h with rfl | h
  · exact .inl rfl
  rcases h with rfl | h
  · exact .inr (.inl rfl)
  · have h : w' = _ := h
    exact .inr (.inr h)

/-- Crash points of `let j ← j.enqueue`, `j.finish`, `j.fail`. -/
theorem crash_stamp {f : Job D → Int → Job D} {j : Job D} {w w' : W}
    (h : (Prog.getNowMs.bind fun ms => (Job.saveAndNotify E (f j ms)).bind fun _ => Prog.ret (f j ms)).Crash SpecB clk w w') :
    w' = w ∨ w' = tick w ∨ w' = upsert E (f j (clk w.t / nsPerMs)).id (f j (clk w.t / nsPerMs)) (tick w) ∨
      w' = put E (f j (clk w.t / nsPerMs)) (tick w) := by
  rcases h with rfl | h
  · exact .inl rfl
  have h : (((Job.saveAndNotify E (f j (clk w.t / nsPerMs))).bind fun _ => Prog.ret (f j (clk w.t / nsPerMs)))).Crash SpecB clk (tick w) w' := h
  rcases Crash.bind h with h | ⟨a, w1, h1, h⟩
  · rcases crash_save h with rfl | rfl | rfl
    · exact .inr (.inl rfl)
    · exact .inr (.inr (.inl rfl))
    · exact .inr (.inr (.inr rfl))
  · cases h
    rw [run_save] at h1
    cases h1
    exact .inr (.inr (.inr rfl))

theorem crash_jEnqueue {j : Job D} {w w' : W} (h : (Job.enqueue E j).Crash SpecB clk w w') :
    w' = w ∨ w' = tick w ∨ w' = upsert E j.id (j.asQueued (clk w.t / nsPerMs)) (tick w) ∨
      w' = put E (j.asQueued (clk w.t / nsPerMs)) (tick w) := crash_stamp (f := Job.asQueued) h

theorem crash_jFinish {j : Job D} {w w' : W} (h : (Job.finish E j).Crash SpecB clk w w') :
    w' = w ∨ w' = tick w ∨ w' = upsert E j.id (j.asFinished (clk w.t / nsPerMs)) (tick w) ∨
      w' = put E (j.asFinished (clk w.t / nsPerMs)) (tick w) := crash_stamp (f := Job.asFinished) h

theorem crash_jFail {j : Job D} {w w' : W} (h : (Job.fail E j).Crash SpecB clk w w') :
    w' = w ∨ w' = tick w ∨ w' = upsert E j.id (j.asFailed (clk w.t / nsPerMs)) (tick w) ∨
      w' = put E (j.asFailed (clk w.t / nsPerMs)) (tick w) := crash_stamp (f := Job.asFailed) h

/-- Crash points of a call whose result is ignored. -/
theorem crash_call_ {α : Type} {op : BOp} {f : Except Error op.Res → Prog α} {w w' : W}
    (h : ((call' op).bind f).Crash SpecB clk w w') :
    w' = w ∨ (f (.ok (Spec.exec op w.s).1)).Crash SpecB clk { w with s := (Spec.exec op w.s).2 } w' := h

theorem crash_reEnqueue {j : Job D} (hst : j.context.jobStatus = .running) {w w' : W}
    (h : (WorkQueue.reEnqueue E name j).Crash SpecB clk w w') : Torn E name j.id w (reEnq E name clk j w) w' := by
  have hf : view E (reEnq E name clk j w) = upd (view E w) j.id (E.encdec (j.asQueued (clk w.t / nsPerMs))) := by
    simp [reEnq]
  unfold WorkQueue.reEnqueue at h
  rw [hst] at h
  rcases Crash.bind h with h | ⟨a, w1, h1, h⟩
  · rcases Crash.callQ h with rfl | rfl
    · exact .nothing rfl rfl
    · exact .removed (fun st => lst_drop (name := name) j.id .running w st) rfl
  rw [run_remove?] at h1
  cases h1
  rcases Crash.bind h with h | ⟨a, w1, h1, h⟩
  · rcases crash_jEnqueue h with rfl | rfl | rfl | rfl
    · exact .removed (fun st => lst_drop (name := name) j.id .running w st) rfl
    · exact .removed (fun st => lst_drop (name := name) j.id .running w st) rfl
    · refine .unpushed (fun st => lst_drop (name := name) j.id .running w st) ?_
      rw [hf]; simp
    · refine .unpushed (fun st => lst_drop (name := name) j.id .running w st) ?_
      rw [hf]; simp
  rw [run_jEnqueue] at h1
  cases h1
  rcases crash_call_ h with rfl | h
  · refine .unpushed (fun st => lst_drop (name := name) j.id .running w st) ?_
    rw [hf]; simp
  · have h : w' = _ := h
    have e : w' = reEnq E name clk j w := by
      rw [h]; unfold reEnq; rw [hst]; rfl
    rw [e]; exact .all rfl rfl

theorem crash_markFinished {j : Job D} {w w' : W}
    (h : (WorkQueue.markJobIsFinished E name j).Crash SpecB clk w w') : Torn E name j.id w (fin E name clk j w) w' := by
  have hf : view E (fin E name clk j w) = upd (view E w) j.id (E.encdec (j.asFinished (clk w.t / nsPerMs))) := by
    simp [fin]
  rcases Crash.bind h with h | ⟨a, w1, h1, h⟩
  · rcases crash_call_ h with rfl | h
    · exact .nothing rfl rfl
    · have h : w' = _ := h
      subst h
      exact .removed (fun st => lst_drop (name := name) j.id .running w st) rfl
  cases h1
  rcases Crash.bind h with h | ⟨a, w1, h1, h⟩
  · rcases crash_jFinish h with rfl | rfl | rfl | rfl
    · exact .removed (fun st => lst_drop (name := name) j.id .running w st) rfl
    · exact .removed (fun st => lst_drop (name := name) j.id .running w st) rfl
    · refine .unpushed (fun st => lst_drop (name := name) j.id .running w st) ?_
      rw [hf]; simp; rfl
    · refine .unpushed (fun st => lst_drop (name := name) j.id .running w st) ?_
      rw [hf]; simp; rfl
  rw [run_jFinish] at h1
  cases h1
  rcases crash_call_ h with rfl | h
  · refine .unpushed (fun st => lst_drop (name := name) j.id .running w st) ?_
    rw [hf]; simp; rfl
  · have h : w' = _ := h
    have e : w' = fin E name clk j w := h
    rw [e]; exact .all rfl rfl

theorem crash_markFailed {j : Job D} {w w' : W}
    (h : (WorkQueue.markJobIsFailed E name j).Crash SpecB clk w w') : Torn E name j.id w (flunk E name clk j w) w' := by
  have hf : view E (flunk E name clk j w) = upd (view E w) j.id (E.encdec (j.asFailed (clk w.t / nsPerMs))) := by
    simp [flunk]
  have hfl : lst name (flunk E name clk j w) .failed = j.id :: lst name w .failed := by
    simp [flunk, lst_setL]
  rcases Crash.bind h with h | ⟨a, w1, h1, h⟩
  · rcases crash_jFail h with rfl | rfl | rfl | rfl
    · exact .nothing rfl rfl
    · exact .nothing rfl rfl
    · exact .stored rfl (by rw [hf]; simp) hfl
    · exact .stored rfl (by rw [hf]; simp) hfl
  rw [run_jFail] at h1
  cases h1
  rcases Crash.bind h with h | ⟨a, w1, h1, h⟩
  · rcases crash_call_ h with rfl | h
    · exact .stored rfl (by rw [hf]; simp) hfl
    · have h : w' = _ := h
      subst h
      refine .unpushed (fun st => lst_drop (name := name) j.id .running _ st) ?_
      rw [hf]
      exact (view_put _ _).trans (by simp)
  cases h1
  rcases crash_call_ h with rfl | h
  · refine .unpushed (fun st => lst_drop (name := name) j.id .running _ st) ?_
    rw [hf]
    exact (view_put _ _).trans (by simp)
  · have h : w' = _ := h
    have e : w' = flunk E name clk j w := h
    rw [e]; exact .all rfl rfl

theorem run_act (p : Plan D) (w : W) : (WorkQueue.act E name p).run SpecB clk w = (.ok (), match p with
    | .again j => reEnq E name clk j w
    | .failed j => flunk E name clk j w
    | .finished j => fin E name clk j w) := by
  cases p <;> simp [WorkQueue.act]

theorem crash_act {p : Plan D} (hst : p.job.context.jobStatus = .running) {w w' : W}
    (h : (WorkQueue.act E name p).Crash SpecB clk w w') :
    Torn E name p.job.id w ((WorkQueue.act E name p).run SpecB clk w).2 w' := by
  rw [run_act]
  cases p with
  | again j => exact crash_reEnqueue hst h
  | failed j => exact crash_markFailed h
  | finished j => exact crash_markFinished h

theorem view_of_s {w w' : W} (h : w'.s = w.s) : view E w' = view E w := by
  funext i; unfold view; rw [h]

theorem lst_of_s {w w' : W} (h : w'.s = w.s) : lst name w' = lst name w := by
  funext i; unfold lst; rw [h]

theorem Torn.start {k : Str} {w w1 wf w' : W} (h : w1.s = w.s) (ht : Torn E name k w1 wf w') : Torn E name k w wf w' := by
  have hv := view_of_s (E := E) h
  have hl := lst_of_s (name := name) h
  cases ht with
  | nothing h1 h2 => exact .nothing (h1.trans hl) (h2.trans hv)
  | removed h1 h2 => exact .removed (fun st => by rw [h1, hl]) (h2.trans hv)
  | unpushed h1 h2 => exact .unpushed (fun st => by rw [h1, hl]) h2
  | stored h1 h2 h3 => exact .stored (h1.trans hl) h2 (by rw [h3, hl])
  | all h1 h2 => exact .all h1 h2

/-- Crash points of the last turn of a task. -/
theorem crash_taskFinish {x : Executable D O} {orig job : Job D} (hst : job.context.jobStatus = .running) {w w' : W}
    (h : (WorkQueue.taskFinish E name x orig job).Crash SpecB clk w w') :
    Torn E name job.id w ((WorkQueue.taskFinish E name x orig job).run SpecB clk w).2 w' := by
  have hsat := WorkQueue.sat_plan (E := E) x job
  have hfin : (((WorkQueue.executeFinish E name x job).catchErr).run SpecB clk w).2 =
      ((WorkQueue.executeFinish E name x job).run SpecB clk w).2 := by
    rw [run_catchErr]
  have hrun : ((WorkQueue.taskFinish E name x orig job).run SpecB clk w).2 =
      ((WorkQueue.executeFinish E name x job).run SpecB clk w).2 := by
    have h := fin_cases (E := E) (name := name) (clk := clk) x job w
    unfold WorkQueue.taskFinish
    simp only [Prog.bind_eq, Prog.run_bind, Prog.run_catchErr]
    generalize (WorkQueue.executeFinish E name x job).run SpecB clk w = p at h ⊢
    rcases p with ⟨(r | e | _ | _), w3⟩
    · rfl
    · cases h
    · rfl
    · cases h
  have key : ∀ w' : W, (WorkQueue.executeFinish E name x job).Crash SpecB clk w w' →
      Torn E name job.id w ((WorkQueue.executeFinish E name x job).run SpecB clk w).2 w' := by
    intro w' h
    rw [WorkQueue.executeFinish_eq] at h ⊢
    rcases Crash.bind h with h | ⟨p, w1, h1, h⟩
    · have := hsat.quiet h
      exact .nothing (lst_of_s this) (view_of_s this)
    · obtain ⟨h2, h3, _⟩ := hsat.run h1
      have h4 : w1.s = w.s := by
        have := Crash.last (B := SpecB) (clk := clk) (WorkQueue.plan E x job) w
        rw [h1] at this
        exact hsat.quiet this
      have := crash_act (E := E) (name := name) (clk := clk) (h3.trans hst) h
      rw [h2] at this
      rw [run_bind, h1, contRun_ok]
      exact this.start h4
  rw [hrun]
  rcases Crash.bind h with h | ⟨a, w1, h1, h⟩
  · exact key _ (Crash.catchErr h)
  · have hw1 : w1 = ((WorkQueue.executeFinish E name x job).run SpecB clk w).2 := by
      rw [← hfin, h1]
    cases a with
    | ok u => cases h; rw [hw1]; exact .all rfl rfl
    | error e =>
      exfalso
      have h2 := fin_cases (E := E) (name := name) (clk := clk) x job w
      rw [run_catchErr] at h1
      generalize (WorkQueue.executeFinish E name x job).run SpecB clk w = p at h1 h2
      rcases p with ⟨(r | e | _ | _), w3⟩
      · cases h1
      · cases h2
      · cases h1
      · cases h1

theorem step_finish_w {s : Sys D SpecB} (ha : s.alive = true) {i : Nat} {orig job : Job D}
    (ht : s.tasks[i]? = some ⟨orig, some job⟩) (x : Executable D O) :
    (Sys.step E name SpecB clk s (.finish i x)).1.w = ((WorkQueue.taskFinish E name x orig job).run SpecB clk s.w).2 := by
  unfold Sys.step
  rw [if_pos ha]
  simp only [ht]
  generalize (WorkQueue.taskFinish E name x orig job).run SpecB clk s.w = p
  obtain ⟨r, w⟩ := p
  cases r <;> rfl

theorem Torn.snap {s sf : Sys D SpecB} {w' : W} (h : Torn E name k s.w sf.w w') :
    Snap.Torn k (Sys.obs E name s) (Sys.obs E name sf) (Sys.obs E name (Sys.restart w')) := by
  cases h with
  | nothing h1 h2 => exact .nothing h1 h2
  | removed h1 h2 => exact .removed h1 h2
  | unpushed h1 h2 => exact .unpushed h1 h2
  | stored h1 h2 h3 => exact .stored h1 h2 h3
  | all h1 h2 => exact .all h1 h2

/-- A crash in the last turn of a task, on any backend. -/
theorem torn_any {s : Sys D b.B} (hg : b.Good s.w.s) {i : Nat} {orig job : Job D}
    (ht : (b.snap E name s).tasks[i]? = some ⟨orig, some job⟩) (hst : job.context.jobStatus = .running)
    (x : Executable D O) {w : World b.B} (h : Sys.CrashIn E name b.B clk s (.finish i x) w) :
    Snap.Torn job.id (b.snap E name s) (b.snap E name (Sys.step E name b.B clk s (.finish i x)).1)
      (b.snap E name (Sys.restart w)) := by
  obtain ⟨t, hr⟩ := Impl.rs_of_good hg
  obtain ⟨v, h1, h2⟩ := crash_mirror hr h
  obtain ⟨_, h3⟩ := Impl.rs_step (E := E) (name := name) (clk := clk) hr (.finish i x)
  rw [Impl.snap_eq hr] at ht ⊢
  rw [Impl.snap_eq h2, Impl.snap_eq h3]
  have ht : t.tasks[i]? = some ⟨orig, some job⟩ := ht
  cases h1 with
  | between => exact .nothing rfl rfl
  | finish ha ht' h =>
    rw [ht] at ht'
    cases ht'
    have := crash_taskFinish hst h
    rw [← step_finish_w ha ht] at this
    exact this.snap

/-- If the end of a run puts the job back into the queue, then there are moments at which it is in no list. -/
theorem torn_points {x : Executable D O} {orig job : Job D} (hst : job.context.jobStatus = .running) {w : W}
    (hq : job.id ∉ lst name w .queued)
    (hf : job.id ∈ lst name ((WorkQueue.taskFinish E name x orig job).run SpecB clk w).2 .queued) :
    (∃ w', (WorkQueue.taskFinish E name x orig job).Crash SpecB clk w w' ∧
      (∀ st, lst name w' st = if st = .running then (lst name w .running).filter (· ≠ job.id) else lst name w st) ∧
      view E w' = view E w) ∧
    (∃ w', (WorkQueue.taskFinish E name x orig job).Crash SpecB clk w w' ∧
      (∀ st, lst name w' st = if st = .running then (lst name w .running).filter (· ≠ job.id) else lst name w st) ∧
      view E w' = view E ((WorkQueue.taskFinish E name x orig job).run SpecB clk w).2) := by
  have hsat := WorkQueue.sat_plan (E := E) x job
  have hrun : ((WorkQueue.taskFinish E name x orig job).run SpecB clk w).2 =
      ((WorkQueue.executeFinish E name x job).run SpecB clk w).2 := by
    have h := fin_cases (E := E) (name := name) (clk := clk) x job w
    unfold WorkQueue.taskFinish
    simp only [Prog.bind_eq, Prog.run_bind, Prog.run_catchErr]
    generalize (WorkQueue.executeFinish E name x job).run SpecB clk w = p at h ⊢
    rcases p with ⟨(r | e | _ | _), w3⟩
    · rfl
    · cases h
    · rfl
    · cases h
  have hcr : ∀ w', (WorkQueue.executeFinish E name x job).Crash SpecB clk w w' →
      (WorkQueue.taskFinish E name x orig job).Crash SpecB clk w w' := fun w' h => Crash.left (Crash.toCatchErr h)
  rw [hrun] at hf ⊢
  rw [WorkQueue.executeFinish_eq] at hf ⊢ hcr
  rw [run_bind] at hf ⊢
  have hlast := Crash.last (B := SpecB) (clk := clk) (WorkQueue.plan E x job) w
  cases hp : (WorkQueue.plan E x job).run SpecB clk w with
  | mk r w1 =>
    rw [hp] at hlast hf
    have hs : w1.s = w.s := hsat.quiet hlast
    have hl := lst_of_s (name := name) hs
    have hv := view_of_s (E := E) hs
    cases r with
    | err e => exact absurd (by rw [← hl]; exact hf) hq
    | panicked => exact absurd (by rw [← hl]; exact hf) hq
    | diverged => exact absurd (by rw [← hl]; exact hf) hq
    | ok p =>
      obtain ⟨h1, h2, _⟩ := hsat.run hp
      rw [contRun_ok] at hf ⊢
      cases p with
      | failed j =>
        rw [run_act] at hf
        have : lst name (flunk E name clk j w1) .queued = lst name w .queued := by
          simp [flunk, lst_setL, hl]
        exact absurd (by rw [← this]; exact hf) hq
      | finished j =>
        rw [run_act] at hf
        have : lst name (fin E name clk j w1) .queued = lst name w .queued := by
          simp [fin, lst_setL, hl]
        exact absurd (by rw [← this]; exact hf) hq
      | again j =>
        have h1 : j.id = job.id := h1
        have h2 : j.context.jobStatus = .running := h2.trans hst
        have hdrop : ∀ st, lst name (setL name .running ((lst name w1 .running).filter (· ≠ j.id)) w1) st =
            if st = .running then (lst name w .running).filter (· ≠ job.id) else lst name w st := by
          intro st
          rw [lst_drop, hl, h1]
        refine ⟨⟨_, hcr _ (Crash.right hp (w' := setL name .running ((lst name w1 .running).filter (· ≠ j.id)) w1) ?_), hdrop, hv⟩,
          ⟨_, hcr _ (Crash.right hp (w' := put E (j.asQueued (clk w1.t / nsPerMs))
            (tick (setL name .running ((lst name w1 .running).filter (· ≠ j.id)) w1))) ?_), hdrop, ?_⟩⟩
        · show (WorkQueue.reEnqueue E name j).Crash SpecB clk w1 _
          unfold WorkQueue.reEnqueue
          rw [h2]
          exact Crash.right (run_remove? name clk .running j.id w1) (Crash.refl _ _)
        · show (WorkQueue.reEnqueue E name j).Crash SpecB clk w1 _
          unfold WorkQueue.reEnqueue
          rw [h2]
          exact Crash.right (run_remove? name clk .running j.id w1)
            (Crash.right (run_jEnqueue E clk j _) (Crash.refl _ _))
        · rw [run_act]
          simp [reEnq, h2]

/-! ## Submissions -/

/-- How far a submission of `j` got that puts it into the queue. -/
inductive Half (E : Env D) (name : Str) (j : Job D) (w w' : W) : Prop where
  | nothing (hl : lst name w' = lst name w) (hv : view E w' = view E w)
  | pushed (hl : ∀ st, lst name w' st = if st = .queued then j.id :: lst name w .queued else lst name w st)
      (hv : view E w' = view E w)
  | all (ms : Int) (hl : ∀ st, lst name w' st = if st = .queued then j.id :: lst name w .queued else lst name w st)
      (hv : view E w' = upd (view E w) j.id (E.encdec (j.asQueued ms)))

theorem crash_enqueue {j : Job D} {w w' : W} (h : (WorkQueue.enqueue E name j).Crash SpecB clk w w') : Half E name j w w' := by
  have hpush : ∀ st, lst name (setL name .queued (j.id :: lst name w .queued) w) st =
    if st = .queued then j.id :: lst name w .queued else lst name w st := fun st => lst_setL ..
  rcases Crash.bind h with h | ⟨a, w1, h1, h⟩
  · rcases Crash.callQ h with rfl | rfl
    · exact .nothing rfl rfl
    · exact .pushed hpush rfl
  rw [run_push?] at h1
  cases h1
  rcases Crash.bind h with h | ⟨a, w1, h1, h⟩
  · rcases crash_jEnqueue h with rfl | rfl | rfl | rfl
    · exact .pushed hpush rfl
    · exact .pushed hpush rfl
    · exact .all _ hpush (by simp; rfl)
    · exact .all _ hpush (by simp; rfl)
  rw [run_jEnqueue] at h1
  cases h1
  cases h
  exact .all _ hpush (by simp; rfl)

/-- Crash points of a submission. -/
theorem crash_submit {j : Job D} {c : EnqueueConfig} {w w' : W}
    (h : (WorkQueue.runWithConfig E name j c).Crash SpecB clk w w') :
    w' = w ∨ (view E w j.id = none ∧ Half E name j w w') ∨
    ∃ ex, view E w j.id = some ex ∧
      ((c.overrideData = true ∧ ex.isRunning = false ∧ w' = upsert E j.id j w) ∨
       (c.reRun = true ∧ ex.isDone = true ∧
        Half E name j (if c.overrideData && !ex.isRunning then upsert E j.id j w else w) w')) := by
  by_cases hw : w' = w
  · exact .inl hw
  right
  rcases crash_after_get h with h | h
  · exact absurd h hw
  cases hv : view E w j.id with
  | none =>
    rw [hv] at h
    exact .inl ⟨rfl, crash_enqueue h⟩
  | some ex =>
    right
    refine ⟨ex, rfl, ?_⟩
    rw [hv] at h
    simp only at h
    cases hb : (c.overrideData && !ex.isRunning) with
    | false =>
      simp only [hb, Bool.false_eq_true, if_false] at h ⊢
      cases hd : (c.reRun && ex.isDone) with
      | false =>
        simp only [hd, Bool.false_eq_true, if_false] at h
        exact absurd h hw
      | true =>
        simp only [hd, if_true] at h
        rw [Bool.and_eq_true] at hd
        exact .inr ⟨hd.1, hd.2, crash_enqueue h⟩
    | true =>
      simp only [hb, if_true] at h ⊢
      rw [Bool.and_eq_true, Bool.not_eq_true'] at hb
      rcases Crash.bind h with h | ⟨a, w1, h1, h⟩
      · rcases Crash.callQ h with h | h
        · exact absurd h hw
        · exact .inl ⟨hb.1, hb.2, h⟩
      · rw [run_upsert] at h1
        cases h1
        cases hd : (c.reRun && ex.isDone) with
        | false =>
          simp only [hd, Bool.false_eq_true, if_false] at h
          exact .inl ⟨hb.1, hb.2, h⟩
        | true =>
          simp only [hd, if_true] at h
          rw [Bool.and_eq_true] at hd
          exact .inr ⟨hd.1, hd.2, crash_enqueue h⟩

/-! ## A stranded job -/

/-- A job that nobody will run stays so, through crashes too. -/
theorem stranded_lives (L : E.Lawful) {P : Snap D → Op D O → Prop} {s s' : Sys D b.B} (hg : b.Good s.w.s)
    (hT : (b.snap E name s).Tidy) (h0 : Stranded k (b.snap E name s)) (hP : ∀ v op, P v op → NoRescue E k op)
    (h : Lives b E name clk P s s') :
    b.Good s'.w.s ∧ (b.snap E name s').Tidy ∧ Stranded k (b.snap E name s') := by
  induction h with
  | refl => exact ⟨hg, hT, h0⟩
  | turn op _ hp ih =>
    obtain ⟨h1, h2, h3⟩ := ih
    exact ⟨good_step h1 op, tidy_step L h1 h2 op, (stranded_step (clk := clk) L h1 h2 h3 op (hP _ _ hp)).1⟩
  | @crash s1 op w _ hp hc ih =>
    obtain ⟨h1, h2, ⟨⟨j, hj, hst⟩, hq, ho⟩⟩ := ih
    obtain ⟨h4, h5, h6⟩ := crash_any (k := k) L h1 h2 hc
    refine ⟨h4, h5, ?_⟩
    rcases not_about_cases k op with hn | hn
    · cases h6 hn (.of_own ho _) with
      | spared hj' hcn => exact ⟨⟨j, hj'.trans hj, hst⟩, by rw [← List.count_eq_zero, hcn, List.count_eq_zero]; exact hq, rfl⟩
      | half j ms hq' => exact absurd hq' hq
      | picked j ms hj hj' hq2 => rw [List.count_eq_zero.mpr hq] at hq2; omega
    · obtain ⟨t, hr⟩ := Impl.rs_of_good h1
      obtain ⟨v, hv, hrv⟩ := crash_mirror hr hc
      rw [Impl.snap_eq hr] at hj hq ho
      rw [Impl.snap_eq hrv]
      have hj : view E t.w k = some j := hj
      have hq : k ∉ lst name t.w .queued := hq
      have hnd : j.isDone = false := by rcases hst with e | e <;> simp [Job.isDone, e]
      have same : v = t.w → Stranded k (Impl.spec.snap E name (Sys.restart v : Sys D SpecB)) := by
        rintro rfl; exact ⟨⟨j, hj, hst⟩, hq, rfl⟩
      rcases hn with ⟨j', c, rfl, rfl⟩ | rfl | rfl
      · obtain ⟨he, hs'⟩ := (hP _ _ hp).2 j' c rfl rfl
        cases hv with
        | between => exact same rfl
        | enqueue _ hv =>
          rcases crash_submit hv with h | ⟨h, _⟩ | ⟨ex, h, h'⟩
          · exact same h
          · rw [hj] at h; cases h
          · rw [hj] at h
            cases h
            rcases h' with ⟨_, _, rfl⟩ | ⟨_, h, _⟩
            · refine ⟨⟨j'.norm L.normD, ?_, hs'⟩, hq, rfl⟩
              show view E (upsert E j'.id j' t.w) j'.id = _
              rw [view_upsert, upd_same]
              exact Env.Lawful.encdec_enc (L := L) he
            · rw [hnd] at h; cases h
      · exact absurd rfl (hP _ _ hp).1
      · cases hv with
        | between => exact same rfl
        | retry _ hv =>
          rcases crash_after_get hv with h | h
          · exact same h
          · rw [hj] at h
            simp only [hnd, Bool.false_eq_true, if_false] at h
            exact same h

end
end AJ
