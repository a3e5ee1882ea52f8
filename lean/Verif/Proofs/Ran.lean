import Verif.Proofs.Later

/-! # How a completed run leaves the job, with the default `retry_at` -/

namespace AJ
open W

section
variable {D O : Type} (E : Env D) (L : E.Lawful) (clk : Nat → Time)

/-- The run is not retried. -/
def Job.NoRetry (job : Job D) (failed : Bool) : Prop :=
  ∀ r, job.context.retry = some r → (failed && r.shouldRetry) = false

/-- The job has no further slot. -/
def Job.NoNext (job : Job D) (now : Time) : Prop :=
  ∀ e n m c, job.context.jobType = .cron e n m c → E.cron e = none ∨ c.over m now = true

/-- The job stored after a run of `job` with user code `x` (default `retry_at`) that ended when the clock
had been read `t` times; afterwards it has been read `t'` times. -/
inductive Ran (x : Executable D O) (job : Job D) (t t' : Nat) : Job D → Prop where
  | retry {r r' due} (hr : job.context.retry = some r) (hf : x.fails job = true) (hs : r.shouldRetry = true)
      (ha : r.retryAt E.overflowChecks (clk t) = some (r', due)) (ht : t' = t + 2) :
      Ran x job t t' ⟨{ job.context with
        retry := some r', jobType := .scheduledAt (floorUs due), jobStatus := .queued,
        enqueueAt := some (clk (t + 1) / nsPerMs) }, L.normD (WorkQueue.runUserCode x job).1.data⟩
  | slot {e n m c f up m'} (hno : job.NoRetry (x.fails job)) (hty : job.context.jobType = .cron e n m c)
      (hc : E.cron e = some f) (ho : c.over m (clk t) = false) (hs : f (clk (t + 1)) = some up)
      (hk : addI32 E.overflowChecks m 1 = some m') (ht : t' = t + 3) :
      Ran x job t t' ⟨{ job.context with
        jobType := .cron e (floorUs up) m' c, jobStatus := .queued,
        enqueueAt := some (clk (t + 2) / nsPerMs) }, L.normD (WorkQueue.runUserCode x job).1.data⟩
  | stuck {e n m c f} (hno : job.NoRetry (x.fails job)) (hty : job.context.jobType = .cron e n m c)
      (hc : E.cron e = some f) (ho : c.over m (clk t) = false) (hs : f (clk (t + 1)) = none) (ht : t' = t + 3) :
      Ran x job t t' ⟨{ job.context with jobStatus := .queued, enqueueAt := some (clk (t + 2) / nsPerMs) },
        L.normD (WorkQueue.runUserCode x job).1.data⟩
  | failed (hno : job.NoRetry (x.fails job)) (hnx : job.NoNext E (clk t)) (hf : x.fails job = true) (ht : t < t') :
      Ran x job t t' ⟨{ job.context with jobStatus := .failed, completeAt := some (clk (t' - 1) / nsPerMs) },
        L.normD (WorkQueue.runUserCode x job).1.data⟩
  | finished (hno : job.NoRetry (x.fails job)) (hnx : job.NoNext E (clk t)) (hf : x.fails job = false) (ht : t < t') :
      Ran x job t t' ⟨{ job.context with jobStatus := .finished, completeAt := some (clk (t' - 1) / nsPerMs) },
        L.normD (WorkQueue.runUserCode x job).1.data⟩

variable {E L clk} {name : Str}

theorem Job.withRetry_context (j : Job D) (r : Retry) : (j.withRetry r).context = { j.context with retry := some r } := rfl

/-- The only retry answers of the default method. -/
theorem W.Ask.dflt {x : Executable D O} {job j2 : Job D} {w w2 : W} {t : Option Time}
    (hx : x.retryAt = none ∨ job.context.retry = none)
    (h : Ask E clk x (WorkQueue.runUserCode x job).1 (WorkQueue.runUserCode x job).2 w j2 t w2) :
    (t = none ∧ j2 = (WorkQueue.runUserCode x job).1 ∧ w2 = w ∧ job.NoRetry (x.fails job)) ∨
    ∃ r r' due, t = some due ∧ job.context.retry = some r ∧ x.fails job = true ∧ r.shouldRetry = true ∧
      r.retryAt E.overflowChecks (clk w.t) = some (r', due) ∧
      j2 = (WorkQueue.runUserCode x job).1.withRetry r' ∧ w2 = W.tick w := by
  cases h with
  | noPolicy h =>
    refine .inl ⟨rfl, rfl, rfl, fun r hr => ?_⟩
    have h' : job.context.retry = none := h
    rw [h'] at hr; cases hr
  | no h _ hc =>
    refine .inl ⟨rfl, rfl, rfl, fun r hr => ?_⟩
    have h' : job.context.retry = some _ := h
    rw [h'] at hr; cases hr; exact hc
  | yes h _ hf hs hr => exact .inr ⟨_, _, _, rfl, h, hf, hs, hr, rfl, rfl⟩
  | custom h hx' =>
    rcases hx with hx | hx
    · rw [hx] at hx'; cases hx'
    · have h' : job.context.retry = some _ := h
      rw [hx] at h'; cases h'

theorem W.Next.none_facts {j : Job D} {w w3 : W} (h : Next E clk j w (.ok none, w3)) :
    j.NoNext E (clk w.t) ∧ w.t ≤ w3.t := by
  cases h with
  | other h => exact ⟨fun e n m c he => absurd he (h _ _ _ _), Nat.le_succ _⟩
  | badExpr h hc => exact ⟨fun e n m c he => by rw [h] at he; cases he; exact .inl hc, Nat.le_succ _⟩
  | over h hc ho => exact ⟨fun e n m c he => by rw [h] at he; cases he; exact .inr ho, by show w.t ≤ w.t + 1 + 1; omega⟩

theorem norm_withType {j : Job D} {job : Job D} (hst : L.Stored job) (hc : j.context = job.context) (ty : JobType) (ms : Int) :
    ((j.withType ty).asQueued ms).norm L.normD =
      ⟨{ job.context with jobType := ty.norm, jobStatus := .queued, enqueueAt := some ms }, L.normD j.data⟩ := by
  have h1 := congrArg (fun j : Job D => j.context.retry) hst.1
  simp only [Job.norm, JobContext.norm] at h1
  simp only [Job.norm, JobContext.norm, Job.asQueued, Job.withType, hc, h1]

theorem norm_self {j : Job D} {job : Job D} (hst : L.Stored job) (hc : j.context = job.context) (f : JobContext → JobContext)
    (hf : ∀ c, (f c).norm = f c.norm) : Job.norm L.normD ⟨f j.context, j.data⟩ = ⟨f job.context, L.normD j.data⟩ := by
  have h1 := congrArg (fun j : Job D => j.context) hst.1
  simp only [Job.norm] at h1
  simp only [Job.norm, hf, hc, h1]

/-- The end of a run that is not retried, of a job that has no further slot. -/
theorem W.Fin.over {x : Executable D O} {job : Job D} {w w' : W} (h : Fin E name clk x job w (.ok (), w'))
    (hx : x.retryAt = none ∨ job.context.retry = none) (hno : job.NoRetry (x.fails job)) (hnx : job.NoNext E (clk w.t)) :
    w'.log = w.log ++ [.hookMsg job.id true, .statusMsg job.id (if x.fails job then .failed else .finished)] := by
  have hj1 : (WorkQueue.runUserCode x job).1.context = job.context := rfl
  cases h with
  | @again j2 t w2 ha =>
    rcases ha.dflt hx with ⟨h, _⟩ | ⟨r, r', due, _, e2, e3, e4, _⟩
    · cases h
    · have := hno r e2
      rw [e3, e4] at this; cases this
  | @next j2 j3 w2 w3 ha hn =>
    rcases ha.dflt hx with ⟨_, rfl, rfl, _⟩ | ⟨r, r', due, e1, _⟩
    swap
    · cases e1
    cases hn with
    | slot g1 g2 g3 =>
      rcases hnx _ _ _ _ g1 with h | h
      · rw [g2] at h; cases h
      · have g3 : CronContext.over _ _ (clk w.t) = false := g3
        rw [h] at g3; cases g3
    | stuck g1 g2 g3 =>
      rcases hnx _ _ _ _ g1 with h | h
      · rw [g2] at h; cases h
      · have g3 : CronContext.over _ _ (clk w.t) = false := g3
        rw [h] at g3; cases g3
  | @failed j2 w2 w3 ha hn hf =>
    obtain ⟨h1, _, _, _, h5, _⟩ := ha.facts (name := name)
    obtain ⟨_, _, _, k4, _⟩ := hn.facts (name := name)
    have hid : j2.id = job.id := by simp only [Job.id]; rw [h1]; rfl
    rw [show x.fails job = true from hf]
    have hl : w3.log = w.log ++ [.hookMsg job.id true] := Eq.trans k4 h5
    simp [flunk, hl, hid]
  | @finished j2 w2 w3 ha hn hf =>
    obtain ⟨h1, _, _, _, h5, _⟩ := ha.facts (name := name)
    obtain ⟨_, _, _, k4, _⟩ := hn.facts (name := name)
    have hid : j2.id = job.id := by simp only [Job.id]; rw [h1]; rfl
    rw [show x.fails job = false from hf]
    have hl : w3.log = w.log ++ [.hookMsg job.id true] := Eq.trans k4 h5
    simp [fin, hl, hid]

/-- Every normal end of a run is one of these. -/
theorem W.Fin.ran {x : Executable D O} {job j' : Job D} {w w' : W} (h : Fin E name clk x job w (.ok (), w'))
    (hx : x.retryAt = none ∨ job.context.retry = none) (hs : E.Encodable (x.leaves job (clk w.t))) (hst : L.Stored job)
    (hrun : job.context.jobStatus = .running) (he : Inv.Ends E name clk L job w w' j') :
    Ran E L clk x job w.t w'.t j' := by
  have hj1 : (WorkQueue.runUserCode x job).1.context = job.context := rfl
  have huniq : ∀ {j}, Inv.Ends E name clk L job w w' j → j' = j := by
    intro j hj
    have h1 := congrFun he.view job.id
    have h2 := congrFun hj.view job.id
    rw [h1] at h2
    simpa [upd] using h2
  cases h with
  | @again j2 t w2 ha =>
    obtain ⟨h1, h2, h3, h4, h5, h6⟩ := ha.facts (name := name)
    rw [hj1] at h1
    obtain ⟨j, hj, _, hje⟩ := Inv.reEnq_ends (clk := clk) L (j3 := j2.withType (.scheduledAt t)) (job := job) (w := w) (w3 := w2)
      ⟨j2.context.retry, .scheduledAt t, by simp only [Job.withType]; rw [h1]⟩
      (Env.Lawful.congr' (j := j2) L rfl rfl (ha.encodable L hs)) hrun h3 h4 h5 h6
    rw [huniq hj, hje]
    rcases ha.dflt hx with ⟨h, _⟩ | ⟨r, r', due, e1, e2, e3, e4, e5, e6, e7⟩
    · cases h
    · cases e1
      subst e6 e7
      have hr1 : r.norm = r := by
        have h1 := congrArg (fun j : Job D => j.context.retry) hst.1
        simp only [Job.norm, JobContext.norm, e2, Option.map_some, Option.some.injEq] at h1
        exact h1
      have hr2 : r'.norm = r' := by
        have q1 := (Retry.retryAt_strategy e5).1
        have q2 : r.strategy.norm = r.strategy := congrArg Retry.strategy hr1
        unfold Retry.norm
        rw [q1, q2, ← q1]
      have := Ran.retry (L := L) (t' := w.t + 2) e2 e3 e4 e5 rfl
      simp only [Job.norm, JobContext.norm, Job.asQueued, Job.withType, Job.withRetry, hj1, Option.map_some, hr2, JobType.norm]
      exact this
  | @next j2 j3 w2 w3 ha hn =>
    rcases ha.dflt hx with ⟨_, e2, e3, e4⟩ | ⟨r, r', due, e1, _⟩
    swap
    · cases e1
    obtain ⟨h1, h2, h3, h4, h5, h6⟩ := ha.facts (name := name)
    rw [hj1] at h1
    obtain ⟨k1, k2, k3, k4, k5⟩ := hn.facts (name := name)
    obtain ⟨ty, hty⟩ := k1 j3 rfl
    obtain ⟨j, hj, _, hje⟩ := Inv.reEnq_ends (clk := clk) L (j3 := j3) (job := job) (w := w) (w3 := w3)
      ⟨j2.context.retry, ty, by rw [hty]; simp only [Job.withType]; rw [h1]⟩
      (Env.Lawful.congr' (j := j2) L (by rw [hty]; rfl) (by rw [hty]; rfl) (ha.encodable L hs)) hrun (k2.trans h3) (k3.trans h4)
      (k4.trans h5) (Nat.le_trans h6 k5)
    rw [huniq hj, hje]
    subst e2 e3
    cases hn with
    | slot g1 g2 g3 g4 g5 =>
      have g1' : job.context.jobType = _ := g1
      have hcn := congrArg (fun j : Job D => j.context.jobType) hst.1
      simp only [Job.norm, JobContext.norm, g1', JobType.norm, JobType.cron.injEq] at hcn
      have := Ran.slot (E := E) (L := L) (clk := clk) (x := x) (t := w.t) (t' := w.t + 3) e4 g1' g2 g3 g4 g5 rfl
      rw [norm_withType hst hj1]
      simp only [JobType.norm, hcn.2.2.2]
      exact this
    | stuck g1 g2 g3 g4 =>
      have := Ran.stuck (E := E) (L := L) (clk := clk) (x := x) (t := w.t) (t' := w.t + 3) e4 g1 g2 g3 g4 rfl
      have e := norm_self (L := L) hst hj1 (fun c => { c with jobStatus := .queued, enqueueAt := some (clk (w.t + 2) / nsPerMs) }) (fun c => rfl)
      exact e.symm ▸ this
  | @failed j2 w2 w3 ha hn hf =>
    rcases ha.dflt hx with ⟨_, e2, e3, e4⟩ | ⟨r, r', due, e1, _⟩
    swap
    · cases e1
    obtain ⟨h1, h2, h3, h4, h5, h6⟩ := ha.facts (name := name)
    rw [hj1] at h1
    obtain ⟨k1, k2, k3, k4, k5⟩ := hn.facts (name := name)
    obtain ⟨j, hj, _, hje⟩ := Inv.flunk_ends (clk := clk) L (j3 := j2) (job := job) (w := w) (w3 := w3)
      ⟨j2.context.retry, h1⟩ (ha.encodable L hs) (k2.trans h3) (k3.trans h4) (k4.trans h5) (Nat.le_trans h6 k5)
    rw [huniq hj, hje]
    subst e2 e3
    have ht := hn.none_facts
    have hlt : w.t < w3.t + 1 := Nat.lt_succ_of_le ht.2
    have := Ran.failed (E := E) (L := L) (clk := clk) (x := x) (t := w.t) (t' := w3.t + 1) e4 ht.1 hf hlt
    have e := norm_self (L := L) hst hj1 (fun c => { c with jobStatus := .failed, completeAt := some (clk w3.t / nsPerMs) }) (fun c => rfl)
    exact e.symm ▸ this
  | @finished j2 w2 w3 ha hn hf =>
    rcases ha.dflt hx with ⟨_, e2, e3, e4⟩ | ⟨r, r', due, e1, _⟩
    swap
    · cases e1
    obtain ⟨h1, h2, h3, h4, h5, h6⟩ := ha.facts (name := name)
    rw [hj1] at h1
    obtain ⟨k1, k2, k3, k4, k5⟩ := hn.facts (name := name)
    obtain ⟨j, hj, _, hje⟩ := Inv.fin_ends (clk := clk) L (j3 := j2) (job := job) (w := w) (w3 := w3)
      ⟨j2.context.retry, h1⟩ (ha.encodable L hs) (k2.trans h3) (k3.trans h4) (k4.trans h5) (Nat.le_trans h6 k5)
    rw [huniq hj, hje]
    subst e2 e3
    have ht := hn.none_facts
    have hlt : w.t < w3.t + 1 := Nat.lt_succ_of_le ht.2
    have := Ran.finished (E := E) (L := L) (clk := clk) (x := x) (t := w.t) (t' := w3.t + 1) e4 ht.1 hf hlt
    have e := norm_self (L := L) hst hj1 (fun c => { c with jobStatus := .finished, completeAt := some (clk w3.t / nsPerMs) }) (fun c => rfl)
    exact e.symm ▸ this

end
end AJ
