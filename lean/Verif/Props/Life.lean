import Verif.Proofs.Runs
import Verif.Props.Demo

/-!
# The life of a job (C18, C25, C26, C32, C38-C41, C59)

All theorems are about every backend `b` that behaves like the specification on the calls AJ makes
(`Impl.memory` and `Impl.redis` are instances), every clock, and every history.
-/

namespace AJ.Props
open W

section
variable {D O : Type} {E : Env D} {name : Str} {clk : Nat → Time} {b : Impl} {k : Str}

theorem count_inFlight {v : Snap D} : v.inFlight.count k = (v.own k).length := by
  unfold Snap.inFlight Snap.own
  rw [List.count_eq_length_filter, List.filter_map, List.length_map]
  congr 2
  funext t
  exact beq_eq_decide _ _

/-- C25, in histories that are orderly with job `k` (whatever its code does, and whatever happens to other jobs):
at most one execution of `k` is in flight. Missing for C25 as stated: other submissions, for which it is false
(`C25_refuted`). -/
theorem C25_one_execution_partial (L : E.Lawful) {s : Sys D b.B}
    (hs : Reach (O := O) b E name clk (Orderly k) s) : (b.snap E name s).inFlight.count k ≤ 1 := by
  rw [count_inFlight]
  rcases reach_orderly L (fun _ _ h => h) hs with h | h
  swap
  · rw [h.own]; exact Nat.zero_le _
  by_cases hr : (b.snap E name s).status k = some .running
  · obtain ⟨j, hj, hst⟩ := status_some hr
    by_cases ha : (b.snap E name s).alive = true
    · rcases h.busy ha j hj hst with h | h <;> rw [h] <;> exact Nat.le_refl _
    · have h0 : (b.snap E name s).tasks = [] := by
        refine Reach.lift (Q := fun v => v.alive ≠ true → v.tasks = []) (fun t ht ha => ?_) hs ha
        exact (reach_tidy L ht).dead (Bool.eq_false_iff.mpr ha)
      unfold Snap.own
      rw [h0]
      exact Nat.zero_le _
  · rw [h.idle hr]; exact Nat.zero_le _

/-- Histories in which every configured capacity is at most `M`. -/
def CapAtMost (M : Nat) (op : Op D O) : Prop := ∀ c, op = .config c → c.maxProcessingJobs ≤ M

/-- C26, in histories that are orderly with all jobs: the number of executions in flight never exceeds the
largest capacity configured so far (initially 20). Missing for C26 as stated: other submissions, for which
it is false (`C26_refuted`). -/
theorem C26_capacity_partial (L : E.Lawful) {s : Sys D b.B} (M : Nat) (hM : 20 ≤ M)
    (hs : Reach (O := O) b E name clk (fun v op => (∀ k, Orderly k v op) ∧ CapAtMost M op) s) :
    (b.snap E name s).inFlight.length ≤ M := by
  refine Reach.lift (Q := fun v => v.inFlight.length ≤ M) (fun t ht => ?_) hs
  have key := Reach.induct (b := Impl.spec) (Q := fun t : Sys D SpecB => t.tasks.length ≤ M ∧ t.cfg.maxProcessingJobs ≤ M)
    ⟨Nat.zero_le _, hM⟩ (fun t op hr hp ih => ?_) ht
  · have h2 := key.1
    show (t.tasks.map _).length ≤ M
    rw [List.length_map]; exact h2
  · have hle : ∀ k, (t.tasks.map fun x => x.orig.id).count k ≤ (lst name t.w .running).count k := by
      intro k
      have hc := C25_one_execution_partial (b := Impl.spec) L (Reach.mono (fun _ _ h => h.1 k) hr)
      rcases reach_orderly (b := Impl.spec) (k := k) L (fun _ _ h => h.1 k) hr with h | h
      · by_cases hs : (Impl.spec.snap E name t).status k = some .running
        · have := h.running
          rw [if_pos hs] at this
          exact this ▸ hc
        · have h0 : (Impl.spec.snap E name t).own k = [] := h.idle hs
          have : (Impl.spec.snap E name t).inFlight.count k = 0 := by rw [count_inFlight, h0]; rfl
          exact this ▸ Nat.zero_le _
      · have : (Impl.spec.snap E name t).inFlight.count k = 0 := by rw [count_inFlight, h.own]; rfl
        exact this ▸ Nat.zero_le _
    by_cases ha : t.alive = true
    swap
    · have e : (Sys.step E name Impl.spec.B clk t op).1 = t := by
        show (Sys.step E name SpecB clk t op).1 = t
        rw [Sys.step_dead t (by simpa using ha)]
      rw [e]; exact ih
    have hst := Sys.step_cases (E := E) (name := name) (clk := clk) t ha op
    show (Sys.step E name SpecB clk t op).1.tasks.length ≤ M ∧ (Sys.step E name SpecB clk t op).1.cfg.maxProcessingJobs ≤ M
    have h1 := ih.1
    have h2 := ih.2
    generalize Sys.step E name SpecB clk t op = p at hst
    cases hst with
    | config c => exact ⟨h1, hp.2 c rfl⟩
    | tick n hk hk20 =>
      have hsc := (Scan.init (clk := clk) (E := E) (name := name) (free name t.cfg t.w) t.w).turns L (reach_tidy L hr).keyed n
      refine ⟨?_, h2⟩
      have hb := hsc.bound
      have hl : t.tasks.length ≤ (lst name t.w .running).length := by
        have := (List.subperm_ext_iff.mpr fun x _ => hle x).length_le
        rwa [List.length_map] at this
      show (t.tasks ++ List.map _ _).length ≤ M
      rw [List.length_append, List.length_map]
      have hf : free name t.cfg t.w = t.cfg.maxProcessingJobs - (lst name t.w .running).length := rfl
      omega
    | _ => first
      | exact ⟨h1, h2⟩
      | exact ⟨Nat.zero_le _, h2⟩
      | exact ⟨by simpa using h1, h2⟩
      | exact ⟨Nat.le_trans (List.length_eraseIdx_le _ _) h1, h2⟩

/-- C38, for one job: in every history that is careful with `k`, status, lists and executions of `k` agree. -/
theorem C38_sound (L : E.Lawful) {s : Sys D b.B} (hs : Reach (O := O) b E name clk (CarefulFor E k) s) :
    (b.snap E name s).Sound k := (reach_solo L (fun _ _ h => h) hs).sound

/-- C38, for all jobs at once. -/
theorem C38_consistent (L : E.Lawful) {s : Sys D b.B} (hs : Reach (O := O) b E name clk (Careful E) s) :
    (b.snap E name s).Consistent := by
  refine Reach.lift (Q := fun v => v.Consistent) (fun t ht => ?_) hs
  have hi : Inv E name t := reach_inv L (fun _ _ h => h) ht
  exact ⟨hi.agree.qn, hi.agree.rn, hi.agree.qi, hi.agree.ri, hi.flight⟩

/-- C41: the status of a job changes along the life cycle only. A status seen before and after one turn of
a careful history is the same, or the change is one of those listed. -/
theorem C41_life_cycle (L : E.Lawful) {s : Sys D b.B} (hs : Reach (O := O) b E name clk (CarefulFor E k) s)
    (op : Op D O) (hop : CarefulFor E k (b.snap E name s) op) :
    let a := (b.snap E name s).status k
    let c := (b.snap E name (Sys.step E name b.B clk s op).1).status k
    c = a ∨ (a = none ∧ c = some .queued) ∨
    (a = some .queued ∧ (c = some .running ∨ c = some .canceled)) ∨
    (a = some .running ∧ (c = some .queued ∨ c = some .finished ∨ c = some .failed)) ∨
    ((a = some .finished ∨ a = some .failed ∨ a = some .canceled) ∧ c = some .queued) := by
  intro a c
  have hl := reach_life L (fun _ _ h => h) hs op hop
  have done : ∀ ex : Job D, (b.snap E name s).job k = some ex → ex.isDone = true →
      a = some .finished ∨ a = some .failed ∨ a = some .canceled := by
    intro ex he hd
    have h1 : a = _ := status_of he
    rw [h1]
    simp only [Job.isDone, Bool.or_eq_true, decide_eq_true_eq] at hd
    rcases hd with (hd | hd) | hd <;> simp [hd]
  cases hl with
  | same op hj => left; show Option.map _ _ = Option.map _ _; rw [hj]
  | submit j c' hid he hold hj =>
    have h1 : c = _ := status_of hj
    rcases hold with h0 | ⟨ex, h0, hd, _⟩
    · exact .inr (.inl ⟨by show Option.map _ _ = none; rw [h0]; rfl, h1⟩)
    · exact .inr (.inr (.inr (.inr ⟨done ex h0 hd, h1⟩)))
  | replace j c' ex hid he hold hr hd hov hst hj =>
    left
    have h1 : c = _ := status_of hj
    have h2 : a = _ := status_of hold
    rw [h1, h2, ← hst]; rfl
  | cancel j hold hq hj =>
    have h1 : c = _ := status_of hj
    have h2 : a = _ := status_of hold
    exact .inr (.inr (.inl ⟨by rw [h2, hq], .inr h1⟩))
  | retry j hold hd hj => exact .inr (.inr (.inr (.inr ⟨done j hold hd, status_of hj⟩)))
  | pick j i hold hq _ _ _ hj =>
    have h2 : a = _ := status_of hold
    exact .inr (.inr (.inl ⟨by rw [h2, hq], .inl (status_of hj)⟩))
  | run j i hold hq _ _ hj =>
    left
    have h1 : c = _ := status_of hj
    have h2 : a = _ := status_of hold
    rw [h1, h2]
  | finish j j' i x w w' hold hq _ _ _ _ _ he _ hj =>
    have h1 : c = _ := status_of hj
    have h2 : a = _ := status_of hold
    refine .inr (.inr (.inr (.inl ⟨by rw [h2, hq], ?_⟩)))
    rw [h1]
    rcases he.status with h | h | h <;> simp [h]
  | died op hj => left; show Option.map _ _ = Option.map _ _; rw [hj]

/-- C32, for jobs submitted in an orderly way: from a moment on at which `k` is stored as Canceled, until it is
retried by hand or submitted again, it is not handed to execution and its code does not run, in every later
history. Missing for C32 as stated: other submissions before the cancellation, for which it is false
(`C32_refuted`). -/
theorem C32_cancelled_rests_partial (L : E.Lawful) {s s' : Sys D b.B}
    (hs : Reach (O := O) b E name clk (Orderly k) s) (hc : (b.snap E name s).status k = some .canceled)
    (h : Later (O := O) b E name clk (fun _ op => NoSubmit k op ∧ op ≠ .retry k) s s') :
    let v := b.snap E name s
    let v' := b.snap E name s'
    v'.job k = v.job k ∧ k ∉ v'.inFlight ∧ v'.runs k = v.runs k ∧ k ∉ v'.lists .queued := by
  intro v v'
  obtain ⟨j0, hj0, hc0⟩ := status_some hc
  have hso := solo_of L hs hj0
  have key : (v'.job k = v.job k ∧ v'.own k = [] ∧ v'.runs k = v.runs k) ∧ Solo k v' := by
    have := later_track L (I := fun u => u.job k = v.job k ∧ u.own k = [] ∧ u.runs k = v.runs k)
      (fun _ _ h => h.1) hs hso h ⟨rfl, ?_, rfl⟩ ?_
    · rcases this with h | ⟨_, u, hI, _, _, j, _, _, ho⟩
      · exact h
      · rw [hI.2.1] at ho; cases ho
    · exact hso.idle (by rw [hc]; simp)
    · intro u u' op hp hsolo _ _ hl ⟨hj, ho, hr⟩
      have hst : ∀ j, u.job k = some j → j.context.jobStatus = .canceled := by
        intro j h
        have h1 : v.status k = _ := status_of (hj.symm.trans h)
        rw [show v.status k = _ from hc] at h1
        exact (Option.some.inj h1).symm
      cases hl with
      | same op h1 h2 h3 => exact ⟨h1.trans hj, h2.trans ho, (runs_same h3).trans hr⟩
      | submit j c hid => exact absurd hid (hp.1 j c rfl)
      | replace j c ex hid => exact absurd hid (hp.1 j c rfl)
      | cancel j hold hq => rw [hst j hold] at hq; cases hq
      | retry => exact absurd rfl hp.2
      | pick j i hold hq => rw [hst j hold] at hq; cases hq
      | run j i hold hq => rw [hst j hold] at hq; cases hq
      | finish j j' i x w w' hold hq => rw [hst j hold] at hq; cases hq
      | died op h1 h2 h3 => obtain ⟨l, h3, h4⟩ := h3; exact ⟨h1.trans hj, h2, (runs_hooks h3 h4).trans hr⟩
  refine ⟨key.1.1, not_inFlight key.1.2.1, key.1.2.2, ?_⟩
  · have hq := key.2.queued
    rw [if_neg] at hq
    · exact fun hin => absurd (List.count_pos_iff.mpr hin) (by show ¬ 0 < (v'.lists .queued).count k; rw [show (v'.lists .queued).count k = 0 from hq]; exact Nat.lt_irrefl _)
    · show ¬ Option.map _ (v'.job k) = _
      rw [key.1.1]
      show ¬ v.status k = _
      rw [show v.status k = _ from hc]
      simp

/-- C18: whenever a turn hands a job to execution that is scheduled for `due`, the clock has been read in that turn
to be later than `due`; in every history. The job is the stored one, so this covers jobs scheduled by the caller and
automatic retries; the stored time is the requested one truncated to microseconds (C10). -/
theorem C18_never_early (L : E.Lawful) {P : Snap D → Op D O → Prop} {s : Sys D b.B} (hs : Reach b E name clk P s)
    (op : Op D O) {job : Job D} {due : Time} (hj : (b.snap E name s).job k = some job)
    (ht : job.context.jobType = .scheduledAt due) :
    let v := b.snap E name s
    let v' := b.snap E name (Sys.step E name b.B clk s op).1
    v.inFlight.count k < v'.inFlight.count k → ∃ i, v.reads ≤ i ∧ i < v'.reads ∧ due < clk i := by
  intro v v' hlt
  rw [count_inFlight, count_inFlight] at hlt
  obtain ⟨_, j, i, h1, h2, h3, h4⟩ := starts L hs op hlt
  rw [hj] at h1
  cases h1
  refine ⟨i, h2, h3, ?_⟩
  unfold Job.Due at h4
  rw [ht] at h4
  exact h4

/-- C18, over whole histories: a waiting job that was submitted in an orderly way and is scheduled for `due` is not
handed to execution, and its code does not run, before the clock has been read to be later than `due`. Cancelling
and retrying by hand does not shorten the wait. -/
theorem C18_waits (L : E.Lawful) {s s' : Sys D b.B} (hs : Reach (O := O) b E name clk (Orderly k) s)
    {job : Job D} {due : Time} (hj : (b.snap E name s).job k = some job) (ht : job.context.jobType = .scheduledAt due)
    (hr : job.context.jobStatus ≠ .running)
    (h : Later (O := O) b E name clk (fun _ op => NoSubmit k op) s s') :
    let v := b.snap E name s
    let v' := b.snap E name s'
    (k ∉ v'.inFlight ∧ v'.runs k = v.runs k) ∨ ∃ i, v.reads ≤ i ∧ i < v'.reads ∧ due < clk i := by
  intro v v'
  rcases waits L hs hj hr (fun _ _ h => h) h with ⟨i, h1, h2, h3⟩ | ⟨_, h1, h2, _⟩
  · refine .inr ⟨i, h1, h2, ?_⟩
    unfold Job.Due at h3
    rw [ht] at h3
    exact h3
  · exact .inl ⟨not_inFlight h1, h2⟩

/-- As long as the job is not submitted again, its stored run count grows by the number of times its code
ran, whenever the job is not running. -/
theorem C40_grows (L : E.Lawful) {s s' : Sys D b.B} (hs : Reach (O := O) b E name clk (Orderly k) s)
    {job job' : Job D} (hj : (b.snap E name s).job k = some job) (hr : job.context.jobStatus ≠ .running)
    (h : Later (O := O) b E name clk (fun _ op => NoSubmit k op) s s')
    (hj' : (b.snap E name s').job k = some job') (hr' : job'.context.jobStatus ≠ .running) :
    job'.context.runCount + ((b.snap E name s).runs k).length =
      job.context.runCount + ((b.snap E name s').runs k).length := by
  have key := later_read L (I := fun u => ∃ j, u.job k = some j ∧
      ((j.context.jobStatus ≠ .running ∨ u.own k = [⟨j, none⟩]) →
        j.context.runCount + ((b.snap E name s).runs k).length = job.context.runCount + (u.runs k).length) ∧
      (j.context.jobStatus = .running → u.alive = true → u.own k = [⟨j, none⟩] ∨
        (u.own k = [⟨j, some j.counted⟩] ∧ j.context.runCount + 1 + ((b.snap E name s).runs k).length =
          job.context.runCount + (u.runs k).length)))
    (fun _ _ h => h) hs (solo_of L hs hj) h hj' ⟨job, hj, fun _ => rfl, fun e => absurd e hr⟩ ?_
  · obtain ⟨j, h1, h2, _⟩ := key
    rw [hj'] at h1
    cases h1
    exact h2 (.inl hr')
  · intro u u' op hp hsolo _ hreads hl ⟨j0, hj0, hA, hB⟩
    cases hl with
    | same op h1 h2 h3 ha =>
      refine ⟨j0, h1.trans hj0, ?_, ?_⟩
      · rw [h2, runs_same h3]; exact hA
      · rw [h2, runs_same h3, ha]; exact hB
    | submit j c hid => exact absurd hid (hp j c rfl)
    | replace j c ex hid => exact absurd hid (hp j c rfl)
    | cancel j hold hq h1 _ h2 h3 =>
      rw [hj0] at hold; cases hold
      refine ⟨_, h1, fun _ => ?_, fun e => by cases e⟩
      rw [runs_msg h3]
      exact hA (.inl (by rw [hq]; simp))
    | retry j hold hd h1 _ h2 h3 =>
      rw [hj0] at hold; cases hold
      refine ⟨_, h1, fun _ => ?_, fun e => by cases e⟩
      rw [runs_msg h3]
      refine hA (.inl fun e => ?_)
      simp [Job.isDone, e] at hd
    | pick j i hold hq _ _ _ h1 _ h2 h3 =>
      rw [hj0] at hold; cases hold
      refine ⟨_, h1, fun _ => ?_, fun _ _ => .inl h2⟩
      rw [runs_msg h3]
      exact hA (.inl (by rw [hq]; simp))
    | run j i hold hq ht ho h1 h2 h3 =>
      rw [hj0] at hold; cases hold
      have := hA (.inr ho)
      refine ⟨_, h1, fun e => ?_, fun _ _ => .inr ⟨h2, ?_⟩⟩
      · rcases e with e | e
        · exact absurd hq e
        · rw [h2] at e; simp at e
      · rw [runs_run h3, List.length_append]
        simp only [List.length_singleton]
        omega
    | finish j j' i x w w' hold hq ht ho hw hw' hf he hs' h1 h2 h3 ha ha' =>
      rw [hj0] at hold; cases hold
      rcases hB hq ha with e | ⟨_, e⟩
      · rw [ho] at e; simp at e
      · have hn : j'.context.jobStatus ≠ .running := by
          rcases he.status with h | h | h <;> rw [h] <;> simp
        refine ⟨_, h1, fun _ => ?_, fun e => absurd e hn⟩
        rw [runs_end h3]
        have hc : j'.context.runCount = _ := he.runs
        rw [hc]
        exact e
    | died op h1 h2 h3 ha ha' =>
      obtain ⟨l, h3, h4⟩ := h3
      refine ⟨j0, h1.trans hj0, fun e => ?_, fun _ e => by rw [ha'] at e; cases e⟩
      rw [runs_hooks h3 h4]
      rcases e with e | e
      · exact hA (.inl e)
      · rw [h2] at e; cases e

/-- C40: for a job submitted once with run count 0 (as all new jobs have), the stored run count is the number of
times its code ran, whenever the job is not running; in every history, whatever the user code does. -/
theorem C40_run_count (L : E.Lawful) {s s' : Sys D b.B}
    (hs : Reach (O := O) b E name clk (fun _ op => NoSubmit k op) s) {job job' : Job D} (c : EnqueueConfig)
    (hid : job.id = k) (h0 : job.context.runCount = 0)
    (h : Later (O := O) b E name clk (fun _ op => NoSubmit k op) (Sys.step E name b.B clk s (.enqueue job c : Op D O)).1 s')
    (hj' : (b.snap E name s').job k = some job') (hr' : job'.context.jobStatus ≠ .running) :
    job'.context.runCount = ((b.snap E name s').runs k).length := by
  rcases submitted_or L hs c hid with h1 | ⟨h1, h2, h3, _⟩
  · rw [(lost_later L h1.1 h (fun _ _ h => h) h1.2.1).1.job] at hj'; cases hj'
  · have := C40_grows L h1 h3 (by simp [Job.norm, JobContext.norm, Job.asQueued]) h hj' hr'
    rw [h2] at this
    have h0 : ((job.asQueued (clk (b.snap E name s).reads / nsPerMs)).norm L.normD).context.runCount = 0 := h0
    rw [h0] at this
    simpa using this

/-- The timestamps of a job that has just been queued, in every later history in which it is not submitted again. -/
private theorem stamps (L : E.Lawful) {s s' : Sys D b.B} (hmono : ∀ i j, i ≤ j → clk i ≤ clk j)
    (hs : Reach (O := O) b E name clk (Orderly k) s)
    {job job' : Job D} {i : Nat} (hj : (b.snap E name s).job k = some job) (hq : job.context.jobStatus = .queued)
    (hi : i < (b.snap E name s).reads) (he : job.context.enqueueAt = some (clk i / nsPerMs))
    (h : Later (O := O) b E name clk (fun _ op => NoSubmit k op) s s')
    (hj' : (b.snap E name s').job k = some job')
    (hd : job'.context.jobStatus = .finished ∨ job'.context.jobStatus = .failed) :
    ∃ q r c, job'.context.enqueueAt = some q ∧ job'.context.runAt = some r ∧ job'.context.completeAt = some c ∧
      q ≤ r ∧ r ≤ c := by
  have mono : ∀ {i j : Nat}, i ≤ j → clk i / nsPerMs ≤ clk j / nsPerMs := by
    intro i j hij
    exact Int.ediv_le_ediv (by decide) (hmono i j hij)
  have key := later_read L (I := fun u => ∃ j q, u.job k = some j ∧ q < u.reads ∧
      j.context.enqueueAt = some (clk q / nsPerMs) ∧
      (j.context.jobStatus = .running → ∃ r, q ≤ r ∧ r < u.reads ∧ j.context.runAt = some (clk r / nsPerMs)) ∧
      (j.context.jobStatus = .finished ∨ j.context.jobStatus = .failed →
        ∃ r c, q ≤ r ∧ r ≤ c ∧ j.context.runAt = some (clk r / nsPerMs) ∧ j.context.completeAt = some (clk c / nsPerMs)))
    (fun _ _ h => h) hs (solo_of L hs hj) h hj' ⟨job, i, hj, hi, he, (by rw [hq]; nofun), (by rw [hq]; rintro (h | h) <;> cases h)⟩ ?_
  · obtain ⟨j, q, h1, _, h2, _, h3⟩ := key
    rw [hj'] at h1
    cases h1
    obtain ⟨r, c, e1, e2, e3, e4⟩ := h3 hd
    exact ⟨_, _, _, h2, e3, e4, mono e1, mono e2⟩
  · intro u u' op hp hsolo _ hreads hl ⟨j0, q, hj0, hq, he, hA, hB⟩
    have hq' : q < u'.reads := Nat.lt_of_lt_of_le hq hreads
    cases hl with
    | same op h1 h2 h3 ha =>
      refine ⟨j0, q, h1.trans hj0, hq', he, fun e => ?_, hB⟩
      obtain ⟨r, e1, e2, e3⟩ := hA e
      exact ⟨r, e1, Nat.lt_of_lt_of_le e2 hreads, e3⟩
    | submit j c hid => exact absurd hid (hp j c rfl)
    | replace j c ex hid => exact absurd hid (hp j c rfl)
    | cancel j hold hq1 h1 =>
      rw [hj0] at hold; cases hold
      exact ⟨_, q, h1, hq', he, (by nofun), (by rintro (h | h) <;> cases h)⟩
    | retry j hold hd h1 ho ho' hm ha ha' hlt =>
      rw [hj0] at hold; cases hold
      exact ⟨_, u.reads, h1, hlt, rfl, (by nofun), (by rintro (h | h) <;> cases h)⟩
    | pick j i hold hq1 hi hi' _ h1 =>
      rw [hj0] at hold; cases hold
      exact ⟨_, q, h1, hq', he, fun _ => ⟨i + 1, by omega, hi', rfl⟩, (by rintro (h | h) <;> cases h)⟩
    | run j i hold hq1 ht ho h1 =>
      rw [hj0] at hold; cases hold
      refine ⟨_, q, h1, hq', he, fun e => ?_, hB⟩
      obtain ⟨r, e1, e2, e3⟩ := hA e
      exact ⟨r, e1, Nat.lt_of_lt_of_le e2 hreads, e3⟩
    | finish j j' i x w w' hold hq1 ht ho hw hw' hf hends hs' h1 =>
      rw [hj0] at hold; cases hold
      have htime := hends.time
      obtain ⟨r, e1, e2, e3⟩ := hA hq1
      have hst := hends.stamp
      have hrun : j'.context.runAt = _ := hends.runAt
      by_cases hc : j'.context.jobStatus = .queued
      · rw [if_pos hc] at hst
        exact ⟨j', w'.t - 1, h1, by omega, hst, (by rw [hc]; nofun), (by rw [hc]; rintro (h | h) <;> cases h)⟩
      · rw [if_neg hc] at hst
        refine ⟨j', q, h1, hq', hst.2.trans he, fun e => ?_, fun _ => ⟨r, w'.t - 1, e1, by omega, hrun.trans e3, hst.1⟩⟩
        rcases hends.status with h | h | h <;> rw [h] at e <;> cases e
    | died op h1 h2 h3 ha ha' =>
      refine ⟨j0, q, h1.trans hj0, hq', he, fun e => ?_, hB⟩
      obtain ⟨r, e1, e2, e3⟩ := hA e
      exact ⟨r, e1, Nat.lt_of_lt_of_le e2 hreads, e3⟩

/-- C59: with a clock that never goes back, whenever a job that was submitted once is Finished or Failed, its
timestamps are set and ordered: `enqueue_at ≤ run_at ≤ complete_at`; in every history, whatever the user code does. -/
theorem C59_timestamps (L : E.Lawful) {s s' : Sys D b.B} (hmono : ∀ i j, i ≤ j → clk i ≤ clk j)
    (hs : Reach (O := O) b E name clk (fun _ op => NoSubmit k op) s) {job job' : Job D} (c : EnqueueConfig)
    (hid : job.id = k)
    (h : Later (O := O) b E name clk (fun _ op => NoSubmit k op) (Sys.step E name b.B clk s (.enqueue job c : Op D O)).1 s')
    (hj' : (b.snap E name s').job k = some job')
    (hd : job'.context.jobStatus = .finished ∨ job'.context.jobStatus = .failed) :
    ∃ q r c, job'.context.enqueueAt = some q ∧ job'.context.runAt = some r ∧ job'.context.completeAt = some c ∧
      q ≤ r ∧ r ≤ c := by
  rcases submitted_or L hs c hid with h1 | ⟨h1, h2, h3, h4⟩
  · rw [(lost_later L h1.1 h (fun _ _ h => h) h1.2.1).1.job] at hj'; cases hj'
  · exact stamps L hmono h1 h3 rfl h4 rfl h hj' hd

end

section
open Demo

/-- `a` is submitted and runs once; a caller keeps the finished job it got from `get_job`. -/
def once : List (Op Int Unit) :=
  [.enqueue (job c!"a") .newReRun, .tick, .start 0, .finish 0 good]

/-- The job that `get_job` returns then. -/
def kept : Job Int := ((see once).job c!"a").getD (job [])

/-- `a` is retried by hand, and the caller submits its copy twice. -/
def twice : List (Op Int Unit) :=
  once ++ [.retry c!"a", .enqueue kept .newReRun, .enqueue kept .newReRun]

/-- C25 is false as stated: resubmitting a copy obtained from `get_job` puts a queued job into the queue a
second time, and two ticks start two executions. -/
theorem C25_refuted : kept.context.jobStatus = .finished ∧ (see once).job c!"a" = some kept ∧
    (see (twice ++ [.tick, .tick])).inFlight = [c!"a", c!"a"] := by decide +kernel

/-- C27 is false as stated, in one detail: a tick that starts a job which is in the queued list twice leaves one of
the entries there. -/
theorem C27_refuted : (see twice).lists .queued = [c!"a", c!"a"] ∧ (see twice).inFlight = [] ∧
    (see (twice ++ [.tick])).inFlight = [c!"a"] ∧ c!"a" ∈ (see (twice ++ [.tick])).lists .queued := by decide +kernel

/-- C26 is false as stated: the end of one of two executions of a job removes both from the running list, so
the tick after it starts one job too many: 21 executions with the default capacity of 20, which was never
changed. -/
theorem C26_refuted :
    let ops := twice ++ [.tick, .tick] ++
      (List.range 20).map (fun n => (.enqueue (job (List.replicate n 'b')) .newReRun : Op Int Unit)) ++
      [.tick, .start 0, .finish 0 good, .tick]
    (see ops).inFlight.length = 21 ∧ (see ops).cfg.maxProcessingJobs = 20 ∧
    ∀ c, (.config c : Op Int Unit) ∉ ops := by
  refine ⟨by decide +kernel, by decide +kernel, fun c hc => ?_⟩
  simp [twice, once] at hc

/-- A job with at most two retries, one second after a failure, is submitted. -/
def again : List (Op Int Unit) :=
  [.enqueue ⟨{ JobContext.new c!"a" 0 with retry := some (.newIntervalRetry (some 2) nsPerSec) }, 1⟩ .newReRun]

/-- The copy a caller keeps of the job when it is Finished. -/
def keptRetry : Job Int := ((see (again ++ round good)).job c!"a").getD (job [])

/-- It is put into the queue twice as in `twice`, both entries are started, and one of the executions fails, so
that the job is queued again. -/
def overlapping : List (Op Int Unit) :=
  again ++ round good ++ [.retry c!"a", .enqueue keptRetry .newReRun, .enqueue keptRetry .newReRun,
    .tick, .tick, .start 0, .start 1, .finish 0 bad]

/-- C32 is false as stated: with two executions of a job in flight, one fails and the job is queued again; it is
cancelled; the other one fails, and the job is queued and handed to execution again. -/
theorem C32_refuted :
    (see overlapping).status c!"a" = some .queued ∧
    (see (overlapping ++ [.cancel c!"a"])).status c!"a" = some .canceled ∧
    c!"a" ∉ (see (overlapping ++ [.cancel c!"a"])).lists .queued ∧
    (see (overlapping ++ [.cancel c!"a", .finish 0 bad])).inFlight = [] ∧
    (see (overlapping ++ [.cancel c!"a", .finish 0 bad, .tick, .tick, .tick])).inFlight = [c!"a"] := by decide +kernel

/-- Two jobs, one of them running. -/
def mixed : List (Op Int Unit) :=
  [.config { maxProcessingJobs := 1 }, .enqueue (job c!"a") .newReRun, .enqueue (job c!"b") .newReRun, .tick, .start 0]

/-- `mixed` is careful, and orderly. -/
theorem mixed_careful : Reach (O := Unit) Impl.memory E c!"print" clk (CarefulFor E c!"a") (after mixed) :=
  okAll.reach (by decide +kernel)

example : (see mixed).inFlight = [c!"a"] ∧ (see mixed).status c!"b" = some .queued ∧
    (see mixed).lists .queued = [c!"b"] ∧ (see mixed).lists .running = [c!"a"] := by decide +kernel

example : (see mixed).inFlight.count c!"a" ≤ 1 := C25_one_execution_partial lawful (mixed_careful.orderly lawful)
example : (see mixed).Sound c!"a" := C38_sound lawful mixed_careful

/-- `mixed` respects all jobs. -/
theorem mixed_orderly : Reach (O := Unit) Impl.memory E c!"print" clk
    (fun v op => (∀ k, Orderly k v op) ∧ CapAtMost 20 op) (after mixed) := by
  have key : Obeys (fun v op => (∀ k, Orderly k v op) ∧ CapAtMost 20 op) mixed := by
    refine Obeys.snoc (ops := mixed.take 4) (Obeys.snoc (ops := mixed.take 3) (Obeys.snoc (ops := mixed.take 2)
      (Obeys.snoc (ops := mixed.take 1) (Obeys.snoc (ops := []) Obeys.nil ⟨?_, ?_⟩) ⟨?_, ?_⟩) ⟨?_, ?_⟩) ⟨?_, ?_⟩) ⟨?_, ?_⟩
    · intro k j c e; cases e
    · intro c e; cases e; decide
    · intro k j c e hid; cases e; subst hid; exact ⟨fun _ => by decide +kernel, fun ex h => by revert h; revert ex; decide +kernel⟩
    · intro c e; cases e
    · intro k j c e hid; cases e; subst hid; exact ⟨fun _ => by decide +kernel, fun ex h => by revert h; revert ex; decide +kernel⟩
    · intro c e; cases e
    · intro k j c e; cases e
    · intro c e; cases e
    · intro k j c e; cases e
    · intro c e; cases e
  exact key.reach

example : (see mixed).inFlight.length ≤ 20 := C26_capacity_partial lawful 20 (Nat.le_refl _) mixed_orderly

/-- `b` is cancelled while it waits; it is not started when capacity is free. -/
example : (see (mixed ++ [.cancel c!"b"])).status c!"b" = some .canceled ∧
    c!"b" ∉ (see (mixed ++ [.cancel c!"b"] ++ [.finish 0 good, .tick])).inFlight := by
  have h : (see (mixed ++ [.cancel c!"b"])).status c!"b" = some .canceled := by decide +kernel
  have h1 := okAll.reach (k := c!"b") (ops := mixed ++ [.cancel c!"b"]) (by decide +kernel)
  have h2 := C32_cancelled_rests_partial lawful (h1.orderly lawful) h (okAll.later (ops' := [.finish 0 good, .tick])
    (by decide +kernel) (by decide +kernel) (fun _ _ _ h' => ⟨calm.noSubmit h', calm.noRetry h'⟩))
  exact ⟨h, h2.2.1⟩

/-- A job scheduled for second 5. -/
def later5 : List (Op Int Unit) :=
  [.enqueue ⟨{ JobContext.new c!"a" 0 with jobType := .scheduledAt (5 * nsPerSec) }, 1⟩ .newReRun]

/-- It is not started in second 3 and started in second 6. -/
example : (see (later5 ++ [.tick, .tick, .tick])).inFlight = [] ∧
    (see (later5 ++ [.tick, .tick, .tick, .tick, .tick])).inFlight = [] ∧
    (see (later5 ++ [.tick, .tick, .tick, .tick, .tick, .tick])).inFlight = [c!"a"] := by decide +kernel

/-- The stored job then. -/
def stored5 : Job Int := ((see (later5 ++ [.tick, .tick, .tick, .tick, .tick])).job c!"a").getD (job [])

example : ∃ i, (see (later5 ++ [.tick, .tick, .tick, .tick, .tick])).reads ≤ i ∧ 5 * nsPerSec < clk i := by
  have h := okAll.reach (k := c!"a") (ops := later5 ++ [.tick, .tick, .tick, .tick, .tick]) (by decide +kernel)
  have hj : (see (later5 ++ [.tick, .tick, .tick, .tick, .tick])).job c!"a" = some stored5 := by decide +kernel
  obtain ⟨i, h1, _, h2⟩ := C18_never_early (k := c!"a") (due := 5 * nsPerSec) lawful h .tick hj (by decide +kernel)
    (by rw [see_snoc, see_after]; decide +kernel)
  exact ⟨i, h1, h2⟩

/-- The stored job before. -/
def stored0 : Job Int := ((see later5).job c!"a").getD (job [])

example : c!"a" ∉ (see (later5 ++ [.tick, .cancel c!"b", .tick])).inFlight ∨ 5 < (see (later5 ++ [.tick, .cancel c!"b", .tick])).reads := by
  have h := okAll.reach (k := c!"a") (ops := later5) (by decide +kernel)
  have hj : (see later5).job c!"a" = some stored0 := by decide +kernel
  rcases C18_waits (k := c!"a") (due := 5 * nsPerSec) lawful (h.orderly lawful) hj (by decide +kernel) (by decide +kernel)
    (okAll.later (ops' := [.tick, .cancel c!"b", .tick]) (by decide +kernel) (by decide +kernel)
      (fun _ _ _ h' => calm.noSubmit h')) with h | ⟨i, _, h1, h2⟩
  · exact .inl h.1
  · refine .inr ?_
    have h1 : i < (see (later5 ++ [.tick, .cancel c!"b", .tick])).reads := h1
    have h2 : 5 * nsPerSec < (i : Int) * nsPerSec := h2
    unfold nsPerSec at h2
    omega

/-- The job of `again` fails, is retried and finishes: run count 2, ordered timestamps. -/
def againRuns : List (Op Int Unit) :=
  [.tick, .start 0, .finish 0 bad, .tick, .tick, .start 0, .finish 0 good]

/-- The job when it is Finished. -/
def againDone : Job Int := ((see (again ++ againRuns)).job c!"a").getD (job [])

example : againDone.context.jobStatus = .finished ∧ againDone.context.runCount = 2 ∧
    againDone.context.enqueueAt = some 4000 ∧ againDone.context.runAt = some 6000 ∧
    againDone.context.completeAt = some 8000 ∧ ((see (again ++ againRuns)).runs c!"a").length = 2 := by decide +kernel

theorem again_later : Later (O := Unit) Impl.memory E c!"print" clk (fun _ op => NoSubmit c!"a" op)
    (Sys.step E c!"print" Impl.memory.B clk (after [])
      (.enqueue ⟨{ JobContext.new c!"a" 0 with retry := some (.newIntervalRetry (some 2) nsPerSec) }, 1⟩ .newReRun : Op Int Unit)).1
    (after (again ++ againRuns)) := by
  rw [after_snoc]
  exact okAll.later (k := c!"a") (ops := again) (by decide +kernel) (by decide +kernel) (fun _ _ _ h' => calm.noSubmit h')

theorem again_done : (see (again ++ againRuns)).job c!"a" = some againDone := by decide +kernel

example : againDone.context.runCount = ((see (again ++ againRuns)).runs c!"a").length :=
  C40_run_count lawful (s := after []) .start .newReRun rfl rfl again_later again_done (by decide +kernel)

theorem clk_mono : ∀ i j : Nat, i ≤ j → clk i ≤ clk j := by
  intro i j h
  exact Int.mul_le_mul_of_nonneg_right (by exact_mod_cast h) (by decide)

example : ∃ q r c, againDone.context.enqueueAt = some q ∧ againDone.context.runAt = some r ∧
    againDone.context.completeAt = some c ∧ q ≤ r ∧ r ≤ c :=
  C59_timestamps (k := c!"a") (job' := againDone) lawful clk_mono (s := after []) .start .newReRun rfl again_later again_done (.inl (by decide +kernel))

end
end AJ.Props
