import Verif.Props.Retry

/-!
# Cron jobs (C20-C24)

A cron job is stored as `cron expr next total ctx`: `next` is the slot it waits for, `total` counts the slots it
was given (from 1). The schedule itself is an arbitrary function `f`: `f t` is the first slot after `t`.
-/

namespace AJ.Props
open W

section
variable {D O : Type} {E : Env D} {name : Str} {clk : Nat → Time} {b : Impl} {k : Str}

private theorem over_iff {c : CronContext} {t : Int} {now : Time} : c.over t now = true ↔ c.Exhausted t now := by
  unfold CronContext.over CronContext.Exhausted
  rcases hm : c.maxRepeat with _ | m <;> rcases he : c.endAt with _ | e <;> simp

theorem over_not {c : CronContext} {t : Int} {now : Time} : c.over t now = false ↔ ¬ c.Exhausted t now := by
  rw [← over_iff]; simp

/-- The run ended in such a way that it is not retried: it did not fail, or there is no retry left. -/
def Unretried (x : Executable D O) (job : Job D) : Prop :=
  x.fails job = false ∨ ∀ r, job.context.retry = some r → ∃ n, r.maxRetries = some n ∧ n ≤ r.retriedTimes

private theorem Unretried.no {x : Executable D O} {job : Job D} (h : Unretried x job) : job.NoRetry (x.fails job) := by
  intro r hr
  rcases h with h | h
  · rw [h]; rfl
  · obtain ⟨n, h1, h2⟩ := h r hr
    simp [Retry.shouldRetry, h1, Int.not_lt.mpr h2]

theorem retried_absurd {x : Executable D O} {job : Job D} (h : Unretried x job) {r : Retry}
    (hr : job.context.retry = some r) (hf : x.fails job = true) (hs : r.shouldRetry = true) : False := by
  have := h.no r hr
  rw [hf, hs] at this; cases this

/-- C20, first half, in every history: whatever turn hands a cron job to execution is a tick that read the clock at or
after the slot the job waited for, when its repetitions were not used up and its end had not passed. -/
theorem C20_not_before_slot (L : E.Lawful) {P : Snap D → Op D O → Prop} {s : Sys D b.B} (hs : Reach b E name clk P s)
    {job : Job D} {e : Str} {n : Time} {t : Int} {c : CronContext} (hj : (b.snap E name s).job k = some job)
    (hty : job.context.jobType = .cron e n t c) (op : Op D O) :
    let v := b.snap E name s
    let v' := b.snap E name (Sys.step E name b.B clk s op).1
    v.inFlight.count k < v'.inFlight.count k →
      op = .tick ∧ ∃ i, v.reads ≤ i ∧ i < v'.reads ∧ n ≤ clk i ∧ ¬ c.Exhausted t (clk i) := by
  intro v v' hlt
  rw [count_inFlight, count_inFlight] at hlt
  obtain ⟨h2, j, i, h3, h4, h5, h6⟩ := starts L hs op hlt
  rw [hj] at h3
  cases h3
  unfold Job.Due at h6
  rw [hty] at h6
  refine ⟨h2, i, h4, h5, h6.1, ?_⟩
  rintro (⟨m, h7, h8⟩ | ⟨m, h7, h8⟩)
  · have := h6.2.1 m h7
    omega
  · exact Int.not_le.mpr h8 (h6.2.2 m h7)

/-- C20, second half, in every history, for schedules that have a slot after the completion time: when a run that is
not retried, of a cron job that is not exhausted, ends, and the job can be read afterwards, then it is Queued for the
first slot after the completion time (one of the clock reads of this turn), truncated to microseconds, so missed slots
are not made up. -/
theorem C20_next_slot_partial (L : E.Lawful) {P : Snap D → Op D O → Prop} {s : Sys D b.B} (hs : Reach b E name clk P s)
    (ha : s.alive = true) {i : Nat} {x : Executable D O} {orig job j' : Job D}
    (hi : s.tasks[i]? = some ⟨orig, some job⟩)
    (hx : x.retryAt = none ∨ job.context.retry = none) (hno : Unretried x job)
    {e : Str} {n : Time} {t : Int} {c : CronContext} {f : Time → Option Time} (hty : job.context.jobType = .cron e n t c)
    (hc : E.cron e = some f) :
    let v := b.snap E name s
    let v1 := b.snap E name (Sys.step E name b.B clk s (.finish i x)).1
    ¬ c.Exhausted t (clk v.reads) → (∀ r, v.reads ≤ r → r < v1.reads → (f (clk r)).isSome = true) →
    v1.alive = true → v1.job job.id = some j' →
    ∃ up r t', v.reads ≤ r ∧ r < v1.reads ∧ f (clk r) = some up ∧ j'.context.jobStatus = .queued ∧
      j'.context.jobType = .cron e (floorUs up) t' c := by
  intro v v1 hex hslot hal hj'
  rcases ended L hs ha hi hx with ⟨h, _⟩ | ⟨j2, h, hran⟩ | ⟨_, _, h, _⟩
  · have h1 : v1.alive = false := h.alive
    rw [hal] at h1; cases h1
  swap
  · have := h.stored.symm.trans hj'; cases this
  have e := hj'.symm.trans h.stored
  cases e
  cases hran with
  | retry hr hf hsr => exact (retried_absurd hno hr hf hsr).elim
  | @slot e' n' m' c' f' up t' _ hty' hc' ho hs hm ht =>
    rw [hty] at hty'; cases hty'
    rw [hc] at hc'; cases hc'
    exact ⟨up, v.reads + 1, t', Nat.le_succ _, by rw [show v1.reads = v.reads + 3 from ht]; omega, hs, rfl, rfl⟩
  | stuck _ hty' hc' _ hs ht =>
    rw [hty] at hty'; cases hty'
    rw [hc] at hc'; cases hc'
    have := hslot (v.reads + 1) (Nat.le_succ _) (by rw [show v1.reads = v.reads + 3 from ht]; omega)
    have hs : f (clk (v.reads + 1)) = none := hs
    rw [hs] at this; cases this
  | failed _ hnx =>
    rcases hnx _ _ _ _ hty with h | h
    · rw [hc] at h; cases h
    · exact absurd (over_iff.mp h) hex
  | finished _ hnx =>
    rcases hnx _ _ _ _ hty with h | h
    · rw [hc] at h; cases h
    · exact absurd (over_iff.mp h) hex

/-- C20, over whole histories that are orderly with the job: a cron job that waits for slot `n` is not handed to
execution, and its code does not run, before the clock has been read at or after `n`. With `C20_next_slot_partial`:
between two runs there is a slot. Missing for C20 as stated: a schedule without further slot, for which it is false
(`C20_refuted`); and submissions that contradict the stored status, after which two executions of the job can be in
flight (`C25_refuted`). -/
theorem C20_waits_partial (L : E.Lawful) {s s' : Sys D b.B} (hs : Reach (O := O) b E name clk (Orderly k) s)
    {job : Job D} {e : Str} {n : Time} {t : Int} {c : CronContext} (hj : (b.snap E name s).job k = some job)
    (hty : job.context.jobType = .cron e n t c) (hr : job.context.jobStatus ≠ .running)
    (h : Later (O := O) b E name clk (fun _ op => NoSubmit k op) s s') :
    let v := b.snap E name s
    let v' := b.snap E name s'
    (k ∉ v'.inFlight ∧ v'.runs k = v.runs k) ∨ ∃ i, v.reads ≤ i ∧ i < v'.reads ∧ n ≤ clk i := by
  intro v v'
  rcases waits L hs hj hr (fun _ _ h => h) h with ⟨i, g1, g2, g3⟩ | ⟨_, g1, g2, _⟩
  · unfold Job.Due at g3
    rw [hty] at g3
    exact .inr ⟨i, g1, g2, g3.1⟩
  · exact .inl ⟨not_inFlight g1, g2⟩

/-- C21, for schedules that never end: a cron job without retry policy that has been given `t` slots and may be
given `M` runs at most `M + 1 - t` more times, as long as it is not submitted again or retried by hand. Missing
for C21 as stated: schedules that end, for which it is false (`C21_refuted`), and `M = 2 ^ 31 - 1`. -/
theorem C21_max_repeat_partial (L : E.Lawful) {s s' : Sys D b.B} (hs : Reach (O := O) b E name clk (Orderly k) s)
    {job : Job D} {e : Str} {n : Time} {t M : Int} {c : CronContext} {f : Time → Option Time}
    (hj : (b.snap E name s).job k = some job) (hnr : job.context.jobStatus ≠ .running)
    (hty : job.context.jobType = .cron e n t c) (hr : job.context.retry = none) (hM : c.maxRepeat = some M)
    (ht : IsI32 t) (hM' : IsI32 (M + 1)) (hc : E.cron e = some f) (hslot : ∀ t, (f t).isSome = true)
    (h : Later (O := O) b E name clk (fun _ op => NoSubmit k op ∧ op ≠ .retry k) s s') :
    ((b.snap E name s').runs k).length ≤ ((b.snap E name s).runs k).length + (M + 1 - t).toNat := by
  have key := later_track L (I := fun u => ∃ j n' t', u.job k = some j ∧ j.context.retry = none ∧
      j.context.jobType = .cron e n' t' c ∧ t ≤ t' ∧
      (u.runs k).length ≤ ((b.snap E name s).runs k).length + (M + 1 - t).toNat ∧
      ((j.context.jobStatus = .queued ∨ u.own k = [⟨j, none⟩]) →
        ((u.runs k).length : Int) ≤ ((b.snap E name s).runs k).length + (t' - t)) ∧
      (j.context.jobStatus = .running → t' ≤ M) ∧
      (u.own k = [⟨j, some j.counted⟩] → ((u.runs k).length : Int) ≤ ((b.snap E name s).runs k).length + 1 + (t' - t)))
    (fun _ _ h => h.1) hs (solo_of L hs hj) h ⟨job, n, t, hj, hr, hty, Int.le_refl _, Nat.le_add_right _ _, fun _ => by omega,
      fun e => absurd e hnr, ?_⟩ ?_
  · rcases key with ⟨⟨_, _, _, _, _, _, _, h, _⟩, _⟩ | ⟨_, u, ⟨_, _, _, _, _, _, _, h, _⟩, e, _⟩
    · exact h
    · rw [e]; exact h
  · intro e
    rw [(solo_of L hs hj).idle' hj hnr] at e; cases e
  · intro u u' op hp hsolo hstored hreads hl ⟨j0, n', t', hj0, hr0, hty0, h1, h2, h3, h4, h5⟩
    cases hl with
    | same op g1 g2 g3 ha =>
      refine ⟨j0, n', t', g1.trans hj0, hr0, hty0, h1, ?_, ?_, h4, ?_⟩
      · rw [runs_same g3]; exact h2
      · rw [g2, runs_same g3]; exact h3
      · rw [g2, runs_same g3]; exact h5
    | submit j c hid => exact absurd hid (hp.1 j c rfl)
    | replace j c ex hid => exact absurd hid (hp.1 j c rfl)
    | cancel j hold hq g1 _ g2 g3 =>
      rw [hj0] at hold; cases hold
      refine ⟨_, n', t', g1, hr0, hty0, h1, ?_, ?_, (by intro e; cases e), ?_⟩
      · rw [runs_msg g3]; exact h2
      · rw [g2]; rintro (e | e) <;> cases e
      · rw [g2]; intro e; cases e
    | retry => exact absurd rfl hp.2
    | pick j i hold hq1 _ _ hdue g1 _ g2 g3 =>
      rw [hj0] at hold; cases hold
      unfold Job.Due at hdue
      rw [hty0] at hdue
      refine ⟨_, n', t', g1, hr0, hty0, h1, ?_, ?_, fun _ => hdue.2.1 M hM, ?_⟩
      · rw [runs_msg g3]; exact h2
      · rw [runs_msg g3]; exact fun _ => h3 (.inl hq1)
      · rw [g2]; intro e; simp at e
    | run j i hold hq1 ht1 ho g1 g2 g3 =>
      rw [hj0] at hold; cases hold
      have q1 := h3 (.inr ho)
      have q2 := h4 hq1
      have e : (u'.runs k).length = (u.runs k).length + 1 := by rw [runs_run g3, List.length_append]; rfl
      refine ⟨_, n', t', g1, hr0, hty0, h1, ?_, ?_, h4, fun _ => ?_⟩
      · omega
      · rw [hq1, g2]; rintro (e | e) <;> cases e
      · omega
    | finish j j' i x w w' hold hq1 ht1 ho hw hw' hf hends hs' g1 g2 g3 ha ha' =>
      rw [hj0] at hold; cases hold
      have hran := Life.ran (v := u) (v' := u') L (hstored k j0 hj0).1 hq1 hw hw' hf hends hs' (.inr hr0)
      have q1 := h5 ho
      have q2 := h4 hq1
      have hty0' : j0.counted.context.jobType = .cron e n' t' c := hty0
      rw [g2, runs_end g3]
      cases hran with
      | retry hr1 =>
        have hr0' : j0.counted.context.retry = none := hr0
        rw [hr0'] at hr1; cases hr1
      | @slot e2 n2 t2 c2 f2 up t3 _ hty2 hc2 _ _ hadd _ =>
        rw [hty0'] at hty2; cases hty2
        have hfits : t3 = t' + 1 := by
          obtain ⟨a1, a2⟩ := ht
          obtain ⟨a3, a4⟩ := hM'
          have b1 : -(2 ^ 31) ≤ t' + 1 := by omega
          have b2 : t' + 1 < 2 ^ 31 := by omega
          unfold addI32 fitsI32 at hadd
          simp only [b1, b2, decide_true, Bool.and_self, if_true, Option.some.injEq] at hadd
          exact hadd.symm
        exact ⟨_, _, t3, g1, hr0, rfl, by omega, h2, fun _ => by omega, (by intro e; cases e), (by intro e; cases e)⟩
      | stuck _ hty2 hc2 _ hs2 =>
        rw [hty0'] at hty2; cases hty2
        rw [hc] at hc2; cases hc2
        have := hslot (clk (u.reads + 1))
        rw [hs2] at this; cases this
      | failed =>
        exact ⟨_, n', t', g1, hr0, hty0, h1, h2, (by rintro (e | e) <;> cases e), (by intro e; cases e), (by intro e; cases e)⟩
      | finished =>
        exact ⟨_, n', t', g1, hr0, hty0, h1, h2, (by rintro (e | e) <;> cases e), (by intro e; cases e), (by intro e; cases e)⟩
    | died op g1 g2 g3 ha ha' =>
      obtain ⟨l, g3, g4⟩ := g3
      refine ⟨j0, n', t', g1.trans hj0, hr0, hty0, h1, ?_, ?_, h4, ?_⟩
      · rw [runs_hooks g3 g4]; exact h2
      · rw [runs_hooks g3 g4, g2]
        rintro (e | e)
        · exact h3 (.inl e)
        · cases e
      · rw [g2]; intro e; cases e

/-- C21 for a job submitted once, as built by `JobType::new_cron` (with the count at 1), and not retried by hand: at
most `M` runs; whatever else happens, and whatever its code does. -/
theorem C21_submitted_once_partial (L : E.Lawful) {s s' : Sys D b.B}
    (hs : Reach (O := O) b E name clk (fun _ op => NoSubmit k op) s) {job : Job D} (cfg : EnqueueConfig) (hid : job.id = k)
    {e : Str} {n : Time} {M : Nat} {c : CronContext} {f : Time → Option Time}
    (hty : job.context.jobType = .cron e n 1 c) (hr : job.context.retry = none) (hM : c.maxRepeat = some (M : Int))
    (hM' : (M : Int) + 1 < 2 ^ 31) (hc : E.cron e = some f) (hslot : ∀ t, (f t).isSome = true)
    (h : Later (O := O) b E name clk (fun _ op => NoSubmit k op ∧ op ≠ .retry k)
      (Sys.step E name b.B clk s (.enqueue job cfg : Op D O)).1 s') :
    ((b.snap E name s').runs k).length ≤ M := by
  rcases submitted_or L hs cfg hid with ⟨h1, h2, h3⟩ | ⟨hs1, hru, hj, _⟩
  · rw [(lost_later L h1 h (fun _ _ h => h.1) h2).2, h3]
    exact Nat.zero_le _
  have hb := C21_max_repeat_partial L hs1 (n := floorUs n) (t := 1) (M := M) (c := c.norm) hj (by simp [Job.norm, JobContext.norm, Job.asQueued])
    (by show JobType.norm job.context.jobType = _; rw [hty]; rfl)
    (by show job.context.retry.map Retry.norm = _; rw [hr]; rfl) (by exact hM) ⟨by decide, by decide⟩ ⟨by omega, hM'⟩ hc hslot h
  rw [hru] at hb
  simp only [List.length_nil] at hb
  omega

/-- C22, for jobs that are stored as cron jobs, in every history: whatever turn hands the job to execution is a tick
that read the clock at or before `end_at`. -/
theorem C22_stored_partial (L : E.Lawful) {P : Snap D → Op D O → Prop} {s : Sys D b.B} (hs : Reach b E name clk P s)
    {job : Job D} {e : Str} {n : Time} {t : Int} {c : CronContext} {fin : Time}
    (hj : (b.snap E name s).job k = some job) (hty : job.context.jobType = .cron e n t c) (hfin : c.endAt = some fin)
    (op : Op D O) :
    let v := b.snap E name s
    let v' := b.snap E name (Sys.step E name b.B clk s op).1
    v.inFlight.count k < v'.inFlight.count k → op = .tick ∧ ∃ i, v.reads ≤ i ∧ i < v'.reads ∧ clk i ≤ fin := by
  intro v v' hlt
  obtain ⟨h4, i, h5, h6, h7, h8⟩ := C20_not_before_slot L hs hj hty op hlt
  refine ⟨h4, i, h5, h6, ?_⟩
  by_cases hlt : clk i ≤ fin
  · exact hlt
  · exact absurd (.inr ⟨fin, hfin, Int.not_le.mp hlt⟩) h8

/-- C22, for cron jobs without retry policy, submitted in an orderly way: in every later history without a new
submission, whatever turn hands the job to execution is a tick that read the clock at or before `end_at`. Missing for
C22 as stated: jobs with a retry policy, for which it is false (`C22_refuted`). -/
theorem C22_end_at_partial (L : E.Lawful) {s s' : Sys D b.B} (hs : Reach (O := O) b E name clk (Orderly k) s)
    {job : Job D} {e : Str} {n : Time} {t : Int} {c : CronContext} {fin : Time}
    (hj : (b.snap E name s).job k = some job) (hty : job.context.jobType = .cron e n t c)
    (hr : job.context.retry = none) (hfin : c.endAt = some fin)
    (h : Later (O := O) b E name clk (fun _ op => NoSubmit k op) s s') (op : Op D O) :
    let v := b.snap E name s'
    let v' := b.snap E name (Sys.step E name b.B clk s' op).1
    v.inFlight.count k < v'.inFlight.count k → op = .tick ∧ ∃ i, v.reads ≤ i ∧ i < v'.reads ∧ clk i ≤ fin := by
  intro v v' hlt
  have hs' := h.reach hs (fun _ _ h => NoSubmit.orderly h)
  obtain ⟨_, jn, _, hjn, _⟩ := starts L hs' op (by rw [count_inFlight, count_inFlight] at hlt; exact hlt)
  have key := later_read L (I := fun u => ∃ j n' t', u.job k = some j ∧ j.context.retry = none ∧
      j.context.jobType = .cron e n' t' c) (fun _ _ h => h) hs (solo_of L hs hj) h hjn ⟨job, n, t, hj, hr, hty⟩ ?_
  · obtain ⟨j, n', t', h2, _, h3⟩ := key
    exact C22_stored_partial L hs' h2 h3 hfin op hlt
  · intro u u' op hp hsolo hstored hreads hl ⟨j0, n', t', hj0, hr0, hty0⟩
    cases hl with
    | same op g1 => exact ⟨j0, n', t', g1.trans hj0, hr0, hty0⟩
    | submit j c hid => exact absurd hid (hp j c rfl)
    | replace j c ex hid => exact absurd hid (hp j c rfl)
    | cancel j hold hq g1 => rw [hj0] at hold; cases hold; exact ⟨_, n', t', g1, hr0, hty0⟩
    | retry j hold hd g1 => rw [hj0] at hold; cases hold; exact ⟨_, n', t', g1, hr0, hty0⟩
    | pick j i hold _ _ _ _ g1 => rw [hj0] at hold; cases hold; exact ⟨_, n', t', g1, hr0, hty0⟩
    | run j i hold _ _ _ g1 => rw [hj0] at hold; cases hold; exact ⟨_, n', t', g1, hr0, hty0⟩
    | finish j j' i x w w' hold hq1 ht1 ho hw hw' hf hends hs' g1 =>
      rw [hj0] at hold; cases hold
      have hran := Life.ran (v := u) (v' := u') L (hstored k j0 hj0).1 hq1 hw hw' hf hends hs' (.inr hr0)
      have hty0' : j0.counted.context.jobType = .cron e n' t' c := hty0
      cases hran with
      | retry hr1 =>
        have hr0' : j0.counted.context.retry = none := hr0
        rw [hr0'] at hr1; cases hr1
      | slot _ hty2 => rw [hty0'] at hty2; cases hty2; exact ⟨_, _, _, g1, hr0, rfl⟩
      | stuck => exact ⟨_, _, _, g1, hr0, hty0⟩
      | failed => exact ⟨_, _, _, g1, hr0, hty0⟩
      | finished => exact ⟨_, _, _, g1, hr0, hty0⟩
    | died op g1 => exact ⟨j0, n', t', g1.trans hj0, hr0, hty0⟩

/-- C22 for a cron job without retry policy submitted once, to whatever queue: whatever else happens, no turn hands
it to execution when it reads the clock only later than `end_at`, truncated to microseconds. -/
theorem C22_submitted_once_partial (L : E.Lawful) {s s' : Sys D b.B}
    (hs : Reach (O := O) b E name clk (fun _ op => NoSubmit k op) s) {job : Job D} (cfg : EnqueueConfig) (hid : job.id = k)
    {e : Str} {n : Time} {t : Int} {c : CronContext} {fin : Time}
    (hty : job.context.jobType = .cron e n t c) (hr : job.context.retry = none) (hfin : c.endAt = some fin)
    (h : Later (O := O) b E name clk (fun _ op => NoSubmit k op)
      (Sys.step E name b.B clk s (.enqueue job cfg : Op D O)).1 s') (op : Op D O) :
    let v := b.snap E name s'
    let v' := b.snap E name (Sys.step E name b.B clk s' op).1
    v.inFlight.count k < v'.inFlight.count k → op = .tick ∧ ∃ i, v.reads ≤ i ∧ i < v'.reads ∧ clk i ≤ floorUs fin := by
  intro v v' hlt
  rcases submitted_or L hs cfg hid with ⟨h1, h2, _⟩ | ⟨hs1, _, hj, _⟩
  · obtain ⟨_, jn, _, hjn, _⟩ := starts L (h.reach h1 fun _ _ h => NoSubmit.orderly h) op
      (by rw [count_inFlight, count_inFlight] at hlt; exact hlt)
    rw [(lost_later L h1 h (fun _ _ h => h) h2).1.job] at hjn
    cases hjn
  · exact C22_end_at_partial L hs1 (n := floorUs n) (t := t) (c := c.norm) (fin := floorUs fin) hj
      (by show JobType.norm job.context.jobType = _; rw [hty]; rfl)
      (by show job.context.retry.map Retry.norm = _; rw [hr]; rfl)
      (by show c.endAt.map floorUs = _; rw [hfin]; rfl) h op hlt

/-- A Queued job that is never due again stays as it is, in the queued list, in every later history in which it is
neither submitted nor cancelled. -/
theorem never_due_stays (L : E.Lawful) {s s' : Sys D b.B} (hs : Reach (O := O) b E name clk (Orderly k) s)
    {job : Job D} (hj : (b.snap E name s).job k = some job) (hq : job.context.jobStatus = .queued)
    (hnd : ∀ i, (b.snap E name s).reads ≤ i → ¬ job.Due (clk i))
    (h : Later (O := O) b E name clk (fun _ op => NoSubmit k op ∧ op ≠ .cancel k) s s') :
    (b.snap E name s').job k = some job ∧ ((b.snap E name s').lists .queued).count k = 1 ∧
    (b.snap E name s').runs k = (b.snap E name s).runs k := by
  have key := later_track L (I := fun u => u.job k = some job ∧ u.runs k = (b.snap E name s).runs k ∧ (b.snap E name s).reads ≤ u.reads)
    (fun _ _ h => h.1) hs (solo_of L hs hj) h ⟨hj, rfl, Nat.le_refl _⟩ ?_
  · rcases key with ⟨key, hso⟩ | ⟨_, u, key, _, _, j, h1, h2, _⟩
    · refine ⟨key.1, ?_, key.2.1⟩
      have := hso.queued
      rw [status_of key.1, hq, if_pos rfl] at this
      exact this
    · rw [key.1] at h1; cases h1; rw [hq] at h2; cases h2
  · intro u u' op hp hsolo hstored hreads hl ⟨hj0, hru, hle⟩
    have hle := Nat.le_trans hle hreads
    cases hl with
    | same op g1 _ g3 => exact ⟨g1.trans hj0, (runs_same g3).trans hru, hle⟩
    | submit j c hid => exact absurd hid (hp.1 j c rfl)
    | replace j c ex hid => exact absurd hid (hp.1 j c rfl)
    | cancel => exact absurd rfl hp.2
    | retry j hold hd => rw [hj0] at hold; cases hold; simp [Job.isDone, hq] at hd
    | pick j i hold _ h1 _ hdue => rw [hj0] at hold; cases hold; exact absurd hdue (hnd i (by omega))
    | run j i hold h1 => rw [hj0] at hold; cases hold; rw [hq] at h1; cases h1
    | finish j j' i x w w' hold h1 => rw [hj0] at hold; cases hold; rw [hq] at h1; cases h1
    | died op g1 g2 g3 =>
      obtain ⟨l, g3, g4⟩ := g3
      exact ⟨g1.trans hj0, (runs_hooks g3 g4).trans hru, hle⟩

/-- C23 is false as stated, in general: a Queued cron job that is exhausted at every later clock read (because
its repetitions are used up, or its end has passed and the clock does not go back) stays Queued, in the queued
list, in every later history in which nobody submits or cancels it. `C23_witness` is such a job. -/
theorem C23_refuted (L : E.Lawful) {s s' : Sys D b.B} (hs : Reach (O := O) b E name clk (Orderly k) s)
    {job : Job D} {e : Str} {n : Time} {t : Int} {c : CronContext} (hj : (b.snap E name s).job k = some job)
    (hq : job.context.jobStatus = .queued) (hty : job.context.jobType = .cron e n t c)
    (hex : ∀ i, (b.snap E name s).reads ≤ i → c.Exhausted t (clk i))
    (h : Later (O := O) b E name clk (fun _ op => NoSubmit k op ∧ op ≠ .cancel k) s s') :
    (b.snap E name s').job k = some job ∧ ((b.snap E name s').lists .queued).count k = 1 ∧
    (b.snap E name s').runs k = (b.snap E name s).runs k := by
  refine never_due_stays L hs hj hq (fun i hi hd => ?_) h
  unfold Job.Due at hd
  rw [hty] at hd
  rcases hex i hi with ⟨m, h1, h2⟩ | ⟨m, h1, h2⟩
  · have := hd.2.1 m h1; omega
  · exact Int.not_le.mpr h2 (hd.2.2 m h1)

/-- C23, for a cron job that is exhausted when a run of it ends, and whose run is not retried, in every history: the run
ends Finished or Failed (`EndsAs`), and nothing is put into the queued list. Missing for C23 as stated: jobs that
become exhausted while they wait, for which it is false (`C23_refuted`). -/
theorem C23_exhausted_partial (L : E.Lawful) {P : Snap D → Op D O → Prop} {s : Sys D b.B} (hs : Reach b E name clk P s)
    (ha : s.alive = true) {i : Nat} {x : Executable D O} {orig job : Job D}
    (hi : s.tasks[i]? = some ⟨orig, some job⟩)
    (hx : x.retryAt = none ∨ job.context.retry = none) (hno : Unretried x job)
    {e : Str} {n : Time} {t : Int} {c : CronContext} (hty : job.context.jobType = .cron e n t c) :
    let v := b.snap E name s
    let v' := b.snap E name (Sys.step E name b.B clk s (.finish i x)).1
    c.Exhausted t (clk v.reads) → v'.alive = true →
    EndsAs E x v v' i job (if x.fails job then .failed else .finished) ∧ v'.lists .queued = v.lists .queued := by
  intro v v' hex hal
  have hov : c.over t (clk v.reads) = true := over_iff.mpr hex
  rcases ended L hs ha hi hx with ⟨h, _⟩ | ⟨j', h, hran⟩ | ⟨he, st, h, hst⟩
  · have h1 : v'.alive = false := h.alive
    rw [hal] at h1; cases h1
  · have hfin : ∀ st, j'.context.jobStatus = st → st ≠ .queued → v'.lists .queued = v.lists .queued :=
      fun st e hne => h.lists _ (by simp) (by rw [e]; exact fun h => hne h.symm)
    cases hran with
    | retry hr hf hsr => exact (retried_absurd hno hr hf hsr).elim
    | slot _ hty' _ ho =>
      rw [hty] at hty'; cases hty'
      have ho : c.over t (clk v.reads) = false := ho
      rw [hov] at ho; cases ho
    | stuck _ hty' _ ho =>
      rw [hty] at hty'; cases hty'
      have ho : c.over t (clk v.reads) = false := ho
      rw [hov] at ho; cases ho
    | failed _ _ hf => exact ⟨.inl ⟨_, h, by rw [hf]; rfl⟩, hfin _ rfl (by simp)⟩
    | finished _ _ hf => exact ⟨.inl ⟨_, h, by rw [hf]; rfl⟩, hfin _ rfl (by simp)⟩
  · have e := hst hno.no (fun e' n' m' c' h' => .inr (by rw [hty] at h'; cases h'; exact hov))
    refine ⟨.inr ⟨fun hser => he hser.1, by rw [← e]; exact h⟩, ?_⟩
    refine h.lists _ (by simp) ?_
    rw [e]; split <;> simp

/-- C23, the same for jobs submitted in an orderly way: afterwards the job is not in the queued list. -/
theorem C23_gone_partial (L : E.Lawful) {s : Sys D b.B} (hs : Reach (O := O) b E name clk (Orderly k) s)
    (ha : s.alive = true) {i : Nat} {x : Executable D O} {orig job : Job D}
    (hi : s.tasks[i]? = some ⟨orig, some job⟩) (hk : job.id = k)
    (hx : x.retryAt = none ∨ job.context.retry = none) (hno : Unretried x job)
    {e : Str} {n : Time} {t : Int} {c : CronContext} (hty : job.context.jobType = .cron e n t c)
    (hex : c.Exhausted t (clk (b.snap E name s).reads))
    (hal : (Sys.step E name b.B clk s (.finish i x)).1.alive = true) :
    k ∉ (b.snap E name (Sys.step E name b.B clk s (.finish i x)).1).lists .queued := by
  rw [(C23_exhausted_partial L hs ha hi hx hno hty hex hal).2]
  obtain ⟨_, _, hc⟩ := reach_exec L hs hi
  have hid : orig.id = k := by rw [hc job rfl] at hk; exact hk
  obtain ⟨h1, h2, _⟩ := reach_task L hs ha hi hid
  have := (solo_of L hs h1).queued
  rw [status_of h1, h2, if_neg (by simp)] at this
  exact List.count_eq_zero.mp this

/-- C24, for runs that are not retried, in every history: a run that did not fail, of a cron job (with or without retry
policy) that is not exhausted when the run ends, leaves it Queued and still a cron job with the same expression and
limits, and with its retry state unchanged, if the job can be read at all. Missing for C24 as stated: failed runs that
are retried, for which it is false (`C24_refuted`). -/
theorem C24_success_partial (L : E.Lawful) {P : Snap D → Op D O → Prop} {s : Sys D b.B} (hs : Reach b E name clk P s)
    (ha : s.alive = true) {i : Nat} {x : Executable D O} {orig job j' : Job D}
    (hi : s.tasks[i]? = some ⟨orig, some job⟩) (hx : x.retryAt = none) (hno : Unretried x job)
    {e : Str} {n : Time} {t : Int} {c : CronContext} (hty : job.context.jobType = .cron e n t c)
    (hc : (E.cron e).isSome = true) :
    let v := b.snap E name s
    let v' := b.snap E name (Sys.step E name b.B clk s (.finish i x)).1
    ¬ c.Exhausted t (clk v.reads) → v'.alive = true → v'.job job.id = some j' →
    j'.context.jobStatus = .queued ∧ (∃ n' t', j'.context.jobType = .cron e n' t' c) ∧
      j'.context.retry = job.context.retry := by
  intro v v' hex hal hj'
  rcases ended L hs ha hi (.inl hx) with ⟨h, _⟩ | ⟨j2, h, hran⟩ | ⟨_, _, h, _⟩
  · have h1 : v'.alive = false := h.alive
    rw [hal] at h1; cases h1
  swap
  · have := h.stored.symm.trans hj'; cases this
  have e := hj'.symm.trans h.stored
  cases e
  cases hran with
  | retry hr hf hsr => exact (retried_absurd hno hr hf hsr).elim
  | slot _ hty' => rw [hty] at hty'; cases hty'; exact ⟨rfl, ⟨_, _, rfl⟩, rfl⟩
  | stuck _ hty' => exact ⟨rfl, ⟨_, _, hty⟩, rfl⟩
  | failed _ hnx =>
    rcases hnx _ _ _ _ hty with h | h
    · rw [h] at hc; cases hc
    · exact absurd (over_iff.mp h) hex
  | finished _ hnx =>
    rcases hnx _ _ _ _ hty with h | h
    · rw [h] at hc; cases hc
    · exact absurd (over_iff.mp h) hex

/-- A job that is not a cron job never becomes one, unless it is submitted again. -/
private theorem stays_nonCron (L : E.Lawful) {s s' : Sys D b.B} (hs : Reach (O := O) b E name clk (Orderly k) s)
    {job job' : Job D} (hj : (b.snap E name s).job k = some job) (hty : NonCron job)
    (h : Later (O := O) b E name clk (fun v op => NoSubmit k op ∧ DefaultRetry k v op) s s')
    (hj' : (b.snap E name s').job k = some job') : NonCron job' := by
  have key := later_read L (I := fun u => ∃ j, u.job k = some j ∧ NonCron j) (fun _ _ h => h.1) hs (solo_of L hs hj) h hj'
    ⟨job, hj, hty⟩ ?_
  · obtain ⟨j, h1, h2⟩ := key
    rw [hj'] at h1; cases h1; exact h2
  · intro u u' op hp hsolo hstored hreads hl ⟨j0, hj0, hnc⟩
    cases hl with
    | same op g1 => exact ⟨j0, g1.trans hj0, hnc⟩
    | submit j c hid => exact absurd hid (hp.1 j c rfl)
    | replace j c ex hid => exact absurd hid (hp.1 j c rfl)
    | cancel j hold hq g1 => rw [hj0] at hold; cases hold; exact ⟨_, g1, hnc⟩
    | retry j hold hd g1 => rw [hj0] at hold; cases hold; exact ⟨_, g1, hnc⟩
    | pick j i hold _ _ _ _ g1 => rw [hj0] at hold; cases hold; exact ⟨_, g1, hnc⟩
    | run j i hold _ _ _ g1 => rw [hj0] at hold; cases hold; exact ⟨_, g1, hnc⟩
    | finish j j' i x w w' hold hq1 ht1 ho hw hw' hf hends hs' g1 =>
      rw [hj0] at hold; cases hold
      have hx : x.retryAt = none := hp.2 i x _ _ rfl ht1 (hstored k j0 hj0).2
      have hran := Life.ran (v := u) (v' := u') L (hstored k j0 hj0).1 hq1 hw hw' hf hends hs' (.inl hx)
      cases hran with
      | retry => exact ⟨_, g1, fun _ _ _ _ h => by cases h⟩
      | slot _ hty2 => exact absurd hty2 (hnc _ _ _ _)
      | stuck => exact ⟨_, g1, hnc⟩
      | failed => exact ⟨_, g1, hnc⟩
      | finished => exact ⟨_, g1, hnc⟩
    | died op g1 => exact ⟨j0, g1.trans hj0, hnc⟩

/-- C24 is false as stated, for every cron job with a retry policy: when a run fails and is retried, the job is no
cron job any more, and it never becomes one again in any later history in which it is not submitted again; so none
of its later slots fires. `C24_witness` is an instance. -/
theorem C24_refuted (L : E.Lawful) {s s' : Sys D b.B} (hs : Reach (O := O) b E name clk (Orderly k) s)
    (ha : s.alive = true) {i : Nat} {x : Executable D O} {orig job j' : Job D}
    (hi : s.tasks[i]? = some ⟨orig, some job⟩) (hk : job.id = k)
    (hx : x.retryAt = none) (hf : x.fails job = true) {r : Retry} (hr : job.context.retry = some r)
    (hbudget : ∀ n, r.maxRetries = some n → r.retriedTimes < n)
    (hal : (Sys.step E name b.B clk s (.finish i x)).1.alive = true)
    (hj' : (b.snap E name (Sys.step E name b.B clk s (.finish i x)).1).job k = some j')
    (h : Later (O := O) b E name clk (fun v op => NoSubmit k op ∧ DefaultRetry k v op)
      (Sys.step E name b.B clk s (.finish i x)).1 s') {job' : Job D} (hjob' : (b.snap E name s').job k = some job') :
    j'.context.jobStatus = .queued ∧ ∀ e n t c, job'.context.jobType ≠ .cron e n t c := by
  have hsr : r.shouldRetry = true := by
    unfold Retry.shouldRetry
    cases e : r.maxRetries with
    | none => rfl
    | some n => simpa using hbudget n e
  subst hk
  obtain ⟨r', due, _, h2, h4, _⟩ := retried' L hs ha hi hx hf hr hsr hal hj'
  exact ⟨h2, stays_nonCron L (Reach.step _ hs (by intro j c e; cases e)) hj' (fun _ _ _ _ h => by rw [h4] at h; cases h) h hjob'⟩

end

section
open Demo

/-- Job `a` with a cron type, as built by `JobType::new_cron`, waiting for the slot at second `n`. -/
def cronJob (expr : Str) (n : Int) (c : CronContext) (r : Option Retry := none) : Job Int :=
  ⟨{ JobContext.new c!"a" 0 with jobType := .cron expr (n * nsPerSec) 1 c, retry := r }, 7⟩

/-- An every-second job with at most two runs. -/
def cronTwo : List (Op Int Unit) := [.enqueue (cronJob c!"* * * * * *" 3 { maxRepeat := some 2 }) .newReRun]

/-- Two runs. -/
def cronTwoRuns : List (Op Int Unit) := [.tick, .tick, .tick] ++ round good ++ [.tick, .tick, .tick] ++ round good

/-- Two runs, and then ticks that start nothing. -/
def cronTwoMore : List (Op Int Unit) := cronTwoRuns ++ [.tick, .tick, .tick]

theorem cronTwo_later : Later (O := Unit) Impl.memory E c!"print" clk (fun _ op => NoSubmit c!"a" op ∧ op ≠ .retry c!"a")
      (after cronTwo) (after (cronTwo ++ cronTwoMore)) :=
  okAll.later (k := c!"a") (by decide +kernel) (by decide +kernel) (fun _ _ _ h' => ⟨calm.noSubmit h', calm.noRetry h'⟩)

theorem cronTwo_orderly : Reach (O := Unit) Impl.memory E c!"print" clk (Orderly c!"a") (after cronTwo) :=
  (okAll.reach (by decide +kernel)).orderly lawful

/-- The job as it is stored. -/
def cronStart : Job Int := ((see cronTwo).job c!"a").getD (job [])
theorem cronStart_job : (see cronTwo).job c!"a" = some cronStart := by decide +kernel
theorem cronStart_type : cronStart.context.jobType = .cron c!"* * * * * *" (3 * nsPerSec) 1 { maxRepeat := some 2 } := by
  decide +kernel

/-- The bound of C21 is reached: the job runs twice, and then not again. -/
example : ((see (cronTwo ++ cronTwoMore)).runs c!"a").length ≤ 2 :=
  C21_submitted_once_partial (k := c!"a") (s := after []) (job := cronJob c!"* * * * * *" 3 { maxRepeat := some 2 }) (M := 2)
    lawful .start .newReRun rfl rfl rfl rfl (by decide) rfl (fun _ => rfl) (by rw [after_snoc]; exact cronTwo_later)

example : ((see (cronTwo ++ cronTwoMore)).runs c!"a").length ≤ 0 + 2 :=
  C21_max_repeat_partial (k := c!"a") (job := cronStart) (M := 2) lawful cronTwo_orderly cronStart_job (by decide +kernel)
    cronStart_type (by decide +kernel) rfl ⟨by decide, by decide⟩ ⟨by decide, by decide⟩ rfl (fun _ => rfl) cronTwo_later

example : ((see (cronTwo ++ cronTwoMore)).runs c!"a").length = 2 ∧ (see (cronTwo ++ cronTwoMore)).inFlight = [] := by
  decide +kernel

/-- C20: the job waits for second 3; the third tick starts it. -/
def cronWait : List (Op Int Unit) := cronTwo ++ [.tick, .tick]
theorem cronWait_starts : (see cronWait).inFlight.count c!"a" < (see (cronWait ++ [.tick])).inFlight.count c!"a" := by
  decide +kernel
theorem cronWait_reach : Reach (O := Unit) Impl.memory E c!"print" clk (Orderly c!"a") (after cronWait) :=
  (okAll.reach (by decide +kernel)).orderly lawful
theorem cronWait_job : (see cronWait).job c!"a" = some cronStart := by decide +kernel

example : ∃ i, (see cronWait).reads ≤ i ∧ 3 * nsPerSec ≤ clk i := by
  have h := C20_not_before_slot (b := Impl.memory) (s := after cronWait) (k := c!"a")
    (job := cronStart) lawful cronWait_reach cronWait_job cronStart_type .tick
    (by rw [see_snoc]; exact cronWait_starts)
  obtain ⟨_, i, h1, _, h2, _⟩ := h
  exact ⟨i, h1, h2⟩

example : (c!"a" ∉ (see (cronTwo ++ cronTwoMore)).inFlight ∧
      (see (cronTwo ++ cronTwoMore)).runs c!"a" = (see cronTwo).runs c!"a") ∨
    ∃ i, (see cronTwo).reads ≤ i ∧ i < (see (cronTwo ++ cronTwoMore)).reads ∧ 3 * nsPerSec ≤ clk i :=
  C20_waits_partial (b := Impl.memory) (job := cronStart) lawful cronTwo_orderly cronStart_job cronStart_type
    (by decide +kernel) (cronTwo_later.mono fun _ _ h => h.1)

/-- The first run of that job. It ends in second 6, so the next slot is second 7. -/
def cronRun : List (Op Int Unit) := cronTwo ++ [.tick, .tick, .tick, .tick, .start 0]
def cronOrig : Job Int := ((see cronRun).job c!"a").getD (job [])
def cronNext : Job Int := ((see (cronRun ++ [.finish 0 good])).job c!"a").getD (job [])
theorem cronRun_reach : Reach (O := Unit) Impl.memory E c!"print" clk (Orderly c!"a") (after cronRun) :=
  (okAll.reach (by decide +kernel)).orderly lawful
theorem cronRun_alive : (after cronRun).alive = true := by decide +kernel
theorem cronRun_task : (after cronRun).tasks[0]? = some ⟨cronOrig, some cronOrig.counted⟩ := by decide +kernel
theorem cronOrig_id : cronOrig.counted.id = c!"a" := by decide +kernel
theorem cronOrig_type : cronOrig.counted.context.jobType = .cron c!"* * * * * *" (3 * nsPerSec) 1 { maxRepeat := some 2 } := by
  decide +kernel
theorem cronNext_alive : (see (cronRun ++ [.finish 0 good])).alive = true := by decide +kernel
theorem cronNext_job : (see (cronRun ++ [.finish 0 good])).job c!"a" = some cronNext := by decide +kernel

example : ∃ up r t', (see cronRun).reads ≤ r ∧ r < (see (cronRun ++ [.finish 0 good])).reads ∧
    some ((clk r / nsPerSec + 1) * nsPerSec) = some up ∧ cronNext.context.jobStatus = .queued ∧
    cronNext.context.jobType = .cron c!"* * * * * *" (floorUs up) t' { maxRepeat := some 2 } := by
  have h := C20_next_slot_partial (b := Impl.memory) (s := after cronRun) (orig := cronOrig) (job := cronOrig.counted)
    (x := good) (i := 0) (j' := cronNext) lawful cronRun_reach cronRun_alive cronRun_task (.inl rfl) (.inl rfl) cronOrig_type rfl
    (by rintro (⟨m, h, h'⟩ | ⟨m, h, _⟩)
        · cases h; exact absurd h' (by decide)
        · cases h)
    (fun _ _ _ => rfl) (by rw [see_snoc]; exact cronNext_alive) (by rw [see_snoc, cronOrig_id]; exact cronNext_job)
  rw [see_snoc, see_after] at h
  exact h

example : (see cronRun).reads = 5 ∧
    cronNext.context.jobType = .cron c!"* * * * * *" (7 * nsPerSec) 2 { maxRepeat := some 2 } := by decide +kernel

/-- C24: that job stays a cron job. -/
example : cronNext.context.jobStatus = .queued :=
  (C24_success_partial (b := Impl.memory) (s := after cronRun) (orig := cronOrig) (job := cronOrig.counted)
    (x := good) (i := 0) (j' := cronNext) lawful cronRun_reach cronRun_alive cronRun_task rfl (.inl rfl) cronOrig_type rfl
    (by rintro (⟨m, h, h'⟩ | ⟨m, h, _⟩)
        · cases h; exact absurd h' (by decide)
        · cases h)
    (by rw [see_snoc]; exact cronNext_alive) (by rw [see_snoc, cronOrig_id]; exact cronNext_job)).1

/-- C23: after its second run that job is exhausted, and Queued for ever (`C23_refuted` applies). -/
theorem C23_witness :
    Reach (O := Unit) Impl.memory E c!"print" clk (Orderly c!"a") (after (cronTwo ++ cronTwoRuns)) ∧
    ∃ job n, (see (cronTwo ++ cronTwoRuns)).job c!"a" = some job ∧ job.context.jobStatus = .queued ∧
      job.context.jobType = .cron c!"* * * * * *" n 3 { maxRepeat := some 2 } ∧
      ∀ now, CronContext.Exhausted { maxRepeat := some 2 } 3 now :=
  ⟨(okAll.reach (by decide +kernel)).orderly lawful, ((see (cronTwo ++ cronTwoRuns)).job c!"a").getD (job []), 12 * nsPerSec,
    by decide +kernel, by decide +kernel, by decide +kernel, fun _ => .inl ⟨2, rfl, by decide⟩⟩

/-- However many ticks follow, it is Queued. -/
theorem C23_for_ever (n : Nat) :
    (see (cronTwo ++ cronTwoRuns ++ List.replicate n .tick)).status c!"a" = some .queued ∧
    ((see (cronTwo ++ cronTwoRuns ++ List.replicate n .tick)).lists .queued).count c!"a" = 1 := by
  obtain ⟨hs, j, m, hj, hq, hty, hex⟩ := C23_witness
  have hl : ∀ n, Later (O := Unit) Impl.memory E c!"print" clk (fun _ op => NoSubmit c!"a" op ∧ op ≠ .cancel c!"a")
      (after (cronTwo ++ cronTwoRuns)) (after (cronTwo ++ cronTwoRuns ++ List.replicate n .tick)) := by
    intro n
    induction n with
    | zero => rw [List.replicate_zero, List.append_nil]; exact .refl
    | succ n ih =>
      rw [List.replicate_succ', ← List.append_assoc, ← after_snoc]
      exact .step _ ih ⟨fun _ _ e => (by cases e), fun e => (by cases e)⟩
  have h := C23_refuted (b := Impl.memory) lawful hs hj hq hty (fun i _ => hex _) (hl n)
  refine ⟨?_, h.2.1⟩
  have := status_of h.1
  rw [hq] at this
  exact this

/-- An every-second job that ends at second 2 and is in user code then. -/
def cronLast : List (Op Int Unit) :=
  [.enqueue (cronJob c!"* * * * * *" 0 { endAt := some (2 * nsPerSec) }) .newReRun, .tick, .start 0]
def lastOrig : Job Int := ((see cronLast).job c!"a").getD (job [])
theorem cronLast_reach : Reach (O := Unit) Impl.memory E c!"print" clk (Orderly c!"a") (after cronLast) :=
  (okAll.reach (by decide +kernel)).orderly lawful
theorem cronLast_alive : (after cronLast).alive = true := by decide +kernel
theorem cronLast_task : (after cronLast).tasks[0]? = some ⟨lastOrig, some lastOrig.counted⟩ := by decide +kernel
theorem lastOrig_id : lastOrig.counted.id = c!"a" := by decide +kernel
theorem lastOrig_type : lastOrig.counted.context.jobType = .cron c!"* * * * * *" 0 1 { endAt := some (2 * nsPerSec) } := by
  decide +kernel
theorem cronLast_over : CronContext.Exhausted { endAt := some (2 * nsPerSec) } 1 (clk (see cronLast).reads) :=
  .inr ⟨_, rfl, by decide +kernel⟩
theorem cronLast_end' : (after (cronLast ++ [.finish 0 good])).alive = true := by decide +kernel
theorem cronLast_end : (see (cronLast ++ [.finish 0 good])).alive = true := by decide +kernel

/-- C23: the run ends after `end_at` and ends the job. -/
example : (see (cronLast ++ [.finish 0 good])).status c!"a" = some .finished := by decide +kernel

example : EndsAs E good (see cronLast) (see (cronLast ++ [.finish 0 good])) 0 lastOrig.counted .finished := by
  have h := C23_exhausted_partial (b := Impl.memory) (s := after cronLast) (orig := lastOrig) (job := lastOrig.counted)
    (x := good) (i := 0) lawful cronLast_reach cronLast_alive cronLast_task (.inl rfl) (.inl rfl) lastOrig_type cronLast_over
    (by rw [see_snoc]; exact cronLast_end)
  rw [see_snoc] at h
  exact h.1

example : c!"a" ∉ (see (cronLast ++ [.finish 0 good])).lists .queued := by
  have h := C23_gone_partial (b := Impl.memory) (s := after cronLast) (orig := lastOrig) (job := lastOrig.counted)
    (x := good) (i := 0) lawful cronLast_reach cronLast_alive cronLast_task lastOrig_id (.inl rfl) (.inl rfl) lastOrig_type
    cronLast_over (by rw [after_snoc]; exact cronLast_end')
  rw [see_snoc] at h
  exact h

theorem cronLast_starts :
    (see (cronLast.take 1)).inFlight.count c!"a" < (see (cronLast.take 1 ++ [.tick])).inFlight.count c!"a" := by decide +kernel

/-- C22: the tick that starts the job that ends at second 2 reads the clock in second 1. -/
example : ∃ i, (see (cronLast.take 1)).reads ≤ i ∧ clk i ≤ 2 * nsPerSec := by
  have h := C22_submitted_once_partial (b := Impl.memory) (s := after []) (s' := after (cronLast.take 1)) (k := c!"a")
    (job := cronJob c!"* * * * * *" 0 { endAt := some (2 * nsPerSec) }) (fin := 2 * nsPerSec) lawful .start .newReRun rfl rfl rfl rfl
    (by rw [after_snoc]; exact .refl) .tick (by rw [see_snoc]; exact cronLast_starts)
  obtain ⟨_, i, h1, _, h2⟩ := h
  exact ⟨i, h1, h2⟩

/-- The stored job. -/
def lastStart : Job Int := ((see (cronLast.take 1)).job c!"a").getD (job [])
theorem lastStart_job : (see (cronLast.take 1)).job c!"a" = some lastStart := by decide +kernel
theorem lastStart_type : lastStart.context.jobType = .cron c!"* * * * * *" 0 1 { endAt := some (2 * nsPerSec) } := by decide +kernel
theorem lastStart_reach : Reach (O := Unit) Impl.memory E c!"print" clk (Orderly c!"a") (after (cronLast.take 1)) :=
  (okAll.reach (by decide +kernel)).orderly lawful

example := C22_end_at_partial (b := Impl.memory) (s := after (cronLast.take 1)) (job := lastStart) lawful lastStart_reach
  lastStart_job lastStart_type (by decide +kernel) rfl .refl .tick (by rw [see_snoc]; exact cronLast_starts)
example := C22_stored_partial (b := Impl.memory) (s := after (cronLast.take 1)) (job := lastStart) lawful lastStart_reach
  lastStart_job lastStart_type rfl .tick (by rw [see_snoc]; exact cronLast_starts)

/-- A schedule that is over (for example one with a year in the past); at most one run is asked for. -/
def cronOver : List (Op Int Unit) := [.enqueue (cronJob c!"over" 0 { maxRepeat := some 1 }) .newReRun]

/-- C20 is false as stated: when the schedule has no further slot, the job is started again by every tick, at
once: three runs in a row, with the slot unchanged. -/
theorem C20_refuted : E.cron c!"over" = some (fun _ => none) ∧
    ((see (cronOver ++ round good ++ round good ++ round good)).runs c!"a").length = 3 ∧
    ((see (cronOver ++ round good ++ round good ++ round good)).job c!"a").map (·.context.jobType) =
      some (.cron c!"over" 0 1 { maxRepeat := some 1 }) :=
  ⟨rfl, by decide +kernel, by decide +kernel⟩

/-- C21 is false as stated: that job has `max_repeat = 1`, was submitted once, has no retry policy, and runs three
times. -/
theorem C21_refuted : (cronJob c!"over" 0 { maxRepeat := some 1 }).context.retry = none ∧
    ((see (cronOver ++ round good ++ round good ++ round good)).runs c!"a").length = 3 :=
  ⟨rfl, by decide +kernel⟩

/-- An every-second job that ends at second 5, with a retry after 10 seconds. -/
def cronRetry : List (Op Int Unit) :=
  [.enqueue (cronJob c!"* * * * * *" 0 { endAt := some (5 * nsPerSec) } (some (.newIntervalRetry (some 1) (10 * nsPerSec)))) .newReRun]

/-- C22 is false as stated: the first run fails at second 3, the retry is started at second 14. -/
theorem C22_refuted :
    let before := cronRetry ++ round bad ++ List.replicate 9 .tick
    (see before).inFlight = [] ∧ (see (before ++ [.tick])).inFlight = [c!"a"] ∧
    (see before).reads = 14 ∧ 5 * nsPerSec < clk 14 ∧ ∀ i, 14 ≤ i → clk 14 ≤ clk i := by
  refine ⟨by decide +kernel, by decide +kernel, by decide +kernel, by decide, fun i hi => ?_⟩
  exact Int.mul_le_mul_of_nonneg_right (by exact_mod_cast hi) (by decide)

/-- C24: an every-second job without limits whose first run fails and is retried once, after one second. The
retry succeeds and the job is Finished: no cron job, and not queued. -/
theorem C24_witness :
    let ops : List (Op Int Unit) :=
      [.enqueue (cronJob c!"* * * * * *" 0 {} (some (.newIntervalRetry (some 1) nsPerSec))) .newReRun] ++
      round bad ++ [.tick] ++ round good
    ((see (ops.take 3)).job c!"a").map (·.context.jobType) = some (.cron c!"* * * * * *" 0 1 {}) ∧
    ((see ops).job c!"a").map (fun j => (j.context.jobStatus, j.context.jobType)) =
      some (.finished, .scheduledAt (4 * nsPerSec)) ∧
    (see ops).lists .queued = [] := by decide +kernel

/-- The first run of that job, in user code, and after its failure. -/
def cronFail : List (Op Int Unit) :=
  [.enqueue (cronJob c!"* * * * * *" 0 {} (some (.newIntervalRetry (some 1) nsPerSec))) .newReRun, .tick, .start 0]
def failOrig : Job Int := ((see cronFail).job c!"a").getD (job [])
def failNext : Job Int := ((see (cronFail ++ [.finish 0 bad])).job c!"a").getD (job [])
def failEnd : Job Int := ((see (cronFail ++ [.finish 0 bad] ++ ([.tick] ++ round good))).job c!"a").getD (job [])
theorem cronFail_reach : Reach (O := Unit) Impl.memory E c!"print" clk (Orderly c!"a") (after cronFail) :=
  (okAll.reach (by decide +kernel)).orderly lawful
theorem cronFail_task : (after cronFail).tasks[0]? = some ⟨failOrig, some failOrig.counted⟩ := by decide +kernel
theorem cronFail_alive : (after cronFail).alive = true := by decide +kernel
theorem failOrig_id : failOrig.counted.id = c!"a" := by decide +kernel
theorem failOrig_retry : failOrig.counted.context.retry = some ⟨0, some 1, .interval nsPerSec⟩ := by decide +kernel
theorem failNext_alive : (after (cronFail ++ [.finish 0 bad])).alive = true := by decide +kernel
theorem failNext_job : (see (cronFail ++ [.finish 0 bad])).job c!"a" = some failNext := by decide +kernel
theorem failNext_job' : (Impl.memory.snap E c!"print" (Sys.step E c!"print" Impl.memory.B clk (after cronFail) (.finish 0 bad)).1).job c!"a" =
    some failNext := by rw [see_snoc]; exact failNext_job
theorem failEnd_later : Later (O := Unit) Impl.memory E c!"print" clk (fun v op => NoSubmit c!"a" op ∧ DefaultRetry c!"a" v op)
    (after (cronFail ++ [.finish 0 bad])) (after (cronFail ++ [.finish 0 bad] ++ ([.tick] ++ round good))) :=
  okAll.later (k := c!"a") (by decide +kernel) (by decide +kernel) (fun _ _ h h' => ⟨calm.noSubmit h', ok.dflt h⟩)
theorem failEnd_job : (see (cronFail ++ [.finish 0 bad] ++ ([.tick] ++ round good))).job c!"a" = some failEnd := by decide +kernel

example := C24_refuted (b := Impl.memory) (s := after cronFail) (s' := after (cronFail ++ [.finish 0 bad] ++ ([.tick] ++ round good)))
  (orig := failOrig) (job := failOrig.counted) (x := bad) (i := 0) (k := c!"a") (r := ⟨0, some 1, .interval nsPerSec⟩)
  (j' := failNext) (job' := failEnd) lawful cronFail_reach
  cronFail_alive cronFail_task failOrig_id rfl rfl failOrig_retry (by intro n h; cases h; decide)
  (by rw [after_snoc]; exact failNext_alive) failNext_job'
  (by rw [after_snoc]; exact failEnd_later) (by rw [see_after]; exact failEnd_job)

/-- C24: with a run that succeeds it stays a cron job. -/
example :
    ((see ([.enqueue (cronJob c!"* * * * * *" 0 {} (some (.newIntervalRetry (some 1) nsPerSec))) .newReRun] ++
      round good)).job c!"a").map (fun j => (j.context.jobStatus, j.context.jobType)) =
      some (.queued, .cron c!"* * * * * *" (5 * nsPerSec) 2 {}) := by decide +kernel

end
end AJ.Props
