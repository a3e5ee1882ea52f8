import Verif.Proofs.Drain

/-!
# Any number of waiting jobs (C91)

The theorems about endless histories of C83 to C90 bound the number of waiting jobs by 20, the size of the batch a tick looks
at, and `C31_refuted` shows that without a bound a waiting job may starve. Here is what holds for any number: a
job is started if ticks again and again leave capacity free, and once nobody submits or retries jobs any more, all jobs come
to an end.
-/

namespace AJ.Props

section
variable {D O : Type} {E : Env D} {name : Str} {clk : Nat → Time} {b : Impl} {k : Str} {s : Sys D b.B} {ops : Nat → Op D O}

/-- C31 for any number of waiting jobs, if ticks again and again leave capacity free: a job that is queued and becomes due is
started, whatever else happens, unless it is cancelled or submitted again. -/
theorem C91_started (L : E.Lawful) (hs : Reach (O := O) b E name clk (Orderly k) s)
    (he : ∀ n, NoSubmit k (ops n)) (hc : ∀ n, ops n ≠ .cancel k)
    (hticks : ∀ m, ∃ n, m ≤ n ∧ ops n = .tick ∧ (b.snap E name (Sys.after E name b.B clk s ops (n + 1))).Slack)
    {job : Job D} (hj : (b.snap E name s).job k = some job) (hq : job.context.jobStatus = .queued)
    (hdue : ∃ i, ∀ i', i ≤ i' → job.Due (clk i')) :
    ∃ n, k ∈ (b.snap E name (Sys.after E name b.B clk s ops n)).inFlight := by
  by_contra hcon
  have hno : ∀ n, (b.snap E name (Sys.after E name b.B clk s ops n)).own k = [] := by
    intro n
    by_contra hne
    refine hcon ⟨n, ?_⟩
    obtain ⟨t, ht⟩ := List.exists_mem_of_ne_nil _ hne
    obtain ⟨h1, h2⟩ := List.mem_filter.mp ht
    exact List.mem_map.mpr ⟨t, h1, by simpa using h2⟩
  have hreach : ∀ n, Reach (O := O) b E name clk (Orderly k) (Sys.after E name b.B clk s ops n) := by
    intro n
    induction n with
    | zero => exact hs
    | succ n ih => exact .step (ops n) ih (NoSubmit.orderly (he n))
  have hjob : ∀ n, (b.snap E name (Sys.after E name b.B clk s ops n)).job k = some job := by
    intro n
    induction n with
    | zero => exact hj
    | succ n ih => exact wait_keeps L ((hreach n).inHand L) (ops n) (he n) (hc n) ih hq (hno (n + 1)) |>.1
  exact slack_starts L (n := 0) (fun m _ => (hreach m).inHand L) (fun m _ => ⟨hjob m, hno m⟩) hq hticks hdue

/-- C91: when nobody submits or retries jobs any more, executions come to an end, ticks never cease and there is capacity for a
job, then any number of waiting jobs that are no cron jobs and have a bounded number of retries all come to an end: from some point
on no job waits or executes, every job there was is Finished, Failed or Cancelled, and Finished or Failed if it was never
cancelled. -/
theorem C91_drains (L : E.Lawful) (hs : Reach (O := O) b E name clk (Careful E) s) (H : Sys.Closes b E name clk s ops)
    (hclk : Elapses clk)
    (hB : ∀ k job, (b.snap E name s).job k = some job → job.context.jobStatus = .queued ∨ job.context.jobStatus = .running →
      NonCron job ∧ (∀ r, job.context.retry = some r → IsI32 r.retriedTimes ∧ ∃ n, r.maxRetries = some n ∧ IsI32 n) ∧
      ((∀ n, DefaultRetry k (b.snap E name (Sys.after E name b.B clk s ops n)) (ops n)) ∨ job.context.retry = none)) :
    ∃ N, ∀ n, N ≤ n →
      let v := b.snap E name (Sys.after E name b.B clk s ops n)
      v.lists .queued = [] ∧ v.lists .running = [] ∧ v.tasks = [] ∧
      ∀ k, (b.snap E name s).status k ≠ none → (v.Ended k ∨ v.status k = some .canceled) ∧
        ((b.snap E name s).status k ≠ some .canceled → (∀ m, ops m ≠ .cancel k) → v.Ended k) := by
  obtain ⟨N, h⟩ := H.rests L hs hclk fun k job hj hst =>
    ⟨(hB k job hj hst).1, (hB k job hj hst).2.1, (hB k job hj hst).2.2.imp (fun h n => (h n).mild) id⟩
  refine ⟨N, fun n hn => ?_⟩
  obtain ⟨h1, h2, h3, h4⟩ := h n hn
  refine ⟨h1, h2, h3, fun k hk => ?_⟩
  obtain ⟨⟨g1, g2⟩, g3, g4⟩ := h4 k
  have g3 := g3 hk
  have key : ∀ v : Snap D, v.status k ≠ some .queued → v.status k ≠ some .running → v.status k ≠ none → v.Ended k ∨ v.status k = some .canceled := by
    intro v
    unfold Snap.Ended
    rcases v.status k with _ | _ | _ | _ | _ | _ <;> simp
  have g5 := key _ g1 g2 g3
  exact ⟨g5, fun h5 h6 => g5.resolve_right (g4 ⟨h6, h5⟩)⟩

end

/-! ## Forty-one jobs -/

section
open Demo
variable {b : Impl}

theorem crowd_reach : Reach (O := Unit) Impl.memory E c!"print" clk (Careful E) (after crowd) := fine.reach (by decide +kernel)

theorem crowd_worker : WorkerOf 41 Impl.memory 0 (after crowd) :=
  ⟨fit_reach crowd_reach, by decide +kernel, by decide +kernel, .inl ⟨by decide +kernel, by decide +kernel, by decide +kernel⟩⟩

theorem crowd_closes : Sys.Closes Impl.memory E c!"print" clk (after crowd) works where
  submit n j c := (by unfold works; split <;> exact fun h => nomatch h)
  retry n id := (works_calm id n).2.2
  careful := works_careful crowd_worker
  room := ⟨fun n id _ => works_ends crowd_worker n id, works_ticks crowd_worker, fun n _ => Nat.le_of_eq (worker_after crowd_worker n).2.2.1.symm⟩
  small := by
    show ((see crowd).lists .queued).length + (see crowd).inFlight.length < 2 ^ 31
    decide +kernel

/-- What waits are plain jobs without retries. -/
theorem crowd_plain (k : Str) (job : Job Int) (h : (see crowd).job k = some job)
    (hst : job.context.jobStatus = .queued ∨ job.context.jobStatus = .running) : job.context.jobType = .normal ∧ job.context.retry = none := by
  have hall : ∀ id ∈ (see crowd).lists .queued ++ (see crowd).lists .running,
      ((see crowd).job id).map (fun j => (j.context.jobType, j.context.retry)) = some (.normal, none) := by decide +kernel
  have hso : Solo k (see crowd) := (((crowd_reach.mono fun _ _ h => h.of k).orderly lawful).inHand lawful).solo h
  have hst' : (see crowd).status k = some .queued ∨ (see crowd).status k = some .running := by
    unfold Snap.status
    rw [h]
    exact hst.imp (fun e => by rw [Option.map_some, e]) (fun e => by rw [Option.map_some, e])
  have hin : k ∈ (see crowd).lists .queued ++ (see crowd).lists .running := by
    rcases hst' with e | e
    · have := hso.queued
      rw [if_pos e] at this
      exact List.mem_append_left _ (List.count_pos_iff.1 (by omega))
    · have := hso.running
      rw [if_pos e] at this
      exact List.mem_append_right _ (List.count_pos_iff.1 (by omega))
  have := hall k hin
  rw [h] at this
  cases job with
  | mk c d =>
    simp only [Option.map_some, Option.some.injEq, Prod.mk.injEq] at this
    exact this

theorem crowd_drains : ∃ N, ∀ n, N ≤ n →
    let v := Impl.memory.snap E c!"print" (Sys.after E c!"print" InMem clk (after crowd) works n)
    v.lists .queued = [] ∧ v.lists .running = [] ∧ v.tasks = [] ∧
    ∀ k, (see crowd).status k ≠ none → (v.Ended k ∨ v.status k = some .canceled) ∧
      ((see crowd).status k ≠ some .canceled → (∀ m, works m ≠ .cancel k) → v.Ended k) :=
  C91_drains (b := Impl.memory) lawful crowd_reach crowd_closes clk_passes fun k job hj hst =>
    have h := crowd_plain k job hj hst
    ⟨(fun e n m c hc => by rw [h.1] at hc; cases hc), (fun r hr => by rw [h.2] at hr; cases hr), .inr h.2⟩

/-- `C91_drains` applies: the 41 jobs of `C31_refuted`, of which `x` is never started as long as others keep being submitted, all end when
nobody submits any more. -/
example : ((see crowd).lists .queued).length = 41 ∧
    ∃ n, (Impl.memory.snap E c!"print" (Sys.after E c!"print" InMem clk (after crowd) works n)).Ended c!"x" := by
  obtain ⟨N, h⟩ := crowd_drains
  exact ⟨by decide +kernel, N, ((h N (Nat.le_refl _)).2.2.2 c!"x" (by decide +kernel)).2 (by decide +kernel) fun m => (works_calm _ m).2.1⟩

/-- Ticks leave capacity free again and again. -/
theorem crowd_slack (m : Nat) : ∃ n, m ≤ n ∧ works n = .tick ∧
    (Impl.memory.snap E c!"print" (Sys.after E c!"print" Impl.memory.B clk (after crowd) works (n + 1))).Slack := by
  obtain ⟨N, h⟩ := crowd_drains
  obtain ⟨n, h1, h2, -⟩ := works_ticks crowd_worker (N + m)
  obtain ⟨g1, g2, -, -⟩ := h (n + 1) (by omega)
  change (Impl.memory.snap E c!"print" (Sys.after E c!"print" Impl.memory.B clk (after crowd) works (n + 1))).lists .queued = [] at g1
  change (Impl.memory.snap E c!"print" (Sys.after E c!"print" Impl.memory.B clk (after crowd) works (n + 1))).lists .running = [] at g2
  refine ⟨n, by omega, h2, (worker_after crowd_worker (n + 1)).2.1, ?_, ?_⟩
  · unfold Snap.free
    rw [g2]
    exact Nat.le_of_eq (worker_after crowd_worker (n + 1)).2.2.1.symm
  · rw [g1, g2]; decide

theorem crowd_fair : Sys.Fair Impl.memory E c!"print" clk (after crowd) works where
  careful := works_careful crowd_worker
  ends n id _ := works_ends crowd_worker n id
  ticks := works_ticks crowd_worker
  capacity n _ := Nat.le_of_eq (worker_after crowd_worker n).2.2.1.symm
  short := .inr crowd_slack

/-- `C83_fair` applies with more than 20 waiting jobs. -/
example : ∃ n, (Impl.memory.snap E c!"print" (Sys.after E c!"print" InMem clk (after crowd) works n)).Ended c!"x" := by
  obtain ⟨j, hj, hq⟩ : ∃ j, (see crowd).job c!"x" = some j ∧ j.context.jobStatus = .queued :=
    ⟨((see crowd).job c!"x").getD (job []), by decide +kernel, by decide +kernel⟩
  have h := crowd_plain _ j hj (.inl hq)
  refine C83_fair (b := Impl.memory) lawful crowd_reach crowd_fair clk_passes (fun n => (works_calm _ n).1) (fun n => (works_calm _ n).2.1) hj
    (fun e n m c hc => ?_) (by rw [hq]; decide) (fun r hr => ?_) (.inr h.2)
  · rw [h.1] at hc; cases hc
  · rw [h.2] at hr; cases hr

/-- `C91_started` applies. -/
example : ∃ n, c!"x" ∈ (Impl.memory.snap E c!"print" (Sys.after E c!"print" InMem clk (after crowd) works n)).inFlight := by
  obtain ⟨j, hj, hq⟩ : ∃ j, (see crowd).job c!"x" = some j ∧ j.context.jobStatus = .queued :=
    ⟨((see crowd).job c!"x").getD (job []), by decide +kernel, by decide +kernel⟩
  refine C91_started (b := Impl.memory) lawful ((crowd_reach.mono fun _ _ h => h.of c!"x").orderly lawful) (fun n => (works_calm _ n).1)
    (fun n => (works_calm _ n).2.1) crowd_slack hj hq ⟨0, fun i' _ => ?_⟩
  unfold Job.Due
  rw [(crowd_plain _ j hj (.inl hq)).1]
  trivial

end
end AJ.Props
