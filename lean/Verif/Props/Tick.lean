import Verif.Proofs.TickFacts
import Verif.Props.Demo

/-!
# One tick (C19, C27-C30)

These hold in every state of a backend that AJ can be in (`Good`), whatever it contains, provided stored
jobs carry the id they are stored under (`Keyed`); `reachable_good_keyed` shows that every history leads to
such states.
-/

namespace AJ.Props

section
variable {D O : Type} {E : Env D} {name : Str} {clk : Nat → Time} {b : Impl}

/-- The hypotheses used below hold after every history, whatever callers and user code do. -/
theorem reachable_good_keyed (L : E.Lawful) {P : Snap D → Op D O → Prop} {s : Sys D b.B}
    (hs : Reach b E name clk P s) : b.Good s.w.s ∧ (b.snap E name s).Keyed :=
  ⟨hs.good, reach_keyed L hs⟩

/-- C27: a tick starts at most the free capacity, each job at most once; each job started was in the
queued list, stored and due when it was examined; it is now stored as Running with `run_at` set to the time,
it is in the running list, and it is no longer in the queued list if it was there once. Missing for C27 as
stated: ids that are in the queued list more than once (`C27_refuted`). -/
theorem C27_tick_partial (L : E.Lawful) (s : Sys D b.B) (hg : b.Good s.w.s) (hk : (b.snap E name s).Keyed)
    (ha : s.alive = true) :
    let v := b.snap E name s
    let v' := b.snap E name (Sys.step E name b.B clk s (.tick : Op D O)).1
    v'.alive = true → ∃ started : List (Job D),
      v'.tasks = v.tasks ++ started.map (fun j => ⟨j, none⟩) ∧
      started.length ≤ v.cfg.maxProcessingJobs - (v.lists .running).length ∧
      (started.map Job.id).Nodup ∧
      v'.lists .running = (started.map Job.id).reverse ++ v.lists .running ∧
      ∀ j ∈ started, j.id ∈ v.lists .queued ∧
        ((v.lists .queued).count j.id = 1 → j.id ∉ v'.lists .queued) ∧
        v'.job j.id = some j ∧
        ∃ i job, v.reads ≤ i ∧ i + 1 < v'.reads ∧ v.job j.id = some job ∧ job.Due (clk i) ∧
          j = { job with context := { job.context with
            jobStatus := .running, runAt := some (clk (i + 1) / 1000000) } } := by
  intro v v' ha'
  rcases tick_facts_any (O := O) (clk := clk) b L s hg hk ha with ⟨st, h, _⟩ | ⟨h, _⟩
  · refine ⟨st, h.ticked.tasks, h.ticked.capacity, h.ticked.once, h.ticked.running, fun j hj => ?_⟩
    obtain ⟨h1, h2⟩ := h.ticked.each j hj
    have hm : j.id ∈ st.map Job.id := List.mem_map_of_mem hj
    refine ⟨h.ticked.queued.mem_iff.mp (List.mem_append_right _ hm), fun hc hin => ?_, h1, h2⟩
    have hcount := h.ticked.queued.count_eq j.id
    rw [List.count_append] at hcount
    have h3 : 0 < (v'.lists .queued).count j.id := List.count_pos_iff.mpr hin
    have h4 : 0 < (st.map Job.id).count j.id := List.count_pos_iff.mpr hm
    have h5 : (v.lists .queued).count j.id = 1 := hc
    have h6 : (v'.lists .queued).count j.id + (st.map Job.id).count j.id = (v.lists .queued).count j.id := hcount
    omega
  · have : v'.alive = false := by show (b.snap E name _).alive = false; rw [h]
    rw [this] at ha'; cases ha'

/-- C28: a tick loses and duplicates nothing: queued and running ids together are the same multiset as
before; the other lists, the configuration and all stored jobs that were not started are unchanged. -/
theorem C28_tick_conserves (L : E.Lawful) (s : Sys D b.B) (hg : b.Good s.w.s) (hk : (b.snap E name s).Keyed) :
    let v := b.snap E name s
    let v' := b.snap E name (Sys.step E name b.B clk s (.tick : Op D O)).1
    (v'.lists .queued ++ v'.lists .running).Perm (v.lists .queued ++ v.lists .running) ∧
    (∀ st : JobStatus, st ≠ .queued → st ≠ .running → v'.lists st = v.lists st) ∧
    v'.cfg = v.cfg ∧
    ∀ id, (v'.lists .running).count id = (v.lists .running).count id → v'.job id = v.job id := by
  intro v v'
  by_cases ha : s.alive = true
  · rcases tick_facts_any (O := O) (clk := clk) b L s hg hk ha with ⟨st, h, _⟩ | ⟨h, _⟩
    · refine ⟨?_, h.ticked.lists, h.ticked.cfg, fun id hid => h.ticked.jobs id fun hm => ?_⟩
      · rw [show v'.lists .running = _ from h.ticked.running, ← List.append_assoc]
        refine List.Perm.append ?_ (List.Perm.refl _)
        exact (List.Perm.append_left _ (List.reverse_perm _)).trans h.ticked.queued
      · rw [show v'.lists .running = _ from h.ticked.running, List.count_append, List.count_reverse] at hid
        have h1 : 0 < (st.map Job.id).count id := List.count_pos_iff.mpr hm
        have h2 : (st.map Job.id).count id + (v.lists .running).count id = (v.lists .running).count id := hid
        omega
    · have e : v' = { v with tasks := [], alive := false } := h
      rw [e]
      exact ⟨List.Perm.refl _, fun _ _ _ => rfl, rfl, fun _ _ => rfl⟩
  · have e : v' = v := by
      show b.snap E name (Sys.step E name b.B clk s .tick).1 = b.snap E name s
      have : s.alive = false := by simpa using ha
      simp [Sys.step, this]
    rw [e]
    exact ⟨List.Perm.refl _, fun _ _ _ => rfl, rfl, fun _ _ => rfl⟩

private theorem pickJobs_mono (cfg : WorkQueueConfig) {B : Backend} (w : World B) (fuel n : Nat)
    (h : ((WorkQueue.pickJobsToProcess E name fuel cfg).run B clk w).1 ≠ .diverged) :
    (WorkQueue.pickJobsToProcess E name (fuel + n) cfg).run B clk w =
      (WorkQueue.pickJobsToProcess E name fuel cfg).run B clk w := by
  have key : ∀ (m : Nat) (w1 : World B),
      ((if m ≥ cfg.maxProcessingJobs then (pure [] : Prog (List (Job D)))
        else WorkQueue.tryPickSpecificReadyJobs E name fuel (cfg.maxProcessingJobs - m)).run B clk w1).1 ≠ .diverged →
      (if m ≥ cfg.maxProcessingJobs then (pure [] : Prog (List (Job D)))
        else WorkQueue.tryPickSpecificReadyJobs E name (fuel + n) (cfg.maxProcessingJobs - m)).run B clk w1 =
      (if m ≥ cfg.maxProcessingJobs then (pure [] : Prog (List (Job D)))
        else WorkQueue.tryPickSpecificReadyJobs E name fuel (cfg.maxProcessingJobs - m)).run B clk w1 := by
    intro m w1 h
    split
    · rfl
    · next hm =>
      rw [if_neg hm] at h
      unfold WorkQueue.tryPickSpecificReadyJobs at h ⊢
      simp only [Prog.bind_eq, Prog.run_bind] at h ⊢
      generalize (Prog.orFail (Prog.queueCount (formatQueueName name .queued))).run B clk w1 = p2 at h ⊢
      rcases p2 with ⟨(r | e | _ | _), w2⟩
      · simp only [Prog.contRun_ok] at h ⊢
        exact WorkQueue.pickLoop_mono E name clk _ _ _ _ _ _ h n
      all_goals rfl
  unfold WorkQueue.pickJobsToProcess at h ⊢
  simp only [Prog.bind_eq, Prog.run_bind] at h ⊢
  generalize (Prog.queueCount (formatQueueName name .running)).run B clk w = p1 at h ⊢
  rcases p1 with ⟨(r | e | _ | _), w1⟩
  · cases r with
    | ok m => exact key m w1 h
    | error e => exact key 0 w1 h
  all_goals rfl

/-- C29: a tick ends. The scan of the queued list, which loops until a condition on a cursor holds
(`queue.rs:261-309`), never takes more rounds than there are queued entries plus one; so granting it more
rounds changes nothing. The actor survives the tick, except in a build with overflow checks and at least
`2 ^ 31` queued entries. -/
theorem C29_tick_terminates (s : Sys D b.B) (hg : b.Good s.w.s) (cfg : WorkQueueConfig) (rounds : Nat)
    (hr : ((b.snap E name s).lists .queued).length < rounds) :
    ((WorkQueue.pickJobsToProcess E name rounds cfg).run b.B clk s.w).1 ≠ .diverged ∧
    (∀ more, (WorkQueue.pickJobsToProcess E name (rounds + more) cfg).run b.B clk s.w =
      (WorkQueue.pickJobsToProcess E name rounds cfg).run b.B clk s.w) ∧
    (((WorkQueue.pickJobsToProcess E name rounds cfg).run b.B clk s.w).1 = .panicked →
      E.overflowChecks = true ∧ 2 ^ 31 ≤ ((b.snap E name s).lists .queued).length) := by
  obtain ⟨t, hr'⟩ := Impl.rs_of_good hg
  rw [Impl.snap_eq hr'] at hr ⊢
  have hrun := b.sim.run clk (WorkQueue.pickJobsToProcess E name rounds cfg)
    ((WorkQueue.aj_pickJobs E name rounds cfg).mono (b.okAj name)) s.w t.w hr'.w
  have hd : ((WorkQueue.pickJobsToProcess E name rounds cfg).run b.B clk s.w).1 ≠ .diverged := by
    rw [hrun.1]
    rcases WorkQueue.run_pickJobs E name clk rounds cfg t.w hr with ⟨k, h, _⟩ | ⟨h, _⟩ <;> rw [h] <;> simp
  refine ⟨hd, fun more => pickJobs_mono cfg s.w rounds more hd, fun hp => ?_⟩
  rw [hrun.1] at hp
  rcases WorkQueue.run_pickJobs E name clk rounds cfg t.w hr with ⟨k, h, _⟩ | ⟨h, h1, h2⟩
  · rw [h] at hp; cases hp
  · refine ⟨h1, ?_⟩
    show 2 ^ 31 ≤ (W.lst name t.w .queued).length
    by_contra hc
    rw [WorkQueue.wrapI32_of_fits (by omega) (by omega)] at h2
    omega

/-- C19: a tick uses its capacity: it starts as many jobs as there is free capacity, or every job in the
queued list that is stored and due whenever it is looked at during the tick. -/
theorem C19_work_conserving (L : E.Lawful) (s : Sys D b.B) (hg : b.Good s.w.s) (hk : (b.snap E name s).Keyed)
    (ha : s.alive = true) (hlen : ((b.snap E name s).lists .queued).length < 2 ^ 31) :
    let v := b.snap E name s
    let v' := b.snap E name (Sys.step E name b.B clk s (.tick : Op D O)).1
    ∃ started : List (Job D), v'.tasks = v.tasks ++ started.map (fun j => ⟨j, none⟩) ∧
      (started.length = v.cfg.maxProcessingJobs - (v.lists .running).length ∨
        ∀ id ∈ v.lists .queued, ∀ job, v.job id = some job →
          (∀ i, v.reads ≤ i → i < v'.reads → job.Due (clk i)) → id ∈ started.map Job.id) := by
  intro v v'
  rcases tick_facts_any (O := O) (clk := clk) b L s hg hk ha with ⟨st, h, _⟩ | ⟨_, _, h⟩
  · exact ⟨st, h.ticked.tasks, h.all hlen⟩
  · omega

/-- C30, for queues of at most 20 entries: a tick starts jobs in queue order; jobs that stay queued keep
their order; and a job is only started before an older one if the older one is not stored or is not due all
the time during the tick. Missing for C30 as stated: queues of more than 20 entries, for which the claim is
false (`C30_refuted`). -/
theorem C30_fifo_partial (L : E.Lawful) (s : Sys D b.B) (hg : b.Good s.w.s) (hk : (b.snap E name s).Keyed)
    (ha : s.alive = true) (hlen : ((b.snap E name s).lists .queued).length ≤ 20) :
    let v := b.snap E name s
    let v' := b.snap E name (Sys.step E name b.B clk s (.tick : Op D O)).1
    ∃ started : List (Job D), v'.tasks = v.tasks ++ started.map (fun j => ⟨j, none⟩) ∧
      (started.map Job.id).Sublist (v.lists .queued).reverse ∧
      (v'.lists .queued).Sublist (v.lists .queued) ∧
      ∀ older x newer y, (v.lists .queued).reverse = older ++ x :: newer → y ∈ newer → y ∉ older → y ≠ x →
        y ∈ started.map Job.id → ∀ job, v.job x = some job →
        (∀ i, v.reads ≤ i → i < v'.reads → job.Due (clk i)) → x ∈ started.map Job.id := by
  intro v v'
  rcases tick_facts_any (O := O) (clk := clk) b L s hg hk ha with ⟨st, h, _⟩ | ⟨_, _, h⟩
  · obtain ⟨h1, h2, h3⟩ := h.fifo hlen
    exact ⟨st, h.ticked.tasks, h1, List.reverse_sublist.mp h2, h3⟩
  · omega

end

section
open Demo

/-- Three submitted jobs, the second of them scheduled for second 100, and capacity 2. -/
def three : List (Op Int Unit) :=
  [.config { maxProcessingJobs := 2 },
   .enqueue (job c!"a") .newReRun,
   .enqueue ⟨{ JobContext.new c!"b" 0 with jobType := .scheduledAt (100 * nsPerSec) }, 2⟩ .newReRun,
   .enqueue (job c!"c") .newReRun]

example : Impl.memory.Good (after three).w.s := ⟨_, rfl⟩

/-- A tick starts `a` and `c`, in this order, and leaves `b`. -/
example : (see three).lists .queued = [c!"c", c!"b", c!"a"] ∧
    (see (three ++ [.tick])).inFlight = [c!"a", c!"c"] ∧
    (see (three ++ [.tick])).lists .queued = [c!"b"] ∧
    (see (three ++ [.tick])).alive = true := by decide +kernel

/-- Twenty-one jobs. -/
def twentyOne : List (Op Int Unit) :=
  .config { maxProcessingJobs := 1 } ::
    (List.range 21).map fun i => .enqueue (job [Char.ofNat (97 + i)]) .newReRun

/-- C30 is false as stated: with 21 queued jobs `a` to `u` and capacity 1, the job started after `a` is
`u`, the youngest, while `b` to `t` are still queued and have been ready all the time: a tick rotates
the rest of its batch of 20 to the end of the queue. -/
theorem C30_refuted :
    let v := see (twentyOne ++ [.tick, .start 0, .finish 0 good, .tick])
    (see twentyOne).fifo = (List.range 21).map (fun i => [Char.ofNat (97 + i)]) ∧
    v.inFlight = [c!"u"] ∧ (v.runs c!"a").length = 1 ∧ v.status c!"b" = some .queued ∧
    (v.job c!"b").map (·.context.jobType) = some .normal := by decide +kernel

end
end AJ.Props
