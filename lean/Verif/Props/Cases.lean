import Verif.Props.Ops
import Verif.Props.Tick
import Verif.Props.Life
import Verif.Props.Once
import Verif.Props.Crash
import Verif.Props.Fault
import Verif.Props.Many
import Verif.Props.Record
import Verif.Props.Plugin
import Verif.Props.Registry
import Verif.Props.Async
import Verif.Props.Fire
import Verif.Props.Weave
import Verif.Props.Runtime

/-!
# Theorems applied to concrete histories

Most examples stand beside the theorems. Here theorems whose examples show their hypotheses and their conclusions one by one are
applied to the histories of those examples, on any backend, and what they say there is read off.
-/

namespace AJ.Props
open _root_.AJ.Demo _root_.AJ.Props.Demo

section
variable (b : Impl)

/-- What every history that is careful with one job offers to the theorems about one turn. -/
private theorem ready {k : Str} {ops : List (Op Int Unit)} (h : okAll k ops = true) (ha : (see ops).alive = true) :
    Reach (O := Unit) b E c!"print" clk (Orderly k) (on b ops) ∧ b.Good (on b ops).w.s ∧
    (b.snap E c!"print" (on b ops)).Keyed ∧ (on b ops).alive = true := by
  have hr := (okAll.on h b).orderly lawful
  refine ⟨hr, hr.good, reach_keyed lawful hr, ?_⟩
  show (b.snap E c!"print" (on b ops)).alive = true
  rw [see_on]; exact ha

/-- The view after one more turn. -/
private theorem next (ops : List (Op Int Unit)) (op : Op Int Unit) :
    b.snap E c!"print" (Sys.step E c!"print" b.B clk (on b ops) op).1 = see (ops ++ [op]) := by
  rw [← on_snoc, see_on]

/-- C19: three jobs wait, one of them for second 100, and the capacity is 2: a tick starts two jobs or all that were due. -/
example : ∃ started : List (Job Int), (see (three ++ [.tick])).tasks = (see three).tasks ++ started.map (fun j => ⟨j, none⟩) ∧
    started.length = 2 := by
  obtain ⟨_, hg, hk, ha⟩ := ready b (k := c!"a") (ops := three) (by decide +kernel) (by decide +kernel)
  obtain ⟨st, h1, h2⟩ := C19_work_conserving (O := Unit) (clk := clk) lawful (on b three) hg hk ha (by rw [see_on]; decide +kernel)
  rw [next, see_on] at h1
  refine ⟨st, h1, ?_⟩
  have hl := congrArg List.length h1
  have e : (see (three ++ [.tick])).tasks.length = 2 ∧ (see three).tasks.length = 0 := by decide +kernel
  simp only [List.length_append, List.length_map] at hl
  omega

/-- C27: what the tick started was queued, is Running now, and its id is in the running list. -/
example : ∃ started : List (Job Int), (see (three ++ [.tick])).tasks = (see three).tasks ++ started.map (fun j => ⟨j, none⟩) ∧
    (see (three ++ [.tick])).lists .running = (started.map Job.id).reverse ++ (see three).lists .running ∧
    ∀ j ∈ started, j.id ∈ (see three).lists .queued ∧ (see (three ++ [.tick])).job j.id = some j := by
  obtain ⟨_, hg, hk, ha⟩ := ready b (k := c!"a") (ops := three) (by decide +kernel) (by decide +kernel)
  obtain ⟨st, h1, _, _, h2, h3⟩ := C27_tick_partial (O := Unit) (clk := clk) lawful (on b three) hg hk ha (by rw [next]; decide +kernel)
  rw [next, see_on] at h1 h2 h3
  exact ⟨st, h1, h2, fun j hj => ⟨(h3 j hj).1, (h3 j hj).2.2.1⟩⟩

/-- C28: and the tick lost no entry. -/
example : ((see (three ++ [.tick])).lists .queued ++ (see (three ++ [.tick])).lists .running).Perm [c!"c", c!"b", c!"a"] ∧
    (see (three ++ [.tick])).job c!"b" = (see three).job c!"b" := by
  obtain ⟨_, hg, hk, _⟩ := ready b (k := c!"a") (ops := three) (by decide +kernel) (by decide +kernel)
  have h := C28_tick_conserves (O := Unit) (clk := clk) lawful (on b three) hg hk
  simp only [next, see_on] at h
  refine ⟨?_, h.2.2.2 _ (by decide +kernel)⟩
  have e : (see three).lists .queued ++ (see three).lists .running = [c!"c", c!"b", c!"a"] := by decide +kernel
  rw [← e]; exact h.1

/-- C29: four rounds are enough for three queued jobs, and more of them change nothing. -/
example (more : Nat) : ((WorkQueue.pickJobsToProcess E c!"print" 4 (on b three).cfg).run b.B clk (on b three).w).1 ≠ .diverged ∧
    (WorkQueue.pickJobsToProcess E c!"print" (4 + more) (on b three).cfg).run b.B clk (on b three).w =
      (WorkQueue.pickJobsToProcess E c!"print" 4 (on b three).cfg).run b.B clk (on b three).w := by
  obtain ⟨_, hg, _, _⟩ := ready b (k := c!"a") (ops := three) (by decide +kernel) (by decide +kernel)
  have h := C29_tick_terminates (E := E) (name := c!"print") (clk := clk) (on b three) hg (on b three).cfg 4 (by rw [see_on]; decide +kernel)
  exact ⟨h.1, h.2.1 more⟩

/-- C30: the jobs were started in the order they were submitted in. -/
example : ∃ started : List (Job Int), (see (three ++ [.tick])).tasks = (see three).tasks ++ started.map (fun j => ⟨j, none⟩) ∧
    (started.map Job.id).Sublist [c!"a", c!"b", c!"c"] := by
  obtain ⟨_, hg, hk, ha⟩ := ready b (k := c!"a") (ops := three) (by decide +kernel) (by decide +kernel)
  obtain ⟨st, h1, h2, _⟩ := C30_fifo_partial (O := Unit) (clk := clk) lawful (on b three) hg hk ha (by rw [see_on]; decide +kernel)
  rw [next, see_on] at h1
  rw [see_on] at h2
  exact ⟨st, h1, h2⟩

/-- C33: the waiting job `c` is cancelled; cancelling the running job `b` changes nothing. -/
example : (see (threeJobs ++ [.cancel c!"c"])).lists .queued = [] ∧ see (threeJobs ++ [.cancel c!"b"]) = see threeJobs := by
  obtain ⟨_, hg, hk, ha⟩ := ready b (k := c!"a") (ops := threeJobs) (by decide +kernel) (by decide +kernel)
  have h1 := C33_cancel_partial (O := Unit) (clk := clk) (k := c!"c") lawful (on b threeJobs) hg hk ha
  have h2 := C33_cancel_partial (O := Unit) (clk := clk) (k := c!"b") lawful (on b threeJobs) hg hk ha
  simp only [next, see_on] at h1 h2
  obtain ⟨j, hj, hs⟩ : ∃ j ∈ (see threeJobs).job c!"c", j.context.jobStatus = .queued := by decide +kernel
  refine ⟨?_, h2.2.2.1 (by decide +kernel)⟩
  rw [(h1.2.1 j hj hs).2.2.1]
  decide +kernel

/-- C34: the finished job `a` can be retried, the running job `b` and the waiting job `c` cannot. -/
example : (Sys.step E c!"print" b.B clk (on b threeJobs) (.retry c!"a" : Op Int Unit)).2 = .bool (.ok true) ∧
    (Sys.step E c!"print" b.B clk (on b threeJobs) (.retry c!"b" : Op Int Unit)).2 = .bool (.ok false) := by
  obtain ⟨_, hg, hk, ha⟩ := ready b (k := c!"a") (ops := threeJobs) (by decide +kernel) (by decide +kernel)
  obtain ⟨x, h1, h2⟩ := C34_retry_answer (O := Unit) (clk := clk) (k := c!"a") lawful (on b threeJobs) hg hk ha
  obtain ⟨y, h3, h4⟩ := C34_retry_answer (O := Unit) (clk := clk) (k := c!"b") lawful (on b threeJobs) hg hk ha
  rw [see_on] at h2 h4
  have e1 : ∃ j, (see threeJobs).job c!"a" = some j ∧ j.context.jobStatus.Done := ⟨copyA, by decide +kernel, by decide +kernel⟩
  have e2 : ¬∃ j, (see threeJobs).job c!"b" = some j ∧ j.context.jobStatus.Done := by
    rintro ⟨j, hj, hd⟩
    have : (see threeJobs).status c!"b" = some .running := by decide +kernel
    rw [Snap.status, hj] at this
    simp only [Option.map_some, Option.some.injEq] at this
    rw [this] at hd
    revert hd; decide
  rw [h1, h3, h2.mpr e1, Bool.eq_false_iff.mpr (mt h4.mp e2)]
  exact ⟨rfl, rfl⟩

/-- C34: after the manual retry, `a` is queued once and no longer in the finished list. -/
example : (see (threeJobs ++ [.retry c!"a"])).lists .queued = [c!"a", c!"c"] ∧
    c!"a" ∉ (see (threeJobs ++ [.retry c!"a"])).lists .finished := by
  obtain ⟨hr, _, _, ha⟩ := ready b (k := c!"a") (ops := threeJobs) (by decide +kernel) (by decide +kernel)
  have h := C34_manual_retry (O := Unit) (clk := clk) (k := c!"a") lawful (on b threeJobs) hr ha
  simp only [next, see_on] at h
  have h1 := h.1 copyA (by decide +kernel) (by decide +kernel)
  have e : copyA.context.jobStatus = .finished ∧ (see threeJobs).lists .queued = [c!"c"] := by decide +kernel
  rw [e.1, e.2] at h1
  exact ⟨h1.2.1, h1.2.2.2.1⟩

/-- C36: `a` is done and submitted again, with a new number: it is queued, once more. -/
example : (see (threeJobs ++ [.enqueue (job c!"a" 9) .newReRun])).lists .queued = [c!"a", c!"c"] ∧
    ((see (threeJobs ++ [.enqueue (job c!"a" 9) .newReRun])).job c!"a").map (·.data) = some 9 := by
  obtain ⟨_, hg, _, ha⟩ := ready b (k := c!"a") (ops := threeJobs) (by decide +kernel) (by decide +kernel)
  have h := C36_resubmission_partial (O := Unit) (clk := clk) lawful (on b threeJobs) hg ha (job c!"a" 9) copyA .newReRun
    (by rw [see_on]; decide +kernel)
  simp only [next, see_on] at h
  have e : copyA.context.jobStatus.Done ∧ (see threeJobs).lists .queued = [c!"c"] := by decide +kernel
  rw [if_pos ⟨rfl, e.1⟩, e.2] at h
  refine ⟨h.2.2.2.2.1, ?_⟩
  have h1 : (see (threeJobs ++ [.enqueue (job c!"a" 9) .newReRun])).job c!"a" = _ := h.2.2.2.2.2.1 ⟨rfl, e.1⟩ (by decide +kernel)
  rw [h1]
  rfl

/-- A check that a turn is careful with all jobs. -/
private def okEvery (v : Snap Int) : Op Int Unit → Bool
  | .enqueue j c => ok j.id v (.enqueue j c)
  | .finish i x => ok [] v (.finish i x)
  | _ => true

private theorem okEvery.careful {v : Snap Int} {op : Op Int Unit} (h : okEvery v op = true) (k : Str) : CarefulFor E k v op := by
  apply ok.careful
  cases op with
  | enqueue j c =>
    by_cases e : j.id = k
    · subst e; exact h
    · simp [ok, e]
  | finish i x => exact h
  | _ => rfl

private theorem careful {ops : List (Op Int Unit)} (h : allTurns okEvery [] ops = true) :
    Reach (O := Unit) b E c!"print" clk (Careful E) (on b ops) := by
  have : Obeys (fun v op => Careful E v op) ops := by
    intro i op hi
    have hl := (List.getElem?_eq_some_iff.mp hi).1
    have h1 := List.all_eq_true.mp h i (List.mem_range.mpr hl)
    rw [hi] at h1
    rw [List.nil_append] at h1
    cases op with
    | enqueue j c => exact okEvery.careful h1 j.id rfl
    | finish i x => exact fun orig job ht => okEvery.careful h1 orig.id orig job ht rfl
    | _ => trivial
  exact this.on b

/-- C38: in `threeJobs`, one job is done, one runs and one waits, and lists, statuses and executions agree on all of them. -/
example : (see threeJobs).Consistent := by
  have h := C38_consistent lawful (careful b (ops := threeJobs) (by decide +kernel))
  rwa [see_on] at h

/-- C41, C42: and the last status announced for `a` is the one stored. -/
example : ((see threeJobs).sent c!"a").getLast? = some .finished := by
  have h := C42_sent_partial (k := c!"a") lawful (okAll.on (ops := threeJobs) (by decide +kernel) b)
  rw [see_on] at h
  rw [h]; decide +kernel

example (op : Op Int Unit) (h : CarefulFor E c!"b" (see threeJobs) op) :
    (see (threeJobs ++ [op])).status c!"b" ≠ some .canceled ∧ (see (threeJobs ++ [op])).status c!"b" ≠ none := by
  have h1 := C41_life_cycle (k := c!"b") lawful (okAll.on (ops := threeJobs) (by decide +kernel) b) op (by rw [see_on]; exact h)
  simp only [next, see_on] at h1
  have e : (see threeJobs).status c!"b" = some .running := by decide +kernel
  rw [e] at h1
  simp only [reduceCtorEq, Option.some.injEq, false_and, false_or, true_and, or_false] at h1
  constructor <;> intro h2 <;> rw [h2] at h1 <;> simp at h1

/-- C40: after the first failure of the job of `again`, every further execution counts. -/
example : ((see (again ++ againRuns)).runs c!"a").length = againDone.context.runCount := by
  have hl : Later (O := Unit) Impl.memory E c!"print" clk (fun _ op => NoSubmit c!"a" op) (after (again ++ againRuns.take 3))
      (after (again ++ againRuns.take 3 ++ againRuns.drop 3)) :=
    okAll.later (k := c!"a") (ops := again ++ againRuns.take 3) (by decide +kernel) (by decide +kernel) (fun _ _ _ h' => calm.noSubmit h')
  rw [List.append_assoc, List.take_append_drop] at hl
  obtain ⟨j, hj, hs, hc⟩ : ∃ j ∈ (see (again ++ againRuns.take 3)).job c!"a", j.context.jobStatus ≠ .running ∧ j.context.runCount = 1 := by
    decide +kernel
  have hr := (okAll.reach (k := c!"a") (ops := again ++ againRuns.take 3) (by decide +kernel)).orderly lawful
  have h := C40_grows lawful hr hj hs hl again_done (by decide +kernel)
  rw [see_after, see_after, hc] at h
  have e : ((see (again ++ againRuns.take 3)).runs c!"a").length = 1 := by decide +kernel
  omega

/-- C12: a normal job without a retry policy is started once, whatever turns follow that are no requests about it. -/
example (s' : Sys Int b.B)
    (h : Later (O := Unit) b E c!"print" clk (fun _ op => NoSubmit c!"a" op ∧ op ≠ .retry c!"a") (on b pair) s') :
    ((b.snap E c!"print" s').runs c!"a").length ≤ 1 := by
  obtain ⟨hr, _⟩ := ready b (k := c!"a") (ops := pair) (by decide +kernel) (by decide +kernel)
  obtain ⟨j, hj, h1, h2⟩ : ∃ j ∈ (see pair).job c!"a", j.context.jobType = .normal ∧ j.context.retry = none := by decide +kernel
  have h3 := C12_no_policy (k := c!"a") (job := j) lawful hr (by rw [see_on]; exact hj) (fun _ _ _ _ c => by rw [h1] at c; cases c) h2 h
  rw [see_on] at h3
  have e : ((see pair).runs c!"a").length = 0 := by decide +kernel
  omega

/-- C44: what a plugin is told about the two runs of `a`. -/
example : (Centre.run {} ([.deliver (.register ⟨[1]⟩) 1] ++ twoRunsMail)).around 0 c!"a" = List.replicate 4 (.beforeRun c!"a") := by
  obtain ⟨hr, _, _, ha⟩ := ready b (k := c!"a") (ops := twoRuns) (by decide +kernel) (by decide +kernel)
  have h := C44_twice (O := Unit) lawful hr ha (by rw [see_on]; decide +kernel) 1 0 ⟨[1]⟩ [.deliver (.register ⟨[1]⟩) 1] twoRunsMail rfl (by decide)
    rfl (by rw [see_on]; decide +kernel) (by intro m n h; simp [twoRunsMail] at h; omega)
  rw [h, see_on]
  decide +kernel

/-- C50: the process dies after any number of steps of the end of a failed execution of `a`. -/
example (n : Nat) : ∃ j, (b.snap E c!"print" (Sys.restart (cut b midRun (.finish 0 bad) n))).job c!"a" = some j := by
  obtain ⟨hr, _, _, ha⟩ := ready b (k := c!"a") (ops := midRun) (by decide +kernel) (by decide +kernel)
  have h : ∃ t ∈ (see midRun).tasks[0]?, ∃ job ∈ t.executing, t.orig.id = c!"a" ∧
    E.Encodable (WorkQueue.runUserCode bad job).1 := by decide +kernel
  obtain ⟨⟨orig, ex⟩, ht, job, hj, h1, h2⟩ := h
  cases hj
  exact (C50_torn_partial lawful hr ha (by rw [see_on]; exact ht) h1 bad (cut_crash b midRun ha (.finish 0 bad) n)).2.1 (serialisable h2 rfl)

/-- C58: the code of `a` panics, and job `b` stays stored and queued. -/
example : (see (panicSoon ++ [.userPanic 0])).lists = (see panicSoon).lists ∧ (see (panicSoon ++ [.userPanic 0])).job = (see panicSoon).job := by
  have ha : (b.snap E c!"print" (on b panicSoon)).alive = true := by rw [see_on]; decide +kernel
  have h : ∃ t ∈ (see panicSoon).tasks[0]?, ∃ j, t.executing = some j := by
    obtain ⟨t, h1, h2⟩ : ∃ t ∈ (see panicSoon).tasks[0]?, t.executing.isSome = true := by decide +kernel
    exact ⟨t, h1, Option.isSome_iff_exists.1 h2⟩
  obtain ⟨t, ht, j, hj⟩ := h
  have ht' : (b.snap E c!"print" (on b panicSoon)).tasks[0]? = some t := by rw [see_on]; exact ht
  have h := C58_kept_partial (O := Unit) (b := b) (E := E) (name := c!"print") (clk := clk) (s := on b panicSoon) ha 0 t j ht' hj
  rw [next, see_on] at h
  exact ⟨h.lists, h.jobs⟩

/-- C61: the capacity is lowered below what runs, and the next tick starts nothing. -/
example : see (threeJobs ++ [.config { maxProcessingJobs := 0 }] ++ [.tick]) = { see threeJobs with cfg := { maxProcessingJobs := 0 } } := by
  obtain ⟨_, hg, hk, ha⟩ := ready b (k := c!"a") (ops := threeJobs) (by decide +kernel) (by decide +kernel)
  have h := (C61_config (O := Unit) (clk := clk) lawful (on b threeJobs) hg hk ha { maxProcessingJobs := 0 }).2.2.2 (Nat.zero_le _)
  rw [← on_snoc, next, see_on] at h
  exact h

/-- C64: any single call in the cancellation of `a` fails, and `b` is as before. -/
example (n : Nat) : (b.snap E c!"print" (Sys.stepWith E c!"print" b.B clk (faultAt n) (on b pair) (.cancel c!"a" : Op Int Unit)).1).job c!"b" =
    (see pair).job c!"b" := by
  obtain ⟨hr, hg, _, _⟩ := ready b (k := c!"b") (ops := pair) (by decide +kernel) (by decide +kernel)
  have h := (C64_spared (O := Unit) (clk := clk) (k := c!"b") lawful (alone_faultAt n) hg (tidy_reach lawful hr) (.cancel c!"a") (by intro e; cases e)
    ⟨fun _ _ e => (by cases e), (by intro e; cases e), (by intro e; cases e)⟩ (fun i t _ h => (by rcases h with h | ⟨x, h⟩ <;> cases h))).1
  rw [see_on] at h
  exact h

private theorem with_fst {α β : Type} {p : α × β} {x : α} (h : p.1 = x) : p = (x, p.2) := by rw [← h]

/-- C52: the cancellation of `a` answers `Ok`, so none of its writes failed. -/
example (op : BOp) (good : Bool) (h : (op, good) ∈ (WorkQueue.cancelJob E c!"print" c!"a").trace InMem clk (after pair).w) (hw : op.isWrite = true) :
    good = true := by
  have h1 : ((WorkQueue.cancelJob E c!"print" c!"a").run InMem clk (after pair).w).1 = .ok () := by decide +kernel
  exact C52_cancel (with_fst h1) op good h hw

/-- C52: and the tick that picks both jobs neither. -/
example (op : BOp) (good : Bool)
    (h : (op, good) ∈ (WorkQueue.pickJobsToProcess E c!"print" 4 (after pair).cfg).trace InMem clk (after pair).w) (hw : op.isWrite = true) :
    good = true := by
  have h1 : (match ((WorkQueue.pickJobsToProcess E c!"print" 4 (after pair).cfg).run InMem clk (after pair).w).1 with
    | .ok jobs => jobs.length == 2 | _ => false) = true := by decide +kernel
  cases h2 : ((WorkQueue.pickJobsToProcess E c!"print" 4 (after pair).cfg).run InMem clk (after pair).w).1 with
  | ok jobs => exact C52_pick (with_fst h2) op good h hw
  | _ => rw [h2] at h1; cases h1

/-- C52: the submission of `c` answers `Ok`. -/
example (op : BOp) (good : Bool) (h : (op, good) ∈ (WorkQueue.runWithConfig E c!"print" (job c!"c") .newReRun).trace InMem clk (after pair).w)
    (hw : op.isWrite = true) : good = true := by
  have h1 : ((WorkQueue.runWithConfig E c!"print" (job c!"c") .newReRun).run InMem clk (after pair).w).1 = .ok () := by decide +kernel
  exact C52_submit (with_fst h1) op good h hw

/-- C52: the manual retry of the finished job `a` answers `Ok`; only its push may have failed. -/
example (op : BOp) (good : Bool) (h : (op, good) ∈ (WorkQueue.retryJob E c!"print" c!"a").trace InMem clk (after threeJobs).w)
    (hw : op.isWrite = true) (hp : ∀ id, op ≠ .queuePush (formatQueueName c!"print" .queued) id) : good = true := by
  have h1 : ((WorkQueue.retryJob E c!"print" c!"a").run InMem clk (after threeJobs).w).1 = .ok true := by decide +kernel
  exact C52_retry_partial (with_fst h1) op good h hw hp

/-- C52: the end of a run of `b` answers `Ok`, so the job was stored. -/
example (key v : Str) (g : Bool)
    (h : (.storageUpsert STORAGE_HASH key v, g) ∈ (WorkQueue.executeFinish E c!"print" good (job c!"b")).trace InMem clk (after threeJobs).w) : g = true := by
  have h1 : ((WorkQueue.executeFinish E c!"print" good (job c!"b")).run InMem clk (after threeJobs).w).1 = .ok () := by decide +kernel
  exact C52_finish_partial (with_fst h1) key v g h

/-- C42: the last status announced for the running job `b` is the one stored. -/
example : ((see threeJobs).sent c!"b").getLast? = some .running := by
  have hr := (okAll.on (k := c!"b") (ops := threeJobs) (by decide +kernel) b).orderly lawful
  cases hj : (see threeJobs).job c!"b" with
  | none => exact absurd hj (by decide +kernel)
  | some j =>
    have h := C42_sent_read_partial (b := b) lawful hr (j := j) (by rw [see_on]; exact hj)
    rw [see_on] at h
    rw [h]
    have e : ((see threeJobs).job c!"b").map (fun j => j.context.jobStatus) = some .running := by decide +kernel
    rw [hj] at e
    exact e

end

/-! ## Two job types, several processes -/

private theorem two_names : ∀ i j, twoNames i = twoNames j → i = j := by decide

private theorem two_ids : ∀ i j k, twoIds i k → twoIds j k → i = j := by
  intro i j k h1 h2
  have := h1.symm.trans h2
  cases i <;> cases j <;> simp at this ⊢

private theorem two_on : ∀ i, ∀ op ∈ twoOps i, op.On (twoIds i) := by
  intro i op h
  cases i <;> simp only [twoOps, List.mem_cons, List.not_mem_nil, or_false] at h <;>
    rcases h with rfl | rfl | rfl | rfl | rfl | rfl | rfl | rfl | rfl | rfl | rfl | rfl <;> trivial

/-- C45: whatever `print` does in between, `mail` ends with the answers it gives alone, once it has had enough steps. -/
example (b : Impl) : ∃ n, ∀ sched : List Bool, n ≤ sched.count true →
    (Many.run b.B (fun _ => clk) (Many.start b.B (fun _ => E) twoNames twoOps b.empty) sched).log true =
      (Sys.runOps E c!"mail" b.B clk (Sys.init b.B b.empty) (twoOps true)).1.w.log := by
  obtain ⟨n, h⟩ := C45_results b (fun _ => lawful) (fun _ => clk) two_names two_ids two_on true
  exact ⟨n, fun sched hs => (h sched hs).2.2.1⟩

/-- C45: and at every moment it is where it would be without the steps of `print`. -/
example (b : Impl) (sched : List Bool) := C45_moments b (fun _ => lawful) (fun _ => clk) two_names two_ids two_on sched true

/-- C77: in every interleaving of `rivals`, the two processes that share `print`, every id in every list is that of the one job that
was submitted. -/
example (b : Impl) (sched : List Bool) (q : Str) (st : JobStatus) (k : Str)
    (h : k ∈ (b.shared E q (b.overlapped E (fun _ => c!"print") rivals lostReply (fun _ => clk) sched)).lists st) : k = c!"a" := by
  obtain ⟨j, h1, h2⟩ := (C77_submitted lawful lostReply_quiet sched).1 q st k h
  rw [← h2, rivals_submit h1]; rfl

/-- C77: and the stored job has been retried at most once. -/
example (b : Impl) (sched : List Bool) (j : Job Int) (r : Retry)
    (h : (b.shared E c!"print" (b.overlapped E (fun _ => c!"print") rivals lostReply (fun _ => clk) sched)).job c!"a" = some j)
    (hr : j.context.retry = some r) (hm : r.maxRetries = some 1) : r.retriedTimes ≤ 1 := by
  refine ((C77_retries lawful lostReply_quiet sched (fun x h => by rw [rivals_run h]; rfl) ?_).1 _ _ _ _ _ h hr hm).2
  intro j r m h hr hm
  rw [rivals_submit h] at hr
  cases hr; cases hm
  decide

/-- C77: whatever ran was due. -/
example (b : Impl) (sched : List Bool) (i : Bool) (c : JobContext)
    (h : .ran c ∈ (b.overlapped E (fun _ => c!"print") rivals lostReply (fun _ => clk) sched).log i) :=
  C77_due lawful lostReply_quiet sched i c h

/-- C77: whatever the interleaving, the number of job `a` is never below 7. -/
example (b : Impl) (sched : List Bool) (j : Job Int)
    (h : (b.shared E c!"print" (b.overlapped E (fun _ => c!"print") rivals lostReply (fun _ => clk) sched)).job c!"a" = some j) : 7 ≤ j.data := by
  obtain ⟨h1, h2, h3⟩ := rivals_data
  refine ((C77_condition lawful lostReply_quiet sched (p := fun j => 7 ≤ j.data) ⟨fun j j' h _ e _ => ?_, fun j h => h2 _ h, fun x j hx h => h3 x j hx h,
    fun _ _ _ _ _ _ _ h _ _ _ _ => h, fun _ _ _ _ _ _ _ h _ _ => h⟩ h1).1 _ _ _ h).2
  rw [e]; exact h

/-- C78: before the first failure that a process announces, it has executed the job. -/
example (b : Impl) (sched : List Bool) (i : Bool) (l rest : List Event)
    (h : l ++ .statusMsg c!"a" .failed :: rest = (b.overlapped E (fun _ => c!"print") rivals lostReply (fun _ => clk) sched).log i) :
    0 < runsOf c!"a" l :=
  Nat.lt_of_le_of_lt (Nat.zero_le _) (C78_order lawful lostReply_quiet sched i c!"a" (.inr rfl) h).1

/-- C78: and before the first execution it has announced the job as running. -/
example (b : Impl) (sched : List Bool) (i : Bool) (c : JobContext) (l rest : List Event)
    (h : l ++ .ran c :: rest = (b.overlapped E (fun _ => c!"print") rivals lostReply (fun _ => clk) sched).log i) :
    0 < told c.jobId .running l :=
  Nat.lt_of_le_of_lt (Nat.zero_le _) (C78_announced lawful lostReply_quiet sched i h).1

/-- C78: the second process, which is not asked for the job, announces it as running before it executes it, and nothing else. -/
example (st : JobStatus) (h : .statusMsg c!"a" st ∈ (rivalry Impl.memory 15).log false) : st = .running := by
  have h0 : ((rivalry Impl.memory 15).log false).all (fun | .ran c => c.jobId ≠ c!"a" | _ => true) = true := by decide +kernel
  rcases C78_silent lawful lostReply_quiet _ false c!"a" (by decide +kernel)
    (fun e he c hc => by subst hc; simpa using List.all_eq_true.mp h0 _ he) h with h | ⟨_, o, ho, hc⟩
  · exact h
  · have h1 : (rivals false).all (fun o => !o.1.cancels c!"a") = true := by decide +kernel
    have := List.all_eq_true.mp h1 o ho
    rw [hc] at this
    cases this

/-! ## The registry -/

/-- C55: the work queues of `twoTypes` are there once and stay. -/
example := C55_partial twoTypes []

private theorem orderlyOps_ok : OrderlyRun letters (Hub.run {} (startAlone 0 7)) orderlyOps := by
  refine .cons ⟨rfl, fun _ d hd => ?_⟩ (.cons ⟨rfl, fun _ d hd => ?_⟩ ?_)
  · rw [started]
    by_cases h : d = 0
    · subst h; exact fun x => x
    · simp [upd, h, ClientPc.Opening]
  · rw [started]
    by_cases h : d = 0
    · subst h; exact fun x => x
    · by_cases h1 : d = 1
      · subst h1; intro x; cases x
      · simp [Hub.step, Hub.begin, Hub.go, upd, h1, upd, h, ClientPc.Opening]
  · refine .cons trivial (.cons trivial (.cons trivial (.cons trivial (.cons trivial (.cons trivial (.cons trivial
      (.cons trivial (.cons ⟨rfl, fun h => ?_⟩ (.cons trivial (.cons trivial (.nil _)))))))))))
    exact absurd h (by decide +kernel)

/-- C56: the third client of `orderlyOps` was answered by a work queue of its type. -/
example : ∃ q a, ApiResult.answer 0 = .answer q ∧ (Hub.run {} (startAlone 0 7 ++ orderlyOps)).queues[q]? = some a ∧ a.ty = 1 ∧ a.name = c!"a" ∧
    (Hub.run {} (startAlone 0 7 ++ orderlyOps)).byType 1 = some q :=
  (C56_partial letters letters_inj 0 7 orderlyOps orderlyOps_ok).2.1 3 1 c!"a" _ (by decide +kernel)

/-- C56: and the second client, which still waits there, will be. -/
example : ∃ i q, (Hub.run {} (startAlone 0 7 ++ orderlyOps ++ List.replicate i (.engine 0))).clients 2 = .done (.submit 2 c!"aa") (.answer q) :=
  C56_ends_partial letters letters_inj 0 7 orderlyOps orderlyOps_ok 2 (.submit 2 c!"aa") 0 2 c!"aa" (by decide +kernel)

/-- C57: nothing was submitted, so whoever cancelled was refused. -/
example (c : Nat) (r : ApiResult) (h : (Hub.run {} earlyRequests).clients c = .done (.cancel 4) r) : r = .noQueueRegister :=
  (C57_histories earlyRequests (fun op ho c ty n e => by subst e; simp [earlyRequests, startAlone] at ho)).2.2 c _ r _ h rfl

example := C57_unregistered (Hub.run {} [.begin 1 (.cancel 4)]) 1 (.cancel 4) 4 .noQueueRegister true (by decide +kernel) rfl rfl rfl

/-! ## Executions that suspend -/

/-- C69: some process whose parts are not cut by suspensions answers a request for `a` as the one in `crossing` does. -/
example := C69_answer (b := Impl.memory) (O := Unit) C69_orderly crossing_parts.1 (.get c!"a")
  ⟨fun _ e => (by cases e), fun _ _ e => (by cases e), fun _ e => (by cases e)⟩

/-- C69: the histories without suspensions are among those with. -/
example (b : Impl) : ∃ f, AReach (O := Unit) b E c!"print" clk (Orderly c!"a") f ∧ f.sys = on b threeJobs :=
  C69_includes C69_orderly ((okAll.on (ops := threeJobs) (by decide +kernel) b).orderly lawful)

/-- C69: and their lists, statuses and executions agree. -/
example (b : Impl) : ∃ f, AReach (O := Unit) b E c!"print" clk (Careful E) f ∧ f.sys = on b threeJobs ∧ (b.asnap E c!"print" f).Consistent := by
  obtain ⟨f, h1, h2⟩ := C69_includes C69_careful (careful b (ops := threeJobs) (by decide +kernel))
  exact ⟨f, h1, h2, C69_consistent lawful h1⟩

/-- C69: that no two executions of a job are in flight (C25) holds with suspensions, too. -/
example {f : Async Int Impl.memory.B} (hf : AReach (O := Unit) Impl.memory E c!"print" clk (Orderly c!"a") f) :
    (Impl.memory.asnap E c!"print" f).inFlight.count c!"a" ≤ 1 := by
  refine C69_transfer C69_orderly (Q := fun v => v.inFlight.count c!"a" ≤ 1) (fun v v' h => ?_) (fun s hs => C25_one_execution_partial lawful hs) hf
  unfold Snap.inFlight
  rw [h.tasks]; exact id

/-- C70: once all messages have arrived and all hooks have returned, nothing waits for them. -/
example (a : AOp Int Unit) : (both ending).allows a = true :=
  C70_free (both_reach ending) (by decide +kernel) (by unfold Centre.Quiet; decide +kernel) a

/-- C70: no message is answered twice, and the messages of the work queue reach the centre in the order they were sent in. -/
example : ((both ending).q.tasks.filterMap ATask.msg).Nodup ∧ (both ending).got.Nodup := C70_own (both_reach ending)

example : (both ending).got.Pairwise (· < ·) := (C70_order (both_reach ending)).1

/-- C70: the execution of `a` may end because its second message was handled. -/
example (m : Nat) (orig j : Job Int) (ht : (both ending).q.tasks[0]? = some ⟨orig, .after m j⟩) :
    ∃ r, (both ending).got[m]? = some r ∧ (mail (both ending).centre)[r]? = some (.runHook 1 orig.id true) := by
  obtain ⟨r, h1, h2, _⟩ := C70_after_partial (b := Impl.memory) (x := good) (both_reach ending) ht (by decide +kernel)
  exact ⟨r, h1, h2⟩

/-! ## Work queues that interleave -/

/-- C79: what client 2 has seen in `slow`, on any backend. -/
example (b : Impl) : History (weave b slow).site.hub.queues 2 ((weave b slow).site.trace.filter (SiteEvent.of 2 ·)) := by
  unfold weave
  exact C79_history (fun _ => E) (fun _ => clk) b.B _ slow 2

example (b : Impl) (q : Nat) (op : Op Int Unit) (r : Resp Int) (h : .turn q none op r ∈ (weave b slow).site.trace) : op.Own := by
  unfold weave at h
  exact C79_own b.B _ slow q op r h

/-- C79: the two work queues of `slow` are as after the same turns without the other one. -/
example (b : Impl) : Sys.Alike b c!"print" (kindOf · = 5) ((weave b slow).site.sys 0 printer)
    (Sys.runOps E c!"print" b.B clk (Sys.init b.B b.empty) ((turnsOf 0 (weave b slow).site.trace).map Prod.fst)).1 := by
  have h1 := slow_engines b
  have h2 := slow_printer b
  have h3 : (weave b slow).inside 0 = none := by
    have : ((weave b slow).inside 0).isNone = true := by rw [(weave_on b _).2.2.2.1]; decide +kernel
    exact Option.isNone_iff_eq_none.1 this
  unfold weave at *
  exact (C79_alone_partial (E := fun _ => E) (clk := fun _ => clk) b (fun _ => lawful) kindOf slow slow_on h1 0 printer h2 h3).2

/-- C80: on the system the engine runs on, no plugin has been told more about message 2 of `service` than it should be. -/
example : ((Runtime.run {} service).centres 0).callsOf 2 <+: [(0, .changeStatus c!"a" .running)] := by
  have h : ((Runtime.run {} service).centres 0).callsOf 2 <+: expected ((Runtime.run {} service).meantFor 0) 2 := C80_prefix_partial service 0 2
  rwa [show expected ((Runtime.run {} service).meantFor 0) 2 = [(0, .changeStatus c!"a" .running)] from by decide +kernel] at h

end AJ.Props
