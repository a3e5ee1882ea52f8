import Verif.Proofs.Ledger
import Verif.Props.Drain
import Verif.Props.Ops

/-!
# The lists of the jobs that are done (C94)

One expects the list of the Finished jobs to have every Finished job once, and the same of the Failed and of the Canceled jobs. That is false: cancelled jobs
are in no list, and a job that is submitted again after it is done stays in the list, where it is entered once more when it is done again. What is true: what a
turn may do to the lists, that a Finished or Failed job is in its list, and that it is there exactly once if it is never submitted to run again.
-/

namespace AJ.Props

section
variable {D O : Type} {b : Impl} {E : Env D} {name : Str} {clk : Nat → Time} {k : Str} {P : Snap D → Op D O → Prop} {s : Sys D b.B}

/-- C94: every turn of every history changes the lists of the done jobs in one of three ways only (`Snap.Books`): not at all; a run that ends enters its job
once, as announced; a retry by hand takes a job out. -/
theorem C94_turns (L : E.Lawful) (hs : Reach b E name clk P s) (op : Op D O) :
    (b.snap E name s).Books (b.snap E name (Sys.step E name b.B clk s op).1) op := books L hs op

private theorem start_lists (st : JobStatus) : (b.snap E name (Sys.init b.B b.empty)).lists st = [] := by
  have h : b.snap E name (Sys.init b.B b.empty) = Impl.spec.snap E name (Sys.init SpecB Impl.spec.empty) := Impl.snap_eq b.rs_init
  rw [h]
  rfl

private theorem start_status : (b.snap E name (Sys.init b.B b.empty)).status k = none := by
  have h : b.snap E name (Sys.init b.B b.empty) = Impl.spec.snap E name (Sys.init SpecB Impl.spec.empty) := Impl.snap_eq b.rs_init
  rw [h]
  rfl

private theorem start_sent : (b.snap E name (Sys.init b.B b.empty)).sent k = [] := by
  have h : b.snap E name (Sys.init b.B b.empty) = Impl.spec.snap E name (Sys.init SpecB Impl.spec.empty) := Impl.snap_eq b.rs_init
  rw [h]
  rfl

/-- C94: the list of the Canceled jobs is empty in every history. -/
theorem C94_canceled (L : E.Lawful) (hs : Reach b E name clk P s) : (b.snap E name s).lists .canceled = [] := by
  refine Reach.induct (P := P) (Q := fun s => (b.snap E name s).lists .canceled = []) (start_lists _) ?_ hs
  intro s op hr _ ih
  have hB := books L hr op
  have hd : JobStatus.canceled.Done := .inr (.inr rfl)
  cases hB with
  | quiet _ lists => rw [lists _ hd, ih]
  | entered i x orig job st _ _ status _ lists =>
    rw [lists _ hd (by rcases status with rfl | rfl <;> decide), ih]
  | taken k j stored done list lists =>
    by_cases h : j.context.jobStatus = .canceled
    · rw [h] at list; rw [list, ih]; rfl
    · rw [lists _ hd (Ne.symm h), ih]

private theorem sent_step {v v' : Snap D} {op : Op D O} (hB : v.Books v' op) {st : JobStatus} (hst : st = .finished ∨ st = .failed) :
    (v'.lists st).count k + (v.sent k).count st = (v.lists st).count k + (v'.sent k).count st ∨
    op = .retry k ∧ (v'.lists st).count k ≤ (v.lists st).count k ∧ (v'.sent k).count st = (v.sent k).count st := by
  have hd : st.Done := hst.elim .inl fun h => .inr (.inl h)
  cases hB with
  | quiet _ lists log =>
    left
    obtain ⟨l, hl, hq⟩ := log
    rw [lists st hd, ledger_sent hl, List.count_append, Nat.add_left_cancel_iff]
    refine Nat.left_eq_add.2 (List.count_eq_zero.2 fun h => ?_)
    obtain ⟨e, he, h2⟩ := List.mem_filterMap.1 h
    obtain ⟨he, -⟩ := List.mem_filter.1 he
    cases e with
    | statusMsg id st' =>
      have : st' = st := Option.some.inj h2
      subst this
      have := hq _ _ he
      exact hst.elim this.1 this.2
    | _ => cases h2
  | entered i x orig job st0 _ _ status list lists log =>
    left
    rw [ledger_sent log, List.count_append]
    by_cases hk : job.id = k
    · subst hk
      by_cases hs0 : st = st0
      · subst hs0
        rw [list]; simp [Event.id]; omega
      · rw [lists st hd hs0]
        simp [Event.id, Ne.symm hs0]
    · by_cases hs0 : st = st0
      · subst hs0
        rw [list, List.count_cons_of_ne hk]; simp [Event.id, hk]
      · rw [lists st hd hs0]; simp [Event.id, hk]
  | taken k' j stored done list lists log =>
    by_cases hk : k' = k
    · subst hk
      refine .inr ⟨rfl, ?_, ?_⟩
      · by_cases h : st = j.context.jobStatus
        · subst h; rw [list]; exact List.Sublist.count_le _ List.filter_sublist
        · exact Nat.le_of_eq (by rw [lists st hd h])
      · rw [ledger_sent log, List.count_append]
        rcases hst with rfl | rfl <;> simp [Event.id]
    · left
      rw [ledger_sent log, List.count_append]
      have e : (v'.lists st).count k = (v.lists st).count k := by
        by_cases h : st = j.context.jobStatus
        · subst h; rw [list]
          exact List.count_filter (by simp [Ne.symm hk])
        · rw [lists st hd h]
      rw [e]; simp [Event.id, hk]

/-- C94: as long as nobody retries a job by hand, it is in the list of the Finished (the Failed) jobs as often as it was announced as Finished (as Failed). -/
theorem C94_announced (L : E.Lawful) (hs : Reach (O := O) b E name clk (fun _ op => op ≠ .retry k) s) {st : JobStatus} (hst : st = .finished ∨ st = .failed) :
    ((b.snap E name s).lists st).count k = ((b.snap E name s).sent k).count st := by
  refine Reach.induct (P := fun _ op => op ≠ .retry k) (Q := fun s => ((b.snap E name s).lists st).count k = ((b.snap E name s).sent k).count st)
    (by rw [start_lists, start_sent]; rfl) ?_ hs
  intro s op hr hp ih
  rcases sent_step (k := k) (books L hr op) hst with h | ⟨h, -⟩
  · omega
  · exact absurd h hp

/-- C94: in every history a job is in the list of the Finished (the Failed) jobs at most as often as it was announced as Finished (as Failed). So a
job that was never announced is not there. -/
theorem C94_bound (L : E.Lawful) (hs : Reach b E name clk P s) {st : JobStatus} (hst : st = .finished ∨ st = .failed) :
    ((b.snap E name s).lists st).count k ≤ ((b.snap E name s).sent k).count st := by
  refine Reach.induct (P := P) (Q := fun s => ((b.snap E name s).lists st).count k ≤ ((b.snap E name s).sent k).count st)
    (by rw [start_lists, start_sent]; simp) ?_ hs
  intro s op hr hp ih
  rcases sent_step (k := k) (books L hr op) hst with h | ⟨-, h1, h2⟩ <;> omega

/-- C94: in a history that is careful with `k`, a Finished job is in the list of the Finished jobs and a Failed job in that of the Failed jobs. -/
theorem C94_listed (L : E.Lawful) (hs : Reach (O := O) b E name clk (CarefulFor E k) s) {st : JobStatus} (hst : st = .finished ∨ st = .failed)
    (h : (b.snap E name s).status k = some st) : k ∈ (b.snap E name s).lists st := by
  refine List.count_pos_iff.1 ?_
  refine Reach.induct (P := CarefulFor E k) (Q := fun s => (b.snap E name s).status k = some st → 0 < ((b.snap E name s).lists st).count k)
    (fun h => by rw [start_status] at h; cases h) ?_ hs h
  intro s op hr hp ih h'
  rcases books_life L (books L hr op) (reach_life L (fun _ _ h => h) hr op hp) hst with ⟨h1, h2, -⟩ | ⟨h1, -, -⟩ | ⟨-, -, h2⟩
  · rw [h1]; exact ih (h2 h')
  · omega
  · rw [h2] at h'
    rcases hst with rfl | rfl <;> cases h'

/-- C94, the true part: if a job is never submitted to run again after it was done, then in a history that is careful with it, it is in the list of the
Finished jobs exactly once while it is Finished and otherwise not at all, and likewise for Failed. Retrying it by hand is allowed. -/
theorem C94_once_partial (L : E.Lawful) (hs : Reach (O := O) b E name clk (fun v op => CarefulFor E k v op ∧ NoReRun k v op) s) {st : JobStatus}
    (hst : st = .finished ∨ st = .failed) :
    ((b.snap E name s).lists st).count k = if (b.snap E name s).status k = some st then 1 else 0 := by
  refine Reach.induct (P := fun v op => CarefulFor E k v op ∧ NoReRun k v op)
    (Q := fun s => ((b.snap E name s).lists st).count k = if (b.snap E name s).status k = some st then 1 else 0)
    (by rw [start_lists, start_status]; rfl) ?_ hs
  intro s op hr hp ih
  have hd : st.Done := hst.elim .inl fun h => .inr (.inl h)
  rcases books_life L (books L hr op) (reach_life L (fun _ _ h => h.1) hr op hp.1) hst with ⟨h1, h2, h3⟩ | ⟨h1, h2, h3⟩ | ⟨h1, h2, h3⟩
  · rw [h1, ih]
    by_cases h : (b.snap E name s).status k = some st
    · rw [if_pos h, if_pos ?_]
      rcases h3 h with h | ⟨j, c, e, hj, hc⟩
      · exact h
      · exact absurd hd (hp.2 j c e hj hc st h)
    · rw [if_neg h, if_neg fun h' => h (h2 h')]
  · rw [h1, ih, if_pos h2, if_neg (by rw [h3]; rcases hst with rfl | rfl <;> decide)]
  · rw [h1, if_neg (by rw [h3]; rcases hst with rfl | rfl <;> decide)]

/-- With a turn that does not retry `k` no entries of `k` go. -/
theorem Books.mono {v v' : Snap D} {op : Op D O} (hB : v.Books v' op) (hr : op ≠ .retry k) {st : JobStatus} (hd : st.Done) :
    (v.lists st).count k ≤ (v'.lists st).count k := by
  cases hB with
  | quiet _ lists => exact Nat.le_of_eq (by rw [lists st hd])
  | entered i x orig job st0 _ _ status list lists log =>
    by_cases hs0 : st = st0
    · subst hs0; rw [list]; exact List.count_le_count_cons
    · exact Nat.le_of_eq (by rw [lists st hd hs0])
  | taken k' j stored done list lists log =>
    by_cases h : st = j.context.jobStatus
    · subst h; rw [list]
      have hk : k' ≠ k := fun e => hr (by rw [e])
      exact Nat.le_of_eq (List.count_filter (by simp [Ne.symm hk])).symm
    · exact Nat.le_of_eq (by rw [lists st hd h])

end

/-! ## Cases -/

section
open Demo
variable {b : Impl}

/-- How often `a` is in the lists of the Finished and of the Failed jobs. -/
def entries (v : Snap Int) : Nat := (v.lists .finished).count c!"a" + (v.lists .failed).count c!"a"

/-- A turn that is careful, submits job `a` or none, and retries none by hand. -/
def OnlyA (v : Snap Int) (op : Op Int Unit) : Prop := Careful E v op ∧ (∀ j c, op = .enqueue j c → j.id = c!"a") ∧ ∀ id, op ≠ .retry id

/-- A state with `n` entries in which all is done. -/
private def Rested (b : Impl) (n : Nat) (s : Sys Int b.B) : Prop :=
  Reach (O := Unit) b E c!"print" clk OnlyA s ∧ s.alive = true ∧ s.cfg.maxProcessingJobs = 1 ∧ s.tasks = [] ∧
  (b.snap E c!"print" s).lists .running = [] ∧ (b.snap E c!"print" s).lists .queued = [] ∧ n ≤ entries (b.snap E c!"print" s)

private theorem after_onlyA {s : Sys Int b.B} (hs : Reach (O := Unit) b E c!"print" clk OnlyA s) (hw : WorkerOf 1 b 0 s) (n : Nat) :
    Reach (O := Unit) b E c!"print" clk OnlyA (Sys.after E c!"print" b.B clk s works n) := by
  induction n with
  | zero => exact hs
  | succ n ih =>
    refine .step _ ih ⟨works_careful hw n, fun j c h => ?_, fun id => (works_calm id n).2.2⟩
    unfold works at h
    split at h <;> cases h

private theorem after_entries {s : Sys Int b.B} (hs : Reach (O := Unit) b E c!"print" clk OnlyA s) (hw : WorkerOf 1 b 0 s)
    (h0 : (b.snap E c!"print" s).status c!"a" = some .queued) (n : Nat) :
    entries (b.snap E c!"print" s) ≤ entries (b.snap E c!"print" (Sys.after E c!"print" b.B clk s works n)) ∧
    ((b.snap E c!"print" (Sys.after E c!"print" b.B clk s works n)).Ended c!"a" →
      entries (b.snap E c!"print" s) < entries (b.snap E c!"print" (Sys.after E c!"print" b.B clk s works n))) := by
  induction n with
  | zero =>
    refine ⟨Nat.le_refl _, fun h => ?_⟩
    exfalso
    change (b.snap E c!"print" s).Ended c!"a" at h
    unfold Snap.Ended at h
    rw [h0] at h
    simp at h
  | succ n ih =>
    have hr := after_onlyA hs hw n
    have hB := books lawful hr (works n)
    have hl := reach_life (k := c!"a") lawful (fun _ _ h => h.1.of _) hr (works n) ((works_careful hw n).of _)
    have g := fun {st} => Books.mono (k := c!"a") hB (works_calm c!"a" n).2.2 (st := st)
    have g1 := g (st := .finished) (.inl rfl)
    have g2 := g (st := .failed) (.inr (.inl rfl))
    have t1 := books_life lawful hB hl (.inl rfl)
    have t2 := books_life lawful hB hl (.inr rfl)
    change _ ≤ entries (b.snap E c!"print" (Sys.step E c!"print" b.B clk (Sys.after E c!"print" b.B clk s works n) (works n)).1) ∧
      ((b.snap E c!"print" (Sys.step E c!"print" b.B clk (Sys.after E c!"print" b.B clk s works n) (works n)).1).Ended c!"a" →
        _ < entries (b.snap E c!"print" (Sys.step E c!"print" b.B clk (Sys.after E c!"print" b.B clk s works n) (works n)).1))
    generalize b.snap E c!"print" (Sys.step E c!"print" b.B clk (Sys.after E c!"print" b.B clk s works n) (works n)).1 = v' at *
    generalize b.snap E c!"print" (Sys.after E c!"print" b.B clk s works n) = v at *
    generalize entries (b.snap E c!"print" s) = c at *
    obtain ⟨i1, i2⟩ := ih
    unfold entries at *
    refine ⟨by omega, fun h => ?_⟩
    rcases h with h | h
    · rcases t1 with ⟨_, q, _⟩ | ⟨q, _⟩ | ⟨_, _, q⟩
      · have := i2 (.inl (q h)); omega
      · omega
      · rw [q] at h; cases h
    · rcases t2 with ⟨_, q, _⟩ | ⟨q, _⟩ | ⟨_, _, q⟩
      · have := i2 (.inr (q h)); omega
      · omega
      · rw [q] at h; cases h

private theorem next_entry {n : Nat} {s : Sys Int b.B} (h : Rested b n s) : ∃ s', Rested b (n + 1) s' := by
  obtain ⟨hr, ha, hc, ht, hrun, hq, hn⟩ := h
  have hso : Solo c!"a" (b.snap E c!"print" s) := reach_solo lawful (fun _ _ h => h.1.of _) hr
  have hdone : ∀ ex, (b.snap E c!"print" s).job c!"a" = some ex → ex.context.jobStatus.Done := by
    intro ex hex
    have g1 := hso.queued
    have g2 := hso.running
    rw [status_of hex, hq] at g1
    rw [status_of hex, hrun] at g2
    cases hst : ex.context.jobStatus <;> simp [hst] at g1 g2 <;> decide
  have hP : OnlyA (b.snap E c!"print" s) (.enqueue (job c!"a") .newReRun) := by
    refine ⟨⟨by decide +kernel, fun ex h1 h2 h3 h4 => ?_⟩, fun j c h => by cases h; rfl, fun id h => by cases h⟩
    exfalso
    have h5 : ex.isDone = false := h4
    rcases hdone ex h1 with h | h | h <;> simp [Job.isDone, h] at h5
  have hs1 := hr.step _ hP
  obtain ⟨-, ho, h1, -⟩ := submit_any (O := Unit) (clk := clk) lawful hr.good ha (job c!"a") .newReRun
  obtain ⟨g1, g2, -, -, g5⟩ := h1 (by
    cases hj : (b.snap E c!"print" s).job c!"a" with
    | none => exact .inl hj
    | some ex => exact .inr ⟨ex, hj, hdone ex hj, rfl⟩)
  have g5 := g5 (by decide +kernel)
  change (b.snap E c!"print" (Sys.step E c!"print" b.B clk s (.enqueue (job c!"a") .newReRun : Op Int Unit)).1).lists .queued =
    c!"a" :: (b.snap E c!"print" s).lists .queued at g1
  change (b.snap E c!"print" (Sys.step E c!"print" b.B clk s (.enqueue (job c!"a") .newReRun : Op Int Unit)).1).job c!"a" = _ at g5
  have hw : WorkerOf 1 b 0 (Sys.step E c!"print" b.B clk s (.enqueue (job c!"a") .newReRun : Op Int Unit)).1 :=
    ⟨fit_reach (hs1.mono fun _ _ h => h.1), ho.alive.trans ha, (congrArg WorkQueueConfig.maxProcessingJobs ho.cfg).trans hc, .inl ⟨ho.tasks.trans ht,
      (g2 _ (by decide)).trans hrun, by rw [g1, hq]; exact Nat.le_refl _⟩⟩
  have hn1 : n ≤ entries (b.snap E c!"print" (Sys.step E c!"print" b.B clk s (.enqueue (job c!"a") .newReRun : Op Int Unit)).1) := by
    unfold entries at *
    rw [g2 _ (by decide), g2 _ (by decide)]
    exact hn
  have hso1 : ∀ k, Solo k (b.snap E c!"print" (Sys.step E c!"print" b.B clk s (.enqueue (job c!"a") .newReRun : Op Int Unit)).1) :=
    fun k => reach_solo lawful (fun _ _ h => h.1.of _) hs1
  have hrun1 := (g2 .running (by decide)).trans hrun
  have htask1 : (b.snap E c!"print" (Sys.step E c!"print" b.B clk s (.enqueue (job c!"a") .newReRun : Op Int Unit)).1).tasks = [] := ho.tasks.trans ht
  have hst1 : _ = some JobStatus.queued := status_of g5
  generalize (Sys.step E c!"print" b.B clk s (.enqueue (job c!"a") .newReRun : Op Int Unit)).1 = s1 at *
  have hcl : Sys.Closes b E c!"print" clk s1 works :=
    { submit := fun n j c => (by unfold works; split <;> exact fun h => nomatch h)
      retry := fun n id => (works_calm id n).2.2
      careful := works_careful hw
      room := ⟨fun n id _ => works_ends hw n id, works_ticks hw, fun n _ => Nat.le_of_eq (worker_after hw n).2.2.1.symm⟩
      small := by
        unfold Snap.inFlight
        rw [g1, hq, htask1]
        decide }
  have hk : ∀ k job, (b.snap E c!"print" s1).job k = some job → job.context.jobStatus = .queued ∨ job.context.jobStatus = .running → k = c!"a" := by
    intro k job hj hst
    have q1 := (hso1 k).queued
    have q2 := (hso1 k).running
    rw [status_of hj, g1, hq] at q1
    rw [status_of hj, hrun1] at q2
    rcases hst with e | e
    · rw [if_pos (by rw [e])] at q1
      have := List.count_pos_iff.1 (by omega : 0 < List.count k [c!"a"])
      simpa using this
    · rw [if_pos (by rw [e])] at q2
      simp at q2
  obtain ⟨N, hN⟩ := C91_drains (b := b) lawful (hs1.mono fun _ _ h => h.1) hcl clk_passes fun k job' hj hst => by
    obtain rfl := hk k job' hj hst
    cases hj.symm.trans g5
    exact ⟨(fun _ _ _ _ h => nomatch h), (fun r h => nomatch h), .inl fun n => works_default _ _ n⟩
  obtain ⟨r1, r2, r3, r4⟩ := hN (3 * N) (by omega)
  have hw' := worker_after hw (3 * N)
  refine ⟨Sys.after E c!"print" b.B clk s1 works (3 * N), after_onlyA hs1 hw _, hw'.2.1, hw'.2.2.1, r3, r2, r1, ?_⟩
  have := (after_entries hs1 hw hst1 (3 * N)).2 ((r4 c!"a" (by rw [hst1]; simp)).2 (by rw [hst1]; decide) fun m => (works_calm _ m).2.1)
  omega

/-- C94, the negation: the lists grow without bound, although only one job is ever submitted: each time it is submitted again after it was done, one more entry stays
for ever (unless it is retried by hand). -/
theorem C94_refuted_grows (n : Nat) : ∃ s : Sys Int b.B, Reach (O := Unit) b E c!"print" clk OnlyA s ∧ n ≤ entries (b.snap E c!"print" s) := by
  suffices h : ∃ s, Rested b n s by
    obtain ⟨s, h⟩ := h
    exact ⟨s, h.1, h.2.2.2.2.2.2⟩
  induction n with
  | zero =>
    have hr : Reach (O := Unit) b E c!"print" clk OnlyA (on b [.config { maxProcessingJobs := 1 }]) := by
      have h0 : OnlyA (b.snap E c!"print" (Sys.init b.B b.empty)) (.config { maxProcessingJobs := 1 }) :=
        ⟨trivial, (fun j c h => by cases h), fun id h => by cases h⟩
      exact .step _ .start h0
    have hv : b.snap E c!"print" (on b [.config { maxProcessingJobs := 1 }]) = see [.config { maxProcessingJobs := 1 }] := see_on b _
    refine ⟨on b [.config { maxProcessingJobs := 1 }], hr, ?_, ?_, ?_, ?_, ?_, Nat.zero_le _⟩
    · have : (b.snap E c!"print" (on b [.config { maxProcessingJobs := 1 }])).alive = true := by rw [hv]; decide +kernel
      exact this
    · have : (b.snap E c!"print" (on b [.config { maxProcessingJobs := 1 }])).cfg.maxProcessingJobs = 1 := by rw [hv]; decide +kernel
      exact this
    · have : (b.snap E c!"print" (on b [.config { maxProcessingJobs := 1 }])).tasks = [] := by rw [hv]; decide +kernel
      exact this
    · rw [hv]; decide +kernel
    · rw [hv]; decide +kernel
  | succ n ih =>
    obtain ⟨s, h⟩ := ih
    exact next_entry h

/-- Job `a` is done, is submitted again and runs again. -/
def encore : List (Op Int Unit) := .enqueue (job c!"a") .newReRun :: round good ++ [.enqueue (job c!"a") .newReRun]

/-- C94, the negation: after `a` is submitted again it waits, and is in the list of the Finished jobs all the same. After it has finished again, it is
there twice. A job that was cancelled is in no list. -/
theorem C94_refuted :
    ((see encore).status c!"a" = some .queued ∧ (see encore).lists .queued = [c!"a"] ∧ (see encore).lists .finished = [c!"a"]) ∧
    ((see (encore ++ round good)).status c!"a" = some .finished ∧ (see (encore ++ round good)).lists .finished = [c!"a", c!"a"]) ∧
    ((see (encore ++ round bad)).status c!"a" = some .failed ∧ (see (encore ++ round bad)).lists .failed = [c!"a"] ∧
      (see (encore ++ round bad)).lists .finished = [c!"a"]) ∧
    ((see [.enqueue (job c!"a") .newReRun, .cancel c!"a"]).status c!"a" = some .canceled ∧
      ∀ st, (see [.enqueue (job c!"a") .newReRun, .cancel c!"a"]).lists st = []) := by
  refine ⟨by decide +kernel, by decide +kernel, by decide +kernel, by decide +kernel, fun st => ?_⟩
  cases st <;> decide +kernel

/-! Each theorem in a concrete case. -/

/-- A check that a turn is careful with `a` and does not run it again. -/
private def onceOnly (v : Snap Int) (op : Op Int Unit) : Bool :=
  ok c!"a" v op && match op with
    | .enqueue j _ => (v.status j.id).isNone
    | _ => true

private theorem onceOnly.sound {v : Snap Int} {op : Op Int Unit} (h : onceOnly v op = true) : CarefulFor E c!"a" v op ∧ NoReRun c!"a" v op := by
  simp only [onceOnly, Bool.and_eq_true] at h
  refine ⟨ok.careful h.1, fun j c e hj _ st hst => ?_⟩
  subst e
  have := h.2
  simp only at this
  rw [hj, hst] at this
  cases this

/-- Job `a` fails, is retried by hand, and finishes; `b` finishes as well. -/
def amended : List (Op Int Unit) :=
  .enqueue (job c!"a") .newReRun :: round bad ++ .retry c!"a" :: round good ++ .enqueue (job c!"b") .newReRun :: round good

example : ((see amended).lists .finished).count c!"a" = 1 ∧ ((see amended).lists .failed).count c!"a" = 0 := by
  have hr : Reach (O := Unit) Impl.memory E c!"print" clk (fun v op => CarefulFor E c!"a" v op ∧ NoReRun c!"a" v op) (after amended) :=
    (allTurns.later (ops := []) (chk := onceOnly) (ops' := amended) (by decide +kernel) fun _ _ h => onceOnly.sound h).reach (b := Impl.memory) .start fun _ _ h => h
  have h1 := C94_once_partial lawful hr (.inl rfl)
  have h2 := C94_once_partial lawful hr (.inr rfl)
  have e : (see amended).status c!"a" = some .finished := by decide +kernel
  change ((see amended).lists .finished).count c!"a" = if (see amended).status c!"a" = some .finished then 1 else 0 at h1
  change ((see amended).lists .failed).count c!"a" = if (see amended).status c!"a" = some .failed then 1 else 0 at h2
  rw [e] at h1 h2
  exact ⟨h1, h2⟩

example : (see amended).lists .finished = [c!"b", c!"a"] ∧ (see amended).lists .failed = [] := by decide +kernel

/-- C94: an announcement for each entry. -/
example : (see (encore ++ round good)).sent c!"a" = [.queued, .running, .finished, .queued, .running, .finished] ∧
    ((see (encore ++ round good)).lists .finished).count c!"a" = ((see (encore ++ round good)).sent c!"a").count .finished := by
  refine ⟨by decide +kernel, ?_⟩
  have hr : Reach (O := Unit) Impl.memory E c!"print" clk (fun _ op => op ≠ .retry c!"a") (after (encore ++ round good)) :=
    (allTurns.later (ops := []) (chk := fun _ op => match op with | .retry _ => false | _ => true) (ops' := encore ++ round good) (by decide +kernel)
      (P := fun _ op => op ≠ .retry c!"a") fun _ _ h e => by subst e; cases h).reach (b := Impl.memory) .start fun _ _ h => h
  exact C94_announced lawful hr (.inl rfl)

/-- C94: in a history with a retry by hand there are fewer. -/
example : ((see amended).lists .failed).count c!"a" < ((see amended).sent c!"a").count .failed := by decide +kernel

/-- C94: a Finished job is in its list, also when it runs for the second time. -/
example : c!"a" ∈ (see (encore ++ round good)).lists .finished :=
  C94_listed lawful (okAll.reach (k := c!"a") (by decide +kernel)) (.inl rfl) (by
    show (see (encore ++ round good)).status c!"a" = some .finished
    decide +kernel)

/-- C94: the turn that ends the second run of `a` enters it. -/
example : ((see (encore ++ [.tick, .start 0])).tasks.map fun t => t.executing.map Job.id) = [some c!"a"] ∧
    (see (encore ++ [.tick, .start 0])).Books (see (encore ++ [.tick, .start 0] ++ [.finish 0 good])) (.finish 0 good : Op Int Unit) := by
  refine ⟨by decide +kernel, ?_⟩
  have hr : Reach (O := Unit) Impl.memory E c!"print" clk (CarefulFor E c!"a") (after (encore ++ [.tick, .start 0])) := okAll.reach (by decide +kernel)
  have h := C94_turns lawful hr (.finish 0 good)
  rw [see_snoc] at h
  exact h

end

end AJ.Props
