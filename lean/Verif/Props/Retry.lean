import Verif.Proofs.RunEnd
import Verif.Props.Life
import Verif.Props.Codec

/-!
# Automatic retries (C12-C17)
-/

namespace AJ.Props
open W

section
variable {D O : Type} {E : Env D} {name : Str} {clk : Nat → Time} {b : Impl} {k : Str}

/-- Not a cron job. -/
def NonCron (j : Job D) : Prop := ∀ e n m c, j.context.jobType ≠ .cron e n m c

/-- `n` is a value of type `i32`. -/
def IsI32 (n : Int) : Prop := -(2 ^ 31) ≤ n ∧ n < 2 ^ 31

/-- The default `retry_at` counts the retry. -/
theorem retryAt_count {chk : Bool} {r r' : Retry} {now t : Time} {n : Int} (hn : r.maxRetries = some n)
    (hs : r.shouldRetry = true) (hr : IsI32 r.retriedTimes) (hi : IsI32 n) (h : r.retryAt chk now = some (r', t)) :
    r'.retriedTimes = r.retriedTimes + 1 ∧ r.retriedTimes < n ∧ r'.maxRetries = some n := by
  have hlt : r.retriedTimes < n := by simpa [Retry.shouldRetry, hn] using hs
  refine ⟨?_, hlt, (Retry.retryAt_strategy h).2.trans hn⟩
  have hadd : addI32 chk r.retriedTimes 1 = some (r.retriedTimes + 1) := by
    unfold addI32 fitsI32
    obtain ⟨h1, h2⟩ := hr
    obtain ⟨h3, h4⟩ := hi
    have h5 : -(2 ^ 31) ≤ r.retriedTimes + 1 := by omega
    have h6 : r.retriedTimes + 1 < 2 ^ 31 := by omega
    simp only [h5, h6, decide_true, Bool.and_self, if_true]
  unfold Retry.retryAt at h
  rw [hadd] at h
  simp only [Option.bind_eq_bind, Option.bind_some] at h
  rcases r with ⟨a, m, c | c⟩
  · simp only [Option.bind_eq_some_iff, Option.pure_def, Option.some.injEq, Prod.mk.injEq] at h
    obtain ⟨_, _, rfl, _⟩ := h
    rfl
  · simp only [Option.bind_eq_some_iff, Option.pure_def, Option.some.injEq, Prod.mk.injEq] at h
    obtain ⟨_, _, _, _, _, _, rfl, _⟩ := h
    rfl

/-- C12: a job stored with retry state "`r` of at most `n` retries used" runs at most `1 + (n - r)` more
times, as long as it is not submitted again or retried by hand; whatever its runs return, and whatever happens
to other jobs. For non-cron jobs that use the default `retry_at`. -/
theorem C12_bounded_retries (L : E.Lawful) {s s' : Sys D b.B} (hs : Reach (O := O) b E name clk (Orderly k) s)
    {job : Job D} {r : Retry} {n : Int} (hj : (b.snap E name s).job k = some job)
    (hty : NonCron job) (hr : job.context.retry = some r) (hn : r.maxRetries = some n) (hi : IsI32 r.retriedTimes) (hi' : IsI32 n)
    (h : Later (O := O) b E name clk (fun v op => NoSubmit k op ∧ op ≠ .retry k ∧ DefaultRetry k v op) s s') :
    ((b.snap E name s').runs k).length ≤ ((b.snap E name s).runs k).length + 1 + (n - r.retriedTimes).toNat := by
  -- `u.runs k` is counted by the retry state; one more for the run in progress or the last run
  have key := later_track L (I := fun u => ∃ j q, u.job k = some j ∧ NonCron j ∧ j.context.retry = some q ∧
      q.maxRetries = some n ∧ r.retriedTimes ≤ q.retriedTimes ∧ (q.retriedTimes ≤ n ∨ q.retriedTimes = r.retriedTimes) ∧
      ((u.runs k).length : Int) ≤ ((b.snap E name s).runs k).length + 1 + (q.retriedTimes - r.retriedTimes) ∧
      ((j.context.jobStatus = .queued ∨ u.own k = [⟨j, none⟩]) →
        ((u.runs k).length : Int) ≤ ((b.snap E name s).runs k).length + (q.retriedTimes - r.retriedTimes)))
    (fun _ _ h => h.1) hs (solo_of L hs hj) h ⟨job, r, hj, hty, hr, hn, Int.le_refl _, .inr rfl, by omega, fun _ => by omega⟩ ?_
  · rcases key with ⟨⟨j, q, _, _, _, _, h1, h2, h3, _⟩, _⟩ | ⟨_, u, ⟨j, q, _, _, _, _, h1, h2, h3, _⟩, hru, _⟩
    · omega
    · rw [hru]; omega
  · intro u u' op hp hsolo hstored hreads hl ⟨j0, q, hj0, hnc, hq0, hqn, h1, h2, h3, h4⟩
    cases hl with
    | same op g1 g2 g3 ha =>
      exact ⟨j0, q, g1.trans hj0, hnc, hq0, hqn, h1, h2, by rw [runs_same g3]; exact h3, by rw [g2, runs_same g3]; exact h4⟩
    | submit j c hid => exact absurd hid (hp.1 j c rfl)
    | replace j c ex hid => exact absurd hid (hp.1 j c rfl)
    | cancel j hold hq1 g1 _ g2 g3 =>
      rw [hj0] at hold; cases hold
      refine ⟨_, q, g1, hnc, hq0, hqn, h1, h2, by rw [runs_msg g3]; exact h3, ?_⟩
      rw [g2]; rintro (e | e) <;> cases e
    | retry => exact absurd rfl hp.2.1
    | pick j i hold hq1 _ _ _ g1 _ g2 g3 =>
      rw [hj0] at hold; cases hold
      exact ⟨_, q, g1, hnc, hq0, hqn, h1, h2, by rw [runs_msg g3]; exact h3, fun _ => by rw [runs_msg g3]; exact h4 (.inl hq1)⟩
    | run j i hold hq1 ht ho g1 g2 g3 =>
      rw [hj0] at hold; cases hold
      have := h4 (.inr ho)
      refine ⟨_, q, g1, hnc, hq0, hqn, h1, h2, ?_, ?_⟩
      · rw [runs_run g3, List.length_append]
        simp only [List.length_singleton]
        omega
      · rw [hq1, g2]; rintro (e | e) <;> cases e
    | finish j j' i x w w' hold hq1 ht ho hw hw' hf hends hs' g1 g2 g3 ha ha' =>
      rw [hj0] at hold; cases hold
      have hid : j0.id = k := (hstored k j0 hj0).2
      have hx : x.retryAt = none := hp.2.2 i x _ _ rfl ht hid
      have hran := Life.ran (v := u) (v' := u') L (hstored k j0 hj0).1 hq1 hw hw' hf hends hs' (.inl hx)
      rw [g2, runs_end g3]
      cases hran with
      | retry hr hfail hsr hra =>
        have e : some q = some _ := hq0.symm.trans hr
        cases e
        obtain ⟨c1, c2, c3⟩ := retryAt_count hqn hsr ⟨by have := hi.1; omega, by have := hi'.2; have := hi.2; omega⟩ hi' hra
        refine ⟨_, _, g1, (by intro a b c d e; cases e), rfl, c3, by omega, .inl (by omega), by omega, fun _ => by omega⟩
      | slot hno hc => exact absurd hc (hnc _ _ _ _)
      | stuck hno hc => exact absurd hc (hnc _ _ _ _)
      | failed hno hnx hfl => exact ⟨_, q, g1, hnc, hq0, hqn, h1, h2, h3, by rintro (e | e) <;> cases e⟩
      | finished hno hnx hfl => exact ⟨_, q, g1, hnc, hq0, hqn, h1, h2, h3, by rintro (e | e) <;> cases e⟩
    | died op g1 g2 g3 ha ha' =>
      obtain ⟨l, g3, g4⟩ := g3
      refine ⟨j0, q, g1.trans hj0, hnc, hq0, hqn, h1, h2, by rw [runs_hooks g3 g4]; exact h3, ?_⟩
      rw [runs_hooks g3 g4, g2]
      rintro (e | e)
      · exact h4 (.inl e)
      · cases e

/-- The norm of a non-cron job is none. -/
theorem NonCron.norm {job : Job D} (h : NonCron job) (f : D → D) (t : Int) : NonCron ((job.asQueued t).norm f) := by
  intro e m t x he
  have he : JobType.norm job.context.jobType = _ := he
  rcases hc : job.context.jobType with _ | t | ⟨e', n', m', c'⟩
  · rw [hc] at he; cases he
  · rw [hc] at he; cases he
  · exact h _ _ _ _ hc

/-- C12: a non-cron job with `max_retries = n` and no retries used that is submitted once runs at most `n + 1` times,
in every history in which it is not retried by hand; whatever its code does (with the default `retry_at`). -/
theorem C12_submitted_once (L : E.Lawful) {s s' : Sys D b.B}
    (hs : Reach (O := O) b E name clk (fun _ op => NoSubmit k op) s) {job : Job D} (c : EnqueueConfig) (hid : job.id = k)
    (hty : NonCron job) {r : Retry} {n : Nat} (hr : job.context.retry = some r)
    (h0 : r.retriedTimes = 0) (hn : r.maxRetries = some (n : Int)) (hi : (n : Int) < 2 ^ 31)
    (h : Later (O := O) b E name clk (fun v op => NoSubmit k op ∧ op ≠ .retry k ∧ DefaultRetry k v op)
      (Sys.step E name b.B clk s (.enqueue job c : Op D O)).1 s') :
    ((b.snap E name s').runs k).length ≤ n + 1 := by
  rcases submitted_or L hs c hid with ⟨h1, h2, h3⟩ | ⟨hs1, hru, hj, _⟩
  · rw [(lost_later L h1 h (fun _ _ h => h.1) h2).2, h3]
    exact Nat.zero_le _
  have hb := C12_bounded_retries L hs1 (r := r.norm) (n := n) hj (hty.norm _ _)
    (by show job.context.retry.map Retry.norm = _; rw [hr]; rfl) hn
    (by show IsI32 r.retriedTimes; rw [h0]; exact ⟨by decide, by decide⟩) ⟨by omega, hi⟩ h
  rw [hru] at hb
  have h0' : r.norm.retriedTimes = 0 := h0
  rw [h0'] at hb
  simp only [List.length_nil] at hb
  omega

/-- C13, as long as the job can be read and the actor lives: a waiting non-cron job with `r` of `n` retries used whose
every run fails: if it is neither cancelled, nor submitted again, nor retried by hand, then at every later moment at
which its stored job can be read and is not Running it is Queued if it has run at most `n - r` times since, and Failed if it has run `n - r + 1` times; it never runs more
often; and its run count has grown by the number of runs. With no retries used (`r = 0`) it is Failed exactly
after run `n + 1`. Missing for C13 as stated: a retry time that is no valid date kills the actor, and what user code
leaves may not be serialisable; then it is false (`C13_refuted`, `C13_refuted_lost`). -/
theorem C13_always_failing_partial (L : E.Lawful) {s s' : Sys D b.B} (hs : Reach (O := O) b E name clk (Orderly k) s)
    {job job' : Job D} {r : Retry} {n : Int} (hj : (b.snap E name s).job k = some job)
    (hq : job.context.jobStatus = .queued) (hty : NonCron job) (hr : job.context.retry = some r)
    (hn : r.maxRetries = some n) (hi : IsI32 r.retriedTimes) (hi' : IsI32 n)
    (h : Later (O := O) b E name clk (fun v op => NoSubmit k op ∧ op ≠ .retry k ∧ op ≠ .cancel k ∧
      DefaultRetry k v op ∧ AlwaysFails k v op) s s')
    (hj' : (b.snap E name s').job k = some job') (hr' : job'.context.jobStatus ≠ .running) :
    ∃ m : Nat, ((b.snap E name s').runs k).length = ((b.snap E name s).runs k).length + m ∧
      job'.context.runCount = job.context.runCount + m ∧ m ≤ (n - r.retriedTimes).toNat + 1 ∧
      job'.context.jobStatus = if m ≤ (n - r.retriedTimes).toNat then .queued else .failed := by
  have hrc := C40_grows L hs hj (by rw [hq]; simp) (h.mono fun _ _ h => h.1) hj' hr'
  have key := later_read L (I := fun u => ∃ j q, u.job k = some j ∧ NonCron j ∧ j.context.retry = some q ∧
      q.maxRetries = some n ∧ r.retriedTimes ≤ q.retriedTimes ∧ (q.retriedTimes ≤ n ∨ q.retriedTimes = r.retriedTimes) ∧
      ((j.context.jobStatus = .queued ∨ u.own k = [⟨j, none⟩]) →
        ((u.runs k).length : Int) = ((b.snap E name s).runs k).length + (q.retriedTimes - r.retriedTimes)) ∧
      (u.own k = [⟨j, some j.counted⟩] →
        ((u.runs k).length : Int) = ((b.snap E name s).runs k).length + 1 + (q.retriedTimes - r.retriedTimes)) ∧
      (j.context.jobStatus ≠ .queued → j.context.jobStatus ≠ .running → j.context.jobStatus = .failed ∧
        (u.runs k).length = ((b.snap E name s).runs k).length + 1 + (n - r.retriedTimes).toNat))
    (fun _ _ h => h.1) hs (solo_of L hs hj) h hj' ⟨job, r, hj, hty, hr, hn, Int.le_refl _, .inr rfl, fun _ => by omega, ?_, ?_⟩ ?_
  · obtain ⟨j, q, e, _, _, _, h1, h2, h3, _, h5⟩ := key
    rw [hj'] at e
    cases e
    refine ⟨((b.snap E name s').runs k).length - ((b.snap E name s).runs k).length, ?_⟩
    by_cases hc : job'.context.jobStatus = .queued
    · have h3 := h3 (.inl hc)
      refine ⟨by omega, by omega, by omega, ?_⟩
      rw [if_pos (by omega)]; exact hc
    · have h5 := h5 hc hr'
      refine ⟨by omega, by omega, by omega, ?_⟩
      rw [if_neg (by omega)]; exact h5.1
  · intro e
    have := (solo_of L hs hj).idle' hj (by rw [hq]; simp)
    rw [this] at e; cases e
  · exact fun e => absurd hq e
  · intro u u' op hp hsolo hstored hreads hl ⟨j0, q, hj0, hnc, hq0, hqn, h1, h2, h3, h4, h5⟩
    cases hl with
    | same op g1 g2 g3 ha =>
      refine ⟨j0, q, g1.trans hj0, hnc, hq0, hqn, h1, h2, ?_, ?_, ?_⟩
      · rw [g2, runs_same g3]; exact h3
      · rw [g2, runs_same g3]; exact h4
      · rw [runs_same g3]; exact h5
    | submit j c hid => exact absurd hid (hp.1 j c rfl)
    | replace j c ex hid => exact absurd hid (hp.1 j c rfl)
    | cancel => exact absurd rfl hp.2.2.1
    | retry => exact absurd rfl hp.2.1
    | pick j i hold hq1 _ _ _ g1 _ g2 g3 =>
      rw [hj0] at hold; cases hold
      refine ⟨_, q, g1, hnc, hq0, hqn, h1, h2, fun _ => ?_, fun e => ?_, fun _ e => absurd rfl e⟩
      · rw [runs_msg g3]; exact h3 (.inl hq1)
      · rw [g2] at e; simp at e
    | run j i hold hq1 ht ho g1 g2 g3 =>
      rw [hj0] at hold; cases hold
      have := h3 (.inr ho)
      refine ⟨_, q, g1, hnc, hq0, hqn, h1, h2, ?_, fun _ => ?_, fun _ e => absurd hq1 e⟩
      · rw [hq1, g2]; rintro (e | e) <;> cases e
      · rw [runs_run g3, List.length_append]
        simp only [List.length_singleton]
        omega
    | finish j j' i x w w' hold hq1 ht ho hw hw' hf hends hs' g1 g2 g3 ha ha' =>
      rw [hj0] at hold; cases hold
      have hid : j0.id = k := (hstored k j0 hj0).2
      have hx : x.retryAt = none := hp.2.2.2.1 i x _ _ rfl ht hid
      have hfl : x.fails j0.counted = true := hp.2.2.2.2 i x _ _ rfl ht hid
      have hran := Life.ran (v := u) (v' := u') L (hstored k j0 hj0).1 hq1 hw hw' hf hends hs' (.inl hx)
      have h4 := h4 ho
      rw [g2, runs_end g3]
      cases hran with
      | retry hr hfail hsr hra =>
        have e : some q = some _ := hq0.symm.trans hr
        cases e
        obtain ⟨c1, c2, c3⟩ := retryAt_count hqn hsr ⟨by have := hi.1; omega, by have := hi'.2; have := hi.2; omega⟩ hi' hra
        refine ⟨_, _, g1, (by intro a b c d e; cases e), rfl, c3, by omega, .inl (by omega), fun _ => by omega,
          (by intro e; cases e), fun e => absurd rfl e⟩
      | slot hno hc => exact absurd hc (hnc _ _ _ _)
      | stuck hno hc => exact absurd hc (hnc _ _ _ _)
      | failed hno hnx _ =>
        have hns := hno q hq0
        rw [hfl, Bool.true_and] at hns
        have hge : n ≤ q.retriedTimes := by simpa [Retry.shouldRetry, hqn] using hns
        exact ⟨_, q, g1, hnc, hq0, hqn, h1, h2, (by rintro (e | e) <;> cases e), (by intro e; cases e),
          fun _ _ => ⟨rfl, by omega⟩⟩
      | finished hno hnx h => rw [hfl] at h; cases h
    | died op g1 g2 g3 ha ha' =>
      obtain ⟨l, g3, g4⟩ := g3
      refine ⟨j0, q, g1.trans hj0, hnc, hq0, hqn, h1, h2, ?_, ?_, ?_⟩
      · rw [runs_hooks g3 g4, g2]
        rintro (e | e)
        · exact h3 (.inl e)
        · cases e
      · rw [g2]; intro e; cases e
      · rw [runs_hooks g3 g4]; exact h5

/-- What the end of a run does, in any history. -/
theorem ended (L : E.Lawful) {P : Snap D → Op D O → Prop} {s : Sys D b.B} (hs : Reach b E name clk P s)
    (ha : s.alive = true) {i : Nat} {x : Executable D O} {orig job : Job D}
    (hi : s.tasks[i]? = some ⟨orig, some job⟩) (hx : x.retryAt = none ∨ job.context.retry = none) :
    let v := b.snap E name s
    let v' := b.snap E name (Sys.step E name b.B clk s (.finish i x)).1
    (v.Dies v' ∧ job.EndPanics E x (clk v.reads)) ∨
    (∃ j', v.RunEnds v' i job j' ∧ Ran E L clk x job v.reads v'.reads j') ∨
    (¬ E.Encodable (WorkQueue.runUserCode x job).1 ∧ ∃ st, v.RunLost v' i job st ∧
      (job.NoRetry (x.fails job) → job.NoNext E (clk v.reads) → st = if x.fails job then .failed else .finished)) := by
  obtain ⟨h2, h3, h4⟩ := reach_exec L hs hi
  have h4 := h4 job rfl
  subst h4
  have hg : b.Good s.w.s := hs.good
  have hlv : x.leaves orig.counted (clk (b.snap E name s).reads) = (WorkQueue.runUserCode x orig.counted).1 := by
    unfold Executable.leaves
    rcases hx with hx | hx
    · rw [hx]
    · rw [hx]; cases x.retryAt <;> rfl
  rcases run_ends (O := O) (name := name) (clk := clk) (x := x) L s hg ha hi h2 with h | ⟨_, j', h, h'⟩ | ⟨h, st, h', h''⟩
  · exact .inl h
  · exact .inr (.inl ⟨j', h, h' h3.counted hx⟩)
  · exact .inr (.inr ⟨hlv ▸ h, st, h', h'' hx⟩)

/-- C39, what happens: the end of a run (whatever the user code did, short of panicking) records exactly one outcome:
the job is stored Queued, Finished or Failed, its id leaves the running list and goes to the front of the list of that
status, and nothing else changes (`Snap.RunEnds`); or it kills the actor by an overflow and changes nothing stored; or,
only if what the user code leaves cannot be serialised, the id moves in the same way but the stored job cannot be read
any more (`Snap.RunLost`). In any state of the store, any output, any clock. Missing for C39 as stated: the last
two cases, in which it is false (`C39_refuted`, `C39_refuted_lost`). -/
theorem C39_one_outcome_partial (L : E.Lawful) (s : Sys D b.B) (hg : b.Good s.w.s) (ha : s.alive = true) {i : Nat}
    {x : Executable D O} {orig job : Job D} (hi : s.tasks[i]? = some ⟨orig, some job⟩)
    (hrun : job.context.jobStatus = .running) :
    let v := b.snap E name s
    let v' := b.snap E name (Sys.step E name b.B clk s (.finish i x)).1
    (∃ j', v.RunEnds v' i job j') ∨ v.Dies v' ∨ (¬ x.Serialisable E job ∧ ∃ st, v.RunLost v' i job st) := by
  rcases run_ends (O := O) (name := name) (clk := clk) (x := x) L s hg ha hi hrun with h | ⟨_, j', h, _⟩ | ⟨h, st, h', _⟩
  · exact .inr (.inl h.1)
  · exact .inl ⟨j', h⟩
  · exact .inr (.inr ⟨fun hs => h (hs.leaves _), st, h'⟩)

/-- C39, when the outcome is recorded for certain: jobs without retry policy and without cron schedule, whose code
leaves them serialisable. -/
theorem C39_plain_partial (L : E.Lawful) (s : Sys D b.B) (hg : b.Good s.w.s) (ha : s.alive = true) {i : Nat}
    {x : Executable D O} {orig job : Job D} (hi : s.tasks[i]? = some ⟨orig, some job⟩)
    (hrun : job.context.jobStatus = .running) (hser : x.Serialisable E job) (hty : NonCron job)
    (hr : job.context.retry = none) :
    ∃ j', (b.snap E name s).RunEnds (b.snap E name (Sys.step E name b.B clk s (.finish i x)).1) i job j' := by
  rcases run_ends (O := O) (name := name) (clk := clk) (x := x) L s hg ha hi hrun with ⟨_, h⟩ | ⟨_, j', h, _⟩ | ⟨h, _⟩
  · rcases h with ⟨r, h, _⟩ | ⟨_, _, _, _, h, _⟩
    · rw [hr] at h; cases h
    · exact absurd h (hty _ _ _ _)
  · exact ⟨j', h⟩
  · exact absurd (hser.leaves _) h

/-- The run of `job` (task `i`) ends with status `st`: the id moves from the running list to that of `st`, plugins are
told `st`, and if the user code left the job serialisable the stored job has that status. -/
def EndsAs (E : Env D) (x : Executable D O) (v v' : Snap D) (i : Nat) (job : Job D) (st : JobStatus) : Prop :=
  (∃ j', v.RunEnds v' i job j' ∧ j'.context.jobStatus = st) ∨ (¬ x.Serialisable E job ∧ v.RunLost v' i job st)

/-- C17, for user code with the default `retry_at`, in any history. A run that did not fail uses up no retry: the
retry state that can be read afterwards is unchanged, a non-cron job ends Finished, and a cron job is either Finished or
Queued for its schedule (still with the same cron expression). A failed run of a non-cron job without retry policy, or
with its retries used up, ends Failed. Missing for C17 as stated: if what the user code leaves cannot be serialised,
the id goes to the right list but no status can be read (`C17_refuted`). -/
theorem C17_only_failed_retried_partial (L : E.Lawful) {P : Snap D → Op D O → Prop} {s : Sys D b.B}
    (hs : Reach b E name clk P s) (ha : s.alive = true) {i : Nat} {x : Executable D O} {orig job : Job D}
    (hi : s.tasks[i]? = some ⟨orig, some job⟩) (hx : x.retryAt = none) :
    let v := b.snap E name s
    let v' := b.snap E name (Sys.step E name b.B clk s (.finish i x)).1
    (x.fails job = false → v'.alive = true → ∀ j', v'.job job.id = some j' → j'.context.retry = job.context.retry ∧
      ∀ e n m c, job.context.jobType = .cron e n m c →
        j'.context.jobStatus = .finished ∨ j'.context.jobStatus = .queued ∧ ∃ n' m', j'.context.jobType = .cron e n' m' c) ∧
    (x.fails job = false → NonCron job → EndsAs E x v v' i job .finished) ∧
    (x.fails job = true → NonCron job →
      (∀ r, job.context.retry = some r → ∃ n, r.maxRetries = some n ∧ n ≤ r.retriedTimes) →
      EndsAs E x v v' i job .failed) := by
  intro v v'
  rcases ended L hs ha hi (.inl hx) with ⟨h, h'⟩ | ⟨j', hre, hran⟩ | ⟨he, st, hre, hst⟩
  · have h1 : v'.alive = false := h.alive
    refine ⟨fun _ hal => (by rw [h1] at hal; cases hal), fun hf hn => ?_, fun hf hn hb => ?_⟩
    · rcases h' with ⟨_, _, h', _⟩ | ⟨_, _, _, _, h', _⟩
      · rw [hf] at h'; cases h'
      · exact absurd h' (hn _ _ _ _)
    · rcases h' with ⟨r, hr, _, h', _⟩ | ⟨_, _, _, _, h', _⟩
      · obtain ⟨n, h3, h4⟩ := hb r hr
        simp only [Retry.shouldRetry, h3, decide_eq_true_eq] at h'
        omega
      · exact absurd h' (hn _ _ _ _)
  · have key : ∀ j2, v'.job job.id = some j2 → j2 = j' := fun j2 h2 => Option.some.inj (h2.symm.trans hre.stored)
    cases hran with
    | retry hr hf hsr _ =>
      refine ⟨fun h => (by rw [h] at hf; cases hf), fun h => (by rw [h] at hf; cases hf), fun _ _ h => ?_⟩
      obtain ⟨n, h1, h2⟩ := h _ hr
      simp only [Retry.shouldRetry, h1, decide_eq_true_eq] at hsr
      omega
    | slot hno hty _ _ _ _ _ =>
      refine ⟨fun _ _ j2 h2 => ?_, fun _ h => absurd hty (h _ _ _ _), fun _ h => absurd hty (h _ _ _ _)⟩
      rw [key j2 h2]
      exact ⟨rfl, fun e n m c h => .inr ⟨rfl, _, _, by rw [hty] at h; cases h; rfl⟩⟩
    | stuck hno hty _ _ _ _ =>
      refine ⟨fun _ _ j2 h2 => ?_, fun _ h => absurd hty (h _ _ _ _), fun _ h => absurd hty (h _ _ _ _)⟩
      rw [key j2 h2]
      exact ⟨rfl, fun e n m c h => .inr ⟨rfl, _, _, h⟩⟩
    | failed hno hnx hf _ =>
      exact ⟨fun h => (by rw [h] at hf; cases hf), fun h => (by rw [h] at hf; cases hf), fun _ _ _ => .inl ⟨_, hre, rfl⟩⟩
    | finished hno hnx hf _ =>
      refine ⟨fun _ _ j2 h2 => ?_, fun _ _ => .inl ⟨_, hre, rfl⟩, fun h => by rw [h] at hf; cases hf⟩
      rw [key j2 h2]
      exact ⟨rfl, fun _ _ _ _ _ => .inl rfl⟩
  · have hser : ¬ x.Serialisable E job := fun h => he h.1
    have hnx : NonCron job → job.NoNext E (clk v.reads) := fun h e n m c hc => absurd hc (h _ _ _ _)
    refine ⟨fun _ _ j2 h2 => ?_, fun hf hn => .inr ⟨hser, ?_⟩, fun hf hn hb => .inr ⟨hser, ?_⟩⟩
    · rw [show v'.job job.id = none from hre.stored] at h2; cases h2
    · have := hst (fun r _ => by rw [hf]; rfl) (hnx hn)
      rw [hf] at this
      have e : st = _ := this
      rw [e] at hre
      exact hre
    · have := hst (fun r hr => by
        obtain ⟨n, h3, h4⟩ := hb r hr
        simp only [Retry.shouldRetry, h3, Bool.and_eq_false_iff, decide_eq_false_iff_not]
        exact .inr (by omega)) (hnx hn)
      rw [hf] at this
      have e : st = _ := this
      rw [e] at hre
      exact hre

/-- A failed run that is to be retried, when the retry time can be computed. -/
private theorem retried (L : E.Lawful) {P : Snap D → Op D O → Prop} {s : Sys D b.B} (hs : Reach b E name clk P s)
    (ha : s.alive = true) {i : Nat} {x : Executable D O} {orig job : Job D}
    (hi : s.tasks[i]? = some ⟨orig, some job⟩) (hser : E.Encodable (WorkQueue.runUserCode x job).1)
    (hx : x.retryAt = none) (hf : x.fails job = true) {r r' : Retry} {due : Time} (hr : job.context.retry = some r)
    (hsr : r.shouldRetry = true) (hdue : r.retryAt E.overflowChecks (clk s.w.t) = some (r', due)) (hty : NonCron job) :
    ∃ j', (b.snap E name (Sys.step E name b.B clk s (.finish i x)).1).job job.id = some j' ∧
      (Sys.step E name b.B clk s (.finish i x)).1.alive = true ∧ j'.context.jobStatus = .queued ∧
      j'.context.jobType = .scheduledAt (floorUs due) ∧ j'.context.retry = some r' := by
  rcases ended L hs ha hi (.inl hx) with ⟨_, h⟩ | ⟨j', h, hran⟩ | ⟨he, _⟩
  · rcases h with ⟨r2, h1, _, _, h2⟩ | ⟨_, _, _, _, h, _⟩
    · rw [hr] at h1; cases h1
      have h2 : r.retryAt E.overflowChecks (clk s.w.t) = none := h2
      rw [hdue] at h2; cases h2
    · exact absurd h (hty _ _ _ _)
  · refine ⟨j', h.stored, h.alive, ?_⟩
    cases hran with
    | retry hr' _ _ hra =>
      rw [hr] at hr'; cases hr'
      have hra : r.retryAt E.overflowChecks (clk s.w.t) = _ := hra
      rw [hdue] at hra; cases hra
      exact ⟨rfl, rfl, rfl⟩
    | slot _ hc => exact absurd hc (hty _ _ _ _)
    | stuck _ hc => exact absurd hc (hty _ _ _ _)
    | failed hno => have := hno r hr; rw [hf, hsr] at this; cases this
    | finished hno => have := hno r hr; rw [hf, hsr] at this; cases this
  · exact absurd hser he

/-- A failed run that is to be retried, when the actor survives and the job can be read afterwards. -/
theorem retried' (L : E.Lawful) {P : Snap D → Op D O → Prop} {s : Sys D b.B} (hs : Reach b E name clk P s)
    (ha : s.alive = true) {i : Nat} {x : Executable D O} {orig job j' : Job D}
    (hi : s.tasks[i]? = some ⟨orig, some job⟩)
    (hx : x.retryAt = none) (hf : x.fails job = true) {r : Retry} (hr : job.context.retry = some r)
    (hsr : r.shouldRetry = true) (hal : (Sys.step E name b.B clk s (.finish i x)).1.alive = true)
    (hj' : (b.snap E name (Sys.step E name b.B clk s (.finish i x)).1).job job.id = some j') :
    ∃ r' due, r.retryAt E.overflowChecks (clk s.w.t) = some (r', due) ∧ j'.context.jobStatus = .queued ∧
      j'.context.jobType = .scheduledAt (floorUs due) ∧ j'.context.retry = some r' := by
  rcases ended L hs ha hi (.inl hx) with ⟨h, _⟩ | ⟨j2, h, hran⟩ | ⟨_, _, h, _⟩
  · have h1 : (Sys.step E name b.B clk s (.finish i x)).1.alive = false := h.alive
    rw [hal] at h1; cases h1
  · have no : job.NoRetry (x.fails job) → False := fun hno => by
      have := hno r hr; rw [hf, hsr] at this; cases this
    have e := hj'.symm.trans h.stored
    cases e
    cases hran with
    | retry hr' _ _ hra =>
      rw [hr] at hr'; cases hr'
      exact ⟨_, _, hra, rfl, rfl, rfl⟩
    | slot hno => exact (no hno).elim
    | stuck hno => exact (no hno).elim
    | failed hno => exact (no hno).elim
    | finished hno => exact (no hno).elim
  · rw [h.stored] at hj'; cases hj'

private theorem interval_due {chk : Bool} {r r' : Retry} {d : Dur} {now due : Time} (hd : r.strategy = .interval d)
    (h : r.retryAt chk now = some (r', due)) : due = now + d := by
  unfold Retry.retryAt at h
  rw [hd] at h
  simp only [Option.bind_eq_bind, Option.bind_eq_some_iff, Option.pure_def, Option.some.injEq, Prod.mk.injEq, timeAdd] at h
  obtain ⟨_, _, _, h, _, rfl⟩ := h
  split at h
  · cases h; rfl
  · cases h

private theorem backoff_exp {m : Int} (h0 : 0 ≤ m) (h1 : m < 30) : i32AsU32 (m + 1) = (m + 1).toNat := by
  unfold i32AsU32
  rw [Int.emod_eq_of_lt (by omega) (by omega)]

private theorem add_fits {chk : Bool} {m : Int} (h0 : 0 ≤ m) (h1 : m < 30) : addI32 chk m 1 = some (m + 1) := by
  unfold addI32 fitsI32
  have h2 : -(2 ^ 31) ≤ m + 1 := by omega
  have h3 : m + 1 < 2 ^ 31 := by omega
  simp only [h2, h3, decide_true, Bool.and_self, if_true]

private theorem backoff_due {chk : Bool} {r r' : Retry} {d : Dur} {now due : Time}
    (hd : r.strategy = .exponentialBackoff d) (h0 : 0 ≤ r.retriedTimes) (h1 : r.retriedTimes < 30)
    (h : r.retryAt chk now = some (r', due)) :
    due = now + d * 2 ^ (r.retriedTimes + 1).toNat ∧ r'.retriedTimes = r.retriedTimes + 1 := by
  unfold Retry.retryAt at h
  rw [hd, add_fits h0 h1] at h
  simp only [Option.bind_eq_bind, Option.bind_some, backoff_exp h0 h1, powTwoI32, show (r.retriedTimes + 1).toNat ≤ 30 by omega,
    if_true, Option.bind_eq_some_iff, Option.pure_def, Option.some.injEq, Prod.mk.injEq, timeAdd, durMul] at h
  obtain ⟨_, h1, _, h2, rfl, rfl⟩ := h
  split at h1 <;> cases h1
  split at h2 <;> cases h2
  exact ⟨rfl, rfl⟩

private theorem budget {r : Retry} (hbudget : ∀ n, r.maxRetries = some n → r.retriedTimes < n) : r.shouldRetry = true := by
  unfold Retry.shouldRetry
  cases e : r.maxRetries with
  | none => rfl
  | some n => simpa using hbudget n e

/-- C14, first half, in any history: after a failed run with retries left under the interval strategy `d`, if the
actor survives and the job can be read, it waits, scheduled for the time of completion (the clock read that the retry
is computed from) plus `d`, truncated to microseconds. With `C18_never_early` no later turn starts the job from that
stored state too early. -/
theorem C14_scheduled (L : E.Lawful) {P : Snap D → Op D O → Prop} {s : Sys D b.B} (hs : Reach b E name clk P s)
    (ha : s.alive = true) {i : Nat} {x : Executable D O} {orig job j' : Job D}
    (hi : s.tasks[i]? = some ⟨orig, some job⟩) (hx : x.retryAt = none) (hf : x.fails job = true) {r : Retry} {d : Dur}
    (hr : job.context.retry = some r) (hbudget : ∀ n, r.maxRetries = some n → r.retriedTimes < n)
    (hd : r.strategy = .interval d) (hal : (Sys.step E name b.B clk s (.finish i x)).1.alive = true)
    (hj' : (b.snap E name (Sys.step E name b.B clk s (.finish i x)).1).job job.id = some j') :
    j'.context.jobStatus = .queued ∧ j'.context.jobType = .scheduledAt (floorUs (clk (b.snap E name s).reads + d)) := by
  obtain ⟨r', due, h2, h3, h4, _⟩ := retried' L hs ha hi hx hf hr (budget hbudget) hal hj'
  have e := interval_due hd h2
  subst e
  exact ⟨h3, h4⟩

/-- C14, for jobs submitted in an orderly way: in no later history is the job handed to execution or run before the
clock has been read to be later than the scheduled time. Missing for C14 as stated: other submissions, for which two
executions of the job can be in flight, and the one that ends last determines the schedule (`C14_refuted`). -/
theorem C14_interval_partial (L : E.Lawful) {s s' : Sys D b.B} (hs : Reach (O := O) b E name clk (Orderly k) s)
    (ha : s.alive = true) {i : Nat} {x : Executable D O} {orig job j' : Job D}
    (hi : s.tasks[i]? = some ⟨orig, some job⟩) (hk : job.id = k)
    (hx : x.retryAt = none) (hf : x.fails job = true) {r : Retry} {d : Dur} (hr : job.context.retry = some r)
    (hbudget : ∀ n, r.maxRetries = some n → r.retriedTimes < n) (hd : r.strategy = .interval d)
    (hal : (Sys.step E name b.B clk s (.finish i x)).1.alive = true)
    (hj' : (b.snap E name (Sys.step E name b.B clk s (.finish i x)).1).job k = some j')
    (h : Later (O := O) b E name clk (fun _ op => NoSubmit k op) (Sys.step E name b.B clk s (.finish i x)).1 s') :
    let v := b.snap E name s
    let v1 := b.snap E name (Sys.step E name b.B clk s (.finish i x)).1
    let v' := b.snap E name s'
    (k ∉ v'.inFlight ∧ v'.runs k = v1.runs k) ∨ ∃ i, v1.reads ≤ i ∧ i < v'.reads ∧ floorUs (clk v.reads + d) < clk i := by
  subst hk
  obtain ⟨h3, h4⟩ := C14_scheduled L hs ha hi hx hf hr hbudget hd hal hj'
  exact C18_waits L (Reach.step _ hs (by intro j c e; cases e)) hj' h4 (by rw [h3]; simp) h

/-- C15, what the code does, in any history: after a failed run with `m` retries used, `m < 30`, the next run (retry
number `m + 1`) waits `initial * 2 ^ (m + 1)`: twice the documented `initial * 2 ^ m`. Missing for C15 as stated: it is
false (`C15_refuted`); for `m ≥ 30` see `C16_refuted_debug` and `C16_refuted_release`. -/
theorem C15_backoff_partial (L : E.Lawful) {P : Snap D → Op D O → Prop} {s : Sys D b.B} (hs : Reach b E name clk P s)
    (ha : s.alive = true) {i : Nat} {x : Executable D O} {orig job j' : Job D}
    (hi : s.tasks[i]? = some ⟨orig, some job⟩)
    (hx : x.retryAt = none) (hf : x.fails job = true) {r : Retry} {d : Dur} (hr : job.context.retry = some r)
    (hbudget : ∀ n, r.maxRetries = some n → r.retriedTimes < n) (hd : r.strategy = .exponentialBackoff d)
    {m : Nat} (hm : r.retriedTimes = m) (h30 : m < 30)
    (hal : (Sys.step E name b.B clk s (.finish i x)).1.alive = true)
    (hj' : (b.snap E name (Sys.step E name b.B clk s (.finish i x)).1).job job.id = some j') :
    j'.context.jobStatus = .queued ∧
      j'.context.jobType = .scheduledAt (floorUs (clk (b.snap E name s).reads + d * 2 ^ (m + 1))) := by
  obtain ⟨r', due, h2, h3, h4, _⟩ := retried' L hs ha hi hx hf hr (budget hbudget) hal hj'
  have e := (backoff_due hd (by omega) (by omega) h2).1
  subst e
  refine ⟨h3, ?_⟩
  rw [h4, hm]
  rfl

/-- C16 for the first 30 retries, in any history: with `max_retries = None`, a non-cron job whose run fails with
`m < 30` retries used is scheduled again, and the actor survives, provided the due time is a valid date and the user
code leaves the job serialisable; the delay is `initial * 2 ^ (m + 1)`, not smaller than the previous one,
`initial * 2 ^ m`. Missing for C16 as stated: from retry 31 on it is false (`C16_refuted_debug`,
`C16_refuted_release`). -/
theorem C16_unlimited_partial (L : E.Lawful) {P : Snap D → Op D O → Prop} {s : Sys D b.B} (hs : Reach b E name clk P s)
    (ha : s.alive = true) {i : Nat} {x : Executable D O} {orig job : Job D}
    (hi : s.tasks[i]? = some ⟨orig, some job⟩) (hser : x.Serialisable E job)
    (hx : x.retryAt = none) (hf : x.fails job = true) (hty : NonCron job) {r : Retry} {d : Dur}
    (hr : job.context.retry = some r) (hunl : r.maxRetries = none) (hd : r.strategy = .exponentialBackoff d)
    (hd0 : 0 ≤ d) {m : Nat} (hm : r.retriedTimes = m) (h30 : m < 30) (hdm : d * 2 ^ (m + 1) < 2 ^ 63)
    (hmin : timeMin ≤ clk s.w.t + d * 2 ^ (m + 1)) (hmax : clk s.w.t + d * 2 ^ (m + 1) ≤ timeMax) :
    d * 2 ^ m ≤ d * 2 ^ (m + 1) ∧ (Sys.step E name b.B clk s (.finish i x)).1.alive = true ∧
    ∃ j' r', (b.snap E name (Sys.step E name b.B clk s (.finish i x)).1).job job.id = some j' ∧
      j'.context.jobStatus = .queued ∧
      j'.context.jobType = .scheduledAt (floorUs (clk (b.snap E name s).reads + d * 2 ^ (m + 1))) ∧
      j'.context.retry = some r' ∧ r'.retriedTimes = m + 1 := by
  have e0 : (r.retriedTimes + 1).toNat = m + 1 := by omega
  have hsome : r.retryAt E.overflowChecks (clk s.w.t) =
      some ({ r with retriedTimes := r.retriedTimes + 1 }, clk s.w.t + d * 2 ^ (m + 1)) := by
    unfold Retry.retryAt
    rw [hd, add_fits (by omega) (by omega)]
    have h0 : (0 : Int) ≤ d * 2 ^ (m + 1) := Int.mul_nonneg hd0 (Int.le_of_lt (Int.pow_pos (by omega)))
    have h1 : durMul d (2 ^ (m + 1)) = some (d * 2 ^ (m + 1)) := by
      unfold durMul nsPerSec
      have aux : ∀ X : Int, 0 ≤ X → X < 2 ^ 63 → -(2 ^ 63) < X / 1000000000 ∧ X / 1000000000 < 2 ^ 63 - 1 :=
        fun X a b => by constructor <;> omega
      have h1 := aux _ h0 hdm
      exact if_pos h1
    simp only [Option.bind_eq_bind, Option.bind_some, backoff_exp (m := r.retriedTimes) (by omega) (by omega), e0,
      powTwoI32, show m + 1 ≤ 30 by omega, if_true, h1, timeAdd, hmin, hmax, and_self, Option.pure_def]
  obtain ⟨j', h1, h2, h3, h4, h5⟩ := retried L hs ha hi hser.1 hx hf hr (by unfold Retry.shouldRetry; rw [hunl]) hsome hty
  refine ⟨?_, h2, j', _, h1, h3, h4, h5, ?_⟩
  · have : (d : Int) * 2 ^ (m + 1) = d * 2 ^ m + d * 2 ^ m := by
      have aux : ∀ X : Int, X * 2 = X + X := fun X => by omega
      rw [Int.pow_succ, ← Int.mul_assoc, aux]
    have h0 : (0 : Int) ≤ d * 2 ^ m := Int.mul_nonneg hd0 (Int.le_of_lt (Int.pow_pos (by omega)))
    rw [show d * 2 ^ (m + 1) = _ from this]
    exact Int.le_add_of_nonneg_left h0
  · show r.retriedTimes + 1 = _
    rw [hm]

end

section
open Demo

/-- At most two retries, after 3.000001234 s. -/
def twoRetries : Retry := .newIntervalRetry (some 2) (3 * nsPerSec + 1234)

/-- `a` is submitted with two retries. -/
def flakySubmitted : List (Op Int Unit) := [.enqueue (flaky twoRetries) .newReRun]

/-- It fails three times; between the runs there are ticks that come too early. -/
def threeRuns : List (Op Int Unit) :=
  round bad ++ [.tick, .tick] ++ round bad ++ [.tick, .tick] ++ round bad ++ [.tick, .tick]

/-- What is asked of the turns in C12 and C13 holds. -/
theorem threeRuns_later : Later (O := Unit) Impl.memory E c!"print" clk (fun v op => NoSubmit c!"a" op ∧
      op ≠ .retry c!"a" ∧ op ≠ .cancel c!"a" ∧ DefaultRetry c!"a" v op ∧ AlwaysFails c!"a" v op)
      (after flakySubmitted) (after (flakySubmitted ++ threeRuns)) :=
  allTurns.later (chk := fun v op => ok c!"a" v op && calm c!"a" op && failing v op) (by decide +kernel) (fun v op h => by
      simp only [Bool.and_eq_true] at h
      exact ⟨calm.noSubmit h.1.2, calm.noRetry h.1.2, calm.noCancel h.1.2, ok.dflt h.1.1, failing.always h.2⟩)

/-- The job when it is submitted, and at the end. -/
def flakyStart : Job Int := ((see flakySubmitted).job c!"a").getD (job [])
def flakyEnd : Job Int := ((see (flakySubmitted ++ threeRuns)).job c!"a").getD (job [])

theorem flakyStart_job : (see flakySubmitted).job c!"a" = some flakyStart := by decide +kernel
theorem flakyEnd_job : (see (flakySubmitted ++ threeRuns)).job c!"a" = some flakyEnd := by decide +kernel

theorem flaky_nonCron (r : Retry) : NonCron (flaky r) := by intro e n m c h; cases h

/-- The bound of C12 is reached: three runs with two retries. -/
example : ((see (flakySubmitted ++ threeRuns)).runs c!"a").length ≤ 2 + 1 :=
  C12_submitted_once (k := c!"a") (s := after []) (job := flaky twoRetries) (n := 2) lawful .start .newReRun rfl
    (flaky_nonCron _) rfl rfl rfl (by decide)
    (by rw [after_snoc]; exact threeRuns_later.mono fun _ _ h => ⟨h.1, h.2.1, h.2.2.2.1⟩)

example : ((see (flakySubmitted ++ threeRuns)).runs c!"a").length = 3 := by decide +kernel

theorem flakySubmitted_orderly : Reach (O := Unit) Impl.memory E c!"print" clk (Orderly c!"a") (after flakySubmitted) :=
  (okAll.reach (by decide +kernel)).orderly lawful

theorem flakyStart_nonCron : NonCron flakyStart := by
  intro e n m c h
  rw [show flakyStart.context.jobType = .normal by decide +kernel] at h
  cases h

example : ((see (flakySubmitted ++ threeRuns)).runs c!"a").length ≤ 0 + 1 + 2 :=
  C12_bounded_retries (k := c!"a") (job := flakyStart) (r := ⟨0, some 2, .interval 3000001000⟩) (n := 2) lawful
    flakySubmitted_orderly flakyStart_job flakyStart_nonCron (by decide +kernel) rfl ⟨by decide, by decide⟩ ⟨by decide, by decide⟩
    (threeRuns_later.mono fun _ _ h => ⟨h.1, h.2.1, h.2.2.2.1⟩)

/-- C13: Failed after run 3. -/
example : flakyEnd.context.jobStatus = .failed ∧ flakyEnd.context.runCount = 3 := by decide +kernel

example : ∃ m : Nat, ((see (flakySubmitted ++ threeRuns)).runs c!"a").length = ((see flakySubmitted).runs c!"a").length + m ∧
    flakyEnd.context.runCount = flakyStart.context.runCount + m ∧ m ≤ (2 - 0 : Int).toNat + 1 ∧
    flakyEnd.context.jobStatus = if m ≤ (2 - 0 : Int).toNat then .queued else .failed :=
  C13_always_failing_partial (k := c!"a") (job := flakyStart) (job' := flakyEnd) (r := ⟨0, some 2, .interval 3000001000⟩)
    (n := 2) lawful flakySubmitted_orderly flakyStart_job (by decide +kernel) flakyStart_nonCron (by decide +kernel) rfl
    ⟨by decide, by decide⟩ ⟨by decide, by decide⟩ threeRuns_later flakyEnd_job (by decide +kernel)

/-- A retry after 290 000 years, which can be stored. -/
def ages : Retry := .newIntervalRetry (some 2) (290000 * 31556952 * nsPerSec)

/-- C13 is false as stated: with a retry interval that leads beyond the last date, the first failure kills the actor;
the job stays Running, although two retries are left. In every build. -/
theorem C13_refuted :
    let ops : List (Op Int Unit) := [.enqueue (flaky ages) .newReRun]
    ((see ops).job c!"a").map (·.context.retry) = some (some ages) ∧
    (see (ops ++ round bad)).alive = false ∧ (see (ops ++ round bad)).status c!"a" = some .running := by
  decide +kernel

/-- C39 is false as stated: the same run has no recorded outcome. -/
theorem C39_refuted :
    let ops : List (Op Int Unit) := [.enqueue (flaky ages) .newReRun, .tick, .start 0]
    (see ops).inFlight = [c!"a"] ∧ (see (ops ++ [.finish 0 bad])).inFlight = [] ∧
    (see (ops ++ [.finish 0 bad])).status c!"a" = some .running ∧
    (see (ops ++ [.finish 0 bad])).lists .running = [c!"a"] := by decide +kernel

/-- User code that nests its data one level deeper, with an output that counts as failed or not. -/
def grow (fail : Bool) : Executable Nat Unit where
  execute d _ := (d + 1, ())
  isFailedOutput _ _ := fail

/-- A job whose data is nested as deeply as can be read is submitted and runs once. -/
def grown (r : Option Retry) (fail : Bool) : List (Op Nat Unit) :=
  [.enqueue ⟨{ JobContext.new c!"a" 0 with retry := r }, 125⟩ .newReRun, .tick, .start 0, .finish 0 (grow fail)]

/-- What can be seen then. -/
def deepSee (ops : List (Op Nat Unit)) : Snap Nat := Impl.memory.snap deepE c!"print"
  (Sys.runOps deepE c!"print" InMem clk (Sys.init InMem InMem.empty) ops).1

/-- C39 is false as stated: if a run leaves data that cannot be read back, the job is in the Finished list, but no
outcome is stored. -/
theorem C39_refuted_lost :
    (deepSee ((grown none false).take 3)).status c!"a" = some .running ∧
    (deepSee (grown none false)).job c!"a" = none ∧ (deepSee (grown none false)).lists .finished = [c!"a"] := by
  decide +kernel

/-- C17 is false as stated: no status can be read after such a run, successful or not. -/
theorem C17_refuted : (deepSee (grown none false)).status c!"a" = none ∧
    (deepSee (grown none true)).status c!"a" = none ∧ (deepSee (grown none true)).lists .failed = [c!"a"] := by
  decide +kernel

/-- C13 is false as stated: after such a failed run the job, with two retries left, is never run again: it cannot
be read. -/
theorem C13_refuted_lost :
    let r := some (.newIntervalRetry (some 2) 0)
    (deepSee (grown r true)).job c!"a" = none ∧ (deepSee (grown r true)).lists .queued = [c!"a"] ∧
    (deepSee (grown r true ++ [.tick, .tick, .tick])).inFlight = [] := by decide +kernel

/-- The job is in user code for the first time. -/
def flakyRun : List (Op Int Unit) := flakySubmitted ++ [.tick, .start 0]

/-- The job that was started, and the one in user code. -/
def flakyOrig : Job Int := ((see flakyRun).job c!"a").getD (job [])

theorem flakyRun_orderly : Reach (O := Unit) Impl.memory E c!"print" clk (Orderly c!"a") (after flakyRun) :=
  (okAll.reach (by decide +kernel)).orderly lawful

theorem flakyRun_task : (after flakyRun).tasks[0]? = some ⟨flakyOrig, some flakyOrig.counted⟩ := by decide +kernel

/-- The job after it failed. -/
def flakyAgain : Job Int := ((see (flakyRun ++ [.finish 0 bad])).job c!"a").getD (job [])

theorem flakyOrig_id : flakyOrig.counted.id = c!"a" := by decide +kernel
theorem flakyRun_alive : (after flakyRun).alive = true := by decide +kernel
theorem flakyAgain_alive : (after (flakyRun ++ [.finish 0 bad])).alive = true := by decide +kernel
theorem flakyAgain_job : (see (flakyRun ++ [.finish 0 bad])).job c!"a" = some flakyAgain := by decide +kernel

/-- C14: scheduled for second 3 (the clock read at completion) plus the interval, rounded to microseconds when the job
was stored. -/
example : flakyAgain.context.jobStatus = .queued ∧ flakyAgain.context.jobType = .scheduledAt 6000001000 := by
  have h := C14_scheduled (b := Impl.memory) (s := after flakyRun) (orig := flakyOrig) (job := flakyOrig.counted) (x := bad)
    (i := 0) (d := 3000001000) (r := ⟨0, some 2, .interval 3000001000⟩) (j' := flakyAgain) lawful flakyRun_orderly
    flakyRun_alive flakyRun_task rfl rfl
    (by decide +kernel) (by intro n h; cases h; decide) rfl (by rw [after_snoc]; exact flakyAgain_alive)
    (by rw [see_snoc, flakyOrig_id]; exact flakyAgain_job)
  rw [see_after] at h
  exact ⟨h.1, h.2.trans (by decide +kernel)⟩

example : c!"a" ∉ (see (flakyRun ++ [.finish 0 bad] ++ [.tick])).inFlight ∨ 6 < (see (flakyRun ++ [.finish 0 bad] ++ [.tick])).reads := by
  rcases C14_interval_partial (b := Impl.memory) (s := after flakyRun) (s' := after (flakyRun ++ [.finish 0 bad] ++ [.tick]))
    (orig := flakyOrig) (job := flakyOrig.counted) (j' := flakyAgain) (x := bad) (i := 0) (d := 3000001000) (k := c!"a")
    (r := ⟨0, some 2, .interval 3000001000⟩) lawful flakyRun_orderly flakyRun_alive flakyRun_task flakyOrig_id
    rfl rfl (by decide +kernel) (by intro n h; cases h; decide) rfl (by rw [after_snoc]; exact flakyAgain_alive)
    (by rw [see_snoc]; exact flakyAgain_job)
    (by rw [after_snoc]; exact okAll.later (k := c!"a") (by decide +kernel) (by decide +kernel) (fun _ _ _ h => calm.noSubmit h))
    with h | ⟨i, _, h1, h2⟩
  · exact .inl h.1
  · rw [see_after] at h1 h2
    have h0 : (see flakyRun).reads = 3 := by decide +kernel
    rw [h0, show floorUs (clk 3 + 3000001000) = 6000001000 by decide +kernel] at h2
    have h2 : (6000001000 : Int) < (i : Int) * nsPerSec := h2
    unfold nsPerSec at h2
    exact .inr (by omega)

/-- `a` (1 s after a failure) is put into the queue twice and both entries are started (see `C32_refuted`). One
execution succeeds, and `a` is submitted again, to be retried 1000 s after a failure, and started. -/
def crossed : List (Op Int Unit) :=
  overlapping.dropLast ++ [.finish 0 good,
    .enqueue ⟨{ JobContext.new c!"a" 0 with retry := some (.newIntervalRetry (some 2) (1000 * nsPerSec)) }, 1⟩ .newReRun,
    .tick, .start 1]

/-- C14 is false as stated: that execution fails, and the job is to be retried after 1000 s. Then the other execution
fails, and the job is started soon after. -/
theorem C14_refuted :
    ((see (crossed ++ [.finish 1 bad])).job c!"a").map (·.context.jobType) =
      some (.scheduledAt (clk (see crossed).reads + 1000 * nsPerSec)) ∧
    (see (crossed ++ [.finish 1 bad, .finish 0 bad])).inFlight = [] ∧
    c!"a" ∈ (see (crossed ++ [.finish 1 bad, .finish 0 bad, .tick, .tick, .tick])).inFlight ∧
    clk (see (crossed ++ [.finish 1 bad, .finish 0 bad, .tick, .tick, .tick])).reads <
      clk (see crossed).reads + 1000 * nsPerSec := by decide +kernel

/-- C17: the first run with an output that counts as success ends Finished, without using up a retry. -/
example : ((see (flakySubmitted ++ round good)).job c!"a").map (fun j => (j.context.jobStatus, j.context.retry)) =
    some (.finished, some ⟨0, some 2, .interval 3000001000⟩) := by decide +kernel

example := (C17_only_failed_retried_partial (b := Impl.memory) (s := after flakyRun) (orig := flakyOrig)
  (job := flakyOrig.counted) (x := good) (i := 0) lawful flakyRun_orderly
  flakyRun_alive flakyRun_task rfl).2.1 rfl (by
    intro e n m c h
    rw [show flakyOrig.counted.context.jobType = .normal by decide +kernel] at h
    cases h)

/-- C17: without retry policy a failed run ends Failed. -/
example : (see ([.enqueue (job c!"a") .newReRun] ++ round bad)).status c!"a" = some .failed := by decide +kernel

/-- C39: the same run has exactly one outcome. -/
example := C39_one_outcome_partial (b := Impl.memory) (name := c!"print") (clk := clk) (x := good) (i := 0) (orig := flakyOrig)
  (job := flakyOrig.counted) lawful (after flakyRun) flakyRun_orderly.good flakyRun_alive flakyRun_task (by decide +kernel)

/-- A job without retry policy in user code. -/
def plainRun : List (Op Int Unit) := [.enqueue (job c!"a") .newReRun, .tick, .start 0]
def plainOrig : Job Int := ((see plainRun).job c!"a").getD (job [])

example := C39_plain_partial (b := Impl.memory) (name := c!"print") (clk := clk) (x := bad) (i := 0) (orig := plainOrig)
  (job := plainOrig.counted) lawful (after plainRun) (okAll.reach (k := c!"a") (ops := plainRun) (by decide +kernel)).good (by decide +kernel)
  (by decide +kernel) (by decide +kernel) (serialisable (by decide +kernel) rfl)
  (by intro e n m c h
      rw [show plainOrig.counted.context.jobType = .normal by decide +kernel] at h
      cases h) (by decide +kernel)

/-- `a` is submitted with exponential backoff, initially one second, and fails. -/
def backsOff : List (Op Int Unit) :=
  [.enqueue (flaky (.newExponentialBackoff (some 5) nsPerSec)) .newReRun] ++ round bad

/-- C15 is false as stated: the first retry with initial backoff 1 s waits 2 s, not 1 s. The run completed at
second 3 (clock read number 3 computes the retry time), and the job is scheduled for second 5. -/
theorem C15_refuted :
    (see (backsOff.take 3)).reads = 3 ∧ clk 3 = 3 * nsPerSec ∧
    ((see (backsOff.take 3)).job c!"a").map (·.context.retry) =
      some (some ⟨0, some 5, .exponentialBackoff nsPerSec⟩) ∧
    ((see backsOff).job c!"a").map (·.context.jobType) = some (.scheduledAt (clk 3 + 2 * nsPerSec)) ∧
    ((see backsOff).job c!"a").map (·.context.jobType) ≠ some (.scheduledAt (clk 3 + 1 * nsPerSec)) := by
  decide +kernel

/-- The job of `backsOff` in user code, and after the failure. -/
def backOrig : Job Int := ((see (backsOff.take 3)).job c!"a").getD (job [])
def backAgain : Job Int := ((see backsOff).job c!"a").getD (job [])

theorem backsOff_run : Reach (O := Unit) Impl.memory E c!"print" clk (CarefulFor E c!"a") (after (backsOff.take 3)) :=
  okAll.reach (by decide +kernel)
theorem backsOff_task : (after (backsOff.take 3)).tasks[0]? = some ⟨backOrig, some backOrig.counted⟩ := by decide +kernel
theorem backOrig_id : backOrig.counted.id = c!"a" := by decide +kernel
theorem backsOff_alive : (after (backsOff.take 3 ++ [.finish 0 bad])).alive = true := by decide +kernel
theorem backAgain_job : (see (backsOff.take 3 ++ [.finish 0 bad])).job c!"a" = some backAgain := by decide +kernel

example : backAgain.context.jobStatus = .queued := (C15_backoff_partial (b := Impl.memory) (s := after (backsOff.take 3))
    (orig := backOrig) (job := backOrig.counted) (j' := backAgain) (x := bad) (i := 0) (d := nsPerSec) (m := 0) (r := ⟨0, some 5, .exponentialBackoff nsPerSec⟩) lawful backsOff_run (by decide +kernel) backsOff_task rfl rfl
    (by decide +kernel) (by intro n h; cases h; decide) rfl rfl (by decide) (by rw [after_snoc]; exact backsOff_alive)
    (by rw [see_snoc, backOrig_id]; exact backAgain_job)).1

/-- The first failure of a job with unlimited retries. -/
def endless : List (Op Int Unit) := [.enqueue (flaky (.newExponentialBackoff none nsPerSec)) .newReRun, .tick, .start 0]
def endlessOrig : Job Int := ((see endless).job c!"a").getD (job [])

example := C16_unlimited_partial (b := Impl.memory) (orig := endlessOrig) (job := endlessOrig.counted) (x := bad) (i := 0) (d := nsPerSec) (m := 0)
    (r := ⟨0, none, .exponentialBackoff nsPerSec⟩) (name := c!"print") (clk := clk) (s := after endless) lawful
    (okAll.reach (k := c!"a") (ops := endless) (by decide +kernel)) (by decide +kernel) (by decide +kernel)
    (serialisable (by decide +kernel) rfl) rfl rfl
    (by intro e n m c h
        rw [show endlessOrig.counted.context.jobType = .normal by decide +kernel] at h
        cases h) (by decide +kernel) rfl rfl (by decide) rfl (by decide) (by decide) (by decide +kernel) (by decide +kernel)

/-- A clock that advances 2 ^ 32 µs per read. -/
def fastClk (n : Nat) : Time := (n : Int) * 2 ^ 32 * nsPerUs

/-- A job with unlimited exponential retries, initially 1 µs, is submitted and fails `n` times. -/
def unlimited (n : Nat) : List (Op Int Unit) :=
  [.enqueue (flaky (.newExponentialBackoff none nsPerUs)) .newReRun] ++ (List.replicate n (round bad)).flatten

/-- C16 is false in a build with overflow checks: the 31st failure computes `2_i32.pow(31)`, which panics inside
the actor; the work queue is dead. -/
theorem C16_refuted_debug :
    (Sys.runOps Edbg c!"print" InMem fastClk (Sys.init InMem InMem.empty) (unlimited 30)).1.alive = true ∧
    (Sys.runOps Edbg c!"print" InMem fastClk (Sys.init InMem InMem.empty) (unlimited 31)).1.alive = false := by
  decide +kernel

/-- What can be observed after `n` failures in a release build. -/
def unlimitedSee (n : Nat) : Snap Int := Impl.memory.snap E c!"print"
  (Sys.runOps E c!"print" InMem fastClk (Sys.init InMem InMem.empty) (unlimited n)).1

/-- Delay of the retry after failure `n`: the scheduled time minus the completion time. -/
def unlimitedDelay (n : Nat) : Option Int := ((unlimitedSee n).job c!"a").bind fun j =>
  match j.context.jobType with
  | .scheduledAt t => some (t - fastClk ((unlimitedSee n).reads - 2))
  | _ => none

/-- C16 is false in a build without overflow checks: the delay grows up to the 30th failure, is negative after
the 31st and zero after the 32nd. -/
theorem C16_refuted_release :
    unlimitedDelay 30 = some (2 ^ 30 * nsPerUs) ∧ unlimitedDelay 31 = some (-(2 ^ 31) * nsPerUs) ∧
    unlimitedDelay 32 = some 0 := by
  decide +kernel

end
end AJ.Props
