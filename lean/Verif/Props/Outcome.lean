import Verif.Spec.Outcome
import Verif.Props.Fair
import Verif.Props.Ops

/-!
# How a job ends (C97)

Endless histories in which it is known which runs of a job fail.
-/

namespace AJ.Props
open W

/-- There is one outcome. -/
theorem C97_unique {F : Nat → Bool} {c d r r' : Nat} {st st' : JobStatus} (h : Outcome F c d r st) (h' : Outcome F c d r' st') : r = r' ∧ st = st' := by
  have key : ∀ {r r' st st'}, Outcome F c d r st → Outcome F c d r' st' → ¬ r < r' := fun h h' hlt => by
    have h1 := h'.before _ h.some hlt
    have h2 := h'.most
    rcases h.last with ⟨-, e⟩ | ⟨-, -, e⟩
    · rw [h1] at e; cases e
    · omega
  have e : r = r' := by
    have := key h h'
    have := key h' h
    omega
  subst e
  refine ⟨rfl, ?_⟩
  rcases h.last with ⟨rfl, e⟩ | ⟨rfl, e, -⟩ <;> rcases h'.last with ⟨rfl, e'⟩ | ⟨rfl, e', -⟩
  · rfl
  · rw [e] at e'; cases e'
  · rw [e] at e'; cases e'
  · rfl

section
variable {D O : Type} {E : Env D} {name : Str} {clk : Nat → Time} {b : Impl} {k : Str} {s : Sys D b.B} {ops : Nat → Op D O}

local notation "σ" n:max => b.snap E name (Sys.after E name b.B clk s ops n)

private theorem due_later (hclk : Elapses clk) {j : Job D} (hty : NonCron j) : ∃ i, ∀ i', i ≤ i' → j.Due (clk i') := by
  unfold Job.Due
  rcases hj : j.context.jobType with _ | t | ⟨e, n, m, c⟩
  · exact ⟨0, fun _ _ => trivial⟩
  · exact hclk t
  · exact absurd hj (hty _ _ _ _)

/-- `C97_outcome` from any state in which the job is in order. -/
theorem outcome_inHand (L : E.Lawful) (hs : InHand b E name k s) (H : Sys.Serves b E name clk k s ops) (hclk : Elapses clk) {job : Job D} {d : Nat}
    {F : Nat → Bool} (hj : (b.snap E name s).job k = some job) (hq : job.context.jobStatus = .queued) (hty : NonCron job) (hd : job.RetriesLeft d)
    (hx : (∀ n, DefaultRetry k (σ n) (ops n)) ∨ job.context.retry = none) (hF : ∀ n, FailsAs k F (σ n) (ops n)) :
    ∃ r st n j', Outcome F job.context.runCount d r st ∧ (σ n).job k = some j' ∧ j'.context.jobStatus = st ∧
      j'.context.runCount = job.context.runCount + r ∧ NonCron j' ∧ j'.RetriesLeft (d + 1 - r) ∧
      ((σ n).runs k).length = ((b.snap E name s).runs k).length + r := by
  have key : ∀ (d n : Nat) (j : Job D), (σ n).job k = some j → j.context.jobStatus = .queued → NonCron j → j.RetriesLeft d →
      ((∀ n, DefaultRetry k (σ n) (ops n)) ∨ j.context.retry = none) →
      ∃ r st m j', Outcome F j.context.runCount d r st ∧ (σ m).job k = some j' ∧ j'.context.jobStatus = st ∧
        j'.context.runCount = j.context.runCount + r ∧ NonCron j' ∧ j'.RetriesLeft (d + 1 - r) ∧ ((σ m).runs k).length = ((σ n).runs k).length + r := by
    intro d
    induction d with
    | zero =>
      intro n j hj hq hty hd hx
      obtain ⟨m, t, j', x, h1, h2, h3⟩ := H.round L hs hj hq (due_later hclk hty) hx
      obtain ⟨i, g1, g2⟩ := h2.op
      have hid : (j.asRunning t).id = k := (H.inHand L hs n).keyed k j hj
      have hf : x.fails (j.asRunning t).counted = F (j.context.runCount + 1) := hF m i x _ _ g1 g2 hid
      have h4 := h2.job
      cases h2.ran with
      | retry hr _ hsr hra =>
        have hr : j.context.retry = _ := hr
        rcases hd with ⟨e, -⟩ | ⟨q, N, e1, e2, e3, e4, e5⟩
        · rw [e] at hr; cases hr
        · rw [e1] at hr; cases hr
          obtain ⟨-, c2, -⟩ := retryAt_count e2 hsr e3 e4 hra
          omega
      | slot _ hc => exact absurd hc (hty _ _ _ _)
      | stuck _ hc => exact absurd hc (hty _ _ _ _)
      | failed _ _ h =>
        exact ⟨1, .failed, m + 1, _, ⟨Nat.le_refl _, Nat.le_refl _, fun i h1 h2 => absurd h1 (by omega), .inr ⟨rfl, hf.symm.trans h, rfl⟩⟩, h4, rfl, rfl, hty, hd, h3⟩
      | finished _ _ h =>
        exact ⟨1, .finished, m + 1, _, ⟨Nat.le_refl _, Nat.le_refl _, fun i h1 h2 => absurd h1 (by omega), .inl ⟨rfl, hf.symm.trans h⟩⟩, h4, rfl, rfl, hty, hd, h3⟩
    | succ d ih =>
      intro n j hj hq hty hd hx
      obtain ⟨m, t, j', x, h1, h2, h3⟩ := H.round L hs hj hq (due_later hclk hty) hx
      obtain ⟨i, g1, g2⟩ := h2.op
      have hid : (j.asRunning t).id = k := (H.inHand L hs n).keyed k j hj
      have hf : x.fails (j.asRunning t).counted = F (j.context.runCount + 1) := hF m i x _ _ g1 g2 hid
      have h4 := h2.job
      have hd0 := hd
      rcases hd with ⟨-, e⟩ | ⟨q, N, e1, e2, e3, e4, e5⟩
      · cases e
      cases h2.ran with
      | retry hr h hsr hra =>
        have hr : j.context.retry = _ := hr
        rw [e1] at hr; cases hr
        obtain ⟨c1, c2, c3⟩ := retryAt_count e2 hsr e3 e4 hra
        have := e3.1
        have := e4.2
        obtain ⟨r, st, m', j', o, i1, i2, i3, i5, i6, i4⟩ := ih (m + 1) _ h4 rfl (by intro a b c d e; cases e)
          (.inr ⟨_, N, rfl, c3, ⟨by omega, by omega⟩, e4, by omega⟩) (hx.imp id fun hx => by rw [e1] at hx; cases hx)
        have i3 : j'.context.runCount = j.context.runCount + 1 + r := i3
        obtain ⟨o1, o2, o3, o4⟩ := o
        refine ⟨r + 1, st, m', j', ⟨by omega, by omega, fun i hi hi' => ?_, ?_⟩, i1, i2, by omega, i5, ?_, by omega⟩
        · rcases Nat.lt_or_ge 1 i with hi1 | hi1
          · have := o3 (i - 1) (by omega) (by omega)
            have e : j.context.runCount + 1 + (i - 1) = j.context.runCount + i := by omega
            exact e ▸ this
          · obtain rfl : i = 1 := by omega
            exact hf.symm.trans h
        · have e : j.context.runCount + 1 + r = j.context.runCount + (r + 1) := by omega
          have o4 : st = .finished ∧ F (j.context.runCount + 1 + r) = false ∨ st = .failed ∧ F (j.context.runCount + 1 + r) = true ∧ r = d + 1 := o4
          rw [e] at o4
          exact o4.imp id fun h => ⟨h.1, h.2.1, by omega⟩
        · rw [show d + 1 + 1 - (r + 1) = d + 1 - r by omega]
          exact i6
      | slot _ hc => exact absurd hc (hty _ _ _ _)
      | stuck _ hc => exact absurd hc (hty _ _ _ _)
      | failed hno _ h =>
        have := hno q e1
        rw [h, Bool.true_and] at this
        have hge : N ≤ q.retriedTimes := by simpa [Retry.shouldRetry, e2] using this
        omega
      | finished _ _ h =>
        exact ⟨1, .finished, m + 1, _, ⟨Nat.le_refl _, by omega, fun i h1 h2 => absurd h1 (by omega), .inl ⟨rfl, hf.symm.trans h⟩⟩, h4, rfl, rfl, hty, hd0, h3⟩
  exact key d 0 job hj hq hty hd hx

/-- C97: in every endless history that serves `k`, a waiting job that is not a cron job, with a bounded number of retries or without retry policy, whose runs
fail as `F` says of their numbers, runs and ends as it should: the first run that does not fail ends it as Finished, and it ends as Failed when its first run and all
its retries have failed. It has then as many retries left as it has not used. -/
theorem C97_outcome (L : E.Lawful) (hs : Reach (O := O) b E name clk (Orderly k) s) (H : Sys.Serves b E name clk k s ops) (hclk : Elapses clk) {job : Job D}
    {d : Nat} {F : Nat → Bool} (hj : (b.snap E name s).job k = some job) (hq : job.context.jobStatus = .queued) (hty : NonCron job) (hd : job.RetriesLeft d)
    (hx : (∀ n, DefaultRetry k (σ n) (ops n)) ∨ job.context.retry = none) (hF : ∀ n, FailsAs k F (σ n) (ops n)) :
    ∃ r st n j', Outcome F job.context.runCount d r st ∧ (σ n).job k = some j' ∧ j'.context.jobStatus = st ∧
      j'.context.runCount = job.context.runCount + r ∧ NonCron j' ∧ j'.RetriesLeft (d + 1 - r) ∧
      ((σ n).runs k).length = ((b.snap E name s).runs k).length + r :=
  outcome_inHand L (hs.inHand L) H hclk hj hq hty hd hx hF

/-- C97: a job that has ended stays as it is and does not run, if nobody retries it by hand. -/
theorem C97_stays (L : E.Lawful) (hs : Reach (O := O) b E name clk (Orderly k) s) (H : Sys.Serves b E name clk k s ops) (hre : ∀ n, ops n ≠ .retry k)
    {n : Nat} {j : Job D} (hj : (σ n).job k = some j) (hd : j.context.jobStatus.Done) {m : Nat} (hm : n ≤ m) :
    (σ m).job k = some j ∧ (σ m).runs k = (σ n).runs k := by
  induction hm with
  | refl => exact ⟨hj, rfl⟩
  | @step m hm ih =>
    obtain ⟨h1, h2⟩ := ih
    have hl := (H.inHand L (hs.inHand L) m).careful_life L (clk := clk) h1 (ops m) (H.code m)
    change Life E L name clk k (σ m) (σ (m + 1)) (ops m) at hl
    generalize hop : ops m = op at hl
    cases hl with
    | same op g1 g2 g3 => exact ⟨g1.trans h1, (runs_same g3).trans h2⟩
    | submit j c hid => exact absurd hid (H.submit m j c hop)
    | replace j c ex hid => exact absurd hid (H.submit m j c hop)
    | cancel => exact absurd hop (H.cancel m)
    | retry => exact absurd hop (hre m)
    | pick j' i hold hq => rw [h1] at hold; cases hold; rw [hq] at hd; simp [JobStatus.Done] at hd
    | run j' i hold hr => rw [h1] at hold; cases hold; rw [hr] at hd; simp [JobStatus.Done] at hd
    | finish j' j'' i x w w' hold hr => rw [h1] at hold; cases hold; rw [hr] at hd; simp [JobStatus.Done] at hd
    | died op _ _ _ _ ha =>
      have : (σ (m + 1)).alive = true := H.alive (m + 1)
      rw [this] at ha; cases ha

/-- C13, in every endless history that serves `k`: a waiting job that is not a cron job and has `d` retries left, whose every run fails and which nobody retries by
hand, comes to be Failed after exactly `d + 1` runs, and stays so for ever without another run. With `max_retries = n` and no retries used `d` is `n`.

Missing: what `Sys.Serves` excludes, a retry time that is no valid date and data that cannot be stored; then it is false (`C13_refuted`, `C13_refuted_lost`). -/
theorem C13_ends_partial (L : E.Lawful) (hs : Reach (O := O) b E name clk (Orderly k) s) (H : Sys.Serves b E name clk k s ops) (hclk : Elapses clk)
    (hre : ∀ n, ops n ≠ .retry k) {job : Job D} {d : Nat} (hj : (b.snap E name s).job k = some job) (hq : job.context.jobStatus = .queued) (hty : NonCron job)
    (hd : job.RetriesLeft d) (hx : (∀ n, DefaultRetry k (σ n) (ops n)) ∨ job.context.retry = none) (hF : ∀ n, AlwaysFails k (σ n) (ops n)) :
    ∃ n, ∀ m, n ≤ m → ∃ j, (σ m).job k = some j ∧ j.context.jobStatus = .failed ∧ j.context.runCount = job.context.runCount + (d + 1) ∧
      ((σ m).runs k).length = ((b.snap E name s).runs k).length + (d + 1) := by
  obtain ⟨r, st, n, j', o, h1, h2, h3, -, -, h4⟩ := C97_outcome L hs H hclk hj hq hty hd hx (F := fun _ => true) fun n i x orig j h1 h2 h3 => hF n i x orig j h1 h2 h3
  obtain ⟨rfl, rfl⟩ := C97_unique o (r' := d + 1) (st' := .failed) ⟨by omega, by omega, fun _ _ _ => rfl, .inr ⟨rfl, rfl, rfl⟩⟩
  refine ⟨n, fun m hm => ?_⟩
  obtain ⟨g1, g2⟩ := C97_stays L hs H hre h1 (by rw [h2]; exact .inr (.inl rfl)) hm
  exact ⟨j', g1, h2, h3, by rw [g2]; exact h4⟩

/-- C97, retries by hand: the same holds of a job that was done and that somebody retries by hand: its retry policy goes on where it was. So a job that has used up its
retries runs exactly once more, and a job that is retried by hand before gets the rest of its retries. -/
theorem C97_retried (L : E.Lawful) (hs : Reach (O := O) b E name clk (Orderly k) s) (ha : s.alive = true) {job : Job D} {d : Nat} {F : Nat → Bool}
    (hj : (b.snap E name s).job k = some job) (hdone : job.context.jobStatus.Done) (hty : NonCron job) (hd : job.RetriesLeft d) :
    let s' := (Sys.step E name b.B clk s (.retry k : Op D O)).1
    let τ := fun n => b.snap E name (Sys.after E name b.B clk s' ops n)
    Sys.Serves b E name clk k s' ops → Elapses clk → ((∀ n, DefaultRetry k (τ n) (ops n)) ∨ job.context.retry = none) → (∀ n, FailsAs k F (τ n) (ops n)) →
    ∃ r st n j', Outcome F job.context.runCount d r st ∧ (τ n).job k = some j' ∧ j'.context.jobStatus = st ∧
      j'.context.runCount = job.context.runCount + r ∧ NonCron j' ∧ j'.RetriesLeft (d + 1 - r) ∧
      ((τ n).runs k).length = ((b.snap E name s).runs k).length + r := by
  intro s' τ H hclk hx hF
  have hs' : Reach (O := O) b E name clk (Orderly k) s' := hs.step _ fun _ _ h => by cases h
  obtain ⟨h1, -⟩ := (C34_manual_retry (O := O) (clk := clk) L s hs ha).1 job hj hdone
  have hl := (hs.inHand L).careful_life L (clk := clk) hj (.retry k : Op D O) trivial
  have hne : (b.snap E name s').job k ≠ (b.snap E name s).job k := fun e => by
    have e := Option.some.inj (h1.symm.trans (e.trans hj))
    have e := congrArg (fun j : Job D => j.context.jobStatus) e
    rw [← e] at hdone
    simp [JobStatus.Done] at hdone
  have hruns : (b.snap E name s').runs k = (b.snap E name s).runs k := by
    cases hl with
    | same _ g1 => exact absurd g1 hne
    | retry j _ _ _ _ _ hm => exact runs_msg hm
    | died _ g1 => exact absurd g1 hne
  rw [← hruns]
  exact C97_outcome L hs' H hclk (job := { job with context := { job.context with jobStatus := .queued, enqueueAt := some (clk (b.snap E name s).reads / 1000000) } })
    h1 rfl hty hd hx hF

end

section
variable {D O : Type} {E : Nat → Env D} {clk : Nat → Nat → Time} {N : Nat → Str} {kind : Str → Nat}

theorem left_stored {job : Job D} {d : Nat} (h : job.RetriesLeft d) (t : Time) (f : D → D) : ((job.asQueued t).norm f).RetriesLeft d := by
  rcases h with ⟨h, e⟩ | ⟨r, n, h, h1, h2, h3, h4⟩
  · exact .inl ⟨by simp [Job.norm, JobContext.norm, Job.asQueued, h], e⟩
  · exact .inr ⟨r.norm, n, by simp [Job.norm, JobContext.norm, Job.asQueued, h], h1, h2, h3, h4⟩

/-- `C97_process_partial` where a tick first reads how many rounds its scan may take. -/
theorem outcome_counted (hN : ∀ a b, N a = N b → a = b) (b : Impl) (L : ∀ ty, (E ty).Lawful) (c0 b0 : Nat) (ops : Nat → WeaveOp D O) (c ty : Nat)
    (nm : Str) (job : Job D) (cfg : EnqueueConfig) (n0 d : Nat) (F : Nat → Bool) :
    let s := (Weave.init b.B fun _ => b.empty).run E b.B clk ((Site.starting c0 b0).map .site)
    Weave.Chance b E clk kind N c ty nm job cfg n0 s ops → (∀ q, Elapses (clk q)) → (E ty).Encodable job → NonCron job → job.RetriesLeft d →
    ((∀ q a, a.ty = ty → s.EachRun b E clk job.id q a ops fun x _ => x.retryAt = none) ∨ job.context.retry = none) →
    (∀ q a, a.ty = ty → s.EachRun b E clk job.id q a ops fun x j => x.fails j = F j.context.runCount) →
    ∃ n q a r st, n0 < n ∧ (Weave.after E b.B clk s ops n).site.hub.queues[q]? = some a ∧ a.ty = ty ∧ a.name = nm ∧
      Outcome F job.context.runCount d r st ∧ ((Weave.after E b.B clk s ops n).site.snap b E q a).status job.id = some st ∧
      (((Weave.after E b.B clk s ops n).site.snap b E q a).runs job.id).length = r := by
  intro s H hclk henc hty hd hx hF
  obtain ⟨q, a, ops', ms, u, rfl, k4, k5, k6, k7, k8, k9, k10⟩ := chance hN b L c0 b0 ops c ty nm job cfg n0 H henc
  obtain ⟨r, st, m, j', o, i1, i2, -, -, -, i4⟩ := C97_outcome (L a.ty) k5 k8 (hclk q) k6 rfl (hty.norm _ _) (left_stored hd _ _)
    (hx.imp (fun h m i x orig j => k9 (fun x _ => x.retryAt = none) (h q a rfl) m i x orig j) (fun h => by simp [Job.norm, JobContext.norm, Job.asQueued, h]))
    (F := F) (fun m i x orig j => k9 _ (hF q a rfl) m i x orig j)
  obtain ⟨n, h1, h2, h3, h4⟩ := k10 m
  refine ⟨n, q, a, r, st, h1, h2, rfl, k4, o, ?_, ?_⟩
  · rw [← i2]
    exact status_of (h3.trans i1)
  · rw [runs_log h4, i4, k7]
    exact Nat.zero_add r

/-- C97, in a process whose engine was started by one client alone, whose work queues interleave call by call and whose ticks make the calls of the code alone,
on any backend: a job that one request submits and no other request touches, that is not a cron job, with a bounded number of retries or without retry policy, and
whose runs fail as `F` says of their numbers, comes to the end it should and has then run as often as it should, if time passes, nobody stands still and the work
queues of its type are treated fairly.

Missing: as in `C85_ends_partial`. -/
theorem C97_process_partial (hN : ∀ a b, N a = N b → a = b) (b : Impl) (L : ∀ ty, (E ty).Lawful) (c0 b0 : Nat) (ops : Nat → WeaveOp D O × Nat) (c ty : Nat)
    (nm : Str) (job : Job D) (cfg : EnqueueConfig) (n0 d : Nat) (F : Nat → Bool) :
    let s := (Weave.init b.B fun _ => b.empty).run E b.B clk ((Site.starting c0 b0).map .site)
    let φ := Weave.afterIn E b.B clk s ops
    let ψ := fun n => (ops n).1
    (∀ n, (φ n).Ample E b (ops n)) → Weave.OfferOn b E kind N c ty nm job cfg n0 φ ψ → (∀ q, Elapses (clk q)) → (E ty).Encodable job → NonCron job →
    job.RetriesLeft d →
    ((∀ q a, a.ty = ty → Weave.EachRunOn b E job.id q a φ ψ fun x _ => x.retryAt = none) ∨ job.context.retry = none) →
    (∀ q a, a.ty = ty → Weave.EachRunOn b E job.id q a φ ψ fun x j => x.fails j = F j.context.runCount) →
    ∃ n q a r st, n0 < n ∧ (φ n).site.hub.queues[q]? = some a ∧ a.ty = ty ∧ a.name = nm ∧ Outcome F job.context.runCount d r st ∧
      ((φ n).site.snap b E q a).status job.id = some st ∧ (((φ n).site.snap b E q a).runs job.id).length = r := by
  intro s φ ψ hr H hclk henc hty hd hx hF
  have H := C89_chance hN b L c0 b0 ops c ty nm job cfg n0 hr H
  obtain ⟨hist, idx, h⟩ := longer (kind := kind) hN b L c0 b0 ops hr H.polite H.on
  obtain ⟨m, q, a, r, st, h1, h2, h3, h4, h5, h6, h7⟩ := outcome_counted hN .spec L c0 b0 hist c ty nm job cfg (idx n0) d F (h.chance H) hclk henc hty hd
    (hx.imp (fun hx q a e => h.runs (hx q a e)) id) fun q a e => h.runs (hF q a e)
  obtain ⟨n, g1, g2⟩ := shorter h H.call h1
  exact ⟨n, q, a, r, st, g1, by rw [g2.hub]; exact h2, h3, h4, h5, by rw [Site.snap_rel g2]; exact h6, by rw [Site.snap_rel g2]; exact h7⟩

end

/-! ## Concrete cases -/

section
open Demo

/-- A job with three runs at most. -/
abbrev stubborn : Job Int := flaky (.newIntervalRetry (some 2) nsPerSec)

/-- One job at a time; a job that may be retried twice, after a second each time. -/
def alone : List (Op Int Unit) := [.config { maxProcessingJobs := 1 }, .enqueue stubborn .newReRun]

/-- All its runs fail. -/
def failures : List (Op Int Unit) := round bad ++ round bad ++ round bad

def hopeless : Nat → Op Int Unit := failures.foldr first works

theorem alone_reach : Reach (O := Unit) Impl.memory E c!"print" clk (Careful E) (after alone) := fine.reach (by decide +kernel)
theorem alone_orderly : Reach (O := Unit) Impl.memory E c!"print" clk (Orderly c!"a") (after alone) :=
  (alone_reach.mono fun _ _ h => h.of _).orderly lawful

theorem failures_worker : Worker Impl.memory 0 (after (alone ++ failures)) := by
  refine ⟨fit_reach (fine.reach (by decide +kernel)), ?_, ?_, .inl ⟨?_, ?_, ?_⟩⟩
  · decide +kernel
  · decide +kernel
  · decide +kernel
  · decide +kernel
  · decide +kernel

theorem hopeless_fair : Sys.Fair Impl.memory E c!"print" clk (after alone) hopeless :=
  fair_prefix alone failures (by decide +kernel) (works_fair failures_worker)

theorem hopeless_calm (k : Str) (n : Nat) : NoSubmit k (hopeless n) ∧ hopeless n ≠ .cancel k ∧ hopeless n ≠ .retry k := by
  refine first_all (P := fun op => NoSubmit k op ∧ op ≠ .cancel k ∧ op ≠ .retry k) (fun op h => ?_) (works_calm k) n
  have h : op = .tick ∨ op = .start 0 ∨ op = .finish 0 bad := by simpa [failures, round, or_comm, or_assoc, or_left_comm] using h
  rcases h with rfl | rfl | rfl <;> exact ⟨(fun _ _ h => nomatch h), (fun h => nomatch h), (fun h => nomatch h)⟩

theorem hopeless_default (k : Str) (v : Snap Int) (n : Nat) : DefaultRetry k v (hopeless n) := by
  refine first_all (P := fun op => DefaultRetry k v op) (fun op h => ?_) (works_default k v) n
  have h : op = .tick ∨ op = .start 0 ∨ op = .finish 0 bad := by simpa [failures, round, or_comm, or_assoc, or_left_comm] using h
  rcases h with rfl | rfl | rfl
  · intro i x orig job h; cases h
  · intro i x orig job h; cases h
  · intro i x orig job h _ _; cases h; rfl

theorem hopeless_serves : Sys.Serves Impl.memory E c!"print" clk c!"a" (after alone) hopeless :=
  hopeless_fair.serves lawful alone_reach (fun n => (hopeless_calm _ n).1) (fun n => (hopeless_calm _ n).2.1)

theorem after_prefix (ops pre : List (Op Int Unit)) (rest : Nat → Op Int Unit) (n : Nat) :
    Sys.after E c!"print" Impl.memory.B clk (after ops) (pre.foldr first rest) (n + pre.length) = Sys.after E c!"print" Impl.memory.B clk (after (ops ++ pre)) rest n := by
  induction pre generalizing ops with
  | nil => rw [List.append_nil]; rfl
  | cons op pre ih =>
    show Sys.after E c!"print" Impl.memory.B clk (after ops) (first op (pre.foldr first rest)) (n + pre.length + 1) = _
    refine (after_first (B := Impl.memory.B) (after ops) op _ _).trans
      ((congrArg (fun s => Sys.after E c!"print" Impl.memory.B clk s (pre.foldr first rest) (n + pre.length)) (after_snoc ops op)).trans ((ih _).trans ?_))
    rw [List.append_assoc]
    rfl

theorem first_cases {pre : List (Op Int Unit)} {rest : Nat → Op Int Unit} (n : Nat) :
    pre.foldr first rest n ∈ pre ∨ ∃ m, n = m + pre.length ∧ pre.foldr first rest n = rest m := by
  induction pre generalizing n with
  | nil => exact .inr ⟨n, rfl, rfl⟩
  | cons op pre ih =>
    cases n with
    | zero => exact .inl List.mem_cons_self
    | succ n =>
      rcases ih n with h | ⟨m, h, e⟩
      · exact .inl (List.mem_cons_of_mem _ h)
      · exact .inr ⟨m, by rw [h]; rfl, e⟩

def failedJob : Job Int := ((see (alone ++ failures)).job c!"a").getD (job [])
theorem failures_job : (see (alone ++ failures)).job c!"a" = some failedJob := by decide +kernel
theorem failures_status : failedJob.context.jobStatus = .failed := by decide +kernel

local notation "σ" n:max => Impl.memory.snap E c!"print" (Sys.after E c!"print" Impl.memory.B clk (after alone) hopeless n)

theorem hopeless_late (n : Nat) :
    Sys.after E c!"print" Impl.memory.B clk (after alone) hopeless (n + 9) = Sys.after E c!"print" Impl.memory.B clk (after (alone ++ failures)) works n := by
  have h := after_prefix alone failures works n
  rw [show failures.length = 9 from rfl] at h
  exact h

theorem hopeless_job {m : Nat} (hm : m = 0) : (σ (m + 9)).job c!"a" = some failedJob := by
  rw [hopeless_late m]
  subst hm
  have e : Sys.after E c!"print" Impl.memory.B clk (after (alone ++ failures)) works 0 = after (alone ++ failures) := by
    generalize after (alone ++ failures) = s
    rfl
  rw [e, see_after, failures_job]

theorem hopeless_fails (n : Nat) : FailsAs c!"a" (fun _ => true) (σ n) (hopeless n) := by
  intro i x orig j h ht hid
  rcases first_cases (pre := failures) (rest := works) n with h0 | ⟨m, hm, h0⟩
  · have h0 : hopeless n ∈ failures := h0
    rw [h] at h0
    have h0 : i = 0 ∧ x = bad := by simpa [failures, round] using h0
    rw [h0.2]
    rfl
  · rw [show failures.length = 9 from rfl] at hm
    subst hm
    have hs := (C97_stays (b := Impl.memory) lawful alone_orderly hopeless_serves (fun n => (hopeless_calm _ n).2.2) (hopeless_job rfl)
      (by rw [failures_status]; exact .inr (.inl rfl)) (m := m + 9) (by omega)).1
    have hw := worker_after failures_worker m
    have e : Sys.after E c!"print" Impl.memory.B clk (after alone) hopeless (m + 9) = Sys.after E c!"print" Impl.memory.B clk (after (alone ++ failures)) works m :=
      hopeless_late m
    have ht : (σ (m + 9)).tasks[i]? = _ := ht
    rw [e] at hs ht
    obtain ⟨-, -, -, ⟨h1, -⟩ | ⟨j', -, h1, h2, h3, -⟩⟩ := hw
    · have ht : (Sys.after E c!"print" Impl.memory.B clk (after (alone ++ failures)) works m).tasks[i]? = _ := ht
      have h1 : (Sys.after E c!"print" Impl.memory.B clk (after (alone ++ failures)) works m).tasks = [] := h1
      rw [h1] at ht; cases ht
    · have ht : (Sys.after E c!"print" Impl.memory.B clk (after (alone ++ failures)) works m).tasks[i]? = _ := ht
      have h1 : (Sys.after E c!"print" Impl.memory.B clk (after (alone ++ failures)) works m).tasks = _ := h1
      rw [h1] at ht
      cases i with
      | succ i => cases ht
      | zero =>
        have e1 : j' = orig := congrArg Task.orig (Option.some.inj ht)
        subst e1
        rw [hid] at h2
        have e2 := Option.some.inj (hs.symm.trans h2)
        rw [← e2, failures_status] at h3
        cases h3

def aloneJob : Job Int := ((see alone).job c!"a").getD (job [])
theorem alone_job : (see alone).job c!"a" = some aloneJob := by decide +kernel
theorem alone_type : NonCron aloneJob := by
  have : aloneJob.context.jobType = .normal := by decide +kernel
  intro e n m c h
  rw [this] at h; cases h
theorem alone_left : aloneJob.RetriesLeft 2 :=
  .inr ⟨.newIntervalRetry (some 2) nsPerSec, 2, by decide +kernel, rfl, by constructor <;> decide, by constructor <;> decide, rfl⟩

/-- Every run fails, and so three runs are made, the last of which ends the job as Failed; it never runs again. -/
example : ∃ n, ∀ m, n ≤ m → (σ m).status c!"a" = some .failed ∧ ((σ m).runs c!"a").length = 3 := by
  obtain ⟨n, h⟩ := C13_ends_partial (b := Impl.memory) lawful alone_orderly hopeless_serves clk_passes (fun n => (hopeless_calm _ n).2.2) alone_job (by decide +kernel)
    alone_type alone_left (.inl fun n => hopeless_default _ _ n) (fun n i x orig j h1 h2 h3 => hopeless_fails n i x orig j h1 h2 h3)
  have h0 : ((see alone).runs c!"a").length = 0 := by decide +kernel
  refine ⟨n, fun m hm => ?_⟩
  obtain ⟨j, h1, h2, -, h4⟩ := h m hm
  exact ⟨(status_of h1).trans (by rw [h2]), by rw [h4, see_after, h0]⟩

/-- The job has used up its retries and is Failed. It is retried by hand, and as its code does not fail now it is Finished after one more run. -/
example : ∃ n, (Impl.memory.snap E c!"print" (Sys.after E c!"print" Impl.memory.B clk (after (alone ++ failures ++ [.retry c!"a"])) works n)).status c!"a" = some .finished ∧
    ((Impl.memory.snap E c!"print" (Sys.after E c!"print" Impl.memory.B clk (after (alone ++ failures ++ [.retry c!"a"])) works n)).runs c!"a").length = 4 := by
  have hr : Reach (O := Unit) Impl.memory E c!"print" clk (Careful E) (after (alone ++ failures)) := fine.reach (by decide +kernel)
  have hr' : Reach (O := Unit) Impl.memory E c!"print" clk (Careful E) (after (alone ++ failures ++ [.retry c!"a"])) := fine.reach (by decide +kernel)
  have H : Sys.Serves Impl.memory E c!"print" clk c!"a" (after (alone ++ failures ++ [.retry c!"a"])) works := by
    refine (works_fair (b := Impl.memory) ⟨fit_reach hr', ?_, ?_, .inl ⟨?_, ?_, ?_⟩⟩).serves lawful hr' (fun n => (works_calm _ n).1) (fun n => (works_calm _ n).2.1)
    · decide +kernel
    · decide +kernel
    · decide +kernel
    · decide +kernel
    · decide +kernel
  have h0 : ((see (alone ++ failures)).runs c!"a").length = 3 := by decide +kernel
  have ht : NonCron failedJob := by
    have : (match failedJob.context.jobType with | .cron _ _ _ _ => true | _ => false) = false := by decide +kernel
    intro e n m c h
    rw [h] at this; cases this
  have hl : failedJob.RetriesLeft 0 := by
    have e : ∃ r, failedJob.context.retry = some r ∧ r.maxRetries = some 2 ∧ r.retriedTimes = 2 := ⟨(failedJob.context.retry).getD (.newIntervalRetry none 0), by decide +kernel⟩
    obtain ⟨r, e1, e2, e3⟩ := e
    exact .inr ⟨r, 2, e1, e2, by rw [e3]; constructor <;> decide, by constructor <;> decide, by rw [e3]; rfl⟩
  have ha : (after (alone ++ failures)).alive = true := by decide +kernel
  rw [← after_snoc] at H ⊢
  obtain ⟨r, st, n, j', o, h1, h2, -, -, -, h4⟩ := C97_retried (b := Impl.memory) (ops := works) (F := fun _ => false) lawful
    ((hr.mono fun _ _ h => h.of c!"a").orderly lawful) ha failures_job (by rw [failures_status]; exact .inr (.inl rfl)) ht hl H clk_passes
    (.inl fun n => works_default _ _ n) (fun n i x orig j h _ _ => works_succeed h j)
  obtain ⟨rfl, rfl⟩ := C97_unique o (r' := 1) (st' := .finished) ⟨by omega, by omega, fun i h1 h2 => absurd h1 (by omega), .inl ⟨rfl, rfl⟩⟩
  exact ⟨n, (status_of h1).trans (by rw [h2]), by rw [h4, see_after, h0]⟩

theorem stubborn_enters : Enters stubborn good := by constructor <;> decide +kernel
theorem stubborn_just : Just stubborn good := by decide +kernel

/-- In a process whose turns are interrupted, on every backend: no run fails, and so the job is Finished after one run, whatever its retry policy. -/
example (b : Impl) : ∃ n q a, 12 < n ∧
    (Weave.afterIn (fun _ => E) b.B (fun _ => clk) (openedWeave b) (wovenIn stubborn good) n).site.hub.queues[q]? = some a ∧ a.ty = 5 ∧ a.name = c!"print" ∧
    ((Weave.afterIn (fun _ => E) b.B (fun _ => clk) (openedWeave b) (wovenIn stubborn good) n).site.snap b (fun _ => E) q a).status c!"a" = some .finished ∧
    (((Weave.afterIn (fun _ => E) b.B (fun _ => clk) (openedWeave b) (wovenIn stubborn good) n).site.snap b (fun _ => E) q a).runs c!"a").length = 1 := by
  obtain ⟨n, q, a, r, st, h1, h2, h3, h4, o, h5, h6⟩ := C97_process_partial signs_inj b (fun _ => lawful) 0 7 _ 2 5 c!"print" stubborn .newReRun 12 2
    (fun _ => false) (woven_in stubborn_enters b).1 (woven_offer stubborn_enters stubborn_just b rfl) (fun _ => clk_passes) (by decide +kernel)
    (by intro e n m c h; cases h) (.inr ⟨_, 2, rfl, rfl, by constructor <;> decide, by constructor <;> decide, rfl⟩)
    (.inl fun q a _ n i y orig j h _ _ _ => by rcases wovenIn_finish h with rfl | rfl <;> rfl)
    (fun q a _ n i y orig j h _ _ _ => by rcases wovenIn_finish h with rfl | rfl <;> rfl)
  obtain ⟨rfl, rfl⟩ := C97_unique o (r' := 1) (st' := .finished) ⟨by omega, by omega, fun i h1 h2 => absurd h1 (by omega), .inl ⟨rfl, rfl⟩⟩
  exact ⟨n, q, a, h1, h2, h3, h4, h5, h6⟩

end
end AJ.Props
