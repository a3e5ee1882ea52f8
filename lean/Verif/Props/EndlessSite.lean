import Verif.Proofs.EndlessSite
import Verif.Props.Endless
import Verif.Props.Sent

/-!
# In a process, the job of a submission comes to an end (C85)
-/

namespace AJ.Props

section
variable {D O : Type} {E : Nat → Env D} {clk : Nat → Nat → Time} {N : Nat → Str} {kind : Str → Nat}

private theorem runs_log {v v' : Snap D} (h : v.log = v'.log) (k : Str) : v.runs k = v'.runs k := by
  unfold Snap.runs Snap.mine; rw [h]

private theorem rel_after {b : Impl} {t : Site D O b.B} {u : Site D O SpecB} (h : Site.Rel b t u) (ops : Nat → SiteOp D O) (n : Nat) :
    Site.Rel b (Site.after E b.B clk t ops n) (Site.after E SpecB clk u ops n) := by
  induction n with
  | zero => exact h
  | succ n ih => exact ih.step (ops n)

private theorem rel_runs {b : Impl} {t : Site D O b.B} {u : Site D O SpecB} (h : Site.Rel b t u) (ops : Nat → SiteOp D O) (k : Str) (q : Nat)
    (a : QueueActor) (P : Executable D O → Job D → Prop) : t.EachRun b E clk k q a ops P ↔ u.EachRun .spec E clk k q a ops P := by
  have e : ∀ n, (Site.after E b.B clk t ops n).snap b E q a = (Site.after E Impl.spec.B clk u ops n).snap .spec E q a :=
    fun n => Site.snap_rel (rel_after h ops n) q a
  unfold Site.EachRun
  simp only [e]

private theorem rel_serves {b : Impl} {t : Site D O b.B} {u : Site D O SpecB} (h : Site.Rel b t u) (ops : Nat → SiteOp D O) (k : Str) (q : Nat)
    (a : QueueActor) : Site.Serves b E clk k q a t ops ↔ Site.Serves .spec E clk k q a u ops := by
  have e : ∀ n, (Site.after E b.B clk t ops n).snap b E q a = (Site.after E Impl.spec.B clk u ops n).snap .spec E q a :=
    fun n => Site.snap_rel (rel_after h ops n) q a
  constructor
  · rintro ⟨h1, h2, h3, h4⟩
    unfold Site.Brief at h4
    simp only [e] at h2 h3 h4
    exact ⟨(rel_runs h ..).1 h1, h2, h3, h4⟩
  · rintro ⟨h1, h2, h3, h4⟩
    unfold Site.Brief at h4
    simp only [← e] at h2 h3 h4
    exact ⟨(rel_runs h ..).2 h1, h2, h3, h4⟩

/-- Whether a job gets its chance does not depend on the backend. -/
theorem rel_chance {b : Impl} {t : Site D O b.B} {u : Site D O SpecB} (h : Site.Rel b t u) (ops : Nat → SiteOp D O) (c ty : Nat) (nm : Str)
    (job : Job D) (cfg : EnqueueConfig) (n0 : Nat) : Site.Chance b E clk kind N c ty nm job cfg n0 t ops ↔
      Site.Chance .spec E clk kind N c ty nm job cfg n0 u ops := by
  have e1 : ∀ n, (Site.after E b.B clk t ops n).hub = (Site.after E Impl.spec.B clk u ops n).hub := fun n => (rel_after h ops n).hub
  have e2 : ∀ n, (Site.after E b.B clk t ops n).boxes = (Site.after E Impl.spec.B clk u ops n).boxes := fun n => (rel_after h ops n).boxes
  have e3 : ∀ n, (Site.after E b.B clk t ops n).users = (Site.after E Impl.spec.B clk u ops n).users := fun n => (rel_after h ops n).users
  have e4 : ∀ n, (ops n).Polite N (Site.after E b.B clk t ops n) ↔ (ops n).Polite N (Site.after E Impl.spec.B clk u ops n) := by
    intro n
    cases ops n with
    | begin d req =>
      show (HubOp.begin d req.call).Orderly N _ ↔ (HubOp.begin d req.call).Orderly N _
      rw [e1 n]
    | _ => exact Iff.rfl
  constructor
  · rintro ⟨h1, h2, h3, h4, h5, ⟨h6, h7, h8, h9⟩, h10⟩
    simp only [e1, e2, e3, e4, rel_serves h] at h1 h4 h9 h10
    exact ⟨h1, h2, h3, h4, h5, ⟨h6, h7, h8, h9⟩, h10⟩
  · rintro ⟨h1, h2, h3, h4, h5, ⟨h6, h7, h8, h9⟩, h10⟩
    simp only [← e1, ← e2, ← e3, ← e4, ← rel_serves h] at h1 h4 h9 h10
    exact ⟨h1, h2, h3, h4, h5, ⟨h6, h7, h8, h9⟩, h10⟩

/-- The process when the engine has been started. -/
theorem started_site (L : ∀ ty, (E ty).Lawful) (c0 b0 : Nat) (k : Str) :
    let t : Site D O SpecB := (Site.init SpecB fun _ => Spec.empty).run E SpecB clk (Site.starting c0 b0)
    t.hub.Orderly N { backend := b0 } ∧ Site.Endless E clk kind t ∧ (∀ d, Site.Clean k (t.users d)) ∧ Site.Quiet k t.trace := by
  intro t
  have ho : t.hub.Orderly N { backend := b0 } := by
    show ((Site.init SpecB fun _ => Spec.empty : Site D O SpecB).run E SpecB clk (Site.starting c0 b0)).hub.Orderly N _
    rw [starting_hub]; exact started_orderly N c0 b0
  have heng : t.hub.engines.length ≤ 1 := by rw [ho.engines]; simp
  have hstart : ∀ d req, SiteOp.begin d req ∈ (Site.starting c0 b0 : List (SiteOp D O)) → req = .start b0 := by
    intro d req hm
    simp [Site.starting] at hm
    exact hm.2
  have hon0 : ∀ d req, SiteOp.begin d req ∈ (Site.starting c0 b0 : List (SiteOp D O)) → req.On kind := fun d req hm => by rw [hstart d req hm]; trivial
  have hl := Site.links_init (D := D) (O := O) (B := SpecB) (fun _ => Spec.empty)
  have hA := Site.alone_init (D := D) (O := O) (E := E) (clk := clk) (kind := kind)
  obtain ⟨g2, g3⟩ := Site.calm_run (k := k) L hl hA Hub.single_init (Site.starting c0 b0) hon0 heng
    (fun d req hm => by rw [hstart d req hm]; exact id) (fun _ => trivial) (fun _ _ _ _ h => by cases h)
  exact ⟨ho, ⟨Site.links_run hl _, Site.alone_run L hl hA Hub.single_init _ hon0 heng, Site.single_run Hub.single_init _ heng⟩, g2, g3⟩

/-- The work queue that a submission reaches, alone. -/
private theorem chance (hN : ∀ a b, N a = N b → a = b) (b : Impl) (L : ∀ ty, (E ty).Lawful) (c0 b0 : Nat) (ops : Nat → SiteOp D O) (c ty : Nat)
    (nm : Str) (job : Job D) (cfg : EnqueueConfig) (n0 : Nat) :
    let s := (Site.init b.B fun _ => b.empty).run E b.B clk (Site.starting c0 b0)
    Site.Chance b E clk kind N c ty nm job cfg n0 s ops → (E ty).Encodable job →
    ∃ n q a ops' ms, ∃ u : Sys D SpecB, n0 < n ∧ (Site.after E b.B clk s ops n).hub.queues[q]? = some a ∧ a.ty = ty ∧ a.name = nm ∧
      Reach (O := O) .spec (E ty) a.name (clk q) (Orderly job.id) u ∧
      (Impl.spec.snap (E ty) a.name u).job job.id = some ((job.asQueued ms).norm (L ty).normD) ∧
      (Impl.spec.snap (E ty) a.name u).runs job.id = [] ∧
      Sys.Serves .spec (E ty) a.name (clk q) job.id u ops' ∧
      (∀ P, s.EachRun b E clk job.id q a ops P → ∀ m i x orig j, ops' m = .finish i x →
        (Sys.after (E ty) a.name Impl.spec.B (clk q) u ops' m).tasks[i]? = some ⟨orig, some j⟩ → orig.id = job.id → P x j) ∧
      ∀ m, ((Site.after E b.B clk s ops (n + m)).snap b E q a).job job.id =
          (Impl.spec.snap (E ty) a.name (Sys.after (E ty) a.name Impl.spec.B (clk q) u ops' m)).job job.id ∧
        ((Site.after E b.B clk s ops (n + m)).snap b E q a).log =
          (Impl.spec.snap (E ty) a.name (Sys.after (E ty) a.name Impl.spec.B (clk q) u ops' m)).log := by
  intro s H henc
  have hrel : Site.Rel b s ((Site.init SpecB fun _ => Spec.empty).run E SpecB clk (Site.starting c0 b0)) :=
    Site.Rel.run ⟨rfl, rfl, fun _ => b.empty_rel, rfl, rfl⟩ _
  have H' := (rel_chance hrel ..).1 H
  obtain ⟨ho, hEnd, g2, g3⟩ := started_site (O := O) (E := E) (clk := clk) (kind := kind) (N := N) L c0 b0 job.id
  generalize (Site.init SpecB fun _ => Spec.empty).run E SpecB clk (Site.starting c0 b0) = t at *
  obtain ⟨n, q, a, ops', ms, k1, -, k2, k3, k4, k5, k6, k7, k8, k9, k10, k11⟩ := Site.served hN L hEnd ho H'.polite H'.on g2 g3 H'.call H'.free H'.sole
    H'.moves.client H'.moves.engine H'.moves.post (Z := fun _ _ => True)
    (fun i n q a d op k1 k2 k3 => by
      obtain ⟨m, k4, k5⟩ := Site.handled_after hEnd.links H'.moves k2 i n k1 k3
      exact ⟨m, k4, k5, trivial⟩) H'.serves henc
  subst k3
  have hE : ∀ m, Site.Rel b (Site.after E b.B clk s ops m) (Site.after E SpecB clk t ops m) := fun m => rel_after hrel ops m
  have hq : ∀ m, (Site.after E SpecB clk t ops (n + m)).hub.queues[q]? = some a := fun m => Site.after_queues (Nat.le_add_right n m) k2
  have hsnap := fun m => Site.mirror_snap (k11 (n + m)).alone (hq m)
  have hkind : kind job.id = a.ty := H.on n0 _ _ H.call
  refine ⟨n, q, a, ops', ms, _, k1, ?_, rfl, k4, k5, k6, k7, k10, fun P hP m i x orig j h1 h2 h3 => ?_, fun m => ?_⟩
  · rw [(hE n).hub]; exact k2
  · refine hP (n + m) i x orig j (k9 m i x h1) ?_ h3
    rw [Site.snap_rel (hE (n + m)), (hsnap m).2.1, k8 m]
    exact h2
  · rw [Site.snap_rel (hE (n + m)), ← k8 m]
    exact ⟨(hsnap m).2.2.2.2.2.2 job.id hkind, (hsnap m).2.2.2.2.2.1⟩

/-- C85, in a process whose engine was started by one client alone, on any backend: a job that one request submits and no other
request touches, and that is not a cron job, with a bounded number of retries or without retry policy, reaches Finished or
Failed, in every endless history in which time passes, nobody stands still, the runs of the job come to an end and the work
queues of its type keep ticking; whatever its runs return, and whatever all other clients, all other work queues and all other
jobs do.

Missing: engines started by several clients at once and overlapping first submissions (`C56_refuted`, `C73_refuted`), job types
that share ids, and ticks that find more than 20 entries queued (`C31_refuted`). -/
theorem C85_ends_partial (hN : ∀ a b, N a = N b → a = b) (b : Impl) (L : ∀ ty, (E ty).Lawful) (c0 b0 : Nat) (ops : Nat → SiteOp D O) (c ty : Nat)
    (nm : Str) (job : Job D) (cfg : EnqueueConfig) (n0 : Nat) :
    let s := (Site.init b.B fun _ => b.empty).run E b.B clk (Site.starting c0 b0)
    Site.Chance b E clk kind N c ty nm job cfg n0 s ops → (∀ q, Elapses (clk q)) → (E ty).Encodable job → NonCron job →
    (∀ r, job.context.retry = some r → IsI32 r.retriedTimes ∧ ∃ n, r.maxRetries = some n ∧ IsI32 n) →
    ((∀ q a, a.ty = ty → s.EachRun b E clk job.id q a ops fun x _ => x.retryAt = none) ∨ job.context.retry = none) →
    ∃ n q a, n0 < n ∧ (Site.after E b.B clk s ops n).hub.queues[q]? = some a ∧ a.ty = ty ∧ a.name = nm ∧
      ((Site.after E b.B clk s ops n).snap b E q a).Ended job.id := by
  intro s H hclk henc hty hr hx
  obtain ⟨n, q, a, ops', ms, u, k1, k2, rfl, k4, k5, k6, -, k8, k9, k10⟩ := chance hN b L c0 b0 ops c ty nm job cfg n0 H henc
  obtain ⟨m, hm⟩ := C83_ends (L a.ty) k5 k8 (hclk q) k6 (hty.norm _ _) (by simp [Job.norm, JobContext.norm, Job.asQueued])
    (by
      intro r hr'
      cases hj : job.context.retry with
      | none => simp [Job.norm, JobContext.norm, Job.asQueued, hj] at hr'
      | some r0 =>
        simp only [Job.norm, JobContext.norm, Job.asQueued, hj, Option.map_some, Option.some.injEq] at hr'
        subst hr'
        exact hr r0 hj)
    (hx.imp (fun h m i x orig j => k9 (fun x _ => x.retryAt = none) (h q a rfl) m i x orig j) (fun h => by simp [Job.norm, JobContext.norm, Job.asQueued, h]))
  refine ⟨n + m, q, a, by omega, Site.after_queues (Nat.le_add_right n m) k2, rfl, k4, ?_⟩
  have e := (k10 m).1
  unfold Snap.Ended Snap.status at hm ⊢
  rw [e]
  exact hm

/-- C85, cron jobs: in the same setting, a cron job without limit and without end runs any number of times, if its expression is
valid and none of its runs is retried.

Missing: as in `C85_ends_partial`. -/
theorem C85_forever_partial (hN : ∀ a b, N a = N b → a = b) (b : Impl) (L : ∀ ty, (E ty).Lawful) (c0 b0 : Nat) (ops : Nat → SiteOp D O) (c ty : Nat)
    (nm : Str) (job : Job D) (cfg : EnqueueConfig) (n0 : Nat) (e : Str) (at_ : Time) (t : Int) (x : CronContext) (R : Nat) :
    let s := (Site.init b.B fun _ => b.empty).run E b.B clk (Site.starting c0 b0)
    Site.Chance b E clk kind N c ty nm job cfg n0 s ops → (∀ q, Elapses (clk q)) → (E ty).Encodable job →
    job.context.jobType = .cron e at_ t x → ((E ty).cron e).isSome = true → x.maxRepeat = none → x.endAt = none →
    ((∀ q a, a.ty = ty → s.EachRun b E clk job.id q a ops fun x _ => x.retryAt = none) ∨ job.context.retry = none) →
    (∀ q a, a.ty = ty → s.EachRun b E clk job.id q a ops Unretried) →
    ∃ n q a, n0 < n ∧ (Site.after E b.B clk s ops n).hub.queues[q]? = some a ∧ a.ty = ty ∧ a.name = nm ∧
      R ≤ (((Site.after E b.B clk s ops n).snap b E q a).runs job.id).length := by
  intro s H hclk henc hty hc hmax hend hx hno
  obtain ⟨n, q, a, ops', ms, u, k1, k2, rfl, k4, k5, k6, -, k8, k9, k10⟩ := chance hN b L c0 b0 ops c ty nm job cfg n0 H henc
  obtain ⟨m, hm⟩ := C84_forever (L a.ty) k5 k8 (hclk q) k6 rfl (e := e) (u := floorUs at_) (t := t) (c := x.norm)
    (by simp [Job.norm, JobContext.norm, Job.asQueued, hty, JobType.norm]) hc hmax (by simp [CronContext.norm, hend])
    (hx.imp (fun h m i x orig j => k9 (fun x _ => x.retryAt = none) (h q a rfl) m i x orig j) (fun h => by simp [Job.norm, JobContext.norm, Job.asQueued, h]))
    (fun m i x orig j => k9 _ (hno q a rfl) m i x orig j) R
  refine ⟨n + m, q, a, by omega, Site.after_queues (Nat.le_add_right n m) k2, rfl, k4, ?_⟩
  rw [runs_log (k10 m).2]
  exact hm

/-- C85, cron jobs with a limit: in the same setting, a cron job that has had `t` of `M` repetitions, without end, runs at least
`M + 1 - t` times.

Missing: as in `C85_ends_partial`. -/
theorem C85_max_repeat_partial (hN : ∀ a b, N a = N b → a = b) (b : Impl) (L : ∀ ty, (E ty).Lawful) (c0 b0 : Nat) (ops : Nat → SiteOp D O)
    (c ty : Nat) (nm : Str) (job : Job D) (cfg : EnqueueConfig) (n0 : Nat) (e : Str) (at_ : Time) (t M : Int) (x : CronContext) :
    let s := (Site.init b.B fun _ => b.empty).run E b.B clk (Site.starting c0 b0)
    Site.Chance b E clk kind N c ty nm job cfg n0 s ops → (∀ q, Elapses (clk q)) → (E ty).Encodable job →
    job.context.jobType = .cron e at_ t x → ((E ty).cron e).isSome = true → x.maxRepeat = some M → x.endAt = none → IsI32 t → IsI32 (M + 1) →
    ((∀ q a, a.ty = ty → s.EachRun b E clk job.id q a ops fun x _ => x.retryAt = none) ∨ job.context.retry = none) →
    (∀ q a, a.ty = ty → s.EachRun b E clk job.id q a ops Unretried) →
    ∃ n q a, n0 < n ∧ (Site.after E b.B clk s ops n).hub.queues[q]? = some a ∧ a.ty = ty ∧ a.name = nm ∧
      (M + 1 - t).toNat ≤ (((Site.after E b.B clk s ops n).snap b E q a).runs job.id).length := by
  intro s H hclk henc hty hc hmax hend ht hM hx hno
  obtain ⟨n, q, a, ops', ms, u, k1, k2, rfl, k4, k5, k6, k7, k8, k9, k10⟩ := chance hN b L c0 b0 ops c ty nm job cfg n0 H henc
  obtain ⟨m, hm⟩ := C84_max_repeat (L a.ty) k5 k8 (hclk q) k6 rfl (e := e) (u := floorUs at_) (t := t) (c := x.norm)
    (by simp [Job.norm, JobContext.norm, Job.asQueued, hty, JobType.norm]) hc hmax (by simp [CronContext.norm, hend]) ht hM
    (hx.imp (fun h m i x orig j => k9 (fun x _ => x.retryAt = none) (h q a rfl) m i x orig j) (fun h => by simp [Job.norm, JobContext.norm, Job.asQueued, h]))
    (fun m i x orig j => k9 _ (hno q a rfl) m i x orig j)
  refine ⟨n + m, q, a, by omega, Site.after_queues (Nat.le_add_right n m) k2, rfl, k4, ?_⟩
  rw [k7] at hm
  rw [runs_log (k10 m).2]
  simpa using hm

end

/-! ## A concrete endless history of a process -/

section
open Demo

/-- Type 5 has the name `print`. -/
def signs (ty : Nat) : Str := if ty = 5 then c!"print" else letters ty

theorem signs_inj (x y : Nat) (h : signs x = signs y) : x = y := by
  have no : ∀ n, letters n ≠ c!"print" := by
    intro n e
    have : 'p' ∈ letters n := by rw [e]; decide
    exact absurd (List.eq_of_mem_replicate this) (by decide)
  unfold signs at h
  split at h <;> split at h
  · omega
  · exact absurd h.symm (no _)
  · exact absurd h (no _)
  · exact letters_inj _ _ h

/-- Client 1 submits job `b` and has one job executed at a time; client 2 submits job `J` (step 16). Job `b` runs, then `J` if it is
due, with user code `x`. -/
def doors (J : Job Int) (x : Executable Int Unit) : List (SiteOp Int Unit) :=
  [.begin 1 (.submit 5 c!"print" (job c!"b") .newReRun), .client 1 false, .client 1 false, .engine 0, .engine 0, .engine 0, .engine 0, .post 1,
    .handle 0 0, .take 1,
    .begin 1 (.config 5 { maxProcessingJobs := 1 }), .client 1 false, .client 1 false, .post 1, .handle 0 0, .take 1,
    .begin 2 (.submit 5 c!"print" J .newReRun), .client 2 false, .client 2 false, .post 2, .handle 0 0,
    .take 2,
    .turn 0 .tick, .turn 0 (.start 0), .turn 0 (.finish 0 good), .turn 0 .tick, .turn 0 (.start 0), .turn 0 (.finish 0 x)]

/-- From then on all goes well, and everybody takes a step now and then. -/
def siteRounds (n : Nat) : SiteOp Int Unit :=
  match n % 7 with
  | 0 => .turn 0 .tick
  | 1 => .turn 0 (.start 0)
  | 2 => .turn 0 (.finish 0 good)
  | 3 => .client 2 false
  | 4 => .engine 0
  | 5 => .post 2
  | _ => .handle 0 0

variable {J : Job Int} {x : Executable Int Unit}

def forever (J : Job Int) (x : Executable Int Unit) (n : Nat) : SiteOp Int Unit := ((doors J x)[n]?).getD (siteRounds (n - 28))

theorem forever_late (n : Nat) : forever J x (28 + n) = siteRounds n := by
  unfold forever
  rw [List.getElem?_eq_none (by show 28 ≤ 28 + n; omega), show 28 + n - 28 = n by omega]
  rfl

/-- The process of the example, on the specification. -/
def opened : Site Int Unit SpecB := (Site.init SpecB fun _ => Spec.empty).run (fun _ => E) SpecB (fun _ => clk) (Site.starting 0 7)

local notation "τ" n:max => Site.after (fun _ => E) SpecB (fun _ => clk) opened (forever J x) n

theorem forever_start : τ 28 = opened.run (fun _ => E) SpecB (fun _ => clk) (doors J x) := Site.after_run 28

/-- Work queue 0 alone, if it begins on a backend with `s0`. -/
def _root_.AJ.Site.played (s0 : SpecState) (t : Site Int Unit SpecB) : Sys Int SpecB :=
  (Sys.runOps E c!"print" SpecB clk (Sys.init SpecB s0) ((turnsOf 0 t.trace).map Prod.fst)).1

/-- What stays from step 28 on. -/
structure Steady (s0 : SpecState) (p : Nat) (t : Site Int Unit SpecB) : Prop where
  queues : t.hub.queues = [printer]
  client : ∃ call r, t.hub.clients 2 = .done call r
  engine : ∃ G, t.hub.engines = [G] ∧ G.pc = .idle ∧ G.mailbox = []
  mail : (t.boxes 0).mailbox = []
  user : ∀ req op again, t.users 2 ≠ .asking req op again
  work : Worker .spec p (t.played s0)

variable {s0 : SpecState}

theorem played_inner {t : Site Int Unit SpecB} (hq : t.hub.queues = [printer]) {op : Op Int Unit} (hi : op.inner = true) :
    (t.step (fun _ => E) SpecB (fun _ => clk) (.turn 0 op)).played s0 = (Sys.step E c!"print" SpecB clk (t.played s0) op).1 := by
  have htr : (t.step (fun _ => E) SpecB (fun _ => clk) (.turn 0 op)).trace =
      t.trace ++ [.turn 0 none op (t.play (fun _ => E) SpecB (fun _ => clk) 0 printer none op).2] := by
    show (t.turn (fun _ => E) SpecB (fun _ => clk) 0 op).trace = _
    unfold Site.turn
    rw [hq]
    simp [hi, Site.play, Site.see]
  have e : (turnsOf 0 (t.step (fun _ => E) SpecB (fun _ => clk) (.turn 0 op)).trace).map Prod.fst = (turnsOf 0 t.trace).map Prod.fst ++ [op] := by
    rw [htr, turnsOf_append]
    simp [turnsOf, SiteEvent.at]
  unfold Site.played
  rw [e]
  exact congrArg Prod.fst (runOps_snoc (B := SpecB) _ _ op)

theorem played_snap {t : Site Int Unit SpecB} (h : Site.Alone (fun _ => E) (fun _ => clk) (fun _ => 5) t) (ha : t.hub.queues[0]? = some printer) :
    let v := t.snap .spec (fun _ => E) 0 printer
    let v' := Impl.spec.snap E printer.name (t.played Spec.empty)
    v.lists = v'.lists ∧ v.tasks = v'.tasks ∧ v.cfg = v'.cfg ∧ v.alive = v'.alive ∧ v.reads = v'.reads ∧ v.log = v'.log ∧
      ∀ k, (fun _ => 5) k = printer.ty → v.job k = v'.job k := Site.mirror_snap h ha

theorem Steady.turn {p p' : Nat} {t : Site Int Unit SpecB} (h : Steady s0 p t) {op : Op Int Unit} (hi : op.inner = true)
    (hw : ∀ s, Worker .spec p s → Worker .spec p' (Sys.step E c!"print" SpecB clk s op).1) :
    Steady s0 p' (t.step (fun _ => E) SpecB (fun _ => clk) (.turn 0 op)) := by
  have hm := played_inner (s0 := s0) h.queues hi
  have e : t.step (fun _ => E) SpecB (fun _ => clk) (.turn 0 op) = (t.play (fun _ => E) SpecB (fun _ => clk) 0 printer none op).1 := by
    show t.turn (fun _ => E) SpecB (fun _ => clk) 0 op = _
    unfold Site.turn
    rw [h.queues]
    simp [hi]
  refine ⟨?_, ?_, ?_, ?_, ?_, by rw [hm]; exact hw _ h.work⟩ <;> rw [e]
  · exact h.queues
  · exact h.client
  · exact h.engine
  · show (upd t.boxes 0 _ 0).mailbox = []
    rw [upd_same]
    exact h.mail
  · exact h.user

theorem steady_step {n : Nat} {t : Site Int Unit SpecB} (h : Steady s0 (if n % 7 < 3 then n % 7 else 0) t) :
    Steady s0 (if (n + 1) % 7 < 3 then (n + 1) % 7 else 0) (t.step (fun _ => E) SpecB (fun _ => clk) (siteRounds n)) := by
  have : n % 7 = 0 ∨ n % 7 = 1 ∨ n % 7 = 2 ∨ n % 7 = 3 ∨ n % 7 = 4 ∨ n % 7 = 5 ∨ n % 7 = 6 := by omega
  unfold siteRounds
  have same : ∀ {t' : Site Int Unit SpecB}, t' = t → Steady s0 0 t → Steady s0 0 t' := fun e h => e ▸ h
  rcases this with e | e | e | e | e | e | e <;> rw [e] at h ⊢
  · rw [show (n + 1) % 7 = 1 by omega]
    exact h.turn rfl fun s => worker_tick
  · rw [show (n + 1) % 7 = 2 by omega]
    exact h.turn rfl fun s => worker_start
  · rw [show (n + 1) % 7 = 3 by omega]
    exact h.turn rfl fun s => worker_finish
  · rw [show (n + 1) % 7 = 4 by omega]
    refine same ?_ h
    obtain ⟨call, r, hc⟩ := h.client
    show t.client SpecB 2 false = t
    unfold Site.client
    rw [hc]
    simp [Hub.client, hc]
  · rw [show (n + 1) % 7 = 5 by omega]
    refine same ?_ h
    obtain ⟨G, h1, h2, h3⟩ := h.engine
    show { t with hub := t.hub.engine 0 } = t
    have : t.hub.engine 0 = t.hub := by simp [Hub.engine, h1, h2, h3]
    rw [this]
  · rw [show (n + 1) % 7 = 6 by omega]
    refine same ?_ h
    show t.post SpecB 2 = t
    unfold Site.post
    split
    · next hu => exact absurd hu (h.user _ _ _)
    · rfl
  · rw [show (n + 1) % 7 = 0 by omega]
    refine same ?_ h
    show t.handle (fun _ => E) SpecB (fun _ => clk) 0 0 = t
    unfold Site.handle
    rw [h.queues]
    simp [h.mail]

/-- A check of the turns of a work queue alone. -/
def fineAll (s : Sys Int SpecB) : List (Op Int Unit) → Bool
  | [] => true
  | op :: ops => fine (Impl.spec.snap E c!"print" s) op && fineAll (Sys.step E c!"print" SpecB clk s op).1 ops

theorem fineAll.reach {s : Sys Int SpecB} {ops : List (Op Int Unit)} (h : fineAll s ops = true)
    (hr : Reach (O := Unit) .spec E c!"print" clk (Careful E) s) :
    Reach (O := Unit) .spec E c!"print" clk (Careful E) (Sys.runOps E c!"print" SpecB clk s ops).1 := by
  induction ops generalizing s with
  | nil => exact hr
  | cons op ops ih =>
    simp only [fineAll, Bool.and_eq_true] at h
    exact ih h.2 (.step op hr (fine.careful h.1))

/-- The requests. -/
theorem forever_begin {n : Nat} {d : Nat} {req : Req Int} (h : forever J x n = .begin d req) :
    n = 0 ∧ d = 1 ∧ req = .submit 5 c!"print" (job c!"b") .newReRun ∨ n = 10 ∧ d = 1 ∧ req = .config 5 { maxProcessingJobs := 1 } ∨
      n = 16 ∧ d = 2 ∧ req = .submit 5 c!"print" J .newReRun := by
  by_cases hn : n < 28
  · have : n = 0 ∨ n = 1 ∨ n = 2 ∨ n = 3 ∨ n = 4 ∨ n = 5 ∨ n = 6 ∨ n = 7 ∨ n = 8 ∨ n = 9 ∨ n = 10 ∨ n = 11 ∨ n = 12 ∨ n = 13 ∨ n = 14 ∨ n = 15 ∨
        n = 16 ∨ n = 17 ∨ n = 18 ∨ n = 19 ∨ n = 20 ∨ n = 21 ∨ n = 22 ∨ n = 23 ∨ n = 24 ∨ n = 25 ∨ n = 26 ∨ n = 27 := by omega
    rcases this with rfl | rfl | rfl | rfl | rfl | rfl | rfl | rfl | rfl | rfl | rfl | rfl | rfl | rfl | rfl | rfl | rfl | rfl | rfl | rfl | rfl | rfl |
      rfl | rfl | rfl | rfl | rfl | rfl <;> cases h
    · exact .inl ⟨rfl, rfl, rfl⟩
    · exact .inr (.inl ⟨rfl, rfl, rfl⟩)
    · exact .inr (.inr ⟨rfl, rfl, rfl⟩)
  · obtain ⟨m, rfl⟩ : ∃ m, n = 28 + m := ⟨n - 28, by omega⟩
    rw [forever_late] at h
    unfold siteRounds at h
    split at h <;> cases h

theorem forever_early {n : Nat} (hn : n ≤ 28) : τ n = opened.run (fun _ => E) SpecB (fun _ => clk) ((doors J x).take n) := by
  rw [Site.after_run]
  congr 1
  refine List.ext_getElem? fun i => ?_
  rw [List.getElem?_map, List.getElem?_take]
  by_cases h : i < n
  · rw [List.getElem?_range h, if_pos h]
    unfold forever
    have : i < (doors J x).length := by show i < 28; omega
    show some ((doors J x)[i]?.getD _) = _
    rw [List.getElem?_eq_getElem this]
    rfl
  · rw [if_neg h, List.getElem?_eq_none (by simpa using h)]
    rfl

theorem doors_calm : Site.Endless (fun _ => E) (fun _ => clk) (fun _ => 5) opened := by
  have h1 : opened.hub.engines.length ≤ 1 := by decide +kernel
  have hon : ∀ d req, SiteOp.begin d req ∈ (Site.starting 0 7 : List (SiteOp Int Unit)) → req.On fun _ => 5 := by
    intro d req h
    simp [Site.starting] at h
    rw [h.2]; trivial
  have hl := Site.links_init (D := Int) (O := Unit) (B := SpecB) (fun _ => Spec.empty)
  have hA := Site.alone_init (D := Int) (O := Unit) (E := fun _ => E) (clk := fun _ => clk) (kind := fun _ => 5)
  exact ⟨Site.links_run hl _, Site.alone_run (fun _ => lawful) hl hA Hub.single_init _ hon h1, Site.single_run Hub.single_init _ h1⟩

/-- What is checked of the first 28 steps. -/
structure Opens (J : Job Int) (x : Executable Int Unit) : Prop where
  id : J.id = c!"a"
  fine : fineAll (Sys.init SpecB Spec.empty) ((turnsOf 0 (opened.run (fun _ => E) SpecB (fun _ => clk) (doors J x)).trace).map Prod.fst) = true
  queues : (opened.run (fun _ => E) SpecB (fun _ => clk) (doors J x)).hub.queues = [printer]
  client : (match (opened.run (fun _ => E) SpecB (fun _ => clk) (doors J x)).hub.clients 2 with
    | .done _ _ => true
    | _ => false) = true
  user : (match (opened.run (fun _ => E) SpecB (fun _ => clk) (doors J x)).users 2 with
    | .asking _ _ _ => false
    | _ => true) = true
  engine : (match (opened.run (fun _ => E) SpecB (fun _ => clk) (doors J x)).hub.engines with
    | [⟨_, _, [], .idle⟩] => true
    | _ => false) = true
  mail : ((opened.run (fun _ => E) SpecB (fun _ => clk) (doors J x)).boxes 0).mailbox.isEmpty = true
  alive : ((opened.run (fun _ => E) SpecB (fun _ => clk) (doors J x)).played Spec.empty).alive = true
  cap : ((opened.run (fun _ => E) SpecB (fun _ => clk) (doors J x)).played Spec.empty).cfg.maxProcessingJobs = 1
  tasks : ((opened.run (fun _ => E) SpecB (fun _ => clk) (doors J x)).played Spec.empty).tasks.isEmpty = true
  running : (Impl.spec.snap E c!"print" ((opened.run (fun _ => E) SpecB (fun _ => clk) (doors J x)).played Spec.empty)).lists .running = []
  short : ((Impl.spec.snap E c!"print" ((opened.run (fun _ => E) SpecB (fun _ => clk) (doors J x)).played Spec.empty)).lists .queued).length ≤ 20
  turns : ((List.range 28).all fun n => match (doors J x)[n]? with
    | some (.turn 0 op) => ok c!"a" ((opened.run (fun _ => E) SpecB (fun _ => clk) ((doors J x).take n)).snap .spec (fun _ => E) 0 printer) op &&
      (((opened.run (fun _ => E) SpecB (fun _ => clk) ((doors J x).take n)).snap .spec (fun _ => E) 0 printer).lists .queued).length ≤ 20
    | _ => true) = true
  known : (opened.run (fun _ => E) SpecB (fun _ => clk) ((doors J x).take 16)).hub.byType 5 ≠ none
  free : (match (opened.run (fun _ => E) SpecB (fun _ => clk) ((doors J x).take 16)).users 2 with
    | .free => true
    | _ => false) = true

section
variable (H : Opens J x)
include H

theorem steady_start : Steady Spec.empty 0 (τ 28) := by
  rw [forever_start]
  have h := fit_reach (fineAll.reach H.fine .start)
  have h1 := H.alive
  have h2 := H.cap
  have h3 := H.tasks
  have h4 := H.running
  have h5 := H.short
  refine ⟨H.queues, ?_, ?_, ?_, ?_, ?_⟩
  · have := H.client
    split at this
    · next h => exact ⟨_, _, h⟩
    · cases this
  · have := H.engine
    split at this
    · next h => exact ⟨_, h, rfl, rfl⟩
    · cases this
  · exact List.isEmpty_iff.1 H.mail
  · have := H.user
    intro req op again h
    rw [h] at this
    cases this
  · unfold Site.played at *
    generalize (Sys.runOps E _ SpecB clk _ _).1 = s at *
    exact ⟨h, h1, h2, .inl ⟨List.isEmpty_iff.1 h3, h4, h5⟩⟩

theorem steady (n : Nat) : Steady Spec.empty (if n % 7 < 3 then n % 7 else 0) (τ (28 + n)) := by
  induction n with
  | zero => exact steady_start H
  | succ n ih =>
    show Steady Spec.empty _ ((τ (28 + n)).step (fun _ => E) SpecB (fun _ => clk) (forever J x (28 + n)))
    rw [forever_late]
    exact steady_step ih

theorem forever_polite (n : Nat) : (forever J x n).Polite signs (τ n) := by
  cases ho : forever J x n with
  | begin d req =>
    rcases forever_begin ho with ⟨rfl, rfl, rfl⟩ | ⟨rfl, rfl, rfl⟩ | ⟨rfl, rfl, rfl⟩
    · refine ⟨rfl, fun _ d hd => ?_⟩
      have : (τ 0).hub.clients d = if d = 0 then (Hub.run {} (startAlone 0 7)).clients 0 else .idle := by
        show opened.hub.clients d = _
        unfold opened
        rw [starting_hub, started]
        by_cases h : d = 0
        · subst h; rfl
        · simp [upd, h]
      rw [this]
      split
      · decide +kernel
      · exact id
    · trivial
    · refine ⟨rfl, fun h => ?_⟩
      rw [forever_early (by omega)] at h
      exact absurd h H.known
  | _ => trivial

theorem forever_orderly (n : Nat) : (τ n).hub.engines.length ≤ 1 := by
  obtain ⟨G, hG⟩ := Site.orderly_after (N := signs) (E := fun _ => E) (clk := fun _ => clk) (t := opened) (ops := forever J x) signs_inj
    (by unfold opened; rw [starting_hub]; exact started_orderly signs 0 7) (forever_polite H) n
  rw [hG.engines]; simp

theorem forever_endless (n : Nat) : Site.Endless (fun _ => E) (fun _ => clk) (fun _ => 5) (τ n) := by
  refine doors_calm.after (fun _ => lawful) (fun n c req h => ?_) (forever_orderly H) n
  rcases forever_begin h with ⟨-, -, rfl⟩ | ⟨-, -, rfl⟩ | ⟨-, -, rfl⟩
  · exact rfl
  · trivial
  · exact rfl

theorem forever_queues {n q : Nat} {a : QueueActor} (h : (τ n).hub.queues[q]? = some a) : q = 0 ∧ a = printer := by
  have h := Site.after_queues (Nat.le_add_left n 28) h
  rw [(steady H n).queues] at h
  cases q with
  | zero => cases h; exact ⟨rfl, rfl⟩
  | succ q => cases h

theorem forever_serves : Site.Serves .spec (fun _ => E) (fun _ => clk) c!"a" 0 printer opened (forever J x) := by
  have hq : ∀ n, (τ (28 + n)).hub.queues[0]? = some printer := fun n => by rw [(steady H n).queues]; rfl
  have hs := fun n => played_snap (forever_endless H (28 + n)).alone (hq n)
  have early : ∀ n, n < 28 → ∀ op, forever J x n = .turn 0 op → ok c!"a" ((τ n).snap .spec (fun _ => E) 0 printer) op = true ∧
      (((τ n).snap .spec (fun _ => E) 0 printer).lists .queued).length ≤ 20 := by
    intro n hn op ho
    have := List.all_eq_true.1 H.turns n (List.mem_range.2 hn)
    have hd : (doors J x)[n]? = some (.turn 0 op) := by
      have hn' : n < (doors J x).length := hn
      unfold forever at ho
      rw [List.getElem?_eq_getElem hn'] at ho ⊢
      exact congrArg some ho
    rw [hd] at this
    rw [forever_early (Nat.le_of_lt hn)]
    simpa using this
  have idle : ∀ m k, k ∉ ((τ (28 + 7 * m)).snap .spec (fun _ => E) 0 printer).inFlight := by
    intro m k hk
    unfold Snap.inFlight at hk
    rw [(hs (7 * m)).2.1] at hk
    have hw := (steady H (7 * m)).work
    rw [show 7 * m % 7 = 0 by omega] at hw
    obtain ⟨_, _, _, ⟨ht, _⟩ | ⟨_, h0, _⟩⟩ := hw
    · have ht : (Impl.spec.snap E printer.name ((τ (28 + 7 * m)).played Spec.empty)).tasks = [] := ht
      rw [ht] at hk
      cases hk
    · exact absurd rfl h0
  refine ⟨fun n i x orig j h1 h2 h3 => ?_, fun n _ => ?_, fun m => ?_, .inl fun n hn => ?_⟩
  · by_cases hn : n < 28
    · exact ok.careful (k := c!"a") (op := .finish i x) (early n hn _ h1).1 orig j h2 h3
    · obtain ⟨m, rfl⟩ : ∃ m, n = 28 + m := ⟨n - 28, by omega⟩
      rw [forever_late] at h1
      have e : m % 7 = 2 ∧ i = 0 ∧ x = good := by
        unfold siteRounds at h1
        split at h1 <;> cases h1
        exact ⟨by assumption, rfl, rfl⟩
      obtain ⟨e, rfl, rfl⟩ := e
      have hw := (steady H m).work
      rw [e] at hw
      have h2 : ((τ (28 + m)).snap .spec (fun _ => E) 0 printer).tasks[0]? = _ := h2
      rw [(hs m).2.1] at h2
      exact good_careful hw orig j h2
  · exact ⟨28 + 7 * n, by omega, idle n _⟩
  · refine ⟨28 + 7 * m, by omega, ?_, ?_, ?_⟩
    · rw [forever_late]
      unfold siteRounds
      rw [show 7 * m % 7 = 0 by omega]
      rfl
    · exact (hs (7 * m)).2.2.2.1.trans (steady H (7 * m)).work.2.1
    · have hw := (steady H (7 * m)).work
      rw [show 7 * m % 7 = 0 by omega] at hw
      obtain ⟨_, _, hc, ⟨_, hr, _⟩ | ⟨_, h0, _⟩⟩ := hw
      · have e1 := (hs (7 * m)).1
        have e2 := (hs (7 * m)).2.2.1
        show 1 ≤ ((τ (28 + 7 * m)).snap .spec (fun _ => E) 0 printer).free
        rw [Site.snap_free e1 e2]
        unfold Snap.free
        show 1 ≤ (Sys.cfg _).maxProcessingJobs - ((Impl.spec.snap E c!"print" _).lists .running).length
        rw [hr, hc]
        decide
      · exact absurd rfl h0
  · by_cases h : n < 28
    · have : forever J x n = .turn 0 .tick := by
        cases ho : forever J x n with
        | turn p op =>
          rw [ho] at hn
          cases op with
          | tick => rw [show p = 0 by simpa [SiteOp.ticks] using hn]
          | _ => cases hn
        | _ => rw [ho] at hn; cases hn
      exact (early n h _ this).2
    · obtain ⟨m, rfl⟩ : ∃ m, n = 28 + m := ⟨n - 28, by omega⟩
      show (((τ (28 + m)).snap .spec (fun _ => E) 0 printer).lists .queued).length ≤ 20
      rw [(hs m).1]
      obtain ⟨_, _, _, ⟨_, _, hl⟩ | ⟨_, _, _, _, _, _, hl⟩⟩ := (steady H m).work
      · exact hl
      · exact Nat.le_of_succ_le hl

theorem forever_free {m : Nat} (hm : m = 16) : (τ m).users 2 = .free := by
  subst hm
  rw [forever_early (by omega)]
  have h := H.free
  split at h
  · assumption
  · cases h

theorem forever_chance {m : Nat} (hm : m = 16) : Site.Chance .spec (fun _ => E) (fun _ => clk) (fun _ => 5) signs 2 5 c!"print" J .newReRun m opened (forever J x) where
  polite := forever_polite H
  on n d req h := by
    rcases forever_begin h with ⟨-, -, rfl⟩ | ⟨-, -, rfl⟩ | ⟨-, -, rfl⟩
    · exact rfl
    · trivial
    · exact rfl
  call := by rw [hm]; rfl
  free := .inl (forever_free H hm)
  sole n d req hn h := by
    rcases forever_begin h with ⟨-, -, rfl⟩ | ⟨-, -, rfl⟩ | ⟨rfl, -, -⟩
    · show ¬(_ = J.id)
      rw [H.id]
      decide
    · exact id
    · exact absurd hm.symm hn
  moves := {
    client := fun m => ⟨28 + (7 * m + 3), false, by omega, by
      rw [forever_late]; unfold siteRounds; rw [show (7 * m + 3) % 7 = 3 by omega]; rfl⟩
    engine := fun m => ⟨28 + (7 * m + 4), by omega, by
      rw [forever_late]; unfold siteRounds; rw [show (7 * m + 4) % 7 = 4 by omega]; rfl⟩
    post := fun m => ⟨28 + (7 * m + 5), by omega, by
      rw [forever_late]; unfold siteRounds; rw [show (7 * m + 5) % 7 = 5 by omega]; rfl⟩
    takes := fun m q a h1 _ _ => by
      obtain ⟨rfl, rfl⟩ := forever_queues H (n := m) h1
      refine ⟨28 + (7 * m + 6), by omega, ?_⟩
      rw [forever_late]; unfold siteRounds; rw [show (7 * m + 6) % 7 = 6 by omega]
      rfl }
  serves n q a h1 h2 := by
    obtain ⟨rfl, rfl⟩ := forever_queues H (n := n) h1
    rw [H.id]
    exact forever_serves H

end

/-- The runs of the example all go well, but for the one at step 27. -/
theorem forever_finish {n q i : Nat} {y : Executable Int Unit} (h : forever J x n = .turn q (.finish i y)) : y = good ∨ y = x := by
  by_cases hn : n < 28
  · have : n = 0 ∨ n = 1 ∨ n = 2 ∨ n = 3 ∨ n = 4 ∨ n = 5 ∨ n = 6 ∨ n = 7 ∨ n = 8 ∨ n = 9 ∨ n = 10 ∨ n = 11 ∨ n = 12 ∨ n = 13 ∨ n = 14 ∨ n = 15 ∨
        n = 16 ∨ n = 17 ∨ n = 18 ∨ n = 19 ∨ n = 20 ∨ n = 21 ∨ n = 22 ∨ n = 23 ∨ n = 24 ∨ n = 25 ∨ n = 26 ∨ n = 27 := by omega
    rcases this with rfl | rfl | rfl | rfl | rfl | rfl | rfl | rfl | rfl | rfl | rfl | rfl | rfl | rfl | rfl | rfl | rfl | rfl | rfl | rfl | rfl |
      rfl | rfl | rfl | rfl | rfl | rfl | rfl <;> cases h
    · exact .inl rfl
    · exact .inr rfl
  · obtain ⟨m, rfl⟩ : ∃ m, n = 28 + m := ⟨n - 28, by omega⟩
    rw [forever_late] at h
    unfold siteRounds at h
    split at h <;> cases h
    exact .inl rfl

/-- The process of the example, on any backend. -/
abbrev openedOn (b : Impl) : Site Int Unit b.B := (Site.init b.B fun _ => b.empty).run (fun _ => E) b.B (fun _ => clk) (Site.starting 0 7)

theorem forever_on (H : Opens J x) (b : Impl) :
    Site.Chance b (fun _ => E) (fun _ => clk) (fun _ => 5) signs 2 5 c!"print" J .newReRun 16 (openedOn b) (forever J x) :=
  (rel_chance (Site.Rel.run ⟨rfl, rfl, fun _ => b.empty_rel, rfl, rfl⟩ _) ..).2 (forever_chance H rfl)

theorem flaky_opens : Opens (flaky (.newIntervalRetry (some 2) nsPerSec)) bad := by constructor <;> decide +kernel

/-- `C85_ends_partial` applies, on every backend: job `a` ends, although its first run fails. -/
example (b : Impl) : ∃ n q a, 16 < n ∧
    (Site.after (fun _ => E) b.B (fun _ => clk) (openedOn b) (forever (flaky (.newIntervalRetry (some 2) nsPerSec)) bad) n).hub.queues[q]? = some a ∧
    a.ty = 5 ∧ a.name = c!"print" ∧
    ((Site.after (fun _ => E) b.B (fun _ => clk) (openedOn b) (forever (flaky (.newIntervalRetry (some 2) nsPerSec)) bad) n).snap b (fun _ => E) q
      a).Ended c!"a" := by
  refine C85_ends_partial signs_inj b (fun _ => lawful) 0 7 _ 2 5 c!"print" (flaky (.newIntervalRetry (some 2) nsPerSec)) .newReRun 16
    (forever_on flaky_opens b) (fun _ => clk_passes) (by decide +kernel) (by intro e n m c h; cases h) ?_ (.inl ?_)
  · intro r h
    cases h
    exact ⟨by constructor <;> decide, 2, rfl, by constructor <;> decide⟩
  · intro q a _ n i y orig j h _ _
    rcases forever_finish h with rfl | rfl <;> rfl

theorem seconds_opens : Opens (cronJob c!"* * * * * *" 3 {}) good := by constructor <;> decide +kernel

/-- An every-second job runs a thousand times, on every backend. -/
example (b : Impl) : ∃ n q a, 16 < n ∧
    (Site.after (fun _ => E) b.B (fun _ => clk) (openedOn b) (forever (cronJob c!"* * * * * *" 3 {}) good) n).hub.queues[q]? = some a ∧
    a.ty = 5 ∧ a.name = c!"print" ∧
    1000 ≤ (((Site.after (fun _ => E) b.B (fun _ => clk) (openedOn b) (forever (cronJob c!"* * * * * *" 3 {}) good) n).snap b (fun _ => E) q a).runs
      c!"a").length := by
  refine C85_forever_partial signs_inj b (fun _ => lawful) 0 7 _ 2 5 c!"print" (cronJob c!"* * * * * *" 3 {}) .newReRun 16 c!"* * * * * *" _ 1 {} 1000
    (forever_on seconds_opens b) (fun _ => clk_passes) (by decide +kernel) rfl rfl rfl rfl (.inr rfl) ?_
  intro q a _ n i y orig j h _ _
  rcases forever_finish h with rfl | rfl <;> exact .inl rfl

theorem two_opens : Opens (cronJob c!"* * * * * *" 3 { maxRepeat := some 2 }) good := by constructor <;> decide +kernel

/-- One with `max_repeat = 2` runs twice. -/
example (b : Impl) : ∃ n q a, 16 < n ∧
    (Site.after (fun _ => E) b.B (fun _ => clk) (openedOn b) (forever (cronJob c!"* * * * * *" 3 { maxRepeat := some 2 }) good) n).hub.queues[q]? =
      some a ∧ a.ty = 5 ∧ a.name = c!"print" ∧
    2 ≤ (((Site.after (fun _ => E) b.B (fun _ => clk) (openedOn b) (forever (cronJob c!"* * * * * *" 3 { maxRepeat := some 2 }) good) n).snap b
      (fun _ => E) q a).runs c!"a").length := by
  refine C85_max_repeat_partial signs_inj b (fun _ => lawful) 0 7 _ 2 5 c!"print" (cronJob c!"* * * * * *" 3 { maxRepeat := some 2 }) .newReRun 16
    c!"* * * * * *" _ 1 2 { maxRepeat := some 2 } (forever_on two_opens b) (fun _ => clk_passes) (by decide +kernel) rfl rfl rfl rfl
    (by constructor <;> decide) (by constructor <;> decide) (.inr rfl) ?_
  intro q a _ n i y orig j h _ _
  rcases forever_finish h with rfl | rfl <;> exact .inl rfl

end

end AJ.Props
