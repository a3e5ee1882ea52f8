import Verif.Proofs.EndlessWeave
import Verif.Props.Rounds
import Verif.Props.WeaveRun

/-!
# In a process whose work queues interleave call by call, the job of a submission comes to an end (C86)
-/

namespace AJ.Props

section
variable {D O : Type} {E : Nat → Env D} {clk : Nat → Nat → Time} {N : Nat → Str} {kind : Str → Nat}

theorem runs_log {v v' : Snap D} (h : v.log = v'.log) (k : Str) : v.runs k = v'.runs k := by
  unfold Snap.runs Snap.mine; rw [h]

theorem rel_after {b : Impl} {f : Weave D O b.B} {g : Weave D O SpecB} (h : Weave.Rel b f g) (ops : Nat → WeaveOp D O) (n : Nat) :
    Weave.Rel b (Weave.after E b.B clk f ops n) (Weave.after E SpecB clk g ops n) := by
  induction n with
  | zero => exact h
  | succ n ih => exact ih.step (ops n)

theorem rel_runs {b : Impl} {f : Weave D O b.B} {g : Weave D O SpecB} (h : Weave.Rel b f g) (ops : Nat → WeaveOp D O) (k : Str) (q : Nat)
    (a : QueueActor) (P : Executable D O → Job D → Prop) : f.EachRun b E clk k q a ops P ↔ g.EachRun .spec E clk k q a ops P := by
  have e : ∀ n, (Weave.after E b.B clk f ops n).site.snap b E q a = (Weave.after E Impl.spec.B clk g ops n).site.snap .spec E q a :=
    fun n => Site.snap_rel (rel_after h ops n).site q a
  have e2 : ∀ n, (Weave.after E b.B clk f ops n).inside = (Weave.after E Impl.spec.B clk g ops n).inside := fun n => (rel_after h ops n).inside
  unfold Weave.EachRun Weave.EachRunOn
  simp only [e, e2]

theorem rel_serves {b : Impl} {f : Weave D O b.B} {g : Weave D O SpecB} (h : Weave.Rel b f g) (ops : Nat → WeaveOp D O) (k : Str) (q : Nat)
    (a : QueueActor) : Weave.Serves b E clk k q a f ops ↔ Weave.Serves .spec E clk k q a g ops := by
  have e : ∀ n, (Weave.after E b.B clk f ops n).site.snap b E q a = (Weave.after E Impl.spec.B clk g ops n).site.snap .spec E q a :=
    fun n => Site.snap_rel (rel_after h ops n).site q a
  have e2 : ∀ n, (Weave.after E b.B clk f ops n).ticks q (ops n) = (Weave.after E Impl.spec.B clk g ops n).ticks q (ops n) :=
    fun n => (rel_after h ops n).ticks q (ops n)
  have e3 : ∀ n, (Weave.after E b.B clk f ops n).inside q = (Weave.after E Impl.spec.B clk g ops n).inside q := fun n => congrFun (rel_after h ops n).inside q
  constructor
  · rintro ⟨h1, h2, h3, h4⟩
    unfold Weave.BriefOn at h4
    simp only [e, e2, e3] at h2 h3 h4
    exact ⟨(rel_runs h ..).1 h1, h2, h3, h4⟩
  · rintro ⟨h1, h2, h3, h4⟩
    unfold Weave.BriefOn at h4
    simp only [← e, ← e2, ← e3] at h2 h3 h4
    exact ⟨(rel_runs h ..).2 h1, h2, h3, h4⟩

/-- Whether a job gets its chance does not depend on the backend. -/
theorem rel_woven {b : Impl} {f : Weave D O b.B} {g : Weave D O SpecB} (h : Weave.Rel b f g) (ops : Nat → WeaveOp D O) (c ty : Nat) (nm : Str)
    (job : Job D) (cfg : EnqueueConfig) (n0 : Nat) : Weave.Chance b E clk kind N c ty nm job cfg n0 f ops ↔
      Weave.Chance .spec E clk kind N c ty nm job cfg n0 g ops := by
  have e1 : ∀ n, (Weave.after E b.B clk f ops n).site.hub = (Weave.after E Impl.spec.B clk g ops n).site.hub := fun n => (rel_after h ops n).site.hub
  have e2 : ∀ n, (Weave.after E b.B clk f ops n).site.boxes = (Weave.after E Impl.spec.B clk g ops n).site.boxes := fun n => (rel_after h ops n).site.boxes
  have e3 : ∀ n, (Weave.after E b.B clk f ops n).site.users = (Weave.after E Impl.spec.B clk g ops n).site.users := fun n => (rel_after h ops n).site.users
  have e4 : ∀ n (o : SiteOp D O), o.Polite N (Weave.after E b.B clk f ops n).site ↔ o.Polite N (Weave.after E Impl.spec.B clk g ops n).site := by
    intro n o
    cases o with
    | begin d req =>
      show (HubOp.begin d req.call).Orderly N _ ↔ (HubOp.begin d req.call).Orderly N _
      rw [e1 n]
    | _ => exact Iff.rfl
  have e5 : ∀ n, (Weave.after E b.B clk f ops n).inside = (Weave.after E Impl.spec.B clk g ops n).inside := fun n => (rel_after h ops n).inside
  constructor
  · rintro ⟨h1, h2, h3, h4, h5, ⟨h6, h7, h8, h9⟩, h10⟩
    simp only [e1, e2, e3, e4, e5, rel_serves h] at h1 h4 h9 h10
    exact ⟨h1, h2, h3, h4, h5, ⟨h6, h7, h8, h9⟩, h10⟩
  · rintro ⟨h1, h2, h3, h4, h5, ⟨h6, h7, h8, h9⟩, h10⟩
    simp only [← e1, ← e2, ← e3, ← e4, ← e5, ← rel_serves h] at h1 h4 h9 h10
    exact ⟨h1, h2, h3, h4, h5, ⟨h6, h7, h8, h9⟩, h10⟩

/-- The process when the engine has been started. -/
theorem started_woven (L : ∀ ty, (E ty).Lawful) (c0 b0 : Nat) :
    let f : Weave D O SpecB := (Weave.init SpecB fun _ => Spec.empty).run E SpecB clk ((Site.starting c0 b0).map .site)
    let t : Site D O SpecB := (Site.init SpecB fun _ => Spec.empty).run E SpecB clk (Site.starting c0 b0)
    f.site = t ∧ (∀ q, f.inside q = none) ∧ Weave.Pair E clk kind f t := by
  intro f t
  have e : f = { (Weave.init SpecB fun _ => Spec.empty : Weave D O SpecB) with site := t } := Weave.run_plain _ _ (starting_plain c0 b0)
  obtain ⟨-, h, -, -⟩ := started_site (O := O) (E := E) (clk := clk) (kind := kind) (N := fun _ => []) L c0 b0 []
  have h : Site.Endless E clk kind t := h
  rw [e]
  refine ⟨rfl, fun _ => rfl, ⟨⟨⟨rfl, rfl, rfl, fun _ => rfl⟩, fun _ => rfl, fun _ _ => ⟨rfl, rfl⟩, fun _ _ _ _ => .refl _,
    fun _ _ _ _ h => (by cases h), fun _ _ _ _ => .refl _⟩, ⟨h.links, fun _ _ h => by cases h⟩, h.links, h.alone, h.single⟩⟩

/-- The work queue that a submission reaches, alone. -/
theorem chance (hN : ∀ a b, N a = N b → a = b) (b : Impl) (L : ∀ ty, (E ty).Lawful) (c0 b0 : Nat) (ops : Nat → WeaveOp D O) (c ty : Nat)
    (nm : Str) (job : Job D) (cfg : EnqueueConfig) (n0 : Nat) :
    let s := (Weave.init b.B fun _ => b.empty).run E b.B clk ((Site.starting c0 b0).map .site)
    Weave.Chance b E clk kind N c ty nm job cfg n0 s ops → (E ty).Encodable job →
    ∃ q a ops' ms, ∃ u : Sys D SpecB, a.ty = ty ∧ a.name = nm ∧
      Reach (O := O) .spec (E ty) a.name (clk q) (Orderly job.id) u ∧
      (Impl.spec.snap (E ty) a.name u).job job.id = some ((job.asQueued ms).norm (L ty).normD) ∧
      (Impl.spec.snap (E ty) a.name u).runs job.id = [] ∧
      Sys.Serves .spec (E ty) a.name (clk q) job.id u ops' ∧
      (∀ P, s.EachRun b E clk job.id q a ops P → ∀ m i x orig j, ops' m = .finish i x →
        (Sys.after (E ty) a.name Impl.spec.B (clk q) u ops' m).tasks[i]? = some ⟨orig, some j⟩ → orig.id = job.id → P x j) ∧
      ∀ m, ∃ n, n0 < n ∧ (Weave.after E b.B clk s ops n).site.hub.queues[q]? = some a ∧
        ((Weave.after E b.B clk s ops n).site.snap b E q a).job job.id =
          (Impl.spec.snap (E ty) a.name (Sys.after (E ty) a.name Impl.spec.B (clk q) u ops' m)).job job.id ∧
        ((Weave.after E b.B clk s ops n).site.snap b E q a).log =
          (Impl.spec.snap (E ty) a.name (Sys.after (E ty) a.name Impl.spec.B (clk q) u ops' m)).log := by
  intro s H henc
  have hrel : Weave.Rel b s ((Weave.init SpecB fun _ => Spec.empty).run E SpecB clk ((Site.starting c0 b0).map .site)) := Weave.rel_init.run _
  have H' := (rel_woven hrel ..).1 H
  obtain ⟨ho, -, g2, g3⟩ := started_site (O := O) (E := E) (clk := clk) (kind := kind) (N := N) L c0 b0 job.id
  obtain ⟨g4, h0, hP⟩ := started_woven (O := O) (E := E) (clk := clk) (kind := kind) L c0 b0
  generalize (Site.init SpecB fun _ => Spec.empty).run E SpecB clk (Site.starting c0 b0) = t at *
  generalize (Weave.init SpecB fun _ => Spec.empty).run E SpecB clk ((Site.starting c0 b0).map .site) = f at *
  obtain ⟨n, q, a, ops', ms, k1, kz, k2, k3, k4, k5, k6, k7, k8, k9, k10, k11⟩ := Weave.served hN L hP h0 (by rw [g4]; exact ho) g2 g3 H' henc
  subst k3
  have hE : ∀ m, Weave.Rel b (Weave.after E b.B clk s ops m) (Weave.after E SpecB clk f ops m) := fun m => rel_after hrel ops m
  have hq : ∀ m, n ≤ m → (Weave.after E SpecB clk f ops m).site.hub.queues[q]? = some a := fun m hm => Weave.after_queues hP.tidy hm k2
  have hq' : ∀ m, n ≤ m → (Site.after E SpecB clk t (Weave.serially E clk f ops) m).hub.queues[q]? = some a := fun m hm => by
    rw [← (k11 m).serial.face.hub]; exact hq m hm
  have hkind : kind job.id = a.ty := H.on n0 _ _ H.call
  refine ⟨q, a, ops', ms, _, rfl, k4, k5, k6, k7, k10, fun P hP' m i x orig j h1 h2 h3 => ?_, fun m => ?_⟩
  · refine Weave.runs_flat k11 h0 ((rel_runs hrel ..).1 hP') (n + m) i x orig j (k9 m i x h1) ?_ h3
    have e := (Site.mirror_snap (k11 (n + m)).alone (hq' (n + m) (by omega))).2.1
    show ((Site.after E SpecB clk t (Weave.serially E clk f ops) (n + m)).snap .spec E q a).tasks[i]? = _
    rw [e, k8 m]
    exact h2
  · obtain ⟨n', e1, e2, e3, e4, e5, -⟩ := Weave.began (E := E) (clk := clk) (f := f) (ops := ops) hP.tidy kz (n + m) (by omega)
    have hm : (Site.after E SpecB clk t (Weave.serially E clk f ops) (n + m)).mirror .spec E clk q a =
        (Site.after E SpecB clk t (Weave.serially E clk f ops) n').mirror .spec E clk q a := by
      unfold Site.mirror
      rw [← (k11 (n + m)).serial.face.trace, ← (k11 n').serial.face.trace, e5]
    obtain ⟨-, -, -, i4, i5⟩ := (k11 n').calm (hq' n' e1) e3
    obtain ⟨-, -, -, -, -, s6, s7⟩ := Site.mirror_snap (k11 n').alone (hq' n' e1)
    refine ⟨n', by omega, by rw [(hE n').site.hub]; exact hq n' e1, ?_⟩
    rw [Site.snap_rel (hE n').site, ← k8 m, hm]
    exact ⟨(i5 job.id hkind).trans (s7 job.id hkind), i4.trans s6⟩

/-- C86, in a process whose engine was started by one client alone, whose work queues interleave call by call, on any backend: a job
that one request submits and no other request touches, and that is not a cron job, with a bounded number of retries or without
retry policy, reaches Finished or Failed, in every endless history in which time passes, nobody stands still, the runs of the job
come to an end and the work queues of its type keep ticking.

Missing: as in `C85_ends_partial`. -/
theorem C86_ends_partial (hN : ∀ a b, N a = N b → a = b) (b : Impl) (L : ∀ ty, (E ty).Lawful) (c0 b0 : Nat) (ops : Nat → WeaveOp D O) (c ty : Nat)
    (nm : Str) (job : Job D) (cfg : EnqueueConfig) (n0 : Nat) :
    let s := (Weave.init b.B fun _ => b.empty).run E b.B clk ((Site.starting c0 b0).map .site)
    Weave.Chance b E clk kind N c ty nm job cfg n0 s ops → (∀ q, Elapses (clk q)) → (E ty).Encodable job → NonCron job →
    (∀ r, job.context.retry = some r → IsI32 r.retriedTimes ∧ ∃ n, r.maxRetries = some n ∧ IsI32 n) →
    ((∀ q a, a.ty = ty → s.EachRun b E clk job.id q a ops fun x _ => x.retryAt = none) ∨ job.context.retry = none) →
    ∃ n q a, n0 < n ∧ (Weave.after E b.B clk s ops n).site.hub.queues[q]? = some a ∧ a.ty = ty ∧ a.name = nm ∧
      ((Weave.after E b.B clk s ops n).site.snap b E q a).Ended job.id := by
  intro s H hclk henc hty hr hx
  obtain ⟨q, a, ops', ms, u, rfl, k4, k5, k6, -, k8, k9, k10⟩ := chance hN b L c0 b0 ops c ty nm job cfg n0 H henc
  obtain ⟨m, hm⟩ := C83_ends (L a.ty) k5 k8 (hclk q) k6 (hty.norm _ _) (by simp [Job.norm, JobContext.norm, Job.asQueued])
    (by
      intro r hr'
      cases hj : job.context.retry with
      | none => simp [Job.norm, JobContext.norm, Job.asQueued, hj] at hr'
      | some r0 =>
        simp only [Job.norm, JobContext.norm, Job.asQueued, hj, Option.map_some, Option.some.injEq] at hr'
        subst hr'
        exact hr r0 hj)
    (hx.imp (fun h m i x orig j => k9 (fun x _ => x.retryAt = none) (h q a rfl) m i x orig j) (fun h => by simp [Job.norm, JobContext.norm, Job.asQueued, h]))
  obtain ⟨n, h1, h2, h3, -⟩ := k10 m
  refine ⟨n, q, a, h1, h2, rfl, k4, ?_⟩
  unfold Snap.Ended Snap.status at hm ⊢
  rw [h3]
  exact hm

/-- C86, cron jobs: in the same setting, a cron job without limit and without end runs any number of times, if its expression is
valid and none of its runs is retried.

Missing: as in `C85_ends_partial`. -/
theorem C86_forever_partial (hN : ∀ a b, N a = N b → a = b) (b : Impl) (L : ∀ ty, (E ty).Lawful) (c0 b0 : Nat) (ops : Nat → WeaveOp D O) (c ty : Nat)
    (nm : Str) (job : Job D) (cfg : EnqueueConfig) (n0 : Nat) (e : Str) (at_ : Time) (t : Int) (x : CronContext) (R : Nat) :
    let s := (Weave.init b.B fun _ => b.empty).run E b.B clk ((Site.starting c0 b0).map .site)
    Weave.Chance b E clk kind N c ty nm job cfg n0 s ops → (∀ q, Elapses (clk q)) → (E ty).Encodable job →
    job.context.jobType = .cron e at_ t x → ((E ty).cron e).isSome = true → x.maxRepeat = none → x.endAt = none →
    ((∀ q a, a.ty = ty → s.EachRun b E clk job.id q a ops fun x _ => x.retryAt = none) ∨ job.context.retry = none) →
    (∀ q a, a.ty = ty → s.EachRun b E clk job.id q a ops Unretried) →
    ∃ n q a, n0 < n ∧ (Weave.after E b.B clk s ops n).site.hub.queues[q]? = some a ∧ a.ty = ty ∧ a.name = nm ∧
      R ≤ (((Weave.after E b.B clk s ops n).site.snap b E q a).runs job.id).length := by
  intro s H hclk henc hty hc hmax hend hx hno
  obtain ⟨q, a, ops', ms, u, rfl, k4, k5, k6, -, k8, k9, k10⟩ := chance hN b L c0 b0 ops c ty nm job cfg n0 H henc
  obtain ⟨m, hm⟩ := C84_forever (L a.ty) k5 k8 (hclk q) k6 rfl (e := e) (u := floorUs at_) (t := t) (c := x.norm)
    (by simp [Job.norm, JobContext.norm, Job.asQueued, hty, JobType.norm]) hc hmax (by simp [CronContext.norm, hend])
    (hx.imp (fun h m i x orig j => k9 (fun x _ => x.retryAt = none) (h q a rfl) m i x orig j) (fun h => by simp [Job.norm, JobContext.norm, Job.asQueued, h]))
    (fun m i x orig j => k9 _ (hno q a rfl) m i x orig j) R
  obtain ⟨n, h1, h2, -, h4⟩ := k10 m
  refine ⟨n, q, a, h1, h2, rfl, k4, ?_⟩
  rw [runs_log h4]
  exact hm

/-- C86, cron jobs with a limit: in the same setting, a cron job that has had `t` of `M` repetitions, without end, runs at least
`M + 1 - t` times.

Missing: as in `C85_ends_partial`. -/
theorem C86_max_repeat_partial (hN : ∀ a b, N a = N b → a = b) (b : Impl) (L : ∀ ty, (E ty).Lawful) (c0 b0 : Nat) (ops : Nat → WeaveOp D O)
    (c ty : Nat) (nm : Str) (job : Job D) (cfg : EnqueueConfig) (n0 : Nat) (e : Str) (at_ : Time) (t M : Int) (x : CronContext) :
    let s := (Weave.init b.B fun _ => b.empty).run E b.B clk ((Site.starting c0 b0).map .site)
    Weave.Chance b E clk kind N c ty nm job cfg n0 s ops → (∀ q, Elapses (clk q)) → (E ty).Encodable job →
    job.context.jobType = .cron e at_ t x → ((E ty).cron e).isSome = true → x.maxRepeat = some M → x.endAt = none → IsI32 t → IsI32 (M + 1) →
    ((∀ q a, a.ty = ty → s.EachRun b E clk job.id q a ops fun x _ => x.retryAt = none) ∨ job.context.retry = none) →
    (∀ q a, a.ty = ty → s.EachRun b E clk job.id q a ops Unretried) →
    ∃ n q a, n0 < n ∧ (Weave.after E b.B clk s ops n).site.hub.queues[q]? = some a ∧ a.ty = ty ∧ a.name = nm ∧
      (M + 1 - t).toNat ≤ (((Weave.after E b.B clk s ops n).site.snap b E q a).runs job.id).length := by
  intro s H hclk henc hty hc hmax hend ht hM hx hno
  obtain ⟨q, a, ops', ms, u, rfl, k4, k5, k6, k7, k8, k9, k10⟩ := chance hN b L c0 b0 ops c ty nm job cfg n0 H henc
  obtain ⟨m, hm⟩ := C84_max_repeat (L a.ty) k5 k8 (hclk q) k6 rfl (e := e) (u := floorUs at_) (t := t) (c := x.norm)
    (by simp [Job.norm, JobContext.norm, Job.asQueued, hty, JobType.norm]) hc hmax (by simp [CronContext.norm, hend]) ht hM
    (hx.imp (fun h m i x orig j => k9 (fun x _ => x.retryAt = none) (h q a rfl) m i x orig j) (fun h => by simp [Job.norm, JobContext.norm, Job.asQueued, h]))
    (fun m i x orig j => k9 _ (hno q a rfl) m i x orig j)
  obtain ⟨n, h1, h2, -, h4⟩ := k10 m
  refine ⟨n, q, a, h1, h2, rfl, k4, ?_⟩
  rw [k7] at hm
  rw [runs_log h4]
  simpa using hm

end

/-! ## A concrete endless history of a process whose turns are interrupted -/

section
open Demo

/-- Client 1 submits job `b`. While the work queue stores it, client 2 begins to submit job `J` (step 12). Client 1 has one job
executed at a time and hears of it while the work queue stores `J`; client 2 hears of its submission during a tick. Job `b` runs,
then `J` if it is due, with user code `x`. -/
def hall (J : Job Int) (x : Executable Int Unit) : List (WeaveOp Int Unit) :=
  [.site (.begin 1 (.submit 5 c!"print" (job c!"b") .newReRun)), .site (.client 1 false), .site (.client 1 false), .site (.engine 0),
    .site (.engine 0), .site (.engine 0), .site (.engine 0), .site (.post 1), .site (.handle 0 0), .go 0, .go 0, .go 0,
    .site (.begin 2 (.submit 5 c!"print" J .newReRun)), .site (.client 2 false), .site (.client 2 false), .go 0, .go 0, .go 0,
    .site (.take 1), .site (.begin 1 (.config 5 { maxProcessingJobs := 1 })), .site (.client 1 false), .site (.client 1 false),
    .site (.post 1), .site (.post 2), .site (.handle 0 0), .go 0, .site (.handle 0 0), .go 0, .go 0, .go 0, .site (.take 1), .go 0, .go 0,
    .go 0, .site (.turn 0 .tick), .go 0, .go 0, .go 0, .go 0, .go 0, .site (.take 2), .go 0, .go 0, .go 0, .go 0, .go 0, .go 0, .go 0,
    .go 0, .go 0, .site (.turn 0 (.start 0)), .go 0, .go 0, .go 0, .site (.turn 0 (.finish 0 good)), .go 0, .go 0, .go 0, .go 0, .go 0,
    .go 0, .go 0, .go 0, .site (.turn 0 .tick), .go 0, .go 0, .go 0, .go 0, .go 0, .go 0, .go 0, .go 0, .go 0, .go 0, .go 0,
    .site (.turn 0 (.start 0)), .go 0, .go 0, .go 0, .site (.turn 0 (.finish 0 x)), .go 0, .go 0, .go 0, .go 0, .go 0, .go 0, .go 0, .go 0,
    .go 0]

/-- The process of the example, on the specification. -/
def openedW : Weave Int Unit SpecB :=
  (Weave.init SpecB fun _ => Spec.empty).run (fun _ => E) SpecB (fun _ => clk) ((Site.starting 0 7).map .site)

variable {J : Job Int} {x : Executable Int Unit}
theorem hall_length : (hall J x).length = 89 := rfl

/-- Which steps of `hall` submit or set, and which end runs. -/
def mark : WeaveOp Int Unit → Nat
  | .site (.begin _ _) => 1
  | .site (.turn _ (.finish _ _)) => 2
  | _ => 0

theorem hall_marks : (hall J x).map mark = [1] ++ List.replicate 11 0 ++ [1] ++ List.replicate 6 0 ++ [1] ++ List.replicate 34 0 ++ [2] ++
    List.replicate 24 0 ++ [2] ++ List.replicate 9 0 := rfl

theorem hall_0 : (hall J x)[0]? = some (.site (.begin 1 (.submit 5 c!"print" (job c!"b") .newReRun))) := rfl
theorem hall_12 : (hall J x)[12]? = some (.site (.begin 2 (.submit 5 c!"print" J .newReRun))) := rfl
theorem hall_19 : (hall J x)[19]? = some (.site (.begin 1 (.config 5 { maxProcessingJobs := 1 }))) := rfl
theorem hall_54 : (hall J x)[54]? = some (.site (.turn 0 (.finish 0 good))) := rfl
theorem hall_79 : (hall J x)[79]? = some (.site (.turn 0 (.finish 0 x))) := rfl
attribute [local irreducible] hall openedW

def woven (J : Job Int) (x : Executable Int Unit) : Nat → WeaveOp Int Unit := lasting openedW (hall J x)

local notation "φ" n:max => Weave.after (fun _ => E) SpecB (fun _ => clk) openedW (woven J x) n

theorem woven_early {n : Nat} (hn : n ≤ 89) : φ n = sofar openedW (hall J x) n := lasting_early (by rw [hall_length]; exact hn)

theorem hall_mark {n : Nat} {o : WeaveOp Int Unit} (h : (hall J x)[n]? = some o) :
    (mark o = 1 → n = 0 ∨ n = 12 ∨ n = 19) ∧ (mark o = 2 → n = 54 ∨ n = 79) := by
  have hn : n < 89 := by
    rw [← hall_length (J := J) (x := x)]
    exact (List.getElem?_eq_some_iff.1 h).1
  have e := congrArg (·[n]?) (hall_marks (J := J) (x := x))
  simp only [List.getElem?_map, h, Option.map_some] at e
  have key : ∀ n < 89, ∀ m, ([1] ++ List.replicate 11 0 ++ [1] ++ List.replicate 6 0 ++ [1] ++ List.replicate 34 0 ++ [2] ++
    List.replicate 24 0 ++ [2] ++ List.replicate 9 0 : List Nat)[n]? = some m → (m = 1 → n = 0 ∨ n = 12 ∨ n = 19) ∧ (m = 2 → n = 54 ∨ n = 79) := by
    have : ∀ n < 89, (([1] ++ List.replicate 11 0 ++ [1] ++ List.replicate 6 0 ++ [1] ++ List.replicate 34 0 ++ [2] ++
      List.replicate 24 0 ++ [2] ++ List.replicate 9 0 : List Nat)[n]? = some 1 → n = 0 ∨ n = 12 ∨ n = 19) ∧
      (([1] ++ List.replicate 11 0 ++ [1] ++ List.replicate 6 0 ++ [1] ++ List.replicate 34 0 ++ [2] ++
      List.replicate 24 0 ++ [2] ++ List.replicate 9 0 : List Nat)[n]? = some 2 → n = 54 ∨ n = 79) := by decide +kernel
    intro n hn m hm
    exact ⟨fun e => (this n hn).1 (e ▸ hm), fun e => (this n hn).2 (e ▸ hm)⟩
  exact key n hn _ e.symm
/-- The requests. -/
theorem woven_begin {n : Nat} {d : Nat} {req : Req Int} (h : woven J x n = .site (.begin d req)) :
    n = 0 ∧ d = 1 ∧ req = .submit 5 c!"print" (job c!"b") .newReRun ∨ n = 19 ∧ d = 1 ∧ req = .config 5 { maxProcessingJobs := 1 } ∨
      n = 12 ∧ d = 2 ∧ req = .submit 5 c!"print" J .newReRun := by
  have hs := lasting_begin h
  rcases (hall_mark hs).1 rfl with rfl | rfl | rfl
  · rw [hall_0] at hs; cases hs; exact .inl ⟨rfl, rfl, rfl⟩
  · rw [hall_12] at hs; cases hs; exact .inr (.inr ⟨rfl, rfl, rfl⟩)
  · rw [hall_19] at hs; cases hs; exact .inr (.inl ⟨rfl, rfl, rfl⟩)

/-- The runs of the example all go well, but for the one that ends at step 79. -/
theorem woven_finish {n q i : Nat} {y : Executable Int Unit} (h : woven J x n = .site (.turn q (.finish i y))) : y = good ∨ y = x := by
  rcases lasting_finish h with h | hs
  · exact .inl h
  · rcases (hall_mark hs).2 rfl with rfl | rfl
    · rw [hall_54] at hs; cases hs; exact .inl rfl
    · rw [hall_79] at hs; cases hs; exact .inr rfl

/-- What is checked of the first 89 steps. -/
structure Enters (J : Job Int) (x : Executable Int Unit) : Prop where
  id : J.id = c!"a"
  settled : settled (sofar openedW (hall J x) (hall J x).length) = true
  turns : ((List.range (hall J x).length).all fun n => match (hall J x)[n]? with
    | some (.site (.turn 0 op)) => ok c!"a" ((sofar openedW (hall J x) n).site.snap .spec (fun _ => E) 0 printer) op &&
      (((sofar openedW (hall J x) n).site.snap .spec (fun _ => E) 0 printer).lists .queued).length ≤ 20
    | _ => true) = true
  known : (sofar openedW (hall J x) 12).site.hub.byType 5 ≠ none
  free : (match (sofar openedW (hall J x) 12).site.users 2 with
    | .free => true
    | _ => false) = true

theorem openedW_pair : openedW.site = opened ∧ (∀ q, openedW.inside q = none) ∧ Weave.Pair (fun _ => E) (fun _ => clk) (fun _ => 5) openedW opened := by
  unfold openedW opened
  exact started_woven (fun _ => lawful) 0 7
section
variable (H : Enters J x)
include H

theorem woven_polite (n : Nat) (o : SiteOp Int Unit) (ho : woven J x n = .site o) : o.Polite signs (φ n).site := by
  cases o with
  | begin d req =>
    rcases woven_begin ho with ⟨rfl, rfl, rfl⟩ | ⟨rfl, rfl, rfl⟩ | ⟨hn, rfl, rfl⟩
    · refine ⟨rfl, fun _ d hd => ?_⟩
      have : (φ 0).site.hub.clients d = if d = 0 then (Hub.run {} (startAlone 0 7)).clients 0 else .idle := by
        show openedW.site.hub.clients d = _
        rw [openedW_pair.1]
        unfold opened
        rw [starting_hub, started]
        by_cases h : d = 0
        · subst h; rfl
        · simp [upd, h]
      rw [this]
      split
      · decide +kernel
      · exact id
    · trivial
    · refine ⟨rfl, fun h => ?_⟩
      rw [woven_early (by omega), hn] at h
      exact absurd h H.known
  | _ => trivial

omit H in
theorem woven_on (n : Nat) (d : Nat) (req : Req Int) (h : woven J x n = .site (.begin d req)) : req.On fun _ => 5 := by
  rcases woven_begin h with ⟨-, -, rfl⟩ | ⟨-, -, rfl⟩ | ⟨-, -, rfl⟩
  · exact rfl
  · trivial
  · exact rfl
/-- What the work queue holds when it is not inside a turn. -/
theorem woven_snap (n : Nat) (hq : (φ n).site.hub.queues = [printer]) : Alike Spec.empty (φ n) := by
  have hP := (Weave.pair_after (N := signs) (E := fun _ => E) (clk := fun _ => clk) (kind := fun _ => 5) (ops := woven J x) signs_inj (fun _ => lawful)
    openedW_pair.2.2 (by rw [openedW_pair.1]; unfold opened; rw [starting_hub]; exact started_orderly signs 0 7) (woven_polite H) woven_on n).1
  have hT : (Site.after (fun _ => E) SpecB (fun _ => clk) opened (Weave.serially (fun _ => E) (fun _ => clk) openedW (woven J x)) n).hub.queues[0]? =
      some printer := by
    rw [← hP.serial.face.hub, hq]; rfl
  have hs := played_snap hP.alone hT
  have hm : (Site.after (fun _ => E) SpecB (fun _ => clk) opened (Weave.serially (fun _ => E) (fun _ => clk) openedW (woven J x)) n).played Spec.empty =
      (φ n).site.played Spec.empty := by
    unfold Site.played
    rw [hP.serial.face.trace]
  rw [hm] at hs
  refine ⟨(hP.tasks 0 printer).trans hs.2.1, fun hi => ?_⟩
  obtain ⟨i1, i2, i3, -⟩ := hP.calm hT hi
  exact ⟨i1.trans hs.1, i2.trans hs.2.2.1, i3.trans hs.2.2.2.1⟩
theorem woven_steady : (sofar openedW (hall J x) (hall J x).length).inside 0 = none ∧ Steady Spec.empty 0 (sofar openedW (hall J x) (hall J x).length).site := by
  have h := H.settled
  have hq : (sofar openedW (hall J x) (hall J x).length).site.hub.queues = [printer] := by
    simp only [settled, Bool.and_eq_true, beq_iff_eq] at h
    exact h.1.1.1.1.1.1.1.1.1.2
  refine settled.steady h ?_ ((tidy_iff (E := E) (name := c!"print")).2 Tidy.init)
  have := woven_snap H 89
  rw [woven_early (Nat.le_refl _), ← hall_length (J := J) (x := x)] at this
  exact this hq

theorem woven_takes (p : Nat) : ∃ n, p ≤ n ∧ woven J x ((hall J x).length + n) = .site (siteRounds p) ∧ (φ ((hall J x).length + n)).inside 0 = none := by
  obtain ⟨n, h1, h2, h3, -⟩ := lasting_takes openedW_pair.2.2.tidy openedW_pair.2.1 (woven_steady H) p
  exact ⟨n, h1, h2, h3⟩

theorem woven_queues {n q : Nat} {a : QueueActor} (h : (φ n).site.hub.queues[q]? = some a) : q = 0 ∧ a = printer :=
  lasting_queues openedW_pair.2.2.tidy (woven_steady H) h

theorem woven_serves : Weave.Serves .spec (fun _ => E) (fun _ => clk) c!"a" 0 printer openedW (woven J x) :=
  lasting_serves openedW_pair.2.2.tidy openedW_pair.2.1 (woven_steady H) (woven_snap H) H.turns

theorem woven_chance {m : Nat} (hm : m = 12) :
    Weave.Chance .spec (fun _ => E) (fun _ => clk) (fun _ => 5) signs 2 5 c!"print" J .newReRun m openedW (woven J x) where
  polite := woven_polite H
  on := woven_on
  call := by
    have : (hall J x)[12]? = some (woven J x 12) := lasting_some (by rw [hall_length]; omega)
    rw [hall_12] at this
    rw [hm]
    exact (Option.some.inj this).symm
  free := .inl (by
    show (φ m).site.users 2 = .free
    rw [woven_early (by omega), hm]
    have h := H.free
    split at h
    · assumption
    · cases h)
  sole n d req hn h := by
    rcases woven_begin h with ⟨-, -, rfl⟩ | ⟨-, -, rfl⟩ | ⟨rfl, -, -⟩
    · show ¬(_ = J.id)
      rw [H.id]
      decide
    · exact id
    · exact absurd hm.symm hn
  moves := {
    client := fun m => by
      obtain ⟨n, k1, k2, -⟩ := woven_takes H (7 * m + 3)
      refine ⟨(hall J x).length + n, false, by omega, k2.trans ?_⟩
      unfold siteRounds; rw [show (7 * m + 3) % 7 = 3 by omega]; rfl
    engine := fun m => by
      obtain ⟨n, k1, k2, -⟩ := woven_takes H (7 * m + 4)
      refine ⟨(hall J x).length + n, by omega, k2.trans ?_⟩
      unfold siteRounds; rw [show (7 * m + 4) % 7 = 4 by omega]; rfl
    post := fun m => by
      obtain ⟨n, k1, k2, -⟩ := woven_takes H (7 * m + 5)
      refine ⟨(hall J x).length + n, by omega, k2.trans ?_⟩
      unfold siteRounds; rw [show (7 * m + 5) % 7 = 5 by omega]; rfl
    takes := fun m q a h1 _ _ => by
      obtain ⟨rfl, rfl⟩ := woven_queues H (n := m) h1
      obtain ⟨n, k1, k2, k3⟩ := woven_takes H (7 * m + 6)
      refine ⟨(hall J x).length + n, by omega, k2.trans ?_, k3⟩
      unfold siteRounds; rw [show (7 * m + 6) % 7 = 6 by omega]; rfl }
  serves n q a h1 h2 := by
    obtain ⟨rfl, rfl⟩ := woven_queues H (n := n) h1
    rw [H.id]
    exact woven_serves H

end

/-- The process of the example, on any backend. -/
abbrev openedWeave (b : Impl) : Weave Int Unit b.B :=
  (Weave.init b.B fun _ => b.empty).run (fun _ => E) b.B (fun _ => clk) ((Site.starting 0 7).map .site)

theorem woven_chance_on (H : Enters J x) (b : Impl) :
    Weave.Chance b (fun _ => E) (fun _ => clk) (fun _ => 5) signs 2 5 c!"print" J .newReRun 12 (openedWeave b) (woven J x) := by
  have h := woven_chance H rfl
  unfold openedW at h
  exact (rel_woven (Weave.rel_init.run _) ..).2 h

theorem flaky_enters : Enters (flaky (.newIntervalRetry (some 2) nsPerSec)) bad := by constructor <;> decide +kernel

/-- `C86_ends_partial` applies, on every backend: job `a` ends, although its first run fails. -/
example (b : Impl) : ∃ n q a, 12 < n ∧
    (Weave.after (fun _ => E) b.B (fun _ => clk) (openedWeave b) (woven (flaky (.newIntervalRetry (some 2) nsPerSec)) bad) n).site.hub.queues[q]? =
      some a ∧ a.ty = 5 ∧ a.name = c!"print" ∧
    ((Weave.after (fun _ => E) b.B (fun _ => clk) (openedWeave b) (woven (flaky (.newIntervalRetry (some 2) nsPerSec)) bad) n).site.snap b (fun _ => E)
      q a).Ended c!"a" := by
  refine C86_ends_partial signs_inj b (fun _ => lawful) 0 7 _ 2 5 c!"print" (flaky (.newIntervalRetry (some 2) nsPerSec)) .newReRun 12
    (woven_chance_on flaky_enters b) (fun _ => clk_passes) (by decide +kernel) (by intro e n m c h; cases h) ?_ (.inl ?_)
  · intro r h
    cases h
    exact ⟨by constructor <;> decide, 2, rfl, by constructor <;> decide⟩
  · intro q a _ n i y orig j h _ _ _
    rcases woven_finish h with rfl | rfl <;> rfl

theorem seconds_enters : Enters (cronJob c!"* * * * * *" 3 {}) good := by constructor <;> decide +kernel

/-- An every-second job runs a thousand times, on every backend. -/
example (b : Impl) : ∃ n q a, 12 < n ∧
    (Weave.after (fun _ => E) b.B (fun _ => clk) (openedWeave b) (woven (cronJob c!"* * * * * *" 3 {}) good) n).site.hub.queues[q]? = some a ∧
    a.ty = 5 ∧ a.name = c!"print" ∧
    1000 ≤ (((Weave.after (fun _ => E) b.B (fun _ => clk) (openedWeave b) (woven (cronJob c!"* * * * * *" 3 {}) good) n).site.snap b (fun _ => E) q
      a).runs c!"a").length := by
  refine C86_forever_partial signs_inj b (fun _ => lawful) 0 7 _ 2 5 c!"print" (cronJob c!"* * * * * *" 3 {}) .newReRun 12 c!"* * * * * *" _ 1 {} 1000
    (woven_chance_on seconds_enters b) (fun _ => clk_passes) (by decide +kernel) rfl rfl rfl rfl (.inr rfl) ?_
  intro q a _ n i y orig j h _ _ _
  rcases woven_finish h with rfl | rfl <;> exact .inl rfl

theorem two_enters : Enters (cronJob c!"* * * * * *" 3 { maxRepeat := some 2 }) good := by constructor <;> decide +kernel

/-- One with `max_repeat = 2` runs twice. -/
example (b : Impl) : ∃ n q a, 12 < n ∧
    (Weave.after (fun _ => E) b.B (fun _ => clk) (openedWeave b) (woven (cronJob c!"* * * * * *" 3 { maxRepeat := some 2 }) good) n).site.hub.queues[q]? =
      some a ∧ a.ty = 5 ∧ a.name = c!"print" ∧
    2 ≤ (((Weave.after (fun _ => E) b.B (fun _ => clk) (openedWeave b) (woven (cronJob c!"* * * * * *" 3 { maxRepeat := some 2 }) good) n).site.snap b
      (fun _ => E) q a).runs c!"a").length := by
  refine C86_max_repeat_partial signs_inj b (fun _ => lawful) 0 7 _ 2 5 c!"print" (cronJob c!"* * * * * *" 3 { maxRepeat := some 2 }) .newReRun 12
    c!"* * * * * *" _ 1 2 { maxRepeat := some 2 } (woven_chance_on two_enters b) (fun _ => clk_passes) (by decide +kernel) rfl rfl rfl rfl
    (by constructor <;> decide) (by constructor <;> decide) (.inr rfl) ?_
  intro q a _ n i y orig j h _ _ _
  rcases woven_finish h with rfl | rfl <;> exact .inl rfl

end

end AJ.Props
