import Verif.Spec.ProcessJobs
import Verif.Proofs.ProcessJobs
import Verif.Proofs.Due
import Verif.Props.Plugin
import Verif.Props.LedgerWeave

/-!
# Processes whose clients submit, retry and cancel jobs as they like (C95)

What holds of all jobs of a work queue, between its turns, in a whole process whose work queues interleave call by call. Unlike in C79, jobs may be submitted
any number of times.
-/

namespace AJ.Props

section
variable {D O : Type} {E : Nat → Env D} {clk : Nat → Nat → Time} {kind : Str → Nat} {ops : List (WeaveOp D O)} {q M : Nat} {a : QueueActor}

/-- What is known of all turns of the work queue. -/
def CivilTurn (E : Env D) (K : Str → Prop) (M : Nat) (op : Op D O) : Prop := (∀ k, Neat E k op) ∧ op.On K ∧ CapAtMost M op

/-- The work queue is between turns as one alone whose turns are careful with every job. -/
theorem civil_reach (b : Impl) (L : ∀ ty, (E ty).Lawful) (hops : ∀ c req, .site (.begin c req) ∈ ops → req.On kind)
    (h1 : ((Weave.init b.B fun _ => b.empty).run E b.B clk ops).site.hub.engines.length ≤ 1)
    (ha : ((Weave.init b.B fun _ => b.empty).run E b.B clk ops).site.hub.queues[q]? = some a)
    (hi : ((Weave.init b.B fun _ => b.empty).run E b.B clk ops).inside q = none) (H : Weave.Civil E ops q a.ty)
    (hM : ∀ d c, .site (.begin d (.config a.ty c)) ∈ ops → c.maxProcessingJobs ≤ M) :
    ∃ s : Sys D b.B, Reach b (E a.ty) a.name (clk q) (fun v op => (∀ k, CarefulFor (E a.ty) k v op) ∧ (op : Op D O).On (kind · = a.ty) ∧ CapAtMost M op) s ∧
      (((Weave.init b.B fun _ => b.empty).run E b.B clk ops).site.snap b E q a).Alike (kind · = a.ty) (b.snap (E a.ty) a.name s) := by
  have hown : ∀ op : Op D O, .site (.turn q op) ∈ ops → op.Own → CivilTurn (E a.ty) (kind · = a.ty) M op := fun op hm ho => by
    cases op with
    | finish i x => exact ⟨fun k job _ => H.code i x hm job, trivial, nofun⟩
    | tick => exact ⟨fun k => trivial, trivial, nofun⟩
    | start i => exact ⟨fun k => trivial, trivial, nofun⟩
    | userPanic i => exact ⟨fun k => trivial, trivial, nofun⟩
    | _ => exact ho.elim
  have hreq : ∀ (d : Nat) (req : Req D) (op : Op D O), .site (.begin d req) ∈ ops → req.Sends op → req.call.ty? = some a.ty →
      CivilTurn (E a.ty) (kind · = a.ty) M op := fun d req op hm hs hty => by
    rcases hs with hs | ⟨ty, n, id, data, x, j, rfl, rfl⟩
    · cases req with
      | start => cases hs
      | submit ty nm job cfg => cases hs; cases hty; exact ⟨fun k _ => H.submits _ _ _ _ hm, hops _ _ hm, nofun⟩
      | cancel => cases hs; cases hty; exact ⟨fun k => trivial, hops _ _ hm, nofun⟩
      | retry => cases hs; cases hty; exact ⟨fun k => trivial, hops _ _ hm, nofun⟩
      | config => cases hs; cases hty; exact ⟨fun k => trivial, trivial, fun c e => by cases e; exact hM _ _ hm⟩
      | get => cases hs; cases hty; exact ⟨fun k => trivial, hops _ _ hm, nofun⟩
      | update => cases hty; exact (H.updates _ _ _ _ _ hm).elim
    · cases hty; exact (H.updates _ _ _ _ _ hm).elim
  obtain ⟨s, hr, hA⟩ := process_reach b L hops h1 q a ha hi hown hreq
  exact ⟨s, Reach.induct (Q := fun s => Reach (O := O) b (E a.ty) a.name (clk q) (fun v op => (∀ k, CarefulFor (E a.ty) k v op) ∧
    op.On (kind · = a.ty) ∧ CapAtMost M op) s) .start
    (fun s op hs hp ih => .step op ih ⟨fun k => Neat.careful (L a.ty) hs (hp.1 k), hp.2⟩) hr, hA⟩

/-- Some capacity is at least as large as all that are configured. -/
theorem cap_any (ops : List (WeaveOp D O)) (ty : Nat) : ∃ M, ∀ d c, .site (.begin d (.config ty c)) ∈ ops → c.maxProcessingJobs ≤ M := by
  induction ops with
  | nil => exact ⟨0, nofun⟩
  | cons o ops ih =>
    obtain ⟨M, hM⟩ := ih
    have hc : ∃ N, ∀ d c, .site (.begin d (.config ty c)) = o → c.maxProcessingJobs ≤ N := by
      by_cases h : ∃ d c, .site (.begin d (.config ty c)) = o
      · obtain ⟨d, c, rfl⟩ := h
        exact ⟨c.maxProcessingJobs, fun d' c' e => by cases e; exact Nat.le_refl _⟩
      · exact ⟨0, fun d c e => absurd ⟨d, c, e⟩ h⟩
    obtain ⟨N, hN⟩ := hc
    refine ⟨max M N, fun d c h => ?_⟩
    rcases List.mem_cons.1 h with h | h
    · exact Nat.le_trans (hN d c h) (Nat.le_max_right ..)
    · exact Nat.le_trans (hM d c h) (Nat.le_max_left ..)

private theorem careful_all {E : Env D} {v : Snap D} {op : Op D O} (h : ∀ k, CarefulFor E k v op) : Careful E v op := by
  cases op with
  | enqueue job cfg => exact h job.id rfl
  | finish i x => exact fun orig job ht => h orig.id orig job ht rfl
  | _ => trivial

private theorem orderly_all {E : Env D} {name : Str} {clk : Nat → Time} {b : Impl} (L : E.Lawful) {K : Str → Prop} {s : Sys D b.B}
    (hs : Reach (O := O) b E name clk (fun v op => (∀ k, CarefulFor E k v op) ∧ op.On K ∧ CapAtMost M op) s) :
    Reach (O := O) b E name clk (fun v op => (∀ k, Orderly k v op) ∧ CapAtMost M op) s :=
  Reach.induct (Q := fun s => Reach (O := O) b E name clk (fun v op => (∀ k, Orderly k v op) ∧ CapAtMost M op) s) .start
    (fun s op hs hp ih => .step op ih ⟨fun k job cfg e hid => by
      subst e
      have hS := C38_sound L (hs.mono (P' := CarefulFor E k) fun _ _ h => h.1 k)
      refine ⟨fun hn hm => ?_, ?_⟩
      · have := hS.queued
        rw [if_neg (by simp [Snap.status, hn])] at this
        exact List.count_eq_zero.1 this hm
      · have := (hp.1 k hid).2
        rw [hid] at this
        exact this, hp.2.2⟩) hs

variable (b : Impl) (L : ∀ ty, (E ty).Lawful) (hops : ∀ c req, .site (.begin c req) ∈ ops → req.On kind)
  (h1 : ((Weave.init b.B fun _ => b.empty).run E b.B clk ops).site.hub.engines.length ≤ 1)
  (ha : ((Weave.init b.B fun _ => b.empty).run E b.B clk ops).site.hub.queues[q]? = some a)
  (hi : ((Weave.init b.B fun _ => b.empty).run E b.B clk ops).inside q = none) (H : Weave.Civil E ops q a.ty)
include L hops h1 ha hi H

/-- C95, status, lists and executions agree: between turns the queued list has exactly the jobs of the type that are Queued and the running list exactly
those that are Running, each once; and while the actor lives, the executions in flight are those of the running jobs, one each. -/
theorem C95_consistent :
    let v := ((Weave.init b.B fun _ => b.empty).run E b.B clk ops).site.snap b E q a
    (v.lists .queued).Nodup ∧ (v.lists .running).Nodup ∧ (∀ id, id ∈ v.lists .queued ↔ kind id = a.ty ∧ v.status id = some .queued) ∧
      (∀ id, id ∈ v.lists .running ↔ kind id = a.ty ∧ v.status id = some .running) ∧ (v.alive = true → v.inFlight.Perm (v.lists .running)) := by
  obtain ⟨s, hr, hA⟩ := civil_reach (clk := clk) b L hops h1 ha hi H (cap_any ops a.ty).choose_spec
  obtain ⟨c1, c2, c3, c4, c5⟩ := C38_consistent (L a.ty) (hr.mono fun _ _ h => careful_all h.1)
  have hst : ∀ id, kind id = a.ty → (((Weave.init b.B fun _ => b.empty).run E b.B clk ops).site.snap b E q a).status id = (b.snap (E a.ty) a.name s).status id :=
    fun id hid => by unfold Snap.status; rw [hA.job id hid]
  have hno : ∀ id, kind id ≠ a.ty → (b.snap (E a.ty) a.name s).status id = none := fun id hid => by
    obtain ⟨-, -, hl, -⟩ := AJ.fresh (L a.ty) (hr.mono (P' := fun _ op => NoSubmit id op) fun _ op h job cfg e he => by
      subst e
      exact hid (he ▸ h.2.1))
    simp [Snap.status, hl.job]
  have key : ∀ id st, (id ∈ (b.snap (E a.ty) a.name s).lists st ↔ (b.snap (E a.ty) a.name s).status id = some st) →
      (id ∈ (((Weave.init b.B fun _ => b.empty).run E b.B clk ops).site.snap b E q a).lists st ↔
        kind id = a.ty ∧ (((Weave.init b.B fun _ => b.empty).run E b.B clk ops).site.snap b E q a).status id = some st) := by
    intro id st h
    rw [hA.lists, h]
    by_cases hid : kind id = a.ty
    · rw [hst id hid]
      exact ⟨fun h => ⟨hid, h⟩, fun h => h.2⟩
    · rw [hno id hid]
      exact ⟨nofun, fun h => absurd h.1 hid⟩
  refine ⟨by rw [hA.lists]; exact c1, by rw [hA.lists]; exact c2, fun id => key id _ (c3 id), fun id => key id _ (c4 id), fun h => ?_⟩
  rw [hA.lists, Snap.inFlight, hA.tasks]
  exact c5 (hA.alive ▸ h)

/-- C95: at most one execution of a job is in flight, whatever clients do. -/
theorem C95_one_execution (k : Str) :
    (((Weave.init b.B fun _ => b.empty).run E b.B clk ops).site.snap b E q a).inFlight.count k ≤ 1 := by
  obtain ⟨s, hr, hA⟩ := civil_reach (clk := clk) b L hops h1 ha hi H (cap_any ops a.ty).choose_spec
  rw [Snap.inFlight, hA.tasks]
  exact C25_one_execution_partial (L a.ty) ((orderly_all (L a.ty) hr).mono fun _ _ h => h.1 k)

/-- C95: executions never exceed the largest capacity configured for the type (20 if there was none). -/
theorem C95_capacity (hM : ∀ d c, .site (.begin d (.config a.ty c)) ∈ ops → c.maxProcessingJobs ≤ M) (h20 : 20 ≤ M) :
    (((Weave.init b.B fun _ => b.empty).run E b.B clk ops).site.snap b E q a).inFlight.length ≤ M := by
  obtain ⟨s, hr, hA⟩ := civil_reach (clk := clk) b L hops h1 ha hi H hM
  rw [Snap.inFlight, hA.tasks]
  exact C26_capacity_partial (L a.ty) M h20 (orderly_all (L a.ty) hr)

/-- C95: the last status of a job of the type that the work queue sent to the plugins is the one that `get_job` returns; none was sent if there is no job. -/
theorem C95_told {k : Str} (hk : kind k = a.ty) :
    let v := ((Weave.init b.B fun _ => b.empty).run E b.B clk ops).site.snap b E q a
    (v.sent k).getLast? = v.status k := by
  obtain ⟨s, hr, hA⟩ := civil_reach (clk := clk) b L hops h1 ha hi H (cap_any ops a.ty).choose_spec
  intro v
  have h := C42_sent_partial (L a.ty) (hr.mono (P' := CarefulFor (E a.ty) k) fun _ _ h => h.1 k)
  have e1 : v.sent k = (b.snap (E a.ty) a.name s).sent k := by unfold Snap.sent Snap.mine; rw [hA.log]
  have e2 : v.status k = (b.snap (E a.ty) a.name s).status k := by unfold Snap.status; rw [hA.job k hk]
  rw [e1, e2]
  exact h

/-- C95, hooks: while the actor lives, the hooks and the code of a job come in rounds of `before_run`, code, `after_run`, but for the last round if the job is
being executed; and there is one round for every run. -/
theorem C95_around (k : Str) :
    let v := ((Weave.init b.B fun _ => b.empty).run E b.B clk ops).site.snap b E q a
    v.alive = true → ∃ n, v.parts k = (List.replicate n [.hook true, .code, .hook true]).flatten ++ (if v.executing k then [.hook true, .code] else []) ∧
      (v.runs k).length = n + (if v.executing k then 1 else 0) := by
  obtain ⟨s, hr, hA⟩ := civil_reach (clk := clk) b L hops h1 ha hi H (cap_any ops a.ty).choose_spec
  intro v hv
  have h := C44_around_partial (L a.ty) ((orderly_all (L a.ty) hr).mono (P' := Orderly k) fun _ _ h => h.1 k) (show s.alive = true from hA.alive.symm.trans hv)
  have e1 : v.parts k = (b.snap (E a.ty) a.name s).parts k := by unfold Snap.parts Snap.mine; rw [hA.log]
  have e2 : v.executing k = (b.snap (E a.ty) a.name s).executing k := by unfold Snap.executing Snap.own; rw [hA.tasks]
  have e3 : v.runs k = (b.snap (E a.ty) a.name s).runs k := by unfold Snap.runs Snap.mine; rw [hA.log]
  rw [e1, e2, e3]
  exact h

omit H in
/-- C95, schedule, whatever clients submit and update and whatever user code does: every job that is being executed, and every job whose code ran, was due at
some time that its work queue had read from its clock. -/
theorem C95_due :
    let v := ((Weave.init b.B fun _ => b.empty).run E b.B clk ops).site.snap b E q a
    (∀ x ∈ v.tasks, ∃ n, n < v.reads ∧ x.orig.Due (clk q n)) ∧
      ∀ c, .ran c ∈ v.log → ∃ n, n < v.reads ∧ ∀ x : D, (⟨c, x⟩ : Job D).Due (clk q n) := by
  obtain ⟨s, hr, hA⟩ := process_reach (P := fun _ => True) b L hops h1 q a ha hi (fun _ _ _ => trivial) fun _ _ _ _ _ _ => trivial
  have h := all_due (L a.ty) hr
  refine ⟨fun x hx => ?_, fun c hc => ?_⟩
  · rw [hA.reads]; rw [hA.tasks] at hx; exact h.tasks x hx
  · rw [hA.reads]; rw [hA.log] at hc; exact h.ran c hc

end

open Demo

/-- After `busy`, client `2` retries job `b`, submits it once more while it is being executed, and client `1` tries to cancel it. -/
def insistent : List (SiteOp Int Unit) := [.begin 2 (.retry 5 c!"b"), .client 2 false, .client 2 false, .post 2, .handle 0 0, .take 2,
  .turn 0 .tick, .turn 0 (.start 0), .begin 2 (.submit 5 c!"print" (job c!"b" 3) .newReRun), .client 2 false, .client 2 false, .post 2, .handle 0 0, .take 2,
  .begin 1 (.cancel 5 c!"b"), .client 1 false, .client 1 false, .post 1, .handle 0 0, .take 1]

def insist : List (WeaveOp Int Unit) := slow ++ drawn (fun _ => List.replicate 30 0) insistent

/-- A check of a request: no update of a job of type `5`, and a submission as `Weave.Civil` asks for. -/
def civilReq : SiteOp Int Unit → Bool
  | .begin _ (.update ty _ _ _ _) => ty != 5
  | .begin _ (.submit _ _ job cfg) => decide (E.Encodable job) && decide (job.context.jobStatus = .queued) && cfg.reRun
  | _ => true

theorem insist_mem {o : SiteOp Int Unit} (h : .site o ∈ insist) : o ∈ busy ∨ o ∈ insistent := (List.mem_append.1 h).imp mem_drawn mem_drawn

theorem insist_on : ∀ c req, .site (.begin c req) ∈ insist → req.On kindOf := fun c req h => by
  rcases insist_mem h with h | h
  · exact busy_on c req h
  · simp only [insistent, List.mem_cons, SiteOp.begin.injEq, reduceCtorEq, List.not_mem_nil, or_false, false_or] at h
    rcases h with ⟨-, rfl⟩ | ⟨-, rfl⟩ | ⟨-, rfl⟩ <;> exact if_pos rfl

theorem insist_begin {c : Nat} {req : Req Int} (h : .site (.begin c req) ∈ insist) : civilReq (.begin c req) = true :=
  List.all_eq_true.1 (show (busy ++ insistent).all civilReq = true by decide +kernel) _ (List.mem_append.2 (insist_mem h))

theorem insist_finish {q i : Nat} {x : Executable Int Unit} (h : .site (.turn q (.finish i x)) ∈ insist) : x = good := by
  rcases insist_mem h with h | h
  · simp only [busy, List.mem_cons, SiteOp.turn.injEq, Op.finish.injEq, reduceCtorEq, List.not_mem_nil, or_false, false_or, and_false] at h
    exact h.2.2
  · simp only [insistent, List.mem_cons, SiteOp.turn.injEq, reduceCtorEq, List.not_mem_nil, or_false, and_false] at h

/-- What clients do in `insist` is civil. -/
theorem insist_civil : Weave.Civil (fun _ => E) insist 0 printer.ty where
  submits d nm job cfg hm := by
    have g := insist_begin hm
    simp only [civilReq, Bool.and_eq_true, decide_eq_true_eq] at g
    exact ⟨g.1.1, g.1.2, fun _ => g.2⟩
  updates d nm id data x hm := nomatch insist_begin hm
  code i x hm job hj := by
    rw [insist_finish hm]
    exact serialisable hj rfl

theorem insist_engines : (weave .memory insist).site.hub.engines.length ≤ 1 := by decide +kernel
theorem insist_printer : (weave .memory insist).site.hub.queues[0]? = some printer := by decide +kernel
theorem insist_idle : (weave .memory insist).inside 0 = none := Option.isNone_iff_eq_none.1 (by decide +kernel)
theorem insist_status : ((weave .memory insist).site.snap .memory (fun _ => E) 0 printer).status c!"b" = some .running := by decide +kernel
theorem insist_alive : ((weave .memory insist).site.snap .memory (fun _ => E) 0 printer).alive = true := by decide +kernel
theorem insist_executing : ((weave .memory insist).site.snap .memory (fun _ => E) 0 printer).executing c!"b" = true := by decide +kernel
theorem insist_runs : (((weave .memory insist).site.snap .memory (fun _ => E) 0 printer).runs c!"b").length = 2 := by decide +kernel

attribute [local irreducible] insist

/-- The theorems of C95 apply: job `b` is Running for the second time, so it is in the running list and not in the queued one, and it is executed once. -/
example : let v := (weave .memory insist).site.snap .memory (fun _ => E) 0 printer
    c!"b" ∈ v.lists .running ∧ c!"b" ∉ v.lists .queued ∧ v.inFlight.count c!"b" = 1 := by
  have h1 := insist_engines
  have h2 := insist_printer
  have h3 := insist_idle
  have h4 := insist_status
  have h5 := insist_alive
  obtain ⟨-, g2, g3, g4, g5⟩ := C95_consistent (E := fun _ => E) (clk := fun _ => clk) .memory (fun _ => lawful) insist_on h1 h2 h3 insist_civil
  refine ⟨(g4 _).2 ⟨rfl, h4⟩, fun h => ?_, ?_⟩
  · have := ((g3 _).1 h).2
    exact absurd (this.symm.trans h4) (by decide)
  · exact ((g5 h5).count_eq _).trans (g2.count.trans (if_pos ((g4 _).2 ⟨rfl, h4⟩)))

example (k : Str) : ((weave .memory insist).site.snap .memory (fun _ => E) 0 printer).inFlight.count k ≤ 1 := by
  have h1 := insist_engines
  have h2 := insist_printer
  have h3 := insist_idle
  exact C95_one_execution (E := fun _ => E) (clk := fun _ => clk) .memory (fun _ => lawful) insist_on h1 h2 h3 insist_civil k

/-- Nobody configures the work queue, so its capacity is 20. -/
example : ((weave .memory insist).site.snap .memory (fun _ => E) 0 printer).inFlight.length ≤ 20 := by
  have h1 := insist_engines
  have h2 := insist_printer
  have h3 := insist_idle
  refine C95_capacity (E := fun _ => E) (clk := fun _ => clk) .memory (fun _ => lawful) insist_on h1 h2 h3 insist_civil (fun d c hm => ?_) (Nat.le_refl _)
  rcases insist_mem hm with hm | hm
  · simp [busy] at hm
  · simp [insistent] at hm

/-- The last status sent for `b` is Running. -/
example : (((weave .memory insist).site.snap .memory (fun _ => E) 0 printer).sent c!"b").getLast? = some .running := by
  have h1 := insist_engines
  have h2 := insist_printer
  have h3 := insist_idle
  have h4 := insist_status
  exact (C95_told (E := fun _ => E) (clk := fun _ => clk) .memory (fun _ => lawful) insist_on h1 h2 h3 insist_civil (k := c!"b") rfl).trans h4

/-- One round of hooks is over, and the second is at its code. -/
example : ((weave .memory insist).site.snap .memory (fun _ => E) 0 printer).parts c!"b" = [.hook true, .code, .hook true, .hook true, .code] := by
  have h1 := insist_engines
  have h2 := insist_printer
  have h3 := insist_idle
  have h5 := insist_alive
  have h6 := insist_executing
  have h7 := insist_runs
  obtain ⟨n, g1, g2⟩ := C95_around (E := fun _ => E) (clk := fun _ => clk) .memory (fun _ => lawful) insist_on h1 h2 h3 insist_civil c!"b" h5
  have g2 : _ = n + if ((weave .memory insist).site.snap .memory (fun _ => E) 0 printer).executing c!"b" then 1 else 0 := g2
  have g1 : ((weave .memory insist).site.snap .memory (fun _ => E) 0 printer).parts c!"b" = (List.replicate n [.hook true, .code, .hook true]).flatten ++
    if ((weave .memory insist).site.snap .memory (fun _ => E) 0 printer).executing c!"b" then [.hook true, .code] else [] := g1
  rw [h6, if_pos rfl] at g1 g2
  have : n = 1 := by
    have g3 : 2 = n + 1 := h7.symm.trans g2
    omega
  subst this
  exact g1

/-- Every job that is being executed was due. -/
example : ∀ x ∈ ((weave .memory insist).site.snap .memory (fun _ => E) 0 printer).tasks,
    ∃ n, n < ((weave .memory insist).site.snap .memory (fun _ => E) 0 printer).reads ∧ x.orig.Due (clk n) := by
  have h1 := insist_engines
  have h2 := insist_printer
  have h3 := insist_idle
  exact (C95_due (E := fun _ => E) (clk := fun _ => clk) .memory (fun _ => lawful) insist_on h1 h2 h3).1

end AJ.Props
