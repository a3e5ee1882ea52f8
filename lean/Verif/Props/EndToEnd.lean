import Verif.Proofs.SiteOrigin
import Verif.Props.Site
import Verif.Props.Life
import Verif.Props.Once
import Verif.Props.Cron

/-!
# From a request to an execution, and what holds of one work queue in a whole process (C74, C75)
-/

namespace AJ.Props

section
variable {D O : Type} {E : Nat → Env D} {clk : Nat → Nat → Time}

/-- The process on the specification that goes with it. -/
private theorem site_spec (b : Impl) (ops : List (SiteOp D O)) :
    Site.Rel b ((Site.init b.B fun _ => b.empty).run E b.B clk ops) ((Site.init SpecB fun _ => Spec.empty).run E SpecB clk ops) :=
  Site.Rel.run ⟨rfl, rfl, fun _ => b.empty_rel, rfl, rfl⟩ ops

/-- A job that one request submits and no other touches. -/
theorem site_track {kind : Str → Nat} (L : ∀ ty, (E ty).Lawful) (pre post : List (SiteOp D O)) (c ty : Nat) (nm : Str) (job : Job D)
    (cfg : EnqueueConfig) (hops : ∀ d req, .begin d req ∈ pre ++ .begin c (.submit ty nm job cfg) :: post → req.On kind)
    (hto : ∀ d req, .begin d req ∈ pre ++ post → ¬ req.Touches job.id)
    (h1 : ((Site.init SpecB fun _ => Spec.empty).run E SpecB clk (pre ++ .begin c (.submit ty nm job cfg) :: post)).hub.engines.length ≤ 1) :
    Site.Track c job cfg ((Site.init SpecB fun _ => Spec.empty).run E SpecB clk (pre ++ .begin c (.submit ty nm job cfg) :: post)) := by
  rw [Site.run_append] at h1 ⊢
  have g1 := Nat.le_trans (Site.run_length _ (SiteOp.begin c (.submit ty nm job cfg) :: post)) h1
  have hops1 : ∀ d req, .begin d req ∈ pre → req.On kind := fun d req hm => hops d req (List.mem_append_left _ hm)
  have l0 := Site.links_init (D := D) (O := O) (B := SpecB) (fun _ => Spec.empty)
  have a0 := Site.alone_init (D := D) (O := O) (E := E) (clk := clk) (kind := kind)
  obtain ⟨g2, g3⟩ := Site.calm_run (k := job.id) L l0 a0 Hub.single_init pre hops1 g1
    (fun d req hm => hto d req (List.mem_append_left _ hm)) (fun _ => trivial) (fun _ _ _ _ h => by cases h)
  have l1 := Site.links_run (E := E) (clk := clk) l0 pre
  have a1 := Site.alone_run L l0 a0 Hub.single_init pre hops1 g1
  have s1 := Site.single_run (E := E) (clk := clk) Hub.single_init pre g1
  generalize (Site.init SpecB fun _ => Spec.empty).run E SpecB clk pre = t at *
  have h2 : (t.step E SpecB clk (.begin c (.submit ty nm job cfg))).hub.engines.length ≤ 1 := Nat.le_trans (Site.run_length _ post) h1
  have s2 := Site.step_single (E := E) (clk := clk) s1 g1 (.begin c (.submit ty nm job cfg))
  refine Site.track_run L (Site.links_step l1 _) (Site.alone_step L l1 a1 _ (fun d req e => ?_) (s1.once g1) (s2.once h2)) s2 post ?_ h1
    (fun d req hm => hto d req (List.mem_append_right _ hm)) (Site.track_begin g2 g3)
  · exact hops d req (List.mem_append_right _ (e ▸ List.mem_cons_self ..))
  · exact fun d req hm => hops d req (List.mem_append_right _ (List.mem_cons_of_mem _ hm))

/-- C74, from the mailbox to the execution, in a process with one engine whose job types have ids of their own, on any
backend: a job that one request submits and no other request touches, and that is due, is executed. That is, once its
message is in the mailbox of the work queue, the job is in flight at some moment within any further history in which the
work queue first turns to the front of its mailbox as often as there are messages in it, and then ticks `n` times alive
and with free capacity, where no tick finds more than `n` entries queued, `n` at most 20; whatever else all clients, all
other work queues and all executions do meanwhile.

Missing: queues of more than 20 entries, for which it is false (`C31_refuted`); processes in which several engines were
started at once (`C73_refuted`); job types that share ids. -/
theorem C74_executed_partial (b : Impl) (L : ∀ ty, (E ty).Lawful) (kind : Str → Nat) (pre mid wait work : List (SiteOp D O)) (c ty : Nat) (nm : Str)
    (job : Job D) (cfg : EnqueueConfig) (q : Nat) (a : QueueActor) (n : Nat) :
    let t := (Site.init b.B fun _ => b.empty).run E b.B clk (pre ++ .begin c (.submit ty nm job cfg) :: mid)
    (∀ d req, .begin d req ∈ pre ++ .begin c (.submit ty nm job cfg) :: mid ++ (wait ++ work) → req.On kind) →
    (∀ d req, .begin d req ∈ pre ++ mid ++ (wait ++ work) → ¬ req.Touches job.id) →
    (t.run E b.B clk (wait ++ work)).hub.engines.length ≤ 1 →
    t.users c = .posted (.submit ty nm job cfg) (.enqueue job cfg) false q → t.hub.queues[q]? = some a →
    (E a.ty).Encodable job → (∀ i, (t.boxes q).reads ≤ i → (job.norm (L a.ty).normD).Due (clk q i)) →
    1 ≤ n → n ≤ 20 → t.Short b E clk n q a (wait ++ work) →
    (t.boxes q).mailbox.length ≤ wait.countP (·.takes q) → n ≤ (t.run E b.B clk wait).goodTicks b E clk q a work →
    ∃ ops, ops <+: wait ++ work ∧ job.id ∈ ((t.run E b.B clk ops).snap b E q a).inFlight := by
  intro t hops hto h1 hu ha henc hdue hn1 hn hsh hwait hwork
  have hrel : Site.Rel b t _ := site_spec b _
  generalize e : (Site.init SpecB fun _ => Spec.empty).run E SpecB clk (pre ++ .begin c (.submit ty nm job cfg) :: mid) = s at hrel
  have h1' : (s.run E SpecB clk (wait ++ work)).hub.engines.length ≤ 1 := by rw [← (hrel.run _).hub]; exact h1
  have h2 : s.hub.engines.length ≤ 1 := Nat.le_trans (Site.run_length _ _) h1'
  have l0 := Site.links_init (D := D) (O := O) (B := SpecB) (fun _ => Spec.empty)
  have hl : s.Links := by rw [← e]; exact Site.links_run l0 _
  have hops1 : ∀ d req, .begin d req ∈ pre ++ .begin c (.submit ty nm job cfg) :: mid → req.On kind :=
    fun d req hm => hops d req (List.mem_append_left _ hm)
  have hA : Site.Alone E clk kind s := by rw [← e] at h2 ⊢; exact Site.alone_run L l0 Site.alone_init Hub.single_init _ hops1 h2
  have hs : s.hub.Single := by rw [← e] at h2 ⊢; exact Site.single_run Hub.single_init _ h2
  have hT : Site.Track c job cfg s := by
    rw [← e] at h2 ⊢
    exact site_track L pre mid c ty nm job cfg hops1 (fun d req hm => hto d req (List.mem_append_left _ hm)) h2
  have ha' : s.hub.queues[q]? = some a := by rw [← hrel.hub]; exact ha
  rw [hrel.users] at hu
  obtain ⟨m, hm⟩ := List.mem_iff_getElem?.1 ((hl.mail q c _).2 ⟨_, _, hu⟩)
  rw [hrel.boxes] at hdue hwait
  obtain ⟨ops, h3, h4⟩ := Site.executed L hl hA hs wait work (fun d req hm => hops d req (List.mem_append_right _ hm)) h1'
    (fun d req hm => hto d req (List.mem_append_right _ hm)) hT ha' hm henc hdue
    (Nat.lt_of_lt_of_le (List.getElem?_eq_some_iff.1 hm).1 hwait) hn hn1 (Site.short_rel hrel hsh)
    (by rw [← Site.goodTicks_rel (hrel.run wait)]; exact hwork)
  exact ⟨ops, h3, by rw [Site.snap_rel (hrel.run ops)]; exact h4⟩

/-- C75, what holds of one work queue holds in the process, which has one engine and job types with ids of their own: a
job that one request submits and no other request touches is, on every work queue of the process, as on a work queue
alone to which it was submitted at most once and which never saw another submission or cancellation of it. If all
executions and all other requests have a property `P`, so do the other turns of that work queue. -/
theorem C75_alone_partial (b : Impl) (L : ∀ ty, (E ty).Lawful) (kind : Str → Nat) (pre post : List (SiteOp D O)) (c ty : Nat) (nm : Str)
    (job : Job D) (cfg : EnqueueConfig) (P : Op D O → Prop)
    (hops : ∀ d req, .begin d req ∈ pre ++ .begin c (.submit ty nm job cfg) :: post → req.On kind)
    (hto : ∀ d req, .begin d req ∈ pre ++ post → ¬ req.Touches job.id)
    (hturn : ∀ q op, .turn q op ∈ pre ++ post → op.Own → P op)
    (hreq : ∀ d req op, .begin d req ∈ pre ++ post → req.Sends op → P op) :
    let t := (Site.init b.B fun _ => b.empty).run E b.B clk (pre ++ .begin c (.submit ty nm job cfg) :: post)
    t.hub.engines.length ≤ 1 → ∀ (q : Nat) (a : QueueActor), t.hub.queues[q]? = some a →
      ∃ s : Sys D b.B, (t.snap b E q a).Alike (kind · = a.ty) (b.snap (E a.ty) a.name s) ∧
        AtMostOnce b (E a.ty) a.name (clk q) (fun op => P op ∧ ¬ op.Touches job.id) job cfg s := by
  intro t h1 q a ha
  have hrel : Site.Rel b t _ := site_spec b _
  have h2 := C73_alone_partial E clk b L kind (pre ++ .begin c (.submit ty nm job cfg) :: post) hops h1 q a ha
  refine ⟨(Sys.runOps (E a.ty) a.name b.B (clk q) (Sys.init b.B b.empty) ((turnsOf q t.trace).map Prod.fst)).1, ?_, ?_⟩
  · exact ⟨funext h2.2.lists, h2.2.tasks, h2.2.cfg, h2.2.alive, h2.2.reads, h2.2.log,
      fun k hk => congrArg (Option.bind · (E a.ty).codec.dec) (h2.2.stored k hk)⟩
  · have hT := site_track (E := E) (clk := clk) L pre post c ty nm job cfg hops hto (by rw [← hrel.hub]; exact h1)
    have hO := Site.origin_run (E := E) (clk := clk) (Site.links_init fun _ => Spec.empty) Site.origin_init
      (pre ++ .begin c (.submit ty nm job cfg) :: post)
    have good : ∀ l : List (SiteEvent D O), Site.Quiet job.id l → (∀ e ∈ l, e ∈ t.trace) → ∀ op ∈ (turnsOf q l).map Prod.fst,
        P op ∧ ¬ op.Touches job.id := by
      intro l hl hsub op hop
      obtain ⟨⟨op', r⟩, g1, rfl⟩ := List.mem_map.1 hop
      obtain ⟨e, g2, g3⟩ := List.mem_filterMap.1 g1
      cases e with
      | turn p who op r =>
        simp only [SiteEvent.at] at g3
        split at g3
        · cases g3
          have hno := hl p who _ _ g2
          refine ⟨?_, hno⟩
          have g4 := hsub _ g2
          rw [hrel.trace] at g4
          rcases hO.turns _ _ _ _ g4 with ⟨hwho, g5⟩ | ⟨d, req, -, g5, g6⟩
          · have g6 := C73_own E clk b.B (fun _ => b.empty) _ p _ r (hwho ▸ hsub _ g2)
            rcases List.mem_append.1 g5 with g5 | g5
            · cases g5
            rcases List.mem_append.1 g5 with g5 | g5
            · exact hturn _ _ (List.mem_append_left _ g5) g6
            · rcases List.mem_cons.1 g5 with g5 | g5
              · cases g5
              · exact hturn _ _ (List.mem_append_right _ g5) g6
          · rcases List.mem_append.1 g5 with g5 | g5
            · cases g5
            rcases List.mem_append.1 g5 with g5 | g5
            · exact hreq d req _ (List.mem_append_left _ g5) g6
            · rcases List.mem_cons.1 g5 with g5 | g5
              · cases g5
                rcases g6 with g6 | ⟨_, _, _, _, _, _, g6, -⟩
                · cases g6
                  exact absurd rfl hno
                · cases g6
              · exact hreq d req _ (List.mem_append_right _ g5) g6
        · cases g3
      | _ => cases g3
    rcases hT.state with ⟨g1, -⟩ | ⟨-, g1 | ⟨l, p, r, l', g1, g2, g3⟩⟩
    · rw [← hrel.trace] at g1
      exact .inl (reach_ops _ fun _ => good _ g1 fun _ h => h)
    · rw [← hrel.trace] at g1
      exact .inl (reach_ops _ fun _ => good _ g1 fun _ h => h)
    · rw [← hrel.trace] at g1
      have k1 : ∀ e ∈ l, e ∈ t.trace := fun e h => by rw [g1]; exact List.mem_append_left _ h
      have k2 : ∀ e ∈ l', e ∈ t.trace := fun e h => by rw [g1]; exact List.mem_append_right _ (List.mem_cons_of_mem _ h)
      by_cases hp : p = q
      · subst hp
        refine .inr ⟨_, reach_ops _ fun _ => good l g2 k1, ?_⟩
        have e : (turnsOf p t.trace).map Prod.fst = (turnsOf p l).map Prod.fst ++ .enqueue job cfg :: (turnsOf p l').map Prod.fst := by
          rw [g1, turnsOf_append, List.map_append]
          simp [turnsOf, SiteEvent.at]
        rw [e, runOps_append]
        exact later_ops _ _ fun _ => good l' g3 k2
      · left
        have e : (turnsOf q t.trace).map Prod.fst = (turnsOf q l).map Prod.fst ++ (turnsOf q l').map Prod.fst := by
          rw [g1, turnsOf_append, List.map_append]
          simp [turnsOf, SiteEvent.at, hp]
        rw [e]
        exact reach_ops _ fun v op hop => (List.mem_append.1 hop).elim (good l g2 k1 op) (good l' g3 k2 op)

/-- One request touches the job: it submits it. All requests are about ids of their own type. -/
structure Sole (kind : Str → Nat) (pre post : List (SiteOp D O)) (c ty : Nat) (nm : Str) (job : Job D) (cfg : EnqueueConfig) : Prop where
  on : ∀ d req, .begin d req ∈ pre ++ .begin c (.submit ty nm job cfg) :: post → req.On kind
  alone : ∀ d req, .begin d req ∈ pre ++ post → ¬ req.Touches job.id

section
variable {kind : Str → Nat} {pre post : List (SiteOp D O)} {c ty : Nat} {nm : Str} {job : Job D} {cfg : EnqueueConfig}

theorem Sole.alike (h : Sole kind pre post c ty nm job cfg) (b : Impl) (L : ∀ ty, (E ty).Lawful) {P : Op D O → Prop}
    (hturn : ∀ q op, .turn q op ∈ pre ++ post → op.Own → P op) (hreq : ∀ d req op, .begin d req ∈ pre ++ post → req.Sends op → P op) :
    let t := (Site.init b.B fun _ => b.empty).run E b.B clk (pre ++ .begin c (.submit ty nm job cfg) :: post)
    t.hub.engines.length ≤ 1 → ∀ (q : Nat) (a : QueueActor), t.hub.queues[q]? = some a →
      ∃ s : Sys D b.B, (t.snap b E q a).Alike (kind · = a.ty) (b.snap (E a.ty) a.name s) ∧
        AtMostOnce b (E a.ty) a.name (clk q) (fun op => P op ∧ ¬ op.Touches job.id) job cfg s :=
  C75_alone_partial b L kind pre post c ty nm job cfg P h.on h.alone hturn hreq

private theorem retry_begun {l : List (SiteOp D O)} {k : Str} (hre : ∀ d ty, .begin d (.retry ty k) ∉ l) {d : Nat} {req : Req D}
    (hm : .begin d req ∈ l) (hs : req.Sends (.retry k : Op D O)) : False := by
  rcases hs with hs | ⟨_, _, _, _, _, _, -, hs⟩
  · cases req <;> cases hs
    exact hre _ _ hm
  · cases hs

private theorem not_sends_finish {req : Req D} {i : Nat} {x : Executable D O} : ¬ req.Sends (.finish i x : Op D O) := by
  rintro (hs | ⟨_, _, _, _, _, _, -, hs⟩)
  · cases req <;> cases hs
  · cases hs

private theorem alike_runs {K : Str → Prop} {v v' : Snap D} (h : v.Alike K v') (k : Str) : v.runs k = v'.runs k := by
  unfold Snap.runs Snap.mine; rw [h.log]

private theorem alike_flight {K : Str → Prop} {v v' : Snap D} (h : v.Alike K v') : v.inFlight = v'.inFlight := by
  unfold Snap.inFlight; rw [h.tasks]

variable (b : Impl) (L : ∀ ty, (E ty).Lawful) (hsole : Sole kind pre post c ty nm job cfg)

private theorem noSubmit_of {A : Prop} {v : Snap D} {op : Op D O} (h : A ∧ ¬ op.Touches job.id) : NoSubmit job.id op :=
  NoTouch.noSubmit (v := v) h.2

include L hsole

/-- C75, one execution at a time: in the process no work queue has two executions in flight of a job that one request
submits and no other touches. -/
theorem C75_one_execution_partial :
    let t := (Site.init b.B fun _ => b.empty).run E b.B clk (pre ++ .begin c (.submit ty nm job cfg) :: post)
    t.hub.engines.length ≤ 1 → ∀ (q : Nat) (a : QueueActor), t.hub.queues[q]? = some a →
      (t.snap b E q a).inFlight.count job.id ≤ 1 := by
  intro t h1 q a ha
  obtain ⟨s, h2, h3⟩ := hsole.alike b L (P := fun _ => True) (fun _ _ _ _ => trivial) (fun _ _ _ _ _ => trivial) h1 q a ha
  rw [alike_flight h2]
  rcases h3 with h3 | ⟨s0, h3, h4⟩
  · exact C25_one_execution_partial (L a.ty) (AJ.fresh (L a.ty) (h3.mono fun v op h => noSubmit_of (v := v) h)).1
  · rcases submitted_or (L a.ty) (h3.mono fun v op h => noSubmit_of (v := v) h) cfg rfl with ⟨h5, -⟩ | ⟨h5, -⟩ <;>
      exact C25_one_execution_partial (L a.ty) (h4.reach h5 fun v op h => (noSubmit_of (v := v) h).orderly)

/-- C75, run counts: the stored run count of a new job that one request submits and no other touches is the number of
times its code ran, whenever the job is not running. -/
theorem C75_run_count_partial (h0 : job.context.runCount = 0) :
    let t := (Site.init b.B fun _ => b.empty).run E b.B clk (pre ++ .begin c (.submit ty nm job cfg) :: post)
    t.hub.engines.length ≤ 1 → ∀ (q : Nat) (a : QueueActor) (j : Job D), t.hub.queues[q]? = some a → kind job.id = a.ty →
      (t.snap b E q a).job job.id = some j → j.context.jobStatus ≠ .running →
      j.context.runCount = ((t.snap b E q a).runs job.id).length := by
  intro t h1 q a j ha hk hj hr
  obtain ⟨s, h2, h3⟩ := hsole.alike b L (P := fun _ => True) (fun _ _ _ _ => trivial) (fun _ _ _ _ _ => trivial) h1 q a ha
  rw [h2.job _ hk] at hj
  rw [alike_runs h2]
  rcases h3 with h3 | ⟨s0, h3, h4⟩
  · rw [(AJ.fresh (L a.ty) (h3.mono fun v op h => noSubmit_of (v := v) h)).2.2.1.job] at hj; cases hj
  · exact C40_run_count (L a.ty) (h3.mono fun v op h => noSubmit_of (v := v) h) cfg rfl h0
      (h4.mono fun v op h => noSubmit_of (v := v) h) hj hr

/-- C75, timestamps: if the clock of the work queue never goes back, a job that one request submits and no other touches
and that is Finished or Failed has its timestamps set and in order. -/
theorem C75_timestamps_partial :
    let t := (Site.init b.B fun _ => b.empty).run E b.B clk (pre ++ .begin c (.submit ty nm job cfg) :: post)
    t.hub.engines.length ≤ 1 → ∀ (q : Nat) (a : QueueActor) (j : Job D), t.hub.queues[q]? = some a → kind job.id = a.ty →
      (∀ i i', i ≤ i' → clk q i ≤ clk q i') →
      (t.snap b E q a).job job.id = some j → j.context.jobStatus = .finished ∨ j.context.jobStatus = .failed →
      ∃ x r z, j.context.enqueueAt = some x ∧ j.context.runAt = some r ∧ j.context.completeAt = some z ∧ x ≤ r ∧ r ≤ z := by
  intro t h1 q a j ha hk hmono hj hd
  obtain ⟨s, h2, h3⟩ := hsole.alike b L (P := fun _ => True) (fun _ _ _ _ => trivial) (fun _ _ _ _ _ => trivial) h1 q a ha
  rw [h2.job _ hk] at hj
  rcases h3 with h3 | ⟨s0, h3, h4⟩
  · rw [(AJ.fresh (L a.ty) (h3.mono fun v op h => noSubmit_of (v := v) h)).2.2.1.job] at hj; cases hj
  · exact C59_timestamps (L a.ty) hmono (h3.mono fun v op h => noSubmit_of (v := v) h) cfg rfl
      (h4.mono fun v op h => noSubmit_of (v := v) h) hj hd

/-- C75, scheduled jobs: a job scheduled for `due` that one request submits and no other touches is not handed to
execution, and its code does not run, before the work queue has read its clock to be later than `due`, truncated to
microseconds. -/
theorem C75_never_early_partial {due : Time} (hty : job.context.jobType = .scheduledAt due) :
    let t := (Site.init b.B fun _ => b.empty).run E b.B clk (pre ++ .begin c (.submit ty nm job cfg) :: post)
    t.hub.engines.length ≤ 1 → ∀ (q : Nat) (a : QueueActor), t.hub.queues[q]? = some a →
      let v := t.snap b E q a
      (job.id ∉ v.inFlight ∧ v.runs job.id = []) ∨ ∃ i, i < v.reads ∧ floorUs due < clk q i := by
  intro t h1 q a ha v
  obtain ⟨s, h2, h3⟩ := hsole.alike b L (P := fun _ => True) (fun _ _ _ _ => trivial) (fun _ _ _ _ _ => trivial) h1 q a ha
  rw [show v.runs _ = _ from alike_runs h2 _, show v.inFlight = _ from alike_flight h2, show v.reads = _ from h2.reads]
  have lost : Lost job.id (b.snap (E a.ty) a.name s) → job.id ∉ (b.snap (E a.ty) a.name s).inFlight := fun h => not_inFlight h.own
  rcases h3 with h3 | ⟨s0, h3, h4⟩
  · obtain ⟨-, -, h5, h6⟩ := AJ.fresh (L a.ty) (h3.mono fun v op h => noSubmit_of (v := v) h)
    exact .inl ⟨lost h5, h6⟩
  · rcases submitted_or (L a.ty) (h3.mono fun v op h => noSubmit_of (v := v) h) cfg rfl with ⟨h5, h6, h7⟩ | ⟨h5, h6, h7, h8⟩
    · obtain ⟨h8, h9⟩ := lost_later (L a.ty) h5 h4 (fun v op h => noSubmit_of (v := v) h) h6
      exact .inl ⟨lost h8, h9.trans h7⟩
    · rcases C18_waits (L a.ty) h5 h7 (due := floorUs due) (by show JobType.norm job.context.jobType = _; rw [hty]; rfl)
        (by simp [Job.norm, JobContext.norm, Job.asQueued]) (h4.mono fun v op h => noSubmit_of (v := v) h) with ⟨g1, g2⟩ | ⟨i, -, g1, g2⟩
      · exact .inl ⟨g1, g2.trans h6⟩
      · exact .inr ⟨i, g1, g2⟩

/-- C75, plain jobs run at most once: a job without retry policy that is no cron job, which one request submits and no
other touches or retries, runs at most once in the process, on each of its work queues. -/
theorem C75_once_partial (hty : NonCron job) (hr : job.context.retry = none) (hre : ∀ d ty, .begin d (.retry ty job.id) ∉ pre ++ post) :
    let t := (Site.init b.B fun _ => b.empty).run E b.B clk (pre ++ .begin c (.submit ty nm job cfg) :: post)
    t.hub.engines.length ≤ 1 → ∀ (q : Nat) (a : QueueActor), t.hub.queues[q]? = some a →
      ((t.snap b E q a).runs job.id).length ≤ 1 := by
  intro t h1 q a ha
  obtain ⟨s, h2, h3⟩ := hsole.alike b L (P := fun op => op ≠ .retry job.id) (fun q op _ h e => by subst e; exact h)
    (fun d req op hm hs e => by subst e; exact retry_begun hre hm hs) h1 q a ha
  rw [alike_runs h2]
  rcases h3 with h3 | ⟨s0, h3, h4⟩
  · rw [(AJ.fresh (L a.ty) (h3.mono fun v op h => noSubmit_of (v := v) h)).2.2.2]
    exact Nat.zero_le _
  · exact C12_plain_once (L a.ty) (h3.mono fun v op h => noSubmit_of (v := v) h) cfg rfl hty hr
      (h4.mono fun v op h => ⟨noSubmit_of (v := v) h, h.1⟩)

/-- C75, retries are bounded: a job with `max_retries = n` that is no cron job, which one request submits and no other
touches or retries, runs at most `n + 1` times in the process, on each of its work queues, if no execution has a
`retry_at` of its own. -/
theorem C75_retries_partial (hty : NonCron job) {r : Retry} {n : Nat} (hr : job.context.retry = some r)
    (h0 : r.retriedTimes = 0) (hn : r.maxRetries = some (n : Int)) (hi : (n : Int) < 2 ^ 31)
    (hre : ∀ d ty, .begin d (.retry ty job.id) ∉ pre ++ post) (hdef : ∀ q i x, .turn q (.finish i x) ∈ pre ++ post → x.retryAt = none) :
    let t := (Site.init b.B fun _ => b.empty).run E b.B clk (pre ++ .begin c (.submit ty nm job cfg) :: post)
    t.hub.engines.length ≤ 1 → ∀ (q : Nat) (a : QueueActor), t.hub.queues[q]? = some a →
      ((t.snap b E q a).runs job.id).length ≤ n + 1 := by
  intro t h1 q a ha
  obtain ⟨s, h2, h3⟩ := hsole.alike b L (P := fun op => op ≠ .retry job.id ∧ ∀ i x, op = .finish i x → x.retryAt = none)
    (fun q op hm h => ⟨fun e => by subst e; exact h, fun i x e => by subst e; exact hdef q i x hm⟩)
    (fun d req op hm hs => ⟨fun e => by subst e; exact retry_begun hre hm hs, fun i x e => by subst e; exact absurd hs not_sends_finish⟩) h1 q a ha
  rw [alike_runs h2]
  rcases h3 with h3 | ⟨s0, h3, h4⟩
  · rw [(AJ.fresh (L a.ty) (h3.mono fun v op h => noSubmit_of (v := v) h)).2.2.2]
    exact Nat.zero_le _
  · exact C12_submitted_once (L a.ty) (h3.mono fun v op h => noSubmit_of (v := v) h) cfg rfl hty hr h0 hn hi
      (h4.mono fun v op h => ⟨noSubmit_of (v := v) h, h.1.1, fun i x _ _ e _ _ => h.1.2 i x e⟩)

/-- C75, cron jobs with `max_repeat = M`, of a schedule that never ends, built with the count at 1 and without retry
policy, which one request submits and no other touches or retries, run at most `M` times in the process, on each of its
work queues. -/
theorem C75_max_repeat_partial {e : Str} {next : Time} {M : Nat} {x : CronContext} (hty : job.context.jobType = .cron e next 1 x)
    (hr : job.context.retry = none) (hM : x.maxRepeat = some (M : Int)) (hM' : (M : Int) + 1 < 2 ^ 31)
    (hc : ∀ ty, ∃ f, (E ty).cron e = some f ∧ ∀ t, (f t).isSome = true) (hre : ∀ d ty, .begin d (.retry ty job.id) ∉ pre ++ post) :
    let t := (Site.init b.B fun _ => b.empty).run E b.B clk (pre ++ .begin c (.submit ty nm job cfg) :: post)
    t.hub.engines.length ≤ 1 → ∀ (q : Nat) (a : QueueActor), t.hub.queues[q]? = some a →
      ((t.snap b E q a).runs job.id).length ≤ M := by
  intro t h1 q a ha
  obtain ⟨s, h2, h3⟩ := hsole.alike b L (P := fun op => op ≠ .retry job.id) (fun q op _ h e => by subst e; exact h)
    (fun d req op hm hs e => by subst e; exact retry_begun hre hm hs) h1 q a ha
  rw [alike_runs h2]
  rcases h3 with h3 | ⟨s0, h3, h4⟩
  · rw [(AJ.fresh (L a.ty) (h3.mono fun v op h => noSubmit_of (v := v) h)).2.2.2]
    exact Nat.zero_le _
  · obtain ⟨f, hf, hslot⟩ := hc a.ty
    exact C21_submitted_once_partial (L a.ty) (h3.mono fun v op h => noSubmit_of (v := v) h) cfg rfl hty hr hM hM' hf hslot
      (h4.mono fun v op h => ⟨noSubmit_of (v := v) h, h.1⟩)

end
end

section
open Demo

/-- The submission of `b` in `busy`. -/
theorem busy_split : busy = busy.take 9 ++ .begin 2 (.submit 5 c!"print" (job c!"b" 2) .newReRun) :: busy.drop 10 := rfl

/-- `C75` applies to job `b` of `busy`. -/
theorem busy_sole : Sole kindOf (busy.take 9) (busy.drop 10) 2 5 c!"print" (job c!"b" 2) .newReRun where
  on := by rw [← busy_split]; exact busy_on
  alone := by
    intro d req h
    simp only [busy, List.take_succ_cons, List.take_zero, List.drop_succ_cons, List.drop_zero, List.cons_append, List.nil_append,
      List.mem_cons, SiteOp.begin.injEq, reduceCtorEq, List.not_mem_nil, or_false, false_or] at h
    rcases h with ⟨-, rfl⟩ | ⟨-, rfl⟩ | ⟨-, rfl⟩ | ⟨-, rfl⟩ | ⟨-, rfl⟩ <;> simp [Req.Touches] <;> decide

/-- A process after a submission, and further steps. -/
theorem site_later (b : Impl) (pre mid wait : List (SiteOp Int Unit)) (o : SiteOp Int Unit) (more : List (SiteOp Int Unit)) :
    ((Site.init b.B fun _ => b.empty).run (fun _ => E) b.B (fun _ => clk) (pre ++ o :: mid)).run (fun _ => E) b.B (fun _ => clk) (wait ++ more) =
      site b (pre ++ o :: (mid ++ (wait ++ more))) := by
  simp only [site, Site.run, List.foldl_append, List.foldl_cons]

/-- The process with one type of environment and clock, split at the submission. -/
theorem executed_of (b : Impl) (kind : Str → Nat) (pre mid wait work : List (SiteOp Int Unit)) (c ty : Nat) (nm : Str) (id : Str) (n : Int)
    (q : Nat) (a : QueueActor) (m : Nat) (hon : Sole kind pre (mid ++ (wait ++ work)) c ty nm (job id n) .newReRun)
    (h1 : (site b (pre ++ .begin c (.submit ty nm (job id n) .newReRun) :: (mid ++ (wait ++ work)))).hub.engines.length ≤ 1)
    (hu : (site b (pre ++ .begin c (.submit ty nm (job id n) .newReRun) :: mid)).users c =
      .posted (.submit ty nm (job id n) .newReRun) (.enqueue (job id n) .newReRun) false q)
    (ha : (site b (pre ++ .begin c (.submit ty nm (job id n) .newReRun) :: mid)).hub.queues[q]? = some a)
    (he : E.Encodable (job id n)) (hm1 : 1 ≤ m) (hm : m ≤ 20)
    (hs : (site b (pre ++ .begin c (.submit ty nm (job id n) .newReRun) :: mid)).Short b (fun _ => E) (fun _ => clk) m q a (wait ++ work))
    (hw : ((site b (pre ++ .begin c (.submit ty nm (job id n) .newReRun) :: mid)).boxes q).mailbox.length ≤ wait.countP (·.takes q))
    (hk : m ≤ ((site b (pre ++ .begin c (.submit ty nm (job id n) .newReRun) :: mid)).run (fun _ => E) b.B (fun _ => clk) wait).goodTicks b
      (fun _ => E) (fun _ => clk) q a work) :
    ∃ ops, ops <+: wait ++ work ∧ id ∈ ((site b (pre ++ .begin c (.submit ty nm (job id n) .newReRun) :: (mid ++ ops))).snap b (fun _ => E) q a).inFlight := by
  obtain ⟨ops, g1, g2⟩ := C74_executed_partial (E := fun _ => E) (clk := fun _ => clk) b (fun _ => lawful) kind pre mid wait work c ty nm (job id n)
    .newReRun q a m (by simpa using hon.on) (by simpa using hon.alone) (by rw [site_later]; exact h1) hu ha he (fun _ _ => trivial) hm1 hm hs hw hk
  refine ⟨ops, g1, ?_⟩
  have := site_later b pre mid ops (.begin c (.submit ty nm (job id n) .newReRun)) []
  simp only [List.append_nil] at this
  rw [← this]
  exact g2

/-- Whether the queue stays short can be computed. -/
def shortDec {m q : Nat} {a : QueueActor} : (t : Site Int Unit Impl.memory.B) → (ops : List (SiteOp Int Unit)) →
    Decidable (t.Short .memory (fun _ => E) (fun _ => clk) m q a ops)
  | _, [] => .isTrue trivial
  | _, _ :: ops => @instDecidableAnd _ _ inferInstance (shortDec _ ops)

/-- The work queue of `b`. -/
def printer : QueueActor := ⟨5, c!"print", 7⟩

theorem busy_printer : (site .memory (busy.take 25)).hub.queues[0]? = some printer := by decide +kernel
theorem busy_engines : (site .memory busy).hub.engines.length ≤ 1 := by decide +kernel
theorem busy_posted : (match (site .memory (busy.take 25)).users 2 with
    | .posted req (.enqueue j .newReRun) false 0 => decide (req = .submit 5 c!"print" (job c!"b" 2) .newReRun ∧ j = job c!"b" 2)
    | _ => false) = true := by decide +kernel
theorem busy_posted' : (site .memory (busy.take 25)).users 2 =
    .posted (.submit 5 c!"print" (job c!"b" 2) .newReRun) (.enqueue (job c!"b" 2) .newReRun) false 0 := by
  have := busy_posted
  split at this
  · next h => rw [h]; obtain ⟨rfl, rfl⟩ := of_decide_eq_true this; rfl
  · cases this

theorem busy_cut : (busy.take 9 ++ .begin 2 (.submit 5 c!"print" (job c!"b" 2) .newReRun) :: (busy.drop 10).take 15) = busy.take 25 := rfl
theorem busy_rest : (busy.drop 10).take 15 ++ ((busy.drop 25).take 1 ++ busy.drop 26) = busy.drop 10 := rfl

/-- `C74_executed_partial` applies to job `b`, whose message is in the mailbox after 25 steps. -/
example : ∃ ops, ops <+: (busy.drop 25).take 1 ++ busy.drop 26 ∧ c!"b" ∈ ((site .memory (busy.take 9 ++
    .begin 2 (.submit 5 c!"print" (job c!"b" 2) .newReRun) :: ((busy.drop 10).take 15 ++ ops))).snap .memory (fun _ => E) 0 printer).inFlight := by
  refine executed_of .memory kindOf _ _ _ _ 2 5 c!"print" c!"b" 2 0 printer 1 ?_ ?_ ?_ ?_ ?_ ?_ ?_ ?_ ?_ ?_
  · rw [busy_rest]; exact busy_sole
  · rw [busy_rest, ← busy_split]; exact busy_engines
  · rw [busy_cut]; exact busy_posted'
  · rw [busy_cut]; exact busy_printer
  · decide +kernel
  · decide
  · decide
  · rw [busy_cut]; exact @of_decide_eq_true _ (shortDec _ _) (by decide +kernel)
  · rw [busy_cut]; decide +kernel
  · rw [busy_cut]; decide +kernel

/-- And it is in flight after 30 steps, and runs once. -/
example : ((site .memory (busy.take 29)).snap .memory (fun _ => E) 0 printer).inFlight = [] ∧
    ((site .memory (busy.take 30)).snap .memory (fun _ => E) 0 printer).inFlight = [c!"b"] ∧
    (((site .memory busy).snap .memory (fun _ => E) 0 printer).runs c!"b").length = 1 := by decide +kernel

theorem busy_end : (site .memory busy).hub.queues[0]? = some printer := by decide +kernel

theorem busy_retry : ∀ d ty, SiteOp.begin d (.retry ty c!"b") ∉ busy.take 9 ++ busy.drop 10 := by intro d ty h; simp [busy] at h

attribute [local irreducible] busy

/-- What holds of job `b` on its work queue. -/
example : ((site .memory busy).snap .memory (fun _ => E) 0 printer).inFlight.count c!"b" ≤ 1 := by
  have h := C75_one_execution_partial (E := fun _ => E) (clk := fun _ => clk) .memory (fun _ => lawful) busy_sole
  rw [← busy_split, show (job c!"b" 2).id = c!"b" from rfl] at h
  exact h busy_engines 0 printer busy_end

example : ((site .memory busy).snap .memory (fun _ => E) 0 printer).runs c!"b" |>.length |> (· ≤ 1) := by
  have h := C75_once_partial (E := fun _ => E) (clk := fun _ => clk) .memory (fun _ => lawful) busy_sole (fun _ _ _ _ h => by cases h) rfl
    busy_retry
  rw [← busy_split, show (job c!"b" 2).id = c!"b" from rfl] at h
  exact h busy_engines 0 printer busy_end

/-- The job as it is stored in the end. -/
def printed : Job Int := (((site .memory busy).snap .memory (fun _ => E) 0 printer).job c!"b").getD (job [])
theorem printed_job : ((site .memory busy).snap .memory (fun _ => E) 0 printer).job c!"b" = some printed := by decide +kernel
theorem printed_done : printed.context.jobStatus = .finished := by decide +kernel

example : printed.context.runCount = (((site .memory busy).snap .memory (fun _ => E) 0 printer).runs c!"b").length := by
  have h := C75_run_count_partial (E := fun _ => E) (clk := fun _ => clk) .memory (fun _ => lawful) busy_sole rfl
  rw [← busy_split, show (job c!"b" 2).id = c!"b" from rfl] at h
  exact h busy_engines 0 printer _ busy_end rfl printed_job (by rw [printed_done]; decide)

example : ∃ x r z, printed.context.enqueueAt = some x ∧ printed.context.runAt = some r ∧ printed.context.completeAt = some z ∧ x ≤ r ∧ r ≤ z := by
  have h := C75_timestamps_partial (E := fun _ => E) (clk := fun _ => clk) .memory (fun _ => lawful) busy_sole
  rw [← busy_split, show (job c!"b" 2).id = c!"b" from rfl] at h
  exact h busy_engines 0 printer _ busy_end rfl (fun _ _ h => Int.mul_le_mul_of_nonneg_right (Int.ofNat_le.2 h) (by decide)) printed_job (.inl printed_done)

/-- A job with one retry, a job scheduled for second 20, and an every-second job with at most two runs. -/
def retrying : Job Int := ⟨{ JobContext.new c!"r" 0 with retry := some (.newIntervalRetry (some 1) nsPerSec) }, 7⟩
def timed : Job Int := ⟨{ JobContext.new c!"s" 0 with jobType := .scheduledAt (20 * nsPerSec) }, 8⟩
def repeated : Job Int := ⟨{ JobContext.new c!"m" 0 with jobType := .cron c!"* * * * * *" 0 1 { maxRepeat := some 2 } }, 9⟩

/-- Three clients submit them to the same work queue; `r` fails twice, `m` runs twice, `s` runs once. -/
def varied : List (SiteOp Int Unit) :=
  [.begin 0 (.start 7), .client 0 false, .client 0 false, .client 0 false, .client 0 false, .client 0 false, .post 0,
   .begin 1 (.submit 4 c!"mail" retrying .newReRun), .client 1 false, .client 1 false, .engine 0, .engine 0, .engine 0, .engine 0, .post 1,
   .begin 2 (.submit 4 c!"mail" timed .newReRun), .client 2 false, .post 2,
   .begin 3 (.submit 4 c!"mail" repeated .newReRun), .client 3 false, .post 3,
   .handle 0 0, .handle 0 0, .handle 0 0, .take 1, .take 2, .take 3,
   .turn 0 .tick, .turn 0 (.start 0), .turn 0 (.start 1), .turn 0 (.finish 1 good), .turn 0 (.finish 0 bad),
   .turn 0 .tick, .turn 0 (.start 0), .turn 0 (.finish 0 good), .turn 0 .tick, .turn 0 (.start 0), .turn 0 (.finish 0 bad),
   .turn 0 .tick, .turn 0 (.start 0), .turn 0 (.finish 0 good), .turn 0 .tick]

/-- The work queue of the three jobs. -/
def mailer : QueueActor := ⟨4, c!"mail", 7⟩

theorem varied_queue : (site .memory varied).hub.queues[0]? = some mailer := by decide +kernel
theorem varied_engines : (site .memory varied).hub.engines.length ≤ 1 := by decide +kernel

/-- The bounds are reached, and `s` runs after second 20. -/
example : let v := (site .memory varied).snap .memory (fun _ => E) 0 mailer
    (v.runs c!"r").length = 2 ∧ (v.runs c!"m").length = 2 ∧ (v.runs c!"s").length = 1 ∧ v.reads = 30 := by decide +kernel

theorem varied_on : ∀ d req, SiteOp.begin d req ∈ varied → req.On fun _ => 4 := by
  intro d req h
  simp only [varied, List.mem_cons, SiteOp.begin.injEq, reduceCtorEq, List.not_mem_nil, or_false, false_or] at h
  rcases h with ⟨-, rfl⟩ | ⟨-, rfl⟩ | ⟨-, rfl⟩ | ⟨-, rfl⟩ <;> simp [Req.On]

theorem varied_r : varied = varied.take 7 ++ .begin 1 (.submit 4 c!"mail" retrying .newReRun) :: varied.drop 8 := rfl
theorem varied_s : varied = varied.take 15 ++ .begin 2 (.submit 4 c!"mail" timed .newReRun) :: varied.drop 16 := rfl
theorem varied_m : varied = varied.take 18 ++ .begin 3 (.submit 4 c!"mail" repeated .newReRun) :: varied.drop 19 := rfl

theorem sole_r : Sole (fun _ => 4) (varied.take 7) (varied.drop 8) 1 4 c!"mail" retrying .newReRun where
  on := by rw [← varied_r]; exact varied_on
  alone := by
    intro d req h
    simp only [varied, List.take_succ_cons, List.take_zero, List.drop_succ_cons, List.drop_zero, List.cons_append, List.nil_append,
      List.mem_cons, SiteOp.begin.injEq, reduceCtorEq, List.not_mem_nil, or_false, false_or] at h
    rcases h with ⟨-, rfl⟩ | ⟨-, rfl⟩ | ⟨-, rfl⟩ <;> simp [Req.Touches] <;> decide

theorem sole_s : Sole (fun _ => 4) (varied.take 15) (varied.drop 16) 2 4 c!"mail" timed .newReRun where
  on := by rw [← varied_s]; exact varied_on
  alone := by
    intro d req h
    simp only [varied, List.take_succ_cons, List.take_zero, List.drop_succ_cons, List.drop_zero, List.cons_append, List.nil_append,
      List.mem_cons, SiteOp.begin.injEq, reduceCtorEq, List.not_mem_nil, or_false, false_or] at h
    rcases h with ⟨-, rfl⟩ | ⟨-, rfl⟩ | ⟨-, rfl⟩ <;> simp [Req.Touches] <;> decide

theorem sole_m : Sole (fun _ => 4) (varied.take 18) (varied.drop 19) 3 4 c!"mail" repeated .newReRun where
  on := by rw [← varied_m]; exact varied_on
  alone := by
    intro d req h
    simp only [varied, List.take_succ_cons, List.take_zero, List.drop_succ_cons, List.drop_zero, List.cons_append, List.nil_append,
      List.mem_cons, SiteOp.begin.injEq, reduceCtorEq, List.not_mem_nil, or_false, false_or] at h
    rcases h with ⟨-, rfl⟩ | ⟨-, rfl⟩ | ⟨-, rfl⟩ <;> simp [Req.Touches] <;> decide

example : (((site .memory varied).snap .memory (fun _ => E) 0 mailer).runs c!"r").length ≤ 2 := by
  have h := C75_retries_partial (E := fun _ => E) (clk := fun _ => clk) .memory (fun _ => lawful) sole_r (fun _ _ _ _ h => by cases h)
    (r := .newIntervalRetry (some 1) nsPerSec) (n := 1) rfl rfl rfl (by decide) (by intro d ty h; simp [varied] at h)
    (by
      intro q i x h
      simp only [varied, List.take_succ_cons, List.take_zero, List.drop_succ_cons, List.drop_zero, List.cons_append, List.nil_append,
        List.mem_cons, SiteOp.turn.injEq, Op.finish.injEq, reduceCtorEq, and_false, List.not_mem_nil, or_false, false_or] at h
      rcases h with ⟨-, -, rfl⟩ | ⟨-, -, rfl⟩ | ⟨-, -, rfl⟩ | ⟨-, -, rfl⟩ | ⟨-, -, rfl⟩ <;> rfl)
  rw [← varied_r] at h
  exact h varied_engines 0 mailer varied_queue

example : let v := (site .memory varied).snap .memory (fun _ => E) 0 mailer
    (c!"s" ∉ v.inFlight ∧ v.runs c!"s" = []) ∨ ∃ i, i < v.reads ∧ floorUs (20 * nsPerSec) < clk i := by
  have h := C75_never_early_partial (E := fun _ => E) (clk := fun _ => clk) .memory (fun _ => lawful) sole_s (due := 20 * nsPerSec) rfl
  rw [← varied_s] at h
  exact h varied_engines 0 mailer varied_queue

example : (((site .memory varied).snap .memory (fun _ => E) 0 mailer).runs c!"m").length ≤ 2 := by
  have h := C75_max_repeat_partial (E := fun _ => E) (clk := fun _ => clk) .memory (fun _ => lawful) sole_m (M := 2)
    (x := { maxRepeat := some 2 }) rfl rfl rfl (by decide) (fun _ => ⟨_, rfl, fun _ => rfl⟩) (by intro d ty h; simp [varied] at h)
  rw [← varied_m] at h
  exact h varied_engines 0 mailer varied_queue

end
end AJ.Props
