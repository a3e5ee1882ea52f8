import Verif.Proofs.WeaveLive
import Verif.Props.EndToEnd

/-!
# The whole process, with work queues that interleave call by call (C79)
-/

namespace AJ.Props

section
variable {D O : Type} (E : Nat → Env D) (clk : Nat → Nat → Time)

/-- C79, what clients see, when the work queues interleave call by call, in every process with any number of engines,
clients, work queues and backends in any state: the events of every client are requests one after the other, with the turns
made for them between call and return, no more and no less (as in `C73_history`). -/
theorem C79_history (B : Backend) (stores : Nat → B.S) (ops : List (WeaveOp D O)) (c : Nat) :
    let t := ((Weave.init B stores).run E B clk ops).site
    History t.hub.queues c (t.trace.filter (·.of c)) :=
  (Weave.tidy_run (Weave.tidy_init stores) ops).links.tale c |>.history

/-- C79, turns end: a work queue that is inside a turn comes to its end in every history in which it goes on again and again,
whatever all others do in between and whatever the backend answers. -/
theorem C79_ends (B : Backend) (stores : Nat → B.S) (before : List (WeaveOp D O)) (hist : Nat → WeaveOp D O) (q : Nat)
    (hfair : ∀ n, ∃ m, n ≤ m ∧ hist m = .go q) :
    ∃ n, (((Weave.init B stores).run E B clk before).run E B clk ((List.range n).map hist)).inside q = none := by
  have h1 := Weave.tidy_run (E := E) (clk := clk) (Weave.tidy_init (D := D) (O := O) stores) before
  have h2 := Weave.sound_run (E := E) (clk := clk) (Weave.tidy_init (D := D) (O := O) stores) (fun _ _ h => by cases h) before
  cases hx : ((Weave.init B stores).run E B clk before).inside q with
  | none => exact ⟨0, hx⟩
  | some x => exact Weave.ends h1 hx (h2 q x hx) hist hfair

/-- C79, answers come: a message in the mailbox of a work queue is handled, and answered, when the work queue, between turns,
has turned to the front of its mailbox more often than there are messages, whatever else happens in between. -/
theorem C79_answered (B : Backend) (stores : Nat → B.S) (before : List (WeaveOp D O)) (c : Nat) (req : Req D) (op : Op D O) (again : Bool) (q : Nat) :
    let f := (Weave.init B stores).run E B clk before
    f.site.users c = .posted req op again q → ∀ ops : List (WeaveOp D O), (f.site.boxes q).mailbox.length < f.looks E clk q ops →
      ∃ r l l', (f.run E B clk ops).site.trace = f.site.trace ++ l ++ .turn q (some c) op r :: l' := by
  intro f hu ops hc
  have h := Weave.tidy_run (E := E) (clk := clk) (Weave.tidy_init (D := D) (O := O) stores) before
  have hlink := h.links.users c
  rw [hu] at hlink
  obtain ⟨a, ha, -⟩ := hlink.2.typed h.links.typed
  obtain ⟨n, hn⟩ := List.mem_iff_getElem?.1 ((h.links.mail q c op).2 ⟨req, again, hu⟩)
  refine Weave.waits_run h hn ha ops (Nat.lt_of_le_of_lt ?_ hc)
  have : n < (f.site.boxes q).mailbox.length := (List.getElem?_eq_some_iff.1 hn).1
  unfold Weave.need
  split
  · exact Nat.le_of_lt this
  · exact this

end

section
variable {D O : Type} {E : Nat → Env D} {clk : Nat → Nat → Time}

/-- The interleaved process on the specification, and the serial one. -/
private theorem woven (b : Impl) (L : ∀ ty, (E ty).Lawful) (kind : Str → Nat) (ops : List (WeaveOp D O))
    (hops : ∀ c req, .site (.begin c req) ∈ ops → req.On kind)
    (h1 : ((Weave.init b.B fun _ => b.empty).run E b.B clk ops).site.hub.engines.length ≤ 1) :
    ∃ (g : Weave D O SpecB) (t : Site D O SpecB), Weave.Rel b ((Weave.init b.B fun _ => b.empty).run E b.B clk ops) g ∧
      Site.Rel b ((Site.init b.B fun _ => b.empty).run E b.B clk ((Weave.init b.B fun _ => b.empty).serial E clk ops)) t ∧
      Weave.Serial E clk kind g t := by
  have hrel := (Weave.rel_init (D := D) (O := O) (b := b)).run (E := E) (clk := clk) ops
  have e := (Weave.rel_init (D := D) (O := O) (b := b)).serial (E := E) (clk := clk) ops
  refine ⟨_, (Site.init SpecB fun _ => Spec.empty).run E SpecB clk ((Weave.init SpecB fun _ => Spec.empty).serial E clk ops), hrel, ?_, ?_⟩
  · rw [e]
    exact Site.Rel.run ⟨rfl, rfl, fun _ => b.empty_rel, rfl, rfl⟩ _
  · exact (Weave.serial_init.run L (Weave.tidy_init _) (Site.links_init _) Site.alone_init Hub.single_init ops hops
      (by rw [← hrel.site.hub]; exact h1)).1

/-- C79, interleaved turns are as good as turns one after the other, in a process with one engine whose job types have ids of
their own: with every turn taken in one step at the moment at which it ends, the process has the same registry, the same
clients, the same events in the same order, the same mailboxes, the same executions in flight; and every work queue between
turns has the same clock reads, messages, lists and stored jobs.

Missing: processes in which several engines were started at once, whose work queues may share a name and thus race
(`C73_refuted`, `C79_refuted`), and job types that share ids. -/
theorem C79_serial_partial (b : Impl) (L : ∀ ty, (E ty).Lawful) (kind : Str → Nat) (ops : List (WeaveOp D O))
    (hops : ∀ c req, .site (.begin c req) ∈ ops → req.On kind) :
    let f := (Weave.init b.B fun _ => b.empty).run E b.B clk ops
    let t := (Site.init b.B fun _ => b.empty).run E b.B clk ((Weave.init b.B fun _ => b.empty).serial E clk ops)
    f.site.hub.engines.length ≤ 1 → f.site.hub = t.hub ∧ f.site.users = t.users ∧ f.site.trace = t.trace ∧
      (∀ q, (f.site.boxes q).mailbox = (t.boxes q).mailbox ∧ (f.site.boxes q).proc = (t.boxes q).proc) ∧
      ∀ (q : Nat) (a : QueueActor), f.site.hub.queues[q]? = some a → f.inside q = none →
        Sys.Alike b a.name (kind · = a.ty) (f.site.sys q a) (t.sys q a) := by
  intro f t h1
  obtain ⟨g, n, hf, ht, hs⟩ := woven b L kind ops hops h1
  have hbox : ∀ q, (f.site.boxes q).proc = (t.boxes q).proc := fun q => by rw [hf.site.boxes, ht.boxes]; exact hs.procs q
  refine ⟨hf.site.hub.trans (hs.face.hub.trans ht.hub.symm), hf.site.users.trans (hs.face.users.trans ht.users.symm),
    hf.site.trace.trans (hs.face.trace.trans ht.trace.symm), fun q => ⟨?_, hbox q⟩, fun q a ha hi => ?_⟩
  · rw [hf.site.boxes, ht.boxes]; exact hs.face.mail q
  · rw [hf.site.hub, hs.face.hub] at ha
    rw [hf.inside] at hi
    have hc := hs.calm q a ha hi
    have hd := hs.idle q hi
    refine ⟨congrArg Proc.cfg (hbox q), congrArg Proc.tasks (hbox q), congrArg Proc.alive (hbox q), ?_, ?_, fun st => ?_, fun k hk => ?_⟩
    · show (f.site.boxes q).reads = (t.boxes q).reads
      rw [hf.site.boxes, ht.boxes]; exact hd.1
    · show (f.site.boxes q).log = (t.boxes q).log
      rw [hf.site.boxes, ht.boxes]; exact hd.2
    · exact (b.list_eq _ _ _ _ (hf.site.stores a.backend)).trans ((hc.lists st).trans (b.list_eq _ _ _ _ (ht.stores a.backend)).symm)
    · exact (b.stored_eq _ _ _ (hf.site.stores a.backend)).trans ((hc.stored k hk).trans (b.stored_eq _ _ _ (ht.stores a.backend)).symm)

/-- C79, turns that no client asks for are ticks and polls of executions. -/
theorem C79_own (B : Backend) (stores : Nat → B.S) (ops : List (WeaveOp D O)) (q : Nat) (op : Op D O) (r : Resp D) :
    .turn q none op r ∈ ((Weave.init B stores).run E B clk ops).site.trace → op.Own := by
  have key : ∀ f : Weave D O B, Weave.Tidy f → (∀ q op r, .turn q none op r ∈ f.site.trace → op.Own) →
      ∀ q op r, .turn q none op r ∈ (f.run E B clk ops).site.trace → op.Own := by
    induction ops with
    | nil => exact fun f _ h => h
    | cons o ops ih => exact fun f hf h => ih _ (Weave.tidy_step hf o) (Weave.own_step hf h o)
  exact key _ (Weave.tidy_init stores) (fun _ _ _ h => by cases h) q op r

/-- C79, every work queue as if alone (`C73_alone_partial` when the work queues interleave call by call): between turns, each
work queue has given the answers, and is in the situation, of a work queue that takes the same turns, one after the other,
alone on an empty backend.

Missing: as in `C79_serial_partial`. -/
theorem C79_alone_partial (b : Impl) (L : ∀ ty, (E ty).Lawful) (kind : Str → Nat) (ops : List (WeaveOp D O))
    (hops : ∀ c req, .site (.begin c req) ∈ ops → req.On kind) :
    let f := (Weave.init b.B fun _ => b.empty).run E b.B clk ops
    f.site.hub.engines.length ≤ 1 → ∀ (q : Nat) (a : QueueActor), f.site.hub.queues[q]? = some a → f.inside q = none →
      let r := Sys.runOps (E a.ty) a.name b.B (clk q) (Sys.init b.B b.empty) ((turnsOf q f.site.trace).map Prod.fst)
      r.2 = (turnsOf q f.site.trace).map Prod.snd ∧ Sys.Alike b a.name (kind · = a.ty) (f.site.sys q a) r.1 := by
  intro f h1 q a ha hi
  obtain ⟨h2, h3, h4, h5, h6⟩ := C79_serial_partial (E := E) (clk := clk) b L kind ops hops h1
  have h7 := C73_alone_partial E clk b L kind ((Weave.init b.B fun _ => b.empty).serial E clk ops)
    (fun c req hm => hops c req (Weave.serial_begin hm)) (by rw [← h2]; exact h1) q a (by rw [← h2]; exact ha)
  rw [← h4] at h7
  refine ⟨h7.1, ?_⟩
  have h8 := h6 q a ha hi
  have h9 := h7.2
  exact ⟨h8.cfg.trans h9.cfg, h8.tasks.trans h9.tasks, h8.alive.trans h9.alive, h8.reads.trans h9.reads, h8.log.trans h9.log,
    fun st => (h8.lists st).trans (h9.lists st), fun k hk => (h8.stored k hk).trans (h9.stored k hk)⟩

/-- One request touches the job: it submits it. All requests are about ids of their own type. -/
structure WeaveSole (kind : Str → Nat) (pre post : List (WeaveOp D O)) (c ty : Nat) (nm : Str) (job : Job D) (cfg : EnqueueConfig) : Prop where
  on : ∀ d req, .site (.begin d req) ∈ pre ++ .site (.begin c (.submit ty nm job cfg)) :: post → req.On kind
  alone : ∀ d req, .site (.begin d req) ∈ pre ++ post → ¬ req.Touches job.id

section
variable {kind : Str → Nat} {pre post : List (WeaveOp D O)} {c ty : Nat} {nm : Str} {job : Job D} {cfg : EnqueueConfig}

/-- The serial history of the same process. -/
private theorem sole_serial (b : Impl) (h : WeaveSole kind pre post c ty nm job cfg) :
    ∃ pre' post', (Weave.init b.B fun _ => b.empty).serial E clk (pre ++ .site (.begin c (.submit ty nm job cfg)) :: post) =
        pre' ++ .begin c (.submit ty nm job cfg) :: post' ∧ Sole kind pre' post' c ty nm job cfg ∧
      (∀ d req, .begin d req ∈ pre' ++ post' → .site (.begin d req) ∈ pre ++ post) ∧
      ∀ q op, .turn q op ∈ pre' ++ post' → .site (.turn q op) ∈ pre ++ post := by
  let f0 : Weave D O b.B := Weave.init b.B fun _ => b.empty
  let f1 := f0.run E b.B clk pre
  let f2 := f1.step E b.B clk (.site (.begin c (.submit ty nm job cfg)))
  have t1 : Weave.Tidy f1 := Weave.tidy_run (Weave.tidy_init _) pre
  have b1 : Weave.Begun pre f1 := by
    have := Weave.begun_run (E := E) (clk := clk) (past := []) (Weave.tidy_init (D := D) (O := O) (B := b.B) fun _ => b.empty) (fun _ _ h => by cases h) pre
    exact this
  have e : f0.serial E clk (pre ++ .site (.begin c (.submit ty nm job cfg)) :: post) = f0.serial E clk pre ++ .begin c (.submit ty nm job cfg) :: f2.serial E clk post := by
    rw [Weave.serial_append]; rfl
  have hbegin : ∀ d req, .begin d req ∈ f0.serial E clk pre ++ f2.serial E clk post → .site (.begin d req) ∈ pre ++ post := by
    intro d req hm
    rcases List.mem_append.1 hm with hm | hm
    · exact List.mem_append_left _ (Weave.serial_begin hm)
    · exact List.mem_append_right _ (Weave.serial_begin hm)
  refine ⟨_, _, e, ⟨fun d req hm => ?_, fun d req hm => h.alone d req (hbegin d req hm)⟩, hbegin, fun q op hm => ?_⟩
  · rw [← e] at hm
    exact h.on d req (Weave.serial_begin hm)
  · rcases List.mem_append.1 hm with hm | hm
    · exact List.mem_append_left _ (Weave.serial_turn (past := []) (Weave.tidy_init _) (fun _ _ h => by cases h) hm)
    · have := Weave.serial_turn (E := E) (clk := clk) (Weave.tidy_step t1 _) (Weave.begun_step (E := E) (clk := clk) t1 b1 (.site (.begin c (.submit ty nm job cfg)))) hm
      simpa using this

variable (b : Impl) (L : ∀ ty, (E ty).Lawful) (hsole : WeaveSole kind pre post c ty nm job cfg)

private theorem alike_snap {q : Nat} {a : QueueActor} {t t' : Site D O b.B} {K : Str → Prop} (h : Sys.Alike b a.name K (t.sys q a) (t'.sys q a)) :
    (t.snap b E q a).Alike K (t'.snap b E q a) :=
  ⟨funext h.lists, h.tasks, h.cfg, h.alive, h.reads, h.log, fun k hk => congrArg (Option.bind · (E a.ty).codec.dec) (h.stored k hk)⟩

private theorem weave_runs {q : Nat} {a : QueueActor} {t t' : Site D O b.B} {k : Str} (h : ∃ l, (t'.boxes q).log = (t.boxes q).log ++ l) :
    ((t.snap b E q a).runs k).length ≤ ((t'.snap b E q a).runs k).length := by
  obtain ⟨l, hl⟩ := h
  have : (t'.snap b E q a).log = (t.snap b E q a).log ++ l := hl
  unfold Snap.runs Snap.mine
  rw [this, List.filter_append, List.filterMap_append, List.length_append]
  exact Nat.le_add_right _ _

include L hsole

/-- C79, one execution at a time: at no moment of the process, whatever turns are in progress, does a work queue have two
executions in flight of a job that one request submits and no other touches. -/
theorem C79_one_execution_partial :
    let f := (Weave.init b.B fun _ => b.empty).run E b.B clk (pre ++ .site (.begin c (.submit ty nm job cfg)) :: post)
    f.site.hub.engines.length ≤ 1 → ∀ (q : Nat) (a : QueueActor), f.site.hub.queues[q]? = some a →
      (f.site.snap b E q a).inFlight.count job.id ≤ 1 := by
  intro f h1 q a ha
  obtain ⟨h2, -, -, h5, -⟩ := C79_serial_partial (E := E) (clk := clk) b L kind _ hsole.on h1
  obtain ⟨pre', post', e, hs, -⟩ := sole_serial (E := E) (clk := clk) b hsole
  rw [e] at h2 h5
  have := C75_one_execution_partial (E := E) (clk := clk) b L hs (by rw [← h2]; exact h1) q a (by rw [← h2]; exact ha)
  have hp := (h5 q).2
  have ht : (f.site.snap b E q a).inFlight = (((Site.init b.B fun _ => b.empty).run E b.B clk (pre' ++ .begin c (.submit ty nm job cfg) :: post')).snap b E q a).inFlight := by
    show (f.site.boxes q).proc.tasks.map _ = _
    rw [hp]; rfl
  rw [ht]
  exact this

/-- C79, run counts: between turns of the work queue, the stored run count of a new job that one request submits and no other
touches is the number of times its code ran, whenever the job is not running. -/
theorem C79_run_count_partial (h0 : job.context.runCount = 0) :
    let f := (Weave.init b.B fun _ => b.empty).run E b.B clk (pre ++ .site (.begin c (.submit ty nm job cfg)) :: post)
    f.site.hub.engines.length ≤ 1 → ∀ (q : Nat) (a : QueueActor) (j : Job D), f.site.hub.queues[q]? = some a → f.inside q = none → kind job.id = a.ty →
      (f.site.snap b E q a).job job.id = some j → j.context.jobStatus ≠ .running →
      j.context.runCount = ((f.site.snap b E q a).runs job.id).length := by
  intro f h1 q a j ha hi hk hj hr
  obtain ⟨h2, -, -, -, h6⟩ := C79_serial_partial (E := E) (clk := clk) b L kind _ hsole.on h1
  obtain ⟨pre', post', e, hs, -⟩ := sole_serial (E := E) (clk := clk) b hsole
  rw [e] at h2 h6
  have ha' := alike_snap (E := E) b (h6 q a ha hi)
  rw [ha'.job _ hk] at hj
  rw [show (f.site.snap b E q a).runs job.id = _ from by unfold Snap.runs Snap.mine; rw [ha'.log]]
  exact C75_run_count_partial (E := E) (clk := clk) b L hs h0 (by rw [← h2]; exact h1) q a j (by rw [← h2]; exact ha) hk hj hr

/-- C79, timestamps: between turns of the work queue, if its clock never goes back, a job that one request submits and no
other touches and that is Finished or Failed has its timestamps set and in order. -/
theorem C79_timestamps_partial :
    let f := (Weave.init b.B fun _ => b.empty).run E b.B clk (pre ++ .site (.begin c (.submit ty nm job cfg)) :: post)
    f.site.hub.engines.length ≤ 1 → ∀ (q : Nat) (a : QueueActor) (j : Job D), f.site.hub.queues[q]? = some a → f.inside q = none → kind job.id = a.ty →
      (∀ i i', i ≤ i' → clk q i ≤ clk q i') →
      (f.site.snap b E q a).job job.id = some j → j.context.jobStatus = .finished ∨ j.context.jobStatus = .failed →
      ∃ x r z, j.context.enqueueAt = some x ∧ j.context.runAt = some r ∧ j.context.completeAt = some z ∧ x ≤ r ∧ r ≤ z := by
  intro f h1 q a j ha hi hk hmono hj hd
  obtain ⟨h2, -, -, -, h6⟩ := C79_serial_partial (E := E) (clk := clk) b L kind _ hsole.on h1
  obtain ⟨pre', post', e, hs, -⟩ := sole_serial (E := E) (clk := clk) b hsole
  rw [e] at h2 h6
  rw [(alike_snap (E := E) b (h6 q a ha hi)).job _ hk] at hj
  exact C75_timestamps_partial (E := E) (clk := clk) b L hs (by rw [← h2]; exact h1) q a j (by rw [← h2]; exact ha) hk hmono hj hd

/-- C79, scheduled jobs: between turns of the work queue, a job scheduled for `due` that one request submits and no other
touches has not been handed to execution, and its code has not run, unless the work queue has read its clock to be later than
`due`, truncated to microseconds. -/
theorem C79_never_early_partial {due : Time} (hty : job.context.jobType = .scheduledAt due) :
    let f := (Weave.init b.B fun _ => b.empty).run E b.B clk (pre ++ .site (.begin c (.submit ty nm job cfg)) :: post)
    f.site.hub.engines.length ≤ 1 → ∀ (q : Nat) (a : QueueActor), f.site.hub.queues[q]? = some a → f.inside q = none →
      let v := f.site.snap b E q a
      (job.id ∉ v.inFlight ∧ v.runs job.id = []) ∨ ∃ i, i < v.reads ∧ floorUs due < clk q i := by
  intro f h1 q a ha hi v
  obtain ⟨h2, -, -, -, h6⟩ := C79_serial_partial (E := E) (clk := clk) b L kind _ hsole.on h1
  obtain ⟨pre', post', e, hs, -⟩ := sole_serial (E := E) (clk := clk) b hsole
  rw [e] at h2 h6
  have ha' := alike_snap (E := E) b (h6 q a ha hi)
  rw [show v.runs _ = _ from by unfold Snap.runs Snap.mine; rw [ha'.log], show v.inFlight = _ from by unfold Snap.inFlight; rw [ha'.tasks],
    show v.reads = _ from ha'.reads]
  exact C75_never_early_partial (E := E) (clk := clk) b L hs hty (by rw [← h2]; exact h1) q a (by rw [← h2]; exact ha)

omit L in
/-- A bound on the runs of a job that holds between turns holds inside turns. -/
private theorem weave_bound {n : Nat} (q : Nat) (a : QueueActor)
    (h : ∀ post' : List (WeaveOp D O), (∀ o, o ∈ post' → o ∈ post ∨ o = .go q) → WeaveSole kind pre post' c ty nm job cfg →
      let f := (Weave.init b.B fun _ => b.empty).run E b.B clk (pre ++ .site (.begin c (.submit ty nm job cfg)) :: post')
      f.site.hub.engines.length ≤ 1 → f.site.hub.queues[q]? = some a → f.inside q = none → ((f.site.snap b E q a).runs job.id).length ≤ n) :
    let f := (Weave.init b.B fun _ => b.empty).run E b.B clk (pre ++ .site (.begin c (.submit ty nm job cfg)) :: post)
    f.site.hub.engines.length ≤ 1 → f.site.hub.queues[q]? = some a → ((f.site.snap b E q a).runs job.id).length ≤ n := by
  intro f h1 ha
  have ht : Weave.Tidy f := Weave.tidy_run (Weave.tidy_init _) _
  have hsd : Weave.AllSound f := Weave.sound_run (Weave.tidy_init _) (fun _ _ h => by cases h) _
  obtain ⟨m, hm⟩ := Weave.settle (E := E) (clk := clk) ht hsd q
  have hgo := Weave.gos_hub (E := E) (clk := clk) ht q m
  have e : f.run E b.B clk (List.replicate m (.go q)) =
      (Weave.init b.B fun _ => b.empty).run E b.B clk (pre ++ .site (.begin c (.submit ty nm job cfg)) :: (post ++ List.replicate m (.go q))) := by
    rw [← List.cons_append, ← List.append_assoc, Weave.run_append (ops := _ ++ _)]
  refine Nat.le_trans (weave_runs b (Weave.gos_log (E := E) (clk := clk) ht q m)) ?_
  rw [e] at hm hgo ⊢
  refine h _ ?_ ⟨fun d req hm => ?_, fun d req hm => ?_⟩ (by rw [hgo]; exact h1) (by rw [hgo]; exact ha) hm
  · intro o ho
    rcases List.mem_append.1 ho with ho | ho
    · exact .inl ho
    · exact .inr (List.eq_of_mem_replicate ho)
  · refine hsole.on d req ?_
    simp only [List.mem_append, List.mem_cons, List.mem_replicate] at hm ⊢
    rcases hm with hm | hm | hm | ⟨-, hm⟩
    · exact .inl hm
    · exact .inr (.inl hm)
    · exact .inr (.inr hm)
    · cases hm
  · refine hsole.alone d req ?_
    simp only [List.mem_append, List.mem_replicate] at hm ⊢
    rcases hm with hm | hm | ⟨-, hm⟩
    · exact .inl hm
    · exact .inr hm
    · cases hm

/-- C79, plain jobs run at most once: at no moment of the process, whatever turns are in progress, has a work queue run twice
a job without retry policy that is no cron job, which one request submits and no other touches or retries. -/
theorem C79_once_partial (hty : NonCron job) (hr : job.context.retry = none) (hre : ∀ d ty, .site (.begin d (.retry ty job.id)) ∉ pre ++ post) :
    let f := (Weave.init b.B fun _ => b.empty).run E b.B clk (pre ++ .site (.begin c (.submit ty nm job cfg)) :: post)
    f.site.hub.engines.length ≤ 1 → ∀ (q : Nat) (a : QueueActor), f.site.hub.queues[q]? = some a →
      ((f.site.snap b E q a).runs job.id).length ≤ 1 := by
  intro f h1 q a ha
  refine weave_bound (E := E) (clk := clk) b hsole q a (fun post' hpost hsole' h1 ha hi => ?_) h1 ha
  obtain ⟨h2, -, -, -, h6⟩ := C79_serial_partial (E := E) (clk := clk) b L kind _ hsole'.on h1
  obtain ⟨pre', post'', e, hs, hb, -⟩ := sole_serial (E := E) (clk := clk) b hsole'
  rw [e] at h2 h6
  have ha' := alike_snap (E := E) b (h6 q a ha hi)
  unfold Snap.runs Snap.mine
  rw [ha'.log]
  refine C75_once_partial (E := E) (clk := clk) b L hs hty hr (fun d ty hm => ?_) (by rw [← h2]; exact h1) q a (by rw [← h2]; exact ha)
  rcases List.mem_append.1 (hb d _ hm) with hm | hm
  · exact hre d ty (List.mem_append_left _ hm)
  · rcases hpost _ hm with hm | hm
    · exact hre d ty (List.mem_append_right _ hm)
    · cases hm

/-- C79, retries are bounded: at no moment of the process, whatever turns are in progress, has a work queue run more than
`n + 1` times a job with `max_retries = n` that is no cron job, which one request submits and no other touches or retries, if
no execution has a `retry_at` of its own. -/
theorem C79_retries_partial (hty : NonCron job) {r : Retry} {n : Nat} (hr : job.context.retry = some r)
    (h0 : r.retriedTimes = 0) (hn : r.maxRetries = some (n : Int)) (hi : (n : Int) < 2 ^ 31)
    (hre : ∀ d ty, .site (.begin d (.retry ty job.id)) ∉ pre ++ post)
    (hdef : ∀ q i x, .site (.turn q (.finish i x)) ∈ pre ++ post → x.retryAt = none) :
    let f := (Weave.init b.B fun _ => b.empty).run E b.B clk (pre ++ .site (.begin c (.submit ty nm job cfg)) :: post)
    f.site.hub.engines.length ≤ 1 → ∀ (q : Nat) (a : QueueActor), f.site.hub.queues[q]? = some a →
      ((f.site.snap b E q a).runs job.id).length ≤ n + 1 := by
  intro f h1 q a ha
  refine weave_bound (E := E) (clk := clk) b hsole q a (fun post' hpost hsole' h1 ha hidle => ?_) h1 ha
  obtain ⟨h2, -, -, -, h6⟩ := C79_serial_partial (E := E) (clk := clk) b L kind _ hsole'.on h1
  obtain ⟨pre', post'', e, hs, hb, ht⟩ := sole_serial (E := E) (clk := clk) b hsole'
  rw [e] at h2 h6
  have ha' := alike_snap (E := E) b (h6 q a ha hidle)
  unfold Snap.runs Snap.mine
  rw [ha'.log]
  refine C75_retries_partial (E := E) (clk := clk) b L hs hty hr h0 hn hi (fun d ty hm => ?_) (fun p i x hm => ?_) (by rw [← h2]; exact h1) q a (by rw [← h2]; exact ha)
  · rcases List.mem_append.1 (hb d _ hm) with hm | hm
    · exact hre d ty (List.mem_append_left _ hm)
    · rcases hpost _ hm with hm | hm
      · exact hre d ty (List.mem_append_right _ hm)
      · cases hm
  · rcases List.mem_append.1 (ht p _ hm) with hm | hm
    · exact hdef p i x (List.mem_append_left _ hm)
    · rcases hpost _ hm with hm | hm
      · exact hdef p i x (List.mem_append_right _ hm)
      · cases hm

/-- C79, cron jobs with `max_repeat = M`, of a schedule that never ends, built with the count at 1 and without retry policy,
which one request submits and no other touches or retries: at no moment of the process, whatever turns are in progress, has a
work queue run them more than `M` times. -/
theorem C79_max_repeat_partial {e : Str} {next : Time} {M : Nat} {x : CronContext} (hty : job.context.jobType = .cron e next 1 x)
    (hr : job.context.retry = none) (hM : x.maxRepeat = some (M : Int)) (hM' : (M : Int) + 1 < 2 ^ 31)
    (hc : ∀ ty, ∃ f, (E ty).cron e = some f ∧ ∀ t, (f t).isSome = true) (hre : ∀ d ty, .site (.begin d (.retry ty job.id)) ∉ pre ++ post) :
    let f := (Weave.init b.B fun _ => b.empty).run E b.B clk (pre ++ .site (.begin c (.submit ty nm job cfg)) :: post)
    f.site.hub.engines.length ≤ 1 → ∀ (q : Nat) (a : QueueActor), f.site.hub.queues[q]? = some a →
      ((f.site.snap b E q a).runs job.id).length ≤ M := by
  intro f h1 q a ha
  refine weave_bound (E := E) (clk := clk) b hsole q a (fun post' hpost hsole' h1 ha hi => ?_) h1 ha
  obtain ⟨h2, -, -, -, h6⟩ := C79_serial_partial (E := E) (clk := clk) b L kind _ hsole'.on h1
  obtain ⟨pre', post'', e, hs, hb, -⟩ := sole_serial (E := E) (clk := clk) b hsole'
  rw [e] at h2 h6
  have ha' := alike_snap (E := E) b (h6 q a ha hi)
  unfold Snap.runs Snap.mine
  rw [ha'.log]
  refine C75_max_repeat_partial (E := E) (clk := clk) b L hs hty hr hM hM' hc (fun d ty hm => ?_) (by rw [← h2]; exact h1) q a (by rw [← h2]; exact ha)
  rcases List.mem_append.1 (hb d _ hm) with hm | hm
  · exact hre d ty (List.mem_append_left _ hm)
  · rcases hpost _ hm with hm | hm
    · exact hre d ty (List.mem_append_right _ hm)
    · cases hm

end
end

/-! ## Cases -/

section
open Demo

/-- A process of the jobs of `Demo`, whatever their type, whose work queues interleave. -/
def weave (b : Impl) (ops : List (WeaveOp Int Unit)) : Weave Int Unit b.B :=
  (Weave.init b.B fun _ => b.empty).run (fun _ => E) b.B (fun _ => clk) ops

/-- The turns of `weave`, each in one step. -/
def turned (b : Impl) (ops : List (WeaveOp Int Unit)) : List (SiteOp Int Unit) :=
  (Weave.init b.B fun _ => b.empty).serial (fun _ => E) (fun _ => clk) ops

theorem weave_rel (b : Impl) (ops : List (WeaveOp Int Unit)) :
    Weave.Rel b (weave b ops) ((Weave.init SpecB fun _ => Spec.empty).run (fun _ => E) SpecB (fun _ => clk) ops) := Weave.rel_init.run ops

/-- The same on any backend. -/
theorem weave_on (b : Impl) (ops : List (WeaveOp Int Unit)) :
    (weave b ops).site.trace = (weave .memory ops).site.trace ∧ (weave b ops).site.hub = (weave .memory ops).site.hub ∧
      (weave b ops).site.boxes = (weave .memory ops).site.boxes ∧ (weave b ops).inside = (weave .memory ops).inside ∧
      turned b ops = turned .memory ops :=
  ⟨(weave_rel b ops).site.trace.trans (weave_rel .memory ops).site.trace.symm, (weave_rel b ops).site.hub.trans (weave_rel .memory ops).site.hub.symm,
    (weave_rel b ops).site.boxes.trans (weave_rel .memory ops).site.boxes.symm, (weave_rel b ops).inside.trans (weave_rel .memory ops).inside.symm,
    ((Weave.rel_init (b := b)).serial ops).trans ((Weave.rel_init (b := .memory)).serial ops).symm⟩

/-- The steps of `Site`, and those between them in which turns go on. -/
def drawn (g : SiteOp Int Unit → List Nat) (ops : List (SiteOp Int Unit)) : List (WeaveOp Int Unit) :=
  ops.flatMap fun op => .site op :: (g op).map .go

theorem mem_drawn {g : SiteOp Int Unit → List Nat} {ops : List (SiteOp Int Unit)} {o : SiteOp Int Unit} (h : .site o ∈ drawn g ops) : o ∈ ops := by
  obtain ⟨op, h1, h2⟩ := List.mem_flatMap.1 h
  rcases List.mem_cons.1 h2 with h2 | h2
  · cases h2; exact h1
  · obtain ⟨q, -, h⟩ := List.mem_map.1 h2; cases h

theorem drawn_split {g : SiteOp Int Unit → List Nat} {ops pre post : List (SiteOp Int Unit)} {o : SiteOp Int Unit} (he : ops = pre ++ o :: post)
    (hg : g o = []) : drawn g ops = drawn g pre ++ .site o :: drawn g post := by
  subst he
  unfold drawn
  rw [List.flatMap_append, List.flatMap_cons, hg]
  rfl

theorem drawn_sole {g : SiteOp Int Unit → List Nat} {kind : Str → Nat} {pre post : List (SiteOp Int Unit)} {c ty : Nat} {nm : Str} {j : Job Int}
    {cfg : EnqueueConfig} (h : Sole kind pre post c ty nm j cfg) (hg : g (.begin c (.submit ty nm j cfg)) = []) :
    WeaveSole kind (drawn g pre) (drawn g post) c ty nm j cfg where
  on := by
    rw [← drawn_split rfl hg]
    exact fun d req hm => h.on d req (mem_drawn hm)
  alone := by
    intro d req hm
    rcases List.mem_append.1 hm with hm | hm
    · exact h.alone d req (List.mem_append_left _ (mem_drawn hm))
    · exact h.alone d req (List.mem_append_right _ (mem_drawn hm))

/-- The steps of `busy`, with turns that take time: the first ticks, and the submissions, of the two work queues overlap. -/
def drawnOut : SiteOp Int Unit → List Nat
  | .turn 0 .tick => []
  | .handle 0 0 => []
  | .begin 1 (.get _ _) => (List.replicate 12 [0, 1]).flatten
  | .turn _ _ => (List.replicate 12 [0, 1]).flatten
  | .handle _ _ => (List.replicate 12 [0, 1]).flatten
  | _ => []

def slow : List (WeaveOp Int Unit) := drawn drawnOut busy

/-- The turns end in the order of `busy`, and none is in progress at the end. -/
example (b : Impl) : (turns (weave b slow).site.trace).map (fun x => (x.1, x.2.1)) =
    [(0, none), (1, none), (0, some 2), (1, some 1), (0, none), (0, none), (1, some 3), (0, none), (1, some 1), (1, some 3),
      (1, some 2)] ∧ ((weave b slow).inside 0).isNone = true ∧ ((weave b slow).inside 1).isNone = true := by
  rw [(weave_on b _).1, (weave_on b _).2.2.2.1]; decide +kernel

/-- Both work queues are inside a turn, and both have called the backend, while clients go on. -/
example (b : Impl) : (((weave b (drawn drawnOut (busy.take 23) ++ [.site (.turn 1 .tick), .go 0, .go 1])).inside 0).isSome &&
    ((weave b (drawn drawnOut (busy.take 23) ++ [.site (.turn 1 .tick), .go 0, .go 1])).inside 1).isSome) = true := by
  rw [(weave_on b _).2.2.2.1]; decide +kernel

theorem slow_on : ∀ c req, .site (.begin c req) ∈ slow → req.On kindOf := fun c req h => busy_on c req (mem_drawn h)

theorem slow_engines (b : Impl) : (weave b slow).site.hub.engines.length ≤ 1 := by rw [(weave_on b _).2.1]; decide +kernel

/-- `C79_serial_partial` applies: the events are those of the turns one after the other. -/
example (b : Impl) : (weave b slow).site.trace = (site b (turned b slow)).trace := by
  have h1 := slow_engines b
  unfold weave at h1 ⊢
  exact (C79_serial_partial (E := fun _ => E) (clk := fun _ => clk) b (fun _ => lawful) kindOf slow slow_on h1).2.2.1

/-- The submission of `b` in `slow`. -/
theorem slow_split : slow = drawn drawnOut (busy.take 9) ++ .site (.begin 2 (.submit 5 c!"print" (job c!"b" 2) .newReRun)) :: drawn drawnOut (busy.drop 10) :=
  drawn_split busy_split rfl

theorem slow_sole : WeaveSole kindOf (drawn drawnOut (busy.take 9)) (drawn drawnOut (busy.drop 10)) 2 5 c!"print" (job c!"b" 2) .newReRun :=
  drawn_sole busy_sole rfl

theorem not_drawn {g : SiteOp Int Unit → List Nat} {pre post : List (SiteOp Int Unit)} {o : SiteOp Int Unit} (h : o ∉ pre ++ post) :
    .site o ∉ drawn g pre ++ drawn g post := by
  intro hm
  rcases List.mem_append.1 hm with hm | hm
  · exact h (List.mem_append_left _ (mem_drawn hm))
  · exact h (List.mem_append_right _ (mem_drawn hm))

theorem slow_printer (b : Impl) : (weave b slow).site.hub.queues[0]? = some printer := by rw [(weave_on b _).2.1]; decide +kernel

/-- `C79_one_execution_partial` and `C79_once_partial` apply to job `b`, which runs once. -/
example (b : Impl) : ((weave b slow).site.snap b (fun _ => E) 0 printer).inFlight.count c!"b" ≤ 1 := by
  have h := C79_one_execution_partial (E := fun _ => E) (clk := fun _ => clk) b (fun _ => lawful) slow_sole
  rw [← slow_split, show (job c!"b" 2).id = c!"b" from rfl] at h
  have h1 := slow_engines b
  have h2 := slow_printer b
  unfold weave at h1 h2 ⊢
  exact h h1 0 printer h2

example (b : Impl) : (((weave b slow).site.snap b (fun _ => E) 0 printer).runs c!"b").length ≤ 1 := by
  have h := C79_once_partial (E := fun _ => E) (clk := fun _ => clk) b (fun _ => lawful) slow_sole (fun _ _ _ _ h => by cases h) rfl
    (fun d ty => not_drawn (busy_retry d ty))
  rw [← slow_split, show (job c!"b" 2).id = c!"b" from rfl] at h
  have h1 := slow_engines b
  have h2 := slow_printer b
  unfold weave at h1 h2 ⊢
  exact h h1 0 printer h2

example : (((weave .memory slow).site.snap .memory (fun _ => E) 0 printer).runs c!"b").length = 1 := by decide +kernel

/-- `C79_run_count_partial` and `C79_timestamps_partial` apply to it: it is `printed` in the end. -/
theorem slow_job : ((weave .memory slow).site.snap .memory (fun _ => E) 0 printer).job c!"b" = some printed := by decide +kernel
theorem slow_idle : (weave .memory slow).inside 0 = none := Option.isNone_iff_eq_none.1 (by decide +kernel)

example : printed.context.runCount = (((weave .memory slow).site.snap .memory (fun _ => E) 0 printer).runs c!"b").length := by
  have h := C79_run_count_partial (E := fun _ => E) (clk := fun _ => clk) .memory (fun _ => lawful) slow_sole rfl
  rw [← slow_split, show (job c!"b" 2).id = c!"b" from rfl] at h
  have h1 := slow_engines .memory
  have h2 := slow_printer .memory
  have h3 := slow_idle
  have h4 := slow_job
  unfold weave at h1 h2 h3 h4 ⊢
  exact h h1 0 printer _ h2 h3 rfl h4 (by rw [printed_done]; decide)

example : ∃ x r z, printed.context.enqueueAt = some x ∧ printed.context.runAt = some r ∧ printed.context.completeAt = some z ∧ x ≤ r ∧ r ≤ z := by
  have h := C79_timestamps_partial (E := fun _ => E) (clk := fun _ => clk) .memory (fun _ => lawful) slow_sole
  rw [← slow_split, show (job c!"b" 2).id = c!"b" from rfl] at h
  have h1 := slow_engines .memory
  have h2 := slow_printer .memory
  have h3 := slow_idle
  have h4 := slow_job
  unfold weave at h1 h2 h3 h4
  exact h h1 0 printer _ h2 h3 rfl (fun _ _ h => Int.mul_le_mul_of_nonneg_right (Int.ofNat_le.2 h) (by decide)) h4 (.inl printed_done)

/-- `C79_answered` and `C79_ends` apply: `3` and `1` have sent messages to `mail`, which handles them in the rest of `slow`. -/
example : (((weave .memory (drawn drawnOut (busy.take 36))).site.boxes 1).mailbox.map Prod.fst = [3, 1]) ∧
    2 < (weave .memory (drawn drawnOut (busy.take 36))).looks (fun _ => E) (fun _ => clk) 1 (drawn drawnOut (busy.drop 36)) := by decide +kernel

/-- The steps of `varied`, with turns that take time. -/
def calmly : SiteOp Int Unit → List Nat
  | .turn _ _ => List.replicate 40 0
  | .handle _ _ => List.replicate 40 0
  | _ => []

def calm : List (WeaveOp Int Unit) := drawn calmly varied

theorem calm_queue (b : Impl) : (weave b calm).site.hub.queues[0]? = some mailer := by rw [(weave_on b _).2.1]; decide +kernel
theorem calm_engines (b : Impl) : (weave b calm).site.hub.engines.length ≤ 1 := by rw [(weave_on b _).2.1]; decide +kernel

theorem calm_idle (b : Impl) : (weave b calm).inside 0 = none := by
  rw [(weave_on b _).2.2.2.1]; exact Option.isNone_iff_eq_none.1 (by decide +kernel)

/-- The bounds are reached. -/
example : let v := (weave .memory calm).site.snap .memory (fun _ => E) 0 mailer
    (v.runs c!"r").length = 2 ∧ (v.runs c!"m").length = 2 ∧ (v.runs c!"s").length = 1 ∧ v.reads = 30 := by decide +kernel

theorem calm_r : calm = drawn calmly (varied.take 7) ++ .site (.begin 1 (.submit 4 c!"mail" retrying .newReRun)) :: drawn calmly (varied.drop 8) :=
  drawn_split varied_r rfl
theorem calm_s : calm = drawn calmly (varied.take 15) ++ .site (.begin 2 (.submit 4 c!"mail" timed .newReRun)) :: drawn calmly (varied.drop 16) :=
  drawn_split varied_s rfl
theorem calm_m : calm = drawn calmly (varied.take 18) ++ .site (.begin 3 (.submit 4 c!"mail" repeated .newReRun)) :: drawn calmly (varied.drop 19) :=
  drawn_split varied_m rfl

example (b : Impl) : (((weave b calm).site.snap b (fun _ => E) 0 mailer).runs c!"r").length ≤ 2 := by
  have h := C79_retries_partial (E := fun _ => E) (clk := fun _ => clk) b (fun _ => lawful) (drawn_sole (g := calmly) sole_r rfl) (fun _ _ _ _ h => by cases h)
    (r := .newIntervalRetry (some 1) nsPerSec) (n := 1) rfl rfl rfl (by decide) (fun d ty => not_drawn (by simp [varied]))
    (by
      intro q i x h
      have h : SiteOp.turn q (.finish i x) ∈ varied.take 7 ++ varied.drop 8 := by
        rcases List.mem_append.1 h with h | h
        · exact List.mem_append_left _ (mem_drawn h)
        · exact List.mem_append_right _ (mem_drawn h)
      simp only [varied, List.take_succ_cons, List.take_zero, List.drop_succ_cons, List.drop_zero, List.cons_append, List.nil_append,
        List.mem_cons, SiteOp.turn.injEq, Op.finish.injEq, reduceCtorEq, and_false, List.not_mem_nil, or_false, false_or] at h
      rcases h with ⟨-, -, rfl⟩ | ⟨-, -, rfl⟩ | ⟨-, -, rfl⟩ | ⟨-, -, rfl⟩ | ⟨-, -, rfl⟩ <;> rfl)
  rw [← calm_r] at h
  have h1 := calm_engines b
  have h2 := calm_queue b
  unfold weave at h1 h2 ⊢
  exact h h1 0 mailer h2

example (b : Impl) : let v := (weave b calm).site.snap b (fun _ => E) 0 mailer
    (c!"s" ∉ v.inFlight ∧ v.runs c!"s" = []) ∨ ∃ i, i < v.reads ∧ floorUs (20 * nsPerSec) < clk i := by
  have h := C79_never_early_partial (E := fun _ => E) (clk := fun _ => clk) b (fun _ => lawful) (drawn_sole (g := calmly) sole_s rfl) (due := 20 * nsPerSec) rfl
  rw [← calm_s] at h
  have h1 := calm_engines b
  have h2 := calm_queue b
  have h3 := calm_idle b
  unfold weave at h1 h2 h3 ⊢
  exact h h1 0 mailer h2 h3

example (b : Impl) : (((weave b calm).site.snap b (fun _ => E) 0 mailer).runs c!"m").length ≤ 2 := by
  have h := C79_max_repeat_partial (E := fun _ => E) (clk := fun _ => clk) b (fun _ => lawful) (drawn_sole (g := calmly) sole_m rfl) (M := 2)
    (x := { maxRepeat := some 2 }) rfl rfl rfl (by decide) (fun _ => ⟨_, rfl, fun _ => rfl⟩) (fun d ty => not_drawn (by simp [varied]))
  rw [← calm_m] at h
  have h1 := calm_engines b
  have h2 := calm_queue b
  unfold weave at h1 h2 ⊢
  exact h h1 0 mailer h2

/-- Two engines are started at the same time on one backend, a job is submitted, and the two work queues of its type tick at
the same time. -/
def race : List (WeaveOp Int Unit) :=
  ([.begin 0 (.start 7), .begin 1 (.start 7), .client 0 false, .client 1 false, .client 0 false, .client 1 false,
    .client 0 false, .client 0 false, .client 0 false, .post 0,
    .begin 2 (.submit 4 c!"mail" (job c!"a") .newReRun), .client 2 false, .client 2 false,
    .client 1 false, .client 1 false, .client 1 false, .post 1,
    .begin 3 (.submit 4 c!"mail" (job c!"b") .newReRun), .client 3 false, .client 3 false,
    .engine 0, .engine 1, .engine 0, .engine 1, .engine 0, .engine 1, .engine 0, .engine 1,
    .post 2, .handle 0 0] : List (SiteOp Int Unit)).map .site ++ List.replicate 10 (.go 0) ++
    [.site (.turn 0 .tick), .site (.turn 1 .tick)] ++ (List.replicate 14 [.go 0, .go 1]).flatten

/-- C79 without one engine is false: one submission, and the job is in flight on both work queues. With the same turns one
after the other, it is in flight on one. -/
theorem C79_refuted (b : Impl) :
    let f := weave b race
    let t := site b (turned b race)
    (∀ c req, .site (.begin c req) ∈ race → req.On fun _ => 4) ∧ f.site.hub.engines.length = 2 ∧
    ([0, 1].map fun q => (f.site.boxes q).proc.tasks.map (·.orig.id)) = [[c!"a"], [c!"a"]] ∧
    ([0, 1].map fun q => (t.boxes q).proc.tasks.map (·.orig.id)) = [[c!"a"], []] := by
  refine ⟨?_, ?_, ?_, ?_⟩
  · intro c req h
    simp only [race, List.map_cons, List.map_nil, List.mem_append, List.mem_cons, WeaveOp.site.injEq, SiteOp.begin.injEq, reduceCtorEq, List.not_mem_nil,
      or_false, false_or, List.mem_replicate, and_false, List.mem_flatten] at h
    rcases h with (⟨-, rfl⟩ | ⟨-, rfl⟩ | ⟨-, rfl⟩ | ⟨-, rfl⟩) | ⟨l, ⟨-, rfl⟩, h⟩
    · trivial
    · trivial
    · rfl
    · rfl
    · simp at h
  · rw [(weave_on b _).2.1]; decide +kernel
  · rw [(weave_on b _).2.2.1]; decide +kernel
  · rw [(weave_on b _).2.2.2.2]
    have : (site b (turned .memory race)).boxes = (site .memory (turned .memory race)).boxes :=
      (site_rel b _).boxes.trans (site_rel .memory _).boxes.symm
    rw [this]
    decide +kernel

end

end AJ.Props
