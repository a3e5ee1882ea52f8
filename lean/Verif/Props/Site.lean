import Verif.Proofs.SiteAlone
import Verif.Props.Demo

/-!
# The whole process: requests, registry, work queues, backends (C73)
-/

namespace AJ.Props

section
variable {D O : Type} (E : Nat → Env D) (clk : Nat → Nat → Time)

/-- C73, what clients see, in every process with any number of engines, clients, work queues and backends in any state:
the events of every client are requests one after the other. Between the call and the return of a request lie the turns
made for it, no more and no less: one turn of one work queue of the type of the request, with the message of the
request, whose answer is returned; none if there was no work queue; for `update_job` a read and then the submission of
what was read with the new data. So every message is handled once, after the call and before the return. -/
theorem C73_history (B : Backend) (stores : Nat → B.S) (ops : List (SiteOp D O)) (c : Nat) :
    let t := (Site.init B stores).run E B clk ops
    History t.hub.queues c (t.trace.filter (·.of c)) :=
  (Site.links_run (Site.links_init stores) ops).tale c |>.history

/-- C73, turns that no client asks for are ticks and polls of executions. -/
theorem C73_own (B : Backend) (stores : Nat → B.S) (ops : List (SiteOp D O)) (q : Nat) (op : Op D O) (r : Resp D) :
    .turn q none op r ∈ ((Site.init B stores).run E B clk ops).trace → op.Own :=
  Site.run_own _ ops (fun _ _ _ h => absurd h List.not_mem_nil) q op r

/-- C73, answers come: a message in the mailbox of a work queue is handled, and answered, when the work queue has turned
to the front of its mailbox as often as there are messages, whatever else happens in between. -/
theorem C73_answered (B : Backend) (stores : Nat → B.S) (before : List (SiteOp D O)) (c : Nat) (req : Req D) (op : Op D O) (again : Bool)
    (q : Nat) :
    let t := (Site.init B stores).run E B clk before
    t.users c = .posted req op again q → ∀ ops : List (SiteOp D O), (t.boxes q).mailbox.length ≤ ops.countP (·.takes q) →
      ∃ r l l', (t.run E B clk ops).trace = t.trace ++ l ++ .turn q (some c) op r :: l' := by
  intro t hu ops hc
  have hl : t.Links := Site.links_run (Site.links_init stores) before
  have hlink := hl.users c
  rw [hu] at hlink
  obtain ⟨a, ha, -⟩ := hlink.2.typed hl.typed
  obtain ⟨n, hn⟩ := List.mem_iff_getElem?.1 ((hl.mail q c op).2 ⟨req, again, hu⟩)
  exact Site.waits_run hl ha hn ops (Nat.lt_of_lt_of_le (List.getElem?_eq_some_iff.1 hn).1 hc)

/-- C73, every work queue as if alone, in a process with one engine whose job types have ids of their own: each of its
work queues has given the answers, and is in the situation, of a work queue that takes the same turns, one after the
other, alone on an empty backend.

Missing: processes in which several engines were started at once (`C73_refuted`), and job types that share ids. -/
theorem C73_alone_partial (b : Impl) (L : ∀ ty, (E ty).Lawful) (kind : Str → Nat) (ops : List (SiteOp D O))
    (hops : ∀ c req, .begin c req ∈ ops → req.On kind) :
    let t := (Site.init b.B fun _ => b.empty).run E b.B clk ops
    t.hub.engines.length ≤ 1 → ∀ (q : Nat) (a : QueueActor), t.hub.queues[q]? = some a →
      let r := Sys.runOps (E a.ty) a.name b.B (clk q) (Sys.init b.B b.empty) ((turnsOf q t.trace).map Prod.fst)
      r.2 = (turnsOf q t.trace).map Prod.snd ∧ Sys.Alike b a.name (kind · = a.ty) (t.sys q a) r.1 := by
  intro t h1 q a ha
  have hrel : Site.Rel b t ((Site.init SpecB fun _ => Spec.empty).run E SpecB clk ops) :=
    Site.Rel.run ⟨rfl, rfl, fun _ => b.empty_rel, rfl, rfl⟩ ops
  have h2 := Site.alone_run (E := E) (clk := clk) L (Site.links_init fun _ => Spec.empty) (Site.alone_init (kind := kind)) Hub.single_init ops hops
    (by rw [← hrel.hub]; exact h1)
  obtain ⟨h3, h4⟩ := h2.queue q a (by rw [← hrel.hub]; exact ha)
  rw [← hrel.trace] at h3 h4
  simp only [Site.Base.empty] at h3 h4
  obtain ⟨h5, h6⟩ := Sim.runOps (E a.ty) a.name b.sim (b.okAj a.name) (clk q) ((turnsOf q t.trace).map Prod.fst) (Sys.init b.B b.empty)
    (Sys.init SpecB Spec.empty) Impl.rs_init
  refine ⟨h5.trans h3, ?_⟩
  have hp := h4.proc
  simp only [Sys.proc, Proc.mk.injEq] at hp
  refine ⟨?_, ?_, ?_, ?_, ?_, fun st => ?_, fun k hk => ?_⟩
  · rw [h6.cfg, ← hp.1]; simp only [Site.sys, hrel.boxes]
  · rw [h6.tasks, ← hp.2.1]; simp only [Site.sys, hrel.boxes]
  · rw [h6.alive, ← hp.2.2]; simp only [Site.sys, hrel.boxes]
  · rw [h6.w.t, ← h4.reads]; simp only [Site.sys, hrel.boxes]
  · rw [h6.w.log, ← h4.log]; simp only [Site.sys, hrel.boxes]
  · rw [b.list_eq _ _ _ _ h6.w.s]
    exact (b.list_eq _ _ _ _ (hrel.stores a.backend)).trans (h4.part.lists st)
  · rw [b.stored_eq _ _ _ h6.w.s]
    exact (b.stored_eq _ _ _ (hrel.stores a.backend)).trans (h4.part.stored k hk)

end

/-! ## Cases -/

open Demo

namespace SiteCases
deriving instance DecidableEq for Resp
deriving instance DecidableEq for Reply
deriving instance DecidableEq for Req
end SiteCases

/-- What a client was answered last. -/
def lastReply {D O : Type} : User D O → Option (Req D × Reply D)
  | .done req r => some (req, r)
  | _ => none

/-- The answers that were returned, in order. -/
def replies {D O : Type} (tr : List (SiteEvent D O)) : List (Nat × Reply D) := tr.filterMap fun
  | .ret c _ r => some (c, r)
  | _ => none

/-- The answers of the turns, in order, with the work queue and the client. -/
def turns {D O : Type} (tr : List (SiteEvent D O)) : List (Nat × Option Nat × Resp D) := tr.filterMap fun
  | .turn q who _ r => some (q, who, r)
  | _ => none

/-- A process of the jobs of `Demo`, whatever their type. -/
def site (b : Impl) (ops : List (SiteOp Int Unit)) : Site Int Unit b.B :=
  (Site.init b.B fun _ => b.empty).run (fun _ => E) b.B (fun _ => clk) ops

theorem site_rel (b : Impl) (ops : List (SiteOp Int Unit)) :
    Site.Rel b (site b ops) ((Site.init SpecB fun _ => Spec.empty).run (fun _ => E) SpecB (fun _ => clk) ops) :=
  Site.Rel.run ⟨rfl, rfl, fun _ => b.empty_rel, rfl, rfl⟩ ops

/-- The same on any backend. -/
theorem site_on (b : Impl) (ops : List (SiteOp Int Unit)) :
    (site b ops).users = (site .memory ops).users ∧ (site b ops).trace = (site .memory ops).trace ∧
      (site b ops).hub = (site .memory ops).hub :=
  ⟨(site_rel b ops).users.trans (site_rel .memory ops).users.symm, (site_rel b ops).trace.trans (site_rel .memory ops).trace.symm,
    (site_rel b ops).hub.trans (site_rel .memory ops).hub.symm⟩

theorem site_append (b : Impl) (ops more : List (SiteOp Int Unit)) :
    (site b ops).run (fun _ => E) b.B (fun _ => clk) more = site b (ops ++ more) := by
  simp only [site, Site.run, List.foldl_append]

/-- Two threads start an engine at the same time, and two submit a job of the same type; `2` returns. -/
def torn : List (SiteOp Int Unit) :=
  [.begin 0 (.start 7), .begin 1 (.start 8), .client 0 false, .client 1 false, .client 0 false, .client 1 false,
   .client 0 false, .client 0 false, .client 0 false, .post 0,
   .begin 2 (.submit 4 c!"mail" (job c!"a") .newReRun), .client 2 false, .client 2 false,
   .client 1 false, .client 1 false, .client 1 false, .post 1,
   .begin 3 (.submit 4 c!"mail" (job c!"b") .newReRun), .client 3 false, .client 3 false,
   .engine 0, .engine 1, .engine 0, .engine 1, .engine 0, .engine 1, .engine 0, .engine 1,
   .post 2, .handle 0 0, .take 2]

/-- Then `4` reads the job that `2` has submitted. -/
def tornRead : List (SiteOp Int Unit) := [.begin 4 (.get 4 c!"a"), .client 4 false, .post 4, .handle 1 0, .take 4]

/-- C73 without one engine is false: a job is submitted, the submission returns `Ok`, nothing else is asked about it, and
then `get_job` returns `None`. Alone, a work queue that takes the two turns answers with the job. -/
theorem C73_refuted (b : Impl) :
    let t := site b torn
    let t' := t.run (fun _ => E) b.B (fun _ => clk) tornRead
    (∀ c req, .begin c req ∈ torn ++ tornRead → req.On fun _ => 4) ∧
    lastReply (t.users 2) = some (.submit 4 c!"mail" (job c!"a") .newReRun, .answer (.unit (.ok ()))) ∧
    lastReply (t'.users 4) = some (.get 4 c!"a", .answer (.job none)) ∧
    t'.hub.engines.length = 2 ∧
    ((Sys.runOps E c!"mail" b.B clk (Sys.init b.B b.empty) [.enqueue (job c!"a") .newReRun, .get (O := Unit) c!"a"]).2.map fun
      | .job (some j) => j.data == 1
      | _ => false) = [false, true] := by
  refine ⟨?_, ?_, ?_, ?_, ?_⟩
  · intro c req h
    simp only [torn, tornRead, List.cons_append, List.nil_append, List.mem_cons, SiteOp.begin.injEq, reduceCtorEq, List.not_mem_nil,
      or_false, false_or] at h
    rcases h with ⟨-, rfl⟩ | ⟨-, rfl⟩ | ⟨-, rfl⟩ | ⟨-, rfl⟩ | ⟨-, rfl⟩ <;> trivial
  · rw [(site_on b _).1]; decide +kernel
  · rw [site_append, (site_on b _).1]; decide +kernel
  · rw [site_append, (site_on b _).2.2]; decide +kernel
  · have h := fun b => (Sim.runOps E c!"mail" (Impl.sim b) (b.okAj c!"mail") clk [.enqueue (job c!"a") .newReRun, .get (O := Unit) c!"a"]
      (Sys.init b.B b.empty) (Sys.init SpecB Spec.empty) Impl.rs_init).1
    rw [h b, ← h .memory]; decide +kernel

/-- A process with one engine, two job types on one backend, and three threads that submit, read and update while the
work queues work. -/
def busy : List (SiteOp Int Unit) :=
  [.begin 0 (.start 7), .client 0 false, .client 0 false, .client 0 false, .client 0 false, .client 0 false, .post 0,
   .begin 1 (.submit 4 c!"mail" (job c!"a") .newReRun), .client 1 false,
   .begin 2 (.submit 5 c!"print" (job c!"b" 2) .newReRun), .client 2 false, .client 2 false, .client 1 false,
   .engine 0, .engine 0, .engine 0, .engine 0, .engine 0, .engine 0, .engine 0, .engine 0,
   .post 1, .turn 0 .tick, .turn 1 .tick, .post 2, .handle 0 0, .handle 1 0, .take 1, .take 2,
   .turn 0 .tick, .begin 1 (.get 4 c!"a"), .client 1 false, .begin 3 (.update 4 c!"mail" c!"a" 9 none), .client 3 false, .post 3, .post 1,
   .turn 0 (.start 0), .handle 1 0, .take 3, .turn 0 (.finish 0 good), .handle 1 0, .take 1, .client 3 false, .client 3 false,
   .post 3, .handle 1 0, .take 3, .begin 2 (.get 4 c!"a"), .client 2 false, .post 2, .handle 1 0, .take 2]

/-- The answers: all `Ok`; `1` reads the job before the update of `3`, `2` after. -/
example (b : Impl) : (replies (site b busy).trace).map (fun x => (x.1, match x.2 with
    | .answer (.job (some j)) => some j.data
    | .answer (.unit (.ok ())) => some 0
    | _ => none)) = [(0, none), (1, some 0), (2, some 0), (1, some 1), (3, some 0), (2, some 9)] := by
  rw [(site_on b _).2.1]; decide +kernel

/-- The turns: those of the two work queues, for clients and by themselves. Work queue `0` is `print`. -/
example (b : Impl) : (turns (site b busy).trace).map (fun x => (x.1, x.2.1)) =
    [(0, none), (1, none), (0, some 2), (1, some 1), (0, none), (0, none), (1, some 3), (0, none), (1, some 1), (1, some 3),
      (1, some 2)] := by
  rw [(site_on b _).2.1]; decide +kernel

/-- Ids of the two types. -/
def kindOf (id : Str) : Nat := if id = c!"b" then 5 else 4

theorem busy_on : ∀ c req, SiteOp.begin c req ∈ busy → req.On kindOf := by
  intro c req h
  simp only [busy, List.mem_cons, SiteOp.begin.injEq, reduceCtorEq, List.not_mem_nil, or_false, false_or] at h
  rcases h with ⟨-, rfl⟩ | ⟨-, rfl⟩ | ⟨-, rfl⟩ | ⟨-, rfl⟩ | ⟨-, rfl⟩ | ⟨-, rfl⟩
  · trivial
  · exact if_neg (by decide)
  · exact if_pos rfl
  · exact if_neg (by decide)
  · exact ⟨if_neg (by decide), by intro x hx; cases hx⟩
  · exact if_neg (by decide)

theorem site_alone (b : Impl) (kind : Str → Nat) (ops : List (SiteOp Int Unit)) (hops : ∀ c req, .begin c req ∈ ops → req.On kind)
    (h1 : (site b ops).hub.engines.length ≤ 1) (q : Nat) (a : QueueActor) (ha : (site b ops).hub.queues[q]? = some a) :
    (Sys.runOps E a.name b.B clk (Sys.init b.B b.empty) ((turnsOf q (site b ops).trace).map Prod.fst)).2 =
      (turnsOf q (site b ops).trace).map Prod.snd :=
  (C73_alone_partial (fun _ => E) (fun _ => clk) b (fun _ => lawful) kind ops hops h1 q a ha).1

/-- `C73_alone_partial` applies: there is one engine, and the work queue `mail` answers as if alone. -/
example (b : Impl) : ∃ a : QueueActor, (site b busy).hub.queues[1]? = some a ∧ a.name = c!"mail" ∧
    (Sys.runOps E a.name b.B clk (Sys.init b.B b.empty) ((turnsOf 1 (site b busy).trace).map Prod.fst)).2 =
      (turnsOf 1 (site b busy).trace).map Prod.snd := by
  have h1 : (site b busy).hub.engines.length ≤ 1 := by rw [(site_on b _).2.2]; decide +kernel
  have h2 : (site b busy).hub.queues[1]?.map (·.name) = some c!"mail" := by rw [(site_on b _).2.2]; decide +kernel
  obtain ⟨a, ha, hn⟩ := Option.map_eq_some_iff.1 h2
  exact ⟨a, ha, hn, site_alone b kindOf busy busy_on h1 1 a ha⟩

/-- `C73_answered` applies: `3` and `1` have sent messages to `mail`. -/
example (b : Impl) : (match (site b (busy.take 36)).users 1 with
    | .posted (.get 4 _) (.get _) false q => q == 1
    | _ => false) = true ∧ (match (site b (busy.take 36)).users 3 with
    | .posted (.update ..) (.get _) false q => q == 1
    | _ => false) = true := by
  rw [(site_on b _).1]; decide +kernel

end AJ.Props
