import Verif.Proofs.BackendLemmas
import Verif.Model.System

/-! # The backend calls a work queue makes -/

namespace AJ

/-- The calls made on behalf of the work queue `name`. -/
inductive AjOp (name : Str) : BOp → Prop where
  | push (st : JobStatus) (x : Str) : AjOp name (.queuePush (formatQueueName name st) x)
  | move (a b : JobStatus) (fd td : Dir) :
      AjOp name (.queueMove (formatQueueName name a) (formatQueueName name b) 1 fd td)
  | remove (st : JobStatus) (x : Str) : AjOp name (.queueRemove (formatQueueName name st) x)
  | get (st : JobStatus) (d : Dir) : AjOp name (.queueGet (formatQueueName name st) 20 d)
  | count (st : JobStatus) : AjOp name (.queueCount (formatQueueName name st))
  | upsert (k v : Str) : AjOp name (.storageUpsert STORAGE_HASH k v)
  | sget (k : Str) : AjOp name (.storageGet STORAGE_HASH k)

theorem AjOp.okRedis {name : Str} {op : BOp} (h : AjOp name op) : Redis.OkOp (· = STORAGE_HASH) op := by
  cases h <;> simp [Redis.OkOp, formatQueueName_ne_storage]

namespace Prog

/-- Calls of the program are calls of work queue `name`. -/
abbrev Aj {α : Type} (name : Str) (p : Prog α) : Prop := p.AllOps (AjOp name)

variable {α β : Type} {name : Str}

theorem Aj.ret (a : α) : (Prog.ret a).Aj name := trivial
theorem Aj.fail (e : Error) : (Prog.fail e : Prog α).Aj name := trivial

theorem Aj.callQ {p : Prog (Except Error α)} (h : p.Aj name) : (Prog.orFail p).Aj name :=
  AllOps.bind h fun r => by cases r <;> trivial
theorem Aj.callV {op : BOp} (h : AjOp name op) : (Prog.call' op).Aj name := ⟨h, fun _ => trivial⟩
theorem Aj.send (e : Event) : (Prog.send e).Aj name := trivial
theorem Aj.getNow : Prog.getNow.Aj name := fun _ => trivial
theorem Aj.getNowMs : Prog.getNowMs.Aj name := fun _ => trivial
theorem Aj.orPanic (o : Option α) : (Prog.orPanic o).Aj name := by cases o <;> trivial

end Prog

open Prog

section
variable {D O : Type} (E : Env D) (name : Str)

theorem aj_upsert (k : Str) (j : Job D) : (upsertToStorage E k j).Aj name := Aj.callQ (Aj.callV (.upsert _ _))

theorem aj_getFromStorage (k : Str) : (getFromStorage E k).Aj name := by
  refine AllOps.bind (Aj.callV (.sget _)) fun r => ?_
  split <;> trivial

theorem aj_save (j : Job D) : (Job.saveAndNotify E j).Aj name :=
  AllOps.bind (aj_upsert E name _ _) fun _ => Aj.send _

theorem aj_isReady (j : Job D) : (j.isReady).Aj name := fun _ => trivial

theorem aj_nextTick (j : Job D) : (Job.nextTick E j).Aj name := by
  intro t
  simp only [pure_eq, bind_eq, ret_bind]
  split
  · split
    · trivial
    · intro t2
      simp only [ret_bind]
      refine AllOps.bind ?_ fun j' => ?_
      · split
        · exact AllOps.bind (Aj.orPanic _) fun _ => trivial
        · trivial
      · repeat' split
        all_goals trivial
  · trivial

theorem aj_enqueueJ (j : Job D) : (Job.enqueue E j).Aj name :=
  AllOps.bind Aj.getNowMs fun _ => AllOps.bind (aj_save E name _) fun _ => trivial
theorem aj_process (j : Job D) : (Job.process E j).Aj name :=
  AllOps.bind Aj.getNowMs fun _ => AllOps.bind (aj_save E name _) fun _ => trivial
theorem aj_finish (j : Job D) : (Job.finish E j).Aj name :=
  AllOps.bind Aj.getNowMs fun _ => AllOps.bind (aj_save E name _) fun _ => trivial
theorem aj_cancelJ (j : Job D) : (Job.cancel E j).Aj name :=
  AllOps.bind Aj.getNowMs fun _ => AllOps.bind (aj_save E name _) fun _ => trivial
theorem aj_fail (j : Job D) : (Job.fail E j).Aj name :=
  AllOps.bind Aj.getNowMs fun _ => AllOps.bind (aj_save E name _) fun _ => trivial

theorem aj_callRetryAt (x : Executable D O) (chk : Bool) (d : D) (r : Retry) (o : O) :
    (x.callRetryAt chk d r o).Aj name := by
  unfold Executable.callRetryAt
  split
  · unfold defaultRetryAt
    split
    · exact AllOps.bind Aj.getNow fun _ => AllOps.bind (Aj.orPanic _) fun _ => trivial
    · trivial
  · exact AllOps.bind Aj.getNow fun _ => trivial

namespace WorkQueue

theorem aj_enqueue (j : Job D) : (enqueue E name j).Aj name :=
  AllOps.bind (Aj.callQ (Aj.callV (.push _ _))) fun _ => AllOps.bind (aj_enqueueJ E name _) fun _ => trivial

theorem aj_runWithConfig (j : Job D) (c : EnqueueConfig) : (runWithConfig E name j c).Aj name := by
  refine AllOps.bind (aj_getFromStorage E name _) fun r => ?_
  split
  · next ex =>
    have h2 : (if (c.reRun && ex.isDone) = true then enqueue E name j else pure ()).Aj name := by
      split
      · exact aj_enqueue E name _
      · trivial
    dsimp only
    split
    · exact AllOps.bind (aj_upsert E name _ _) fun _ => h2
    · exact h2
  · exact aj_enqueue E name _

theorem aj_reEnqueue (j : Job D) : (reEnqueue E name j).Aj name :=
  AllOps.bind (Aj.callQ (Aj.callV (.remove _ _))) fun _ => AllOps.bind (aj_enqueueJ E name _) fun _ =>
    AllOps.bind (Aj.callV (.push _ _)) fun _ => trivial

theorem aj_removeProcessing (i : Str) : (removeProcessingJob name i).Aj name :=
  AllOps.bind (Aj.callV (.remove _ _)) fun _ => trivial

theorem aj_markFinished (j : Job D) : (markJobIsFinished E name j).Aj name :=
  AllOps.bind (aj_removeProcessing name _) fun _ => AllOps.bind (aj_finish E name _) fun _ =>
    AllOps.bind (Aj.callV (.push _ _)) fun _ => trivial

theorem aj_markFailed (j : Job D) : (markJobIsFailed E name j).Aj name :=
  AllOps.bind (aj_fail E name _) fun _ => AllOps.bind (aj_removeProcessing name _) fun _ =>
    AllOps.bind (Aj.callV (.push _ _)) fun _ => trivial

theorem aj_pickBatch (total : Nat) (ids : List Str) (ready : List (Job D)) :
    (pickBatch E name total ids ready).Aj name := by
  induction ids generalizing ready with
  | nil => trivial
  | cons i ids ih =>
    unfold pickBatch
    refine AllOps.bind (aj_getFromStorage E name _) fun r => ?_
    split
    · refine AllOps.bind (aj_isReady name _) fun b => ?_
      split
      · exact AllOps.bind (aj_process E name _) fun _ => AllOps.bind (Aj.callQ (Aj.callV (.move _ _ _ _))) fun _ => ih _
      · exact AllOps.bind (Aj.callQ (Aj.callV (.move _ _ _ _))) fun _ => ih _
    · exact AllOps.bind (Aj.callQ (Aj.callV (.move _ _ _ _))) fun _ => ih _

theorem aj_pickLoop (total fuel : Nat) (cursor : Int) (ready : List (Job D)) :
    (pickLoop E name total fuel cursor ready).Aj name := by
  induction fuel generalizing cursor ready with
  | zero => trivial
  | succ n ih =>
    unfold pickLoop
    refine AllOps.bind (Aj.callQ (Aj.callV (.get _ _))) fun ids => AllOps.bind (Aj.orPanic _) fun c =>
      AllOps.bind (aj_pickBatch E name _ _ _) fun r => ?_
    split
    · trivial
    · split
      · trivial
      · exact ih _ _

theorem aj_pickJobs (fuel : Nat) (c : WorkQueueConfig) :
    (pickJobsToProcess E name fuel c : Prog (List (Job D))).Aj name := by
  refine AllOps.bind (Aj.callV (.count _)) fun r => ?_
  have key : ∀ n : Nat, (if n ≥ c.maxProcessingJobs then pure []
      else tryPickSpecificReadyJobs E name fuel (c.maxProcessingJobs - n) : Prog (List (Job D))).Aj name := by
    intro n
    split
    · trivial
    · exact AllOps.bind (Aj.callQ (Aj.callV (.count _))) fun _ => aj_pickLoop E name _ _ _ _
  exact key _

theorem aj_executeStart (j : Job D) : (executeStart name j).Aj name := by
  unfold executeStart
  split
  · exact AllOps.bind (AllOps.bind (Aj.callV (.push _ _)) fun _ => trivial) fun _ => trivial
  · exact AllOps.bind (Aj.send _) fun _ => AllOps.bind (Aj.send _) fun _ => trivial

theorem aj_executeFinish (x : Executable D O) (j : Job D) : (executeFinish E name x j).Aj name := by
  have key : ∀ (b : Bool) (j : Job D), (Prog.bind (j.nextTick E) fun r => match r with
    | some next => reEnqueue E name next
    | none => if b then markJobIsFailed E name j else markJobIsFinished E name j).Aj name := by
    intro b j
    refine AllOps.bind (aj_nextTick E name _) fun r => ?_
    split
    · exact aj_reEnqueue E name _
    · split
      · exact aj_markFailed E name _
      · exact aj_markFinished E name _
  unfold executeFinish
  refine AllOps.bind (Aj.send _) fun _ => ?_
  split
  · refine AllOps.bind (aj_callRetryAt name _ _ _ _ _) fun ⟨r, t⟩ => ?_
    cases t with
    | some t => exact aj_reEnqueue E name _
    | none => exact key _ _
  · exact key _ _

theorem aj_taskFinish (x : Executable D O) (o j : Job D) : (taskFinish E name x o j).Aj name := by
  refine AllOps.bind (AllOps.catchErr (aj_executeFinish E name x j)) fun r => ?_
  split
  · trivial
  · exact AllOps.bind (AllOps.catchErr (aj_markFailed E name o)) fun _ => trivial

theorem aj_cancelJob (i : Str) : (cancelJob E name i).Aj name := by
  refine AllOps.bind (aj_getFromStorage E name _) fun r => ?_
  split
  · split
    · exact AllOps.bind (aj_cancelJ E name _) fun _ => Aj.callQ (Aj.callV (.remove _ _))
    · trivial
  · trivial

theorem aj_getJob (i : Str) : (getJob E i).Aj name := aj_getFromStorage E name i

theorem aj_retryJob (i : Str) : (retryJob E name i).Aj name := by
  refine AllOps.bind (aj_getFromStorage E name _) fun r => ?_
  split
  · split
    · exact AllOps.bind (aj_reEnqueue E name _) fun _ => trivial
    · trivial
  · trivial

end WorkQueue
end

/-! ## Simulation of whole systems -/

/-- A system on `B` and one on the specification in the same situation. -/
structure Sim.RS {B : Backend} {ok : BOp → Prop} (S : Sim B ok) {D : Type} (a : Sys D B)
    (b : Sys D SpecB) : Prop where
  w : S.RW a.w b.w
  cfg : a.cfg = b.cfg
  tasks : a.tasks = b.tasks
  alive : a.alive = b.alive

variable {D O : Type} (E : Env D) (name : Str)

theorem Sim.handle {B : Backend} {ok : BOp → Prop} (S : Sim B ok) (clk : Nat → Time) {α : Type}
    (p : Prog α) (hp : p.AllOps ok) (dead : Resp D) (f : Except Error α → Resp D)
    (a : Sys D B) (b : Sys D SpecB) (h : S.RS a b) :
    (Sys.handle B clk a p dead f).2 = (Sys.handle SpecB clk b p dead f).2 ∧
    S.RS (Sys.handle B clk a p dead f).1 (Sys.handle SpecB clk b p dead f).1 := by
  obtain ⟨h1, h2⟩ := S.run clk p hp a.w b.w h.w
  unfold Sys.handle
  rcases e1 : p.run B clk a.w with ⟨r1, w1⟩
  rcases e2 : p.run SpecB clk b.w with ⟨r2, w2⟩
  rw [e1, e2] at h1 h2
  simp only at h1 h2
  subst h1
  cases r1 with
  | ok x => exact ⟨rfl, ⟨h2, h.cfg, h.tasks, h.alive⟩⟩
  | err e => exact ⟨rfl, ⟨h2, h.cfg, h.tasks, h.alive⟩⟩
  | panicked => exact ⟨rfl, ⟨h2, h.cfg, rfl, rfl⟩⟩
  | diverged => exact ⟨rfl, ⟨h2, h.cfg, rfl, rfl⟩⟩

theorem Sim.sysStep {B : Backend} {ok : BOp → Prop} (S : Sim B ok) (hok : ∀ op, AjOp name op → ok op)
    (clk : Nat → Time) (a : Sys D B) (b : Sys D SpecB) (h : S.RS a b) (op : Op D O) :
    (Sys.step E name B clk a op).2 = (Sys.step E name SpecB clk b op).2 ∧
    S.RS (Sys.step E name B clk a op).1 (Sys.step E name SpecB clk b op).1 := by
  have lift : ∀ {α : Type} {p : Prog α}, p.Aj name → p.AllOps ok := by
    intro α p hp
    induction p with
    | ret a => trivial
    | fail e => trivial
    | panic => trivial
    | diverge => trivial
    | call op k ih => exact ⟨hok _ hp.1, fun r => ih r (hp.2 r)⟩
    | now k ih => exact fun t => ih t (hp t)
    | emit e k ih => exact ih hp
  unfold Sys.step
  rw [h.alive]
  cases hal : b.alive with
  | false => exact ⟨rfl, h⟩
  | true =>
    simp only [if_true]
    cases op with
    | enqueue job cfg => exact S.handle clk _ (lift (WorkQueue.aj_runWithConfig E name job cfg)) _ _ a b h
    | cancel i => exact S.handle clk _ (lift (WorkQueue.aj_cancelJob E name i)) _ _ a b h
    | get i => exact S.handle clk _ (lift (WorkQueue.aj_getJob E name i)) _ _ a b h
    | retry i => exact S.handle clk _ (lift (WorkQueue.aj_retryJob E name i)) _ _ a b h
    | config c => exact ⟨rfl, ⟨h.w, rfl, h.tasks, rfl⟩⟩
    | tick =>
      simp only
      have hq := (S.step (.queueCount (formatQueueName name .queued)) a.w.s b.w.s (hok _ (.count _)) h.w.s).1
      have hf : Sys.tickFuel name B a.w.s = Sys.tickFuel name SpecB b.w.s := by
        unfold Sys.tickFuel; rw [hq]
      rw [hf, h.cfg]
      generalize Sys.tickFuel name SpecB b.w.s = fuel
      obtain ⟨h1, h2⟩ := S.run clk _ (lift (WorkQueue.aj_pickJobs E name fuel b.cfg)) a.w b.w h.w
      rcases e1 : (WorkQueue.pickJobsToProcess E name fuel b.cfg).run B clk a.w with ⟨r1, w1⟩
      rcases e2 : (WorkQueue.pickJobsToProcess E name fuel b.cfg).run SpecB clk b.w with ⟨r2, w2⟩
      rw [e1, e2] at h1 h2
      simp only at h1 h2
      subst h1
      cases r1 with
      | ok x => exact ⟨rfl, ⟨h2, rfl, by simp [h.tasks], rfl⟩⟩
      | err e => exact ⟨rfl, ⟨h2, rfl, h.tasks, rfl⟩⟩
      | panicked => exact ⟨rfl, ⟨h2, rfl, rfl, rfl⟩⟩
      | diverged => exact ⟨rfl, ⟨h2, rfl, rfl, rfl⟩⟩
    | start i =>
      simp only [h.tasks]
      split
      · next orig _ =>
        obtain ⟨h1, h2⟩ := S.run clk _ (lift (WorkQueue.aj_executeStart name orig)) a.w b.w h.w
        rcases e1 : (WorkQueue.executeStart name orig).run B clk a.w with ⟨r1, w1⟩
        rcases e2 : (WorkQueue.executeStart name orig).run SpecB clk b.w with ⟨r2, w2⟩
        rw [e1, e2] at h1 h2
        simp only at h1 h2
        subst h1
        rcases r1 with (_ | j) | e | _ | _
        · exact ⟨rfl, ⟨h2, h.cfg, rfl, rfl⟩⟩
        · exact ⟨rfl, ⟨h2, h.cfg, rfl, rfl⟩⟩
        · exact ⟨rfl, ⟨h2, h.cfg, rfl, rfl⟩⟩
        · exact ⟨rfl, ⟨h2, h.cfg, rfl, rfl⟩⟩
        · exact ⟨rfl, ⟨h2, h.cfg, rfl, rfl⟩⟩
      · exact ⟨rfl, h⟩
    | finish i x =>
      simp only [h.tasks]
      split
      · next orig job _ =>
        obtain ⟨h1, h2⟩ := S.run clk _ (lift (WorkQueue.aj_taskFinish E name x orig job)) a.w b.w h.w
        rcases e1 : (WorkQueue.taskFinish E name x orig job).run B clk a.w with ⟨r1, w1⟩
        rcases e2 : (WorkQueue.taskFinish E name x orig job).run SpecB clk b.w with ⟨r2, w2⟩
        rw [e1, e2] at h1 h2
        simp only at h1 h2
        subst h1
        rcases r1 with _ | e | _ | _
        · exact ⟨rfl, ⟨h2, h.cfg, rfl, rfl⟩⟩
        · exact ⟨rfl, ⟨h2, h.cfg, rfl, rfl⟩⟩
        · exact ⟨rfl, ⟨h2, h.cfg, rfl, rfl⟩⟩
        · exact ⟨rfl, ⟨h2, h.cfg, rfl, rfl⟩⟩
      · exact ⟨rfl, h⟩
    | userPanic i =>
      simp only [h.tasks]
      split
      · exact ⟨rfl, ⟨h.w, h.cfg, rfl, rfl⟩⟩
      · exact ⟨rfl, h⟩

theorem Sim.runOps {B : Backend} {ok : BOp → Prop} (S : Sim B ok) (hok : ∀ op, AjOp name op → ok op)
    (clk : Nat → Time) (ops : List (Op D O)) (a : Sys D B) (b : Sys D SpecB) (h : S.RS a b) :
    (Sys.runOps E name B clk a ops).2 = (Sys.runOps E name SpecB clk b ops).2 ∧
    S.RS (Sys.runOps E name B clk a ops).1 (Sys.runOps E name SpecB clk b ops).1 := by
  induction ops generalizing a b with
  | nil => exact ⟨rfl, h⟩
  | cons op ops ih =>
    obtain ⟨h1, h2⟩ := S.sysStep E name hok clk a b h op
    obtain ⟨h3, h4⟩ := ih _ _ h2
    simp only [Sys.runOps]
    exact ⟨by rw [h1, h3], h4⟩

end AJ
