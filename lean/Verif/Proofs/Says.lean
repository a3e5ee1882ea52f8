import Verif.Proofs.Footprint
import Verif.Model.Async

/-!
# The messages a work queue sends

Requests, ticks and the outcome of a run send messages about statuses only; no program of a work queue sends the
message that would make the plugins run `after_run`.
-/

namespace AJ

set_option linter.unusedSectionVars false

/-- Not the message that a run has ended. -/
def Event.NotAfter (e : Event) : Prop := ∀ id, e ≠ .hookMsg id false

/-- A message about a status. -/
def Event.IsStatus (e : Event) : Prop := ∃ id st, e = .statusMsg id st

/-- `Q` holds of all messages about statuses. -/
class StatusOk (Q : Event → Prop) : Prop where
  ok : ∀ id st, Q (.statusMsg id st)

instance : StatusOk Event.NotAfter := ⟨fun id st id' e => by cases e⟩
instance : StatusOk Event.IsStatus := ⟨fun id st => ⟨id, st, rfl⟩⟩

namespace Prog
variable {α β : Type} {Q : Event → Prop}

/-- Every event of the program satisfies `Q`. -/
def Says (Q : Event → Prop) : Prog α → Prop
  | ret _ => True
  | fail _ => True
  | panic => True
  | diverge => True
  | call _ k => ∀ r, Says Q (k r)
  | now k => ∀ t, Says Q (k t)
  | emit e k => Q e ∧ Says Q k

theorem Says.bind {p : Prog α} {f : α → Prog β} (hp : p.Says Q) (hf : ∀ a, (f a).Says Q) : (p.bind f).Says Q := by
  induction p with
  | ret a => exact hf a
  | fail e => trivial
  | panic => trivial
  | diverge => trivial
  | call op k ih => exact fun r => ih r (hp r)
  | now k ih => exact fun t => ih t (hp t)
  | emit e k ih => exact ⟨hp.1, ih hp.2⟩

theorem Says.catchErr {p : Prog α} (hp : p.Says Q) : p.catchErr.Says Q := by
  induction p with
  | ret a => trivial
  | fail e => trivial
  | panic => trivial
  | diverge => trivial
  | call op k ih => exact fun r => ih r (hp r)
  | now k ih => exact fun t => ih t (hp t)
  | emit e k ih => exact ⟨hp.1, ih hp.2⟩

theorem Says.run {p : Prog α} (hp : p.Says Q) (B : Backend) (clk : Nat → Time) (w : World B) :
    ∃ l, (p.run B clk w).2.log = w.log ++ l ∧ ∀ e ∈ l, Q e := by
  induction p generalizing w with
  | ret a => exact ⟨[], (List.append_nil _).symm, fun e h => by cases h⟩
  | fail e => exact ⟨[], (List.append_nil _).symm, fun e h => by cases h⟩
  | panic => exact ⟨[], (List.append_nil _).symm, fun e h => by cases h⟩
  | diverge => exact ⟨[], (List.append_nil _).symm, fun e h => by cases h⟩
  | call op k ih => exact ih _ (hp _) _
  | now k ih => exact ih _ (hp _) _
  | emit e k ih =>
    obtain ⟨l, h1, h2⟩ := ih hp.2 { w with log := w.log ++ [e] }
    refine ⟨e :: l, ?_, fun e' he' => ?_⟩
    · rw [Prog.run_emit, h1, List.append_assoc]; rfl
    · rcases List.mem_cons.mp he' with rfl | h
      · exact hp.1
      · exact h2 _ h

theorem Says.callQ {p : Prog (Except Error α)} (h : p.Says Q) : (Prog.orFail p).Says Q :=
  Says.bind h fun r => by cases r <;> trivial
theorem Says.callV {op : BOp} : (Prog.call' op).Says Q := fun _ => trivial
theorem Says.send (e : Event) (h : Q e) : (Prog.send e).Says Q := ⟨h, trivial⟩
theorem Says.getNow : Prog.getNow.Says Q := fun _ => trivial
theorem Says.getNowMs : Prog.getNowMs.Says Q := fun _ => trivial
theorem Says.orPanic (o : Option α) : (Prog.orPanic o).Says Q := by cases o <;> trivial

end Prog

open Prog

section
variable {D O : Type} {Q : Event → Prop} [hQ : StatusOk Q] (E : Env D) (name : Str)

theorem says_upsert (k : Str) (j : Job D) : (upsertToStorage E k j).Says Q := Says.callQ (Says.callV)

theorem says_getFromStorage (k : Str) : (getFromStorage E k).Says Q := by
  refine Says.bind (Says.callV) fun r => ?_
  split <;> trivial

theorem says_save (j : Job D) : (Job.saveAndNotify E j).Says Q :=
  Says.bind (says_upsert E _ _) fun _ => (Says.send _ (hQ.ok _ _))

theorem says_isReady (j : Job D) : (j.isReady).Says Q := fun _ => trivial

theorem says_nextTick (j : Job D) : (Job.nextTick E j).Says Q := by
  intro t
  simp only [pure_eq, bind_eq, ret_bind]
  split
  · split
    · trivial
    · intro t2
      simp only [ret_bind]
      refine Says.bind ?_ fun j' => ?_
      · split
        · exact Says.bind (Says.orPanic _) fun _ => trivial
        · trivial
      · repeat' split
        all_goals trivial
  · trivial

theorem says_enqueueJ (j : Job D) : (Job.enqueue E j).Says Q :=
  Says.bind Says.getNowMs fun _ => Says.bind (says_save E _) fun _ => trivial
theorem says_process (j : Job D) : (Job.process E j).Says Q :=
  Says.bind Says.getNowMs fun _ => Says.bind (says_save E _) fun _ => trivial
theorem says_finish (j : Job D) : (Job.finish E j).Says Q :=
  Says.bind Says.getNowMs fun _ => Says.bind (says_save E _) fun _ => trivial
theorem says_cancelJ (j : Job D) : (Job.cancel E j).Says Q :=
  Says.bind Says.getNowMs fun _ => Says.bind (says_save E _) fun _ => trivial
theorem says_fail (j : Job D) : (Job.fail E j).Says Q :=
  Says.bind Says.getNowMs fun _ => Says.bind (says_save E _) fun _ => trivial

theorem says_callRetryAt (x : Executable D O) (chk : Bool) (d : D) (r : Retry) (o : O) :
    (x.callRetryAt chk d r o).Says Q := by
  unfold Executable.callRetryAt
  split
  · unfold defaultRetryAt
    split
    · exact Says.bind Says.getNow fun _ => Says.bind (Says.orPanic _) fun _ => trivial
    · trivial
  · exact Says.bind Says.getNow fun _ => trivial

namespace WorkQueue

theorem says_enqueue (j : Job D) : (enqueue E name j).Says Q :=
  Says.bind (Says.callQ (Says.callV)) fun _ => Says.bind (says_enqueueJ E _) fun _ => trivial

theorem says_runWithConfig (j : Job D) (c : EnqueueConfig) : (runWithConfig E name j c).Says Q := by
  refine Says.bind (says_getFromStorage E _) fun r => ?_
  split
  · next ex =>
    have h2 : (if (c.reRun && ex.isDone) = true then enqueue E name j else pure ()).Says Q := by
      split
      · exact says_enqueue E name _
      · trivial
    dsimp only
    split
    · exact Says.bind (says_upsert E _ _) fun _ => h2
    · exact h2
  · exact says_enqueue E name _

theorem says_reEnqueue (j : Job D) : (reEnqueue E name j).Says Q :=
  Says.bind (Says.callQ (Says.callV)) fun _ => Says.bind (says_enqueueJ E _) fun _ =>
    Says.bind (Says.callV) fun _ => trivial

theorem says_removeProcessing (i : Str) : (removeProcessingJob name i).Says Q :=
  Says.bind (Says.callV) fun _ => trivial

theorem says_markFinished (j : Job D) : (markJobIsFinished E name j).Says Q :=
  Says.bind (says_removeProcessing name _) fun _ => Says.bind (says_finish E _) fun _ =>
    Says.bind (Says.callV) fun _ => trivial

theorem says_markFailed (j : Job D) : (markJobIsFailed E name j).Says Q :=
  Says.bind (says_fail E _) fun _ => Says.bind (says_removeProcessing name _) fun _ =>
    Says.bind (Says.callV) fun _ => trivial

theorem says_pickBatch (total : Nat) (ids : List Str) (ready : List (Job D)) :
    (pickBatch E name total ids ready).Says Q := by
  induction ids generalizing ready with
  | nil => trivial
  | cons i ids ih =>
    unfold pickBatch
    refine Says.bind (says_getFromStorage E _) fun r => ?_
    split
    · refine Says.bind (says_isReady _) fun b => ?_
      split
      · exact Says.bind (says_process E _) fun _ => Says.bind (Says.callQ (Says.callV)) fun _ => ih _
      · exact Says.bind (Says.callQ (Says.callV)) fun _ => ih _
    · exact Says.bind (Says.callQ (Says.callV)) fun _ => ih _

theorem says_pickLoop (total fuel : Nat) (cursor : Int) (ready : List (Job D)) :
    (pickLoop E name total fuel cursor ready).Says Q := by
  induction fuel generalizing cursor ready with
  | zero => trivial
  | succ n ih =>
    unfold pickLoop
    refine Says.bind (Says.callQ (Says.callV)) fun ids => Says.bind (Says.orPanic _) fun c =>
      Says.bind (says_pickBatch E name _ _ _) fun r => ?_
    split
    · trivial
    · split
      · trivial
      · exact ih _ _

theorem says_pickJobs (fuel : Nat) (c : WorkQueueConfig) :
    (pickJobsToProcess E name fuel c : Prog (List (Job D))).Says Q := by
  refine Says.bind (Says.callV) fun r => ?_
  have key : ∀ n : Nat, (if n ≥ c.maxProcessingJobs then pure []
      else tryPickSpecificReadyJobs E name fuel (c.maxProcessingJobs - n) : Prog (List (Job D))).Says Q := by
    intro n
    split
    · trivial
    · exact Says.bind (Says.callQ (Says.callV)) fun _ => says_pickLoop E name _ _ _ _
  exact key _

theorem says_executeStart (hR : ∀ id, Q (.hookMsg id true)) (hC : ∀ c, Q (.ran c)) (j : Job D) :
    (executeStart name j).Says Q := by
  unfold executeStart
  split
  · exact Says.bind (Says.bind (Says.callV) fun _ => trivial) fun _ => trivial
  · exact Says.bind (Says.send _ (hR _)) fun _ => Says.bind (Says.send _ (hC _)) fun _ => trivial

theorem says_outcome (x : Executable D O) (j : Job D) : (outcome E name x j).Says Q := by
  have key : ∀ (b : Bool) (j : Job D), (Prog.bind (j.nextTick E) fun r => match r with
    | some next => reEnqueue E name next
    | none => if b then markJobIsFailed E name j else markJobIsFinished E name j).Says Q := by
    intro b j
    refine Says.bind (says_nextTick E _) fun r => ?_
    split
    · exact says_reEnqueue E name _
    · split
      · exact says_markFailed E name _
      · exact says_markFinished E name _
  unfold outcome
  dsimp only
  split
  · refine Says.bind (says_callRetryAt _ _ _ _ _) fun ⟨r, t⟩ => ?_
    cases t with
    | some t => exact says_reEnqueue E name _
    | none => exact key _ _
  · exact key _ _

theorem says_taskOutcome (x : Executable D O) (o j : Job D) : (taskOutcome E name x o j).Says Q := by
  refine Says.bind (Says.catchErr (says_outcome E name x j)) fun r => ?_
  split
  · trivial
  · exact Says.bind (Says.catchErr (says_markFailed E name o)) fun _ => trivial

/-- The second half of a task is its after message and the rest. -/
theorem taskFinish_eq (x : Executable D O) (orig job : Job D) :
    taskFinish E name x orig job = .emit (.hookMsg job.id true) (taskOutcome E name x orig job) := rfl

theorem says_taskFinish (hR : ∀ id, Q (.hookMsg id true)) (x : Executable D O) (o j : Job D) :
    (taskFinish E name x o j).Says Q := ⟨hR _, says_taskOutcome E name x o j⟩

theorem says_cancelJob (i : Str) : (cancelJob E name i).Says Q := by
  refine Says.bind (says_getFromStorage E _) fun r => ?_
  split
  · split
    · exact Says.bind (says_cancelJ E _) fun _ => Says.callQ (Says.callV)
    · trivial
  · trivial

theorem says_getJob (i : Str) : (getJob E i).Says Q := says_getFromStorage E i

theorem says_retryJob (i : Str) : (retryJob E name i).Says Q := by
  refine Says.bind (says_getFromStorage E _) fun r => ?_
  split
  · split
    · exact Says.bind (says_reEnqueue E name _) fun _ => trivial
    · trivial
  · trivial

end WorkQueue
end

namespace Sys
variable {D O : Type} {Q : Event → Prop} [hQ : StatusOk Q] {E : Env D} {name : Str} {clk : Nat → Time} {B : Backend}

theorem log_handle {α : Type} (s : Sys D B) (p : Prog α) (hp : p.Says Q) (dead : Resp D) (f : Except Error α → Resp D) :
    ∃ l, (Sys.handle B clk s p dead f).1.w.log = s.w.log ++ l ∧ ∀ e ∈ l, Q e := by
  have := hp.run B clk s.w
  unfold Sys.handle
  generalize p.run B clk s.w = q at this
  obtain ⟨r, w⟩ := q
  cases r <;> exact this

/-- The events of a turn, over any backend. -/
theorem log_step (s : Sys D B) (op : Op D O) (hR : (∃ i, op = .start i) ∨ (∃ i x, op = .finish i x) → ∀ id, Q (.hookMsg id true))
    (hC : (∃ i, op = .start i) → ∀ c, Q (.ran c)) :
    ∃ l, (Sys.step E name B clk s op).1.w.log = s.w.log ++ l ∧ ∀ e ∈ l, Q e := by
  have h0 : ∃ l, s.w.log = s.w.log ++ l ∧ ∀ e ∈ l, Q e := ⟨[], (List.append_nil _).symm, fun e h => by cases h⟩
  unfold Sys.step
  split
  case isFalse => exact h0
  cases op with
  | enqueue j c => exact log_handle s _ (WorkQueue.says_runWithConfig E name _ _) _ _
  | cancel i => exact log_handle s _ (WorkQueue.says_cancelJob E name _) _ _
  | get i => exact log_handle s _ (WorkQueue.says_getJob E _) _ _
  | retry i => exact log_handle s _ (WorkQueue.says_retryJob E name _) _ _
  | config c => exact h0
  | tick =>
    have := (WorkQueue.says_pickJobs (Q := Q) E name (tickFuel name B s.w.s) s.cfg).run B clk s.w
    simp only
    generalize Prog.run B clk (WorkQueue.pickJobsToProcess E name (tickFuel name B s.w.s) s.cfg) s.w = q at this ⊢
    obtain ⟨r, w⟩ := q
    cases r <;> exact this
  | start i =>
    simp only
    split
    · next orig _ =>
      have := (WorkQueue.says_executeStart (Q := Q) name (hR (.inl ⟨i, rfl⟩)) (hC ⟨i, rfl⟩) orig).run B clk s.w
      generalize Prog.run B clk (WorkQueue.executeStart name orig) s.w = q at this ⊢
      obtain ⟨r, w⟩ := q
      cases r with
      | ok o => cases o <;> exact this
      | _ => exact this
    · exact h0
  | finish i x =>
    simp only
    split
    · next orig job _ =>
      have := (WorkQueue.says_taskFinish (Q := Q) E name (hR (.inr ⟨i, x, rfl⟩)) x orig job).run B clk s.w
      generalize Prog.run B clk (WorkQueue.taskFinish E name x orig job) s.w = q at this ⊢
      obtain ⟨r, w⟩ := q
      cases r <;> exact this
    · exact h0
  | userPanic i =>
    simp only
    split <;> exact h0

/-- No turn of a work queue, over any backend, sends the message that a run has ended. -/
theorem says (s : Sys D B) (op : Op D O) (h : ∀ e ∈ s.w.log, e.NotAfter) :
    ∀ e ∈ (Sys.step E name B clk s op).1.w.log, e.NotAfter := by
  obtain ⟨l, h1, h2⟩ := log_step (Q := Event.NotAfter) (E := E) (name := name) (clk := clk) s op
    (fun _ id id' e => by cases e) (fun _ c id' e => by cases e)
  intro e he
  rw [h1] at he
  rcases List.mem_append.mp he with he | he
  · exact h e he
  · exact h2 e he

end Sys
end AJ
