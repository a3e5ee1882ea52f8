import Verif.Spec.Fault
import Verif.Proofs.CrashEnd

/-! # Failing backends -/

namespace AJ
open W

namespace Prog
variable {α β : Type} {B : Backend} {clk : Nat → Time}

/-- The program never returns a value. -/
def NoOk : Prog α → Prop
  | ret _ => False
  | fail _ => True
  | panic => True
  | diverge => True
  | call _ k => ∀ r, NoOk (k r)
  | now k => ∀ t, NoOk (k t)
  | emit _ k => NoOk k

/-- After a failed write that is not of the kind `hid`, the program never returns a value. -/
def Strict (hid : BOp → Prop) : Prog α → Prop
  | call op k => (op.isWrite = true → ¬ hid op → ∀ e, NoOk (k (.error e))) ∧ ∀ r, Strict hid (k r)
  | now k => ∀ t, Strict hid (k t)
  | emit _ k => Strict hid k
  | _ => True

theorem NoOk.bind {p : Prog α} (h : p.NoOk) (f : α → Prog β) : (p.bind f).NoOk := by
  induction p with
  | ret a => exact absurd h id
  | fail e => trivial
  | panic => trivial
  | diverge => trivial
  | call op k ih => exact fun r => ih r (h r)
  | now k ih => exact fun t => ih t (h t)
  | emit e k ih => exact ih h

theorem Strict.bind {hid : BOp → Prop} {p : Prog α} (h : p.Strict hid) {f : α → Prog β} (hf : ∀ a, (f a).Strict hid) :
    (p.bind f).Strict hid := by
  induction p with
  | ret a => exact hf a
  | fail e => trivial
  | panic => trivial
  | diverge => trivial
  | call op k ih => exact ⟨fun h1 h2 e => (h.1 h1 h2 e).bind f, fun r => ih r (h.2 r)⟩
  | now k ih => exact fun t => ih t (h t)
  | emit e k ih => exact ih h

theorem Strict.ret {hid : BOp → Prop} (a : α) : (Prog.ret a).Strict hid := trivial
theorem Strict.getNow {hid : BOp → Prop} : getNow.Strict hid := fun _ => trivial
theorem Strict.now {hid : BOp → Prop} : getNowMs.Strict hid := fun _ => trivial

theorem Strict.callQ {hid : BOp → Prop} {op : BOp} : (orFail (call' op)).Strict hid :=
  ⟨fun _ _ _ => trivial, fun r => by cases r <;> trivial⟩

theorem Strict.callV {hid : BOp → Prop} {op : BOp} (h : op.isWrite = true → hid op) : (call' op).Strict hid :=
  ⟨fun h1 h2 => absurd (h h1) h2, fun _ => trivial⟩

theorem Strict.orPanic {hid : BOp → Prop} {o : Option α} : (orPanic o).Strict hid := by cases o <;> trivial

theorem Strict.ite {hid : BOp → Prop} {c : Prop} [Decidable c] {p q : Prog α} (hp : p.Strict hid) (hq : q.Strict hid) :
    (if c then p else q).Strict hid := by split <;> assumption

theorem NoOk.run {p : Prog α} (h : p.NoOk) (w : World B) (a : α) (w' : World B) : p.run B clk w ≠ (.ok a, w') := by
  induction p generalizing w with
  | ret a => exact absurd h id
  | fail e => exact fun h => nomatch h
  | panic => exact fun h => nomatch h
  | diverge => exact fun h => nomatch h
  | call op k ih => exact ih _ (h _) _
  | now k ih => exact ih _ (h _) _
  | emit e k ih => exact ih h _

/-- A run that returns a value had no failed writes but hidden ones. -/
theorem Strict.trace {hid : BOp → Prop} {p : Prog α} (h : p.Strict hid) {w w' : World B} {a : α}
    (hr : p.run B clk w = (.ok a, w')) {op : BOp} {good : Bool} (hm : (op, good) ∈ p.trace B clk w)
    (hw : op.isWrite = true) (hh : ¬ hid op) : good = true := by
  induction p generalizing w with
  | ret a => cases hm
  | fail e => cases hm
  | panic => cases hm
  | diverge => cases hm
  | call op1 k ih =>
    rcases List.mem_cons.mp hm with e | hm
    · obtain ⟨rfl, rfl⟩ := Prod.mk.inj e
      cases hres : (B.exec op w.s).1 with
      | ok r => rfl
      | error e =>
        have hr : (k (B.exec op w.s).1).run B clk { w with s := (B.exec op w.s).2 } = (.ok a, w') := hr
        rw [hres] at hr
        exact absurd hr ((h.1 hw hh e).run _ _ _)
    · exact ih _ (h.2 _) hr hm
  | now k ih => exact ih _ (h _) hr hm
  | emit e k ih => exact ih h hr hm

end Prog

section
open Prog
variable {D O : Type} {E : Env D} {name : Str} {hid : BOp → Prop}

theorem strict_upsert (k : Str) (j : Job D) : (upsertToStorage E k j).Strict hid := Strict.callQ

theorem strict_get (k : Str) : (getFromStorage E k).Strict hid :=
  Strict.bind (Strict.callV (fun h => by cases h)) fun r => by split <;> trivial

theorem strict_save (j : Job D) : (Job.saveAndNotify E j).Strict hid := Strict.bind (strict_upsert _ _) fun _ => show Strict hid (.emit _ (.ret _)) from trivial

private theorem strict_stamp (f : Int → Job D) :
    (Prog.bind getNowMs fun ms => Prog.bind (Job.saveAndNotify E (f ms)) fun _ => .ret (f ms)).Strict hid :=
  Strict.bind Strict.now fun _ => Strict.bind (strict_save _) fun _ => .ret _

theorem strict_jEnqueue (j : Job D) : (Job.enqueue E j).Strict hid := strict_stamp (fun ms => j.asQueued ms)
theorem strict_jProcess (j : Job D) : (Job.process E j).Strict hid := strict_stamp (fun ms => j.asRunning ms)
theorem strict_jFinish (j : Job D) : (Job.finish E j).Strict hid := strict_stamp (fun ms => j.asFinished ms)
theorem strict_jFail (j : Job D) : (Job.fail E j).Strict hid := strict_stamp (fun ms => j.asFailed ms)
theorem strict_jCancel (j : Job D) : (Job.cancel E j).Strict hid := strict_stamp (fun ms => j.asCanceled ms)

namespace WorkQueue

theorem strict_enqueue (j : Job D) : (enqueue E name j).Strict hid :=
  Strict.bind Strict.callQ fun _ => Strict.bind (strict_jEnqueue j) fun _ => .ret _

theorem strict_submit (j : Job D) (c : EnqueueConfig) : (runWithConfig E name j c).Strict hid := by
  refine Strict.bind (strict_get _) fun r => ?_
  cases r with
  | none => exact strict_enqueue j
  | some ex =>
    simp only [pure_eq, bind_eq]
    split
    · exact Strict.bind (strict_upsert _ _) fun _ => Strict.ite (strict_enqueue j) (.ret _)
    · exact Strict.ite (strict_enqueue j) (.ret _)

theorem strict_cancel (id : Str) : (cancelJob E name id).Strict hid := by
  refine Strict.bind (strict_get _) fun r => ?_
  cases r with
  | none => trivial
  | some j => exact Strict.ite (Strict.bind (strict_jCancel j) fun _ => Strict.callQ) (.ret _)

theorem strict_pickBatch (total : Nat) (ids : List Str) (ready : List (Job D)) : (pickBatch E name total ids ready).Strict hid := by
  induction ids generalizing ready with
  | nil => trivial
  | cons id ids ih =>
    refine Strict.bind (strict_get _) fun r => ?_
    have hrot : ∀ ready, (Prog.bind (orFail (queueMove (formatQueueName name .queued) (formatQueueName name .queued) 1 .back .front))
      fun _ => pickBatch E name total ids ready).Strict hid := fun ready => Strict.bind Strict.callQ fun _ => ih ready
    cases r with
    | none => exact hrot _
    | some j =>
      refine Strict.bind (Strict.bind Strict.getNow fun _ => .ret _) fun b => ?_
      refine Strict.ite ?_ (hrot _)
      exact Strict.bind (strict_jProcess j) fun j' => Strict.bind Strict.callQ fun _ => ih _

theorem strict_pickLoop (total fuel : Nat) (cursor : Int) (ready : List (Job D)) :
    (pickLoop E name total fuel cursor ready).Strict hid := by
  induction fuel generalizing cursor ready with
  | zero => trivial
  | succ fuel ih =>
    refine Strict.bind Strict.callQ fun ids => Strict.bind Strict.orPanic fun c => Strict.bind (strict_pickBatch _ _ _) fun r => ?_
    exact Strict.ite (.ret _) (Strict.ite (.ret _) (ih _ _))

theorem strict_pick (fuel : Nat) (cfg : WorkQueueConfig) : (pickJobsToProcess E name fuel cfg).Strict hid := by
  refine Strict.bind (Strict.callV (fun h => by cases h)) fun r => ?_
  exact Strict.ite (.ret _) (Strict.bind Strict.callQ fun n => strict_pickLoop _ _ _ _)

/-- Calls whose failure `re_enqueue`, `mark_job_is_finished` and `push_failed_job` hide. -/
def Hidden (name : Str) (op : BOp) : Prop :=
  (∃ id, op = .queueRemove (formatQueueName name .running) id) ∨ ∃ st id, op = .queuePush (formatQueueName name st) id

theorem strict_reEnqueue (j : Job D) : (reEnqueue E name j).Strict fun op => ∃ id, op = .queuePush (formatQueueName name .queued) id :=
  Strict.bind Strict.callQ fun _ => Strict.bind (strict_jEnqueue j) fun _ => Strict.bind (Strict.callV fun _ => ⟨_, rfl⟩) fun _ => .ret _

theorem strict_retry (id : Str) : (retryJob E name id).Strict fun op => ∃ id, op = .queuePush (formatQueueName name .queued) id := by
  refine Strict.bind (strict_get _) fun r => ?_
  cases r with
  | none => trivial
  | some j => exact Strict.ite (Strict.bind (strict_reEnqueue j) fun _ => .ret _) (.ret _)

theorem Strict.mono {α : Type} {hid' : BOp → Prop} (h : ∀ op, hid op → hid' op) {p : Prog α} (hp : p.Strict hid) : p.Strict hid' := by
  induction p with
  | call op k ih => exact ⟨fun h1 h2 => hp.1 h1 fun h3 => h2 (h _ h3), fun r => ih r (hp.2 r)⟩
  | now k ih => exact fun t => ih t (hp t)
  | emit e k ih => exact ih hp
  | _ => trivial

theorem strict_markFinished (j : Job D) : (markJobIsFinished E name j).Strict (Hidden name) :=
  Strict.bind (Strict.bind (Strict.callV fun _ => .inl ⟨_, rfl⟩) fun _ => .ret _) fun _ =>
    Strict.bind (strict_jFinish j) fun _ => Strict.bind (Strict.callV fun _ => .inr ⟨_, _, rfl⟩) fun _ => .ret _

theorem strict_markFailed (j : Job D) : (markJobIsFailed E name j).Strict (Hidden name) :=
  Strict.bind (strict_jFail j) fun _ => Strict.bind (Strict.bind (Strict.callV fun _ => .inl ⟨_, rfl⟩) fun _ => .ret _) fun _ =>
    Strict.bind (Strict.callV fun _ => .inr ⟨_, _, rfl⟩) fun _ => .ret _

end WorkQueue
end
open Prog

/-! ## Failing backends that agree -/

/-- Backends `A` and `B` answer the calls `ok` alike. -/
structure Bis (A B : Backend) (ok : BOp → Prop) where
  R : A.S → B.S → Prop
  step : ∀ op s t, ok op → R s t → (A.exec op s).1 = (B.exec op t).1 ∧ R (A.exec op s).2 (B.exec op t).2

/-- Related worlds. -/
structure Bis.RW {A B : Backend} {ok : BOp → Prop} (S : Bis A B ok) (a : World A) (b : World B) : Prop where
  s : S.R a.s b.s
  t : a.t = b.t
  log : a.log = b.log

/-- Related work queues. -/
structure Bis.RS {A B : Backend} {ok : BOp → Prop} (S : Bis A B ok) {D : Type} (a : Sys D A) (b : Sys D B) : Prop where
  w : S.RW a.w b.w
  cfg : a.cfg = b.cfg
  tasks : a.tasks = b.tasks
  alive : a.alive = b.alive

theorem Bis.run {A B : Backend} {ok : BOp → Prop} (S : Bis A B ok) (clk : Nat → Time) {α : Type} (p : Prog α)
    (hp : p.AllOps ok) (a : World A) (b : World B) (h : S.RW a b) :
    (p.run A clk a).1 = (p.run B clk b).1 ∧ S.RW (p.run A clk a).2 (p.run B clk b).2 := by
  induction p generalizing a b with
  | ret x => exact ⟨rfl, h⟩
  | fail e => exact ⟨rfl, h⟩
  | panic => exact ⟨rfl, h⟩
  | diverge => exact ⟨rfl, h⟩
  | call op k ih =>
    obtain ⟨h1, h2⟩ := S.step op a.s b.s hp.1 h.s
    simp only [run_call]
    rw [h1]
    exact ih _ (hp.2 _) _ _ ⟨h2, h.t, h.log⟩
  | now k ih =>
    simp only [Prog.run]
    rw [h.t]
    exact ih _ (hp _) _ _ ⟨h.s, by simp, h.log⟩
  | emit e k ih => exact ih hp _ _ ⟨h.s, h.t, by simp [h.log]⟩

section
variable {D O : Type} (E : Env D) (name : Str)

theorem Bis.handle {A B : Backend} {ok : BOp → Prop} (S : Bis A B ok) (clk : Nat → Time) {α : Type}
    (p : Prog α) (hp : p.AllOps ok) (dead : Resp D) (f : Except Error α → Resp D)
    (a : Sys D A) (b : Sys D B) (h : S.RS a b) :
    (Sys.handle A clk a p dead f).2 = (Sys.handle B clk b p dead f).2 ∧
    S.RS (Sys.handle A clk a p dead f).1 (Sys.handle B clk b p dead f).1 := by
  obtain ⟨h1, h2⟩ := S.run clk p hp a.w b.w h.w
  unfold Sys.handle
  rcases e1 : p.run A clk a.w with ⟨r1, w1⟩
  rcases e2 : p.run B clk b.w with ⟨r2, w2⟩
  rw [e1, e2] at h1 h2
  simp only at h1 h2
  subst h1
  cases r1 with
  | ok x => exact ⟨rfl, ⟨h2, h.cfg, h.tasks, h.alive⟩⟩
  | err e => exact ⟨rfl, ⟨h2, h.cfg, h.tasks, h.alive⟩⟩
  | panicked => exact ⟨rfl, ⟨h2, h.cfg, rfl, rfl⟩⟩
  | diverged => exact ⟨rfl, ⟨h2, h.cfg, rfl, rfl⟩⟩

theorem Bis.sysStep {A B : Backend} {ok : BOp → Prop} (S : Bis A B ok) (hok : ∀ op, AjOp name op → ok op)
    (clk : Nat → Time) (a : Sys D A) (b : Sys D B) (h : S.RS a b) (op : Op D O) :
    (Sys.step E name A clk a op).2 = (Sys.step E name B clk b op).2 ∧
    S.RS (Sys.step E name A clk a op).1 (Sys.step E name B clk b op).1 := by
  have lift : ∀ {α : Type} {p : Prog α}, p.Aj name → p.AllOps ok := by
    intro α p hp
    induction p with
    | ret a => trivial
    | fail e => trivial
    | panic => trivial
    | diverge => trivial
    | call op k ih => exact ⟨hok _ hp.1, fun r => ih r (hp.2 r)⟩
    | now k ih => exact fun t => ih t (hp t)
    | emit e k ih => exact ih hp
  unfold Sys.step
  rw [h.alive]
  cases hal : b.alive with
  | false => exact ⟨rfl, h⟩
  | true =>
    simp only [if_true]
    cases op with
    | enqueue job cfg => exact S.handle clk _ (lift (WorkQueue.aj_runWithConfig E name job cfg)) _ _ a b h
    | cancel i => exact S.handle clk _ (lift (WorkQueue.aj_cancelJob E name i)) _ _ a b h
    | get i => exact S.handle clk _ (lift (WorkQueue.aj_getJob E name i)) _ _ a b h
    | retry i => exact S.handle clk _ (lift (WorkQueue.aj_retryJob E name i)) _ _ a b h
    | config c => exact ⟨rfl, ⟨h.w, rfl, h.tasks, rfl⟩⟩
    | tick =>
      simp only
      have hq := (S.step (.queueCount (formatQueueName name .queued)) a.w.s b.w.s (hok _ (.count _)) h.w.s).1
      have hf : Sys.tickFuel name A a.w.s = Sys.tickFuel name B b.w.s := by
        unfold Sys.tickFuel; rw [hq]
      rw [hf, h.cfg]
      generalize Sys.tickFuel name B b.w.s = fuel
      obtain ⟨h1, h2⟩ := S.run clk _ (lift (WorkQueue.aj_pickJobs E name fuel b.cfg)) a.w b.w h.w
      rcases e1 : (WorkQueue.pickJobsToProcess E name fuel b.cfg).run A clk a.w with ⟨r1, w1⟩
      rcases e2 : (WorkQueue.pickJobsToProcess E name fuel b.cfg).run B clk b.w with ⟨r2, w2⟩
      rw [e1, e2] at h1 h2
      simp only at h1 h2
      subst h1
      cases r1 with
      | ok x => exact ⟨rfl, ⟨h2, rfl, by simp [h.tasks], rfl⟩⟩
      | err e => exact ⟨rfl, ⟨h2, rfl, h.tasks, rfl⟩⟩
      | panicked => exact ⟨rfl, ⟨h2, rfl, rfl, rfl⟩⟩
      | diverged => exact ⟨rfl, ⟨h2, rfl, rfl, rfl⟩⟩
    | start i =>
      simp only [h.tasks]
      split
      · next orig _ =>
        obtain ⟨h1, h2⟩ := S.run clk _ (lift (WorkQueue.aj_executeStart name orig)) a.w b.w h.w
        rcases e1 : (WorkQueue.executeStart name orig).run A clk a.w with ⟨r1, w1⟩
        rcases e2 : (WorkQueue.executeStart name orig).run B clk b.w with ⟨r2, w2⟩
        rw [e1, e2] at h1 h2
        simp only at h1 h2
        subst h1
        rcases r1 with (_ | j) | e | _ | _
        · exact ⟨rfl, ⟨h2, h.cfg, rfl, rfl⟩⟩
        · exact ⟨rfl, ⟨h2, h.cfg, rfl, rfl⟩⟩
        · exact ⟨rfl, ⟨h2, h.cfg, rfl, rfl⟩⟩
        · exact ⟨rfl, ⟨h2, h.cfg, rfl, rfl⟩⟩
        · exact ⟨rfl, ⟨h2, h.cfg, rfl, rfl⟩⟩
      · exact ⟨rfl, h⟩
    | finish i x =>
      simp only [h.tasks]
      split
      · next orig job _ =>
        obtain ⟨h1, h2⟩ := S.run clk _ (lift (WorkQueue.aj_taskFinish E name x orig job)) a.w b.w h.w
        rcases e1 : (WorkQueue.taskFinish E name x orig job).run A clk a.w with ⟨r1, w1⟩
        rcases e2 : (WorkQueue.taskFinish E name x orig job).run B clk b.w with ⟨r2, w2⟩
        rw [e1, e2] at h1 h2
        simp only at h1 h2
        subst h1
        rcases r1 with _ | e | _ | _
        · exact ⟨rfl, ⟨h2, h.cfg, rfl, rfl⟩⟩
        · exact ⟨rfl, ⟨h2, h.cfg, rfl, rfl⟩⟩
        · exact ⟨rfl, ⟨h2, h.cfg, rfl, rfl⟩⟩
        · exact ⟨rfl, ⟨h2, h.cfg, rfl, rfl⟩⟩
      · exact ⟨rfl, h⟩
    | userPanic i =>
      simp only [h.tasks]
      split
      · exact ⟨rfl, ⟨h.w, h.cfg, rfl, rfl⟩⟩
      · exact ⟨rfl, h⟩

end

/-- Calls of other processes keep simulated states related. -/
theorem Sim.execAll {B : Backend} {ok : BOp → Prop} (S : Sim B ok) (ops : List BOp) (h : ∀ op ∈ ops, ok op) {s : B.S} {t : SpecState}
    (hr : S.R s t) : S.R (B.execAll ops s) (SpecB.execAll ops t) := by
  induction ops generalizing s t with
  | nil => exact hr
  | cons op ops ih =>
    exact ih (fun o ho => h o (List.mem_cons_of_mem _ ho)) (S.step op s t (h op List.mem_cons_self) hr).2

/-- A simulated backend under faults. -/
def Sim.faulty {B : Backend} {ok : BOp → Prop} (S : Sim B ok) (script : Nat → Fate) (h : ∀ i, ∀ op ∈ (script i).env, ok op) :
    Bis (Faulty B script) (Faulty SpecB script) ok where
  R := fun s t => S.R s.1 t.1 ∧ s.2 = t.2
  step := by
    rintro op ⟨s, i⟩ ⟨t, j⟩ hop ⟨hr, e⟩
    cases e
    have hr : S.R s t := hr
    have hr' := S.execAll _ (h i) hr
    obtain ⟨h1, h2⟩ := S.step op _ _ hop hr'
    unfold Faulty
    simp only
    cases (script i).fault with
    | none => exact ⟨h1, h2, rfl⟩
    | before => exact ⟨rfl, hr', rfl⟩
    | after => exact ⟨rfl, h2, rfl⟩

section
variable {D O : Type} {E : Env D} {name : Str} {clk : Nat → Time} {b : Impl}

theorem stepWith_ne {B : Backend} {script : Nat → Fate} (s : Sys D B) {op : Op D O} (ho : op ≠ .tick) :
    Sys.stepWith E name B clk script s op =
      ((Sys.step E name (Faulty B script) clk (s.faulty script) op).1.mended, (Sys.step E name (Faulty B script) clk (s.faulty script) op).2) := by
  cases op <;> first | rfl | exact absurd rfl ho

/-- A turn under faults over any backend and over the specification. -/
theorem faulty_mirror {script : Nat → Fate} (h : ∀ i, ∀ op ∈ (script i).env, b.ok op) {s : Sys D b.B} {t : Sys D SpecB}
    (hr : b.sim.RS s t) (op : Op D O) :
    (Sys.stepWith E name b.B clk script s op).2 = (Sys.stepWith E name SpecB clk script t op).2 ∧
    b.sim.RS (Sys.stepWith E name b.B clk script s op).1 (Sys.stepWith E name SpecB clk script t op).1 := by
  have h0 : (b.sim.faulty script h).RS (s.faulty script) (t.faulty script) :=
    ⟨⟨⟨hr.w.s, rfl⟩, hr.w.t, hr.w.log⟩, hr.cfg, hr.tasks, hr.alive⟩
  by_cases ho : op = .tick
  · subst ho
    show (Sys.tickWith E name b.B clk script s).2 = (Sys.tickWith E name SpecB clk script t).2 ∧
      b.sim.RS (Sys.tickWith E name b.B clk script s).1 (Sys.tickWith E name SpecB clk script t).1
    have hq := (b.sim.step (.queueCount (formatQueueName name .queued)) s.w.s t.w.s (b.okAj name _ (.count _)) hr.w.s).1
    have hf : Sys.tickFuel name b.B s.w.s = Sys.tickFuel name SpecB t.w.s := by
      unfold Sys.tickFuel; rw [hq]
    unfold Sys.tickWith
    rw [hr.alive, hf, hr.cfg]
    cases hal : t.alive with
    | false => exact ⟨rfl, hr⟩
    | true =>
      simp only [if_true]
      generalize Sys.tickFuel name SpecB t.w.s = fuel
      obtain ⟨h1, h2⟩ := (b.sim.faulty script h).run clk (WorkQueue.pickJobsToProcess E name fuel t.cfg)
        ((WorkQueue.aj_pickJobs E name fuel t.cfg).mono (b.okAj name)) (s.faulty script).w (t.faulty script).w h0.w
      rcases e1 : (WorkQueue.pickJobsToProcess E name fuel t.cfg).run (Faulty b.B script) clk (s.faulty script).w with ⟨r1, w1⟩
      rcases e2 : (WorkQueue.pickJobsToProcess E name fuel t.cfg).run (Faulty SpecB script) clk (t.faulty script).w with ⟨r2, w2⟩
      rw [e1, e2] at h1 h2
      simp only at h1 h2
      subst h1
      have hw : b.sim.RW ⟨w1.s.1, w1.t, w1.log⟩ ⟨w2.s.1, w2.t, w2.log⟩ := ⟨h2.s.1, h2.t, h2.log⟩
      cases r1 with
      | ok x => exact ⟨rfl, ⟨hw, hr.cfg, congrArg (· ++ _) hr.tasks, hr.alive⟩⟩
      | err e => exact ⟨rfl, ⟨hw, hr.cfg, hr.tasks, hr.alive⟩⟩
      | panicked => exact ⟨rfl, ⟨hw, hr.cfg, rfl, rfl⟩⟩
      | diverged => exact ⟨rfl, ⟨hw, hr.cfg, rfl, rfl⟩⟩
  · obtain ⟨h1, h2⟩ := (b.sim.faulty script h).sysStep E name (b.okAj name) clk (s.faulty script) (t.faulty script) h0 op
    rw [stepWith_ne _ ho, stepWith_ne _ ho]
    exact ⟨h1, ⟨⟨h2.w.s.1, h2.w.t, h2.w.log⟩, h2.cfg, h2.tasks, h2.alive⟩⟩

theorem Alone.ok {script : Nat → Fate} (h : Alone script) : ∀ i, ∀ op ∈ (script i).env, b.ok op := by
  intro i op hm; rw [h i] at hm; cases hm

theorem alone_faultAt (n : Nat) : Alone (faultAt n) := fun _ => rfl

/-- From some call on nothing fails. -/
theorem run_quiet {α : Type} {B : Backend} {script : Nat → Fate} (hA : Alone script) {i : Nat} (hq : ∀ j, i ≤ j → (script j).fault = .none)
    (p : Prog α) (w : World B) :
    ∃ n, p.run (Faulty B script) clk ⟨(w.s, i), w.t, w.log⟩ =
      ((p.run B clk w).1, ⟨((p.run B clk w).2.s, n), (p.run B clk w).2.t, (p.run B clk w).2.log⟩) := by
  induction p generalizing w i with
  | ret a => exact ⟨i, rfl⟩
  | fail e => exact ⟨i, rfl⟩
  | panic => exact ⟨i, rfl⟩
  | diverge => exact ⟨i, rfl⟩
  | call op k ih =>
    have e : (Faulty B script).exec op (w.s, i) = ((B.exec op w.s).1, ((B.exec op w.s).2, i + 1)) := by
      simp [Faulty, hq i (Nat.le_refl _), hA i, Backend.execAll]
    obtain ⟨n, h⟩ := ih (B.exec op w.s).1 (i := i + 1) (fun j hj => hq j (by omega)) { w with s := (B.exec op w.s).2 }
    refine ⟨n, ?_⟩
    simp only [run_call, e]
    exact h
  | now k ih =>
    obtain ⟨n, h⟩ := ih _ hq { w with t := w.t + 1 }
    exact ⟨n, h⟩
  | emit e k ih =>
    obtain ⟨n, h⟩ := ih hq { w with log := w.log ++ [e] }
    exact ⟨n, h⟩

end
end AJ
