import Verif.Proofs.Duo
import Verif.Spec.Many

/-! # Work queues of several job types on one backend -/

namespace AJ
open Prog

/-! ## Turns as programs -/

section
variable {α β : Type} {B : Backend} {clk : Nat → Time}

theorem Prog.run_attempt (p : Prog α) (w : World B) :
    p.attempt.run B clk w = (.ok (p.run B clk w).1, (p.run B clk w).2) := by
  induction p generalizing w with
  | call op k ih => exact ih _ _
  | now k ih => exact ih _ _
  | emit e k ih => exact ih _
  | _ => rfl

theorem Prog.AllOps.attempt {ok : BOp → Prop} {p : Prog α} (hp : p.AllOps ok) : p.attempt.AllOps ok := by
  induction p with
  | call op k ih => exact ⟨hp.1, fun r => ih r (hp.2 r)⟩
  | now k ih => exact fun t => ih t (hp t)
  | emit e k ih => exact ih hp
  | _ => trivial

theorem Prog.Rely.attempt {ok : BOp → Prop} {good : (op : BOp) → Except Error op.Res → Prop} {post : α → Prop} {p : Prog α}
    (hp : p.Rely ok good post) : p.attempt.Rely ok good fun r => ∀ a, r = .ok a → post a := by
  induction p with
  | ret a => intro b h; cases h; exact hp
  | fail e => intro b h; cases h
  | panic => intro b h; cases h
  | diverge => intro b h; cases h
  | call op k ih => exact ⟨hp.1, fun r h => ih r (hp.2 r h)⟩
  | now k ih => exact fun t => ih t (hp t)
  | emit e k ih => exact ih hp

theorem Prog.Rely.catchErr {ok : BOp → Prop} {good : (op : BOp) → Except Error op.Res → Prop} {post : α → Prop} {p : Prog α}
    (hp : p.Rely ok good post) : p.catchErr.Rely ok good fun _ => True := by
  induction p with
  | call op k ih => exact ⟨hp.1, fun r h => ih r (hp.2 r h)⟩
  | now k ih => exact fun t => ih t (hp t)
  | emit e k ih => exact ih hp
  | _ => trivial

end

section
variable {D O : Type} {E : Env D} {name : Str} {clk : Nat → Time}

/-- What a process has for itself. -/
def Sys.proc {B : Backend} (s : Sys D B) : Proc D := ⟨s.cfg, s.tasks, s.alive⟩

private theorem run_handle {α : Type} (s : Sys D SpecB) (q : Prog α) (dead : Resp D) (f : Except Error α → Resp D) :
    (s.proc.handle q dead f).run SpecB clk s.w =
      (.ok ((Sys.handle SpecB clk s q dead f).1.proc, (Sys.handle SpecB clk s q dead f).2), (Sys.handle SpecB clk s q dead f).1.w) := by
  unfold Proc.handle Sys.handle
  rw [run_bind, run_attempt]
  generalize q.run SpecB clk s.w = r
  obtain ⟨r, w⟩ := r
  cases r <;> rfl

theorem run_turn (s : Sys D SpecB) (op : Op D O) :
    (s.proc.turn E name op).run SpecB clk s.w =
      (.ok ((Sys.step E name SpecB clk s op).1.proc, (Sys.step E name SpecB clk s op).2), (Sys.step E name SpecB clk s op).1.w) := by
  obtain ⟨w, cfg, tasks, alive⟩ := s
  cases alive with
  | false => rfl
  | true =>
    have hh : ∀ {α : Type} (q : Prog α) (dead : Resp D) (f : Except Error α → Resp D), _ :=
      fun q dead f => run_handle (clk := clk) ⟨w, cfg, tasks, true⟩ q dead f
    cases op with
    | enqueue job c => exact hh ..
    | cancel id => exact hh ..
    | get id =>
      exact hh (WorkQueue.getJob E id) (.job none) (fun r => match r with
        | .ok j => .job j
        | .error _ => .job none)
    | retry id => exact hh ..
    | config c => rfl
    | tick =>
      show ((WorkQueue.pickJobsToProcess E name (Sys.tickFuel name SpecB w.s) cfg).attempt.bind _).run SpecB clk w = _
      rw [run_bind, run_attempt]
      simp only [Sys.step, if_true]
      generalize (WorkQueue.pickJobsToProcess E name (Sys.tickFuel name SpecB w.s) cfg).run SpecB clk w = r
      obtain ⟨r, w⟩ := r
      cases r <;> rfl
    | start i =>
      show (Proc.turn E name ⟨cfg, tasks, true⟩ _).run SpecB clk w = _
      simp only [Proc.turn, Sys.step, if_true]
      generalize tasks[i]? = x
      rcases x with _ | ⟨orig, _ | job⟩
      · rfl
      · simp only
        rw [run_bind, run_attempt]
        generalize (WorkQueue.executeStart name _).run SpecB clk w = r
        obtain ⟨r, w⟩ := r
        rcases r with (_ | j) | e | _ | _ <;> rfl
      · rfl
    | finish i x =>
      show (Proc.turn E name ⟨cfg, tasks, true⟩ _).run SpecB clk w = _
      simp only [Proc.turn, Sys.step, if_true]
      generalize tasks[i]? = y
      rcases y with _ | ⟨orig, _ | job⟩
      · rfl
      · rfl
      · simp only
        rw [run_bind, run_attempt]
        generalize (WorkQueue.taskFinish E name x _ _).run SpecB clk w = r
        obtain ⟨r, w⟩ := r
        rcases r with _ | e | _ | _ <;> rfl
    | userPanic i =>
      show (Proc.turn E name ⟨cfg, tasks, true⟩ _).run SpecB clk w = _
      simp only [Proc.turn, Sys.step, if_true]
      generalize tasks[i]? = y
      rcases y with _ | ⟨orig, _ | job⟩ <;> rfl

theorem run_history (s : Sys D SpecB) (ops : List (Op D O)) :
    (s.proc.history E name ops).run SpecB clk s.w =
      (.ok ((Sys.runOps E name SpecB clk s ops).1.proc, (Sys.runOps E name SpecB clk s ops).2), (Sys.runOps E name SpecB clk s ops).1.w) := by
  induction ops generalizing s with
  | nil => rfl
  | cons op ops ih =>
    unfold Proc.history
    rw [run_bind, run_turn]
    show (Prog.bind _ _).run SpecB clk _ = _
    rw [run_bind, ih]
    rfl

variable (E name) in
theorem aj_turn (p : Proc D) (op : Op D O) : (p.turn E name op).Aj name := by
  have hh : ∀ {α : Type} (q : Prog α) (dead : Resp D) (f : Except Error α → Resp D), q.Aj name → (p.handle q dead f).Aj name := by
    intro α q dead f hq
    exact AllOps.bind hq.attempt fun r => by cases r <;> trivial
  unfold Proc.turn
  split
  · cases op with
    | enqueue job cfg => exact hh _ _ _ (WorkQueue.aj_runWithConfig E name job cfg)
    | cancel id => exact hh _ _ _ (WorkQueue.aj_cancelJob E name id)
    | get id => exact hh _ _ _ (WorkQueue.aj_getJob E name id)
    | retry id => exact hh _ _ _ (WorkQueue.aj_retryJob E name id)
    | config c => trivial
    | tick =>
      refine AllOps.bind (Aj.callV (.count _)) fun r => AllOps.bind (WorkQueue.aj_pickJobs E name _ _).attempt fun r => ?_
      cases r <;> trivial
    | start i =>
      simp only
      split
      · refine AllOps.bind (WorkQueue.aj_executeStart name _).attempt fun r => ?_
        rcases r with (_ | j) | e | _ | _ <;> trivial
      · trivial
    | finish i x =>
      simp only
      split
      · refine AllOps.bind (WorkQueue.aj_taskFinish E name x _ _).attempt fun r => ?_
        cases r <;> trivial
      · trivial
    | userPanic i =>
      simp only
      split <;> trivial
  · trivial

variable (E name) in
theorem aj_history (p : Proc D) (ops : List (Op D O)) : (p.history E name ops).Aj name := by
  induction ops generalizing p with
  | nil => trivial
  | cons op ops ih => exact AllOps.bind (aj_turn E name p op) fun a => AllOps.bind (ih _) fun _ => trivial

/-! ## The part of the backend that belongs to a work queue -/

/-- Calls about the lists of `name` and ids in `K`. -/
inductive OwnOp (E : Env D) (name : Str) (K : Str → Prop) : BOp → Prop where
  | push (st : JobStatus) (x : Str) (h : K x) : OwnOp E name K (.queuePush (formatQueueName name st) x)
  | move (a b : JobStatus) (fd td : Dir) : OwnOp E name K (.queueMove (formatQueueName name a) (formatQueueName name b) 1 fd td)
  | remove (st : JobStatus) (x : Str) : OwnOp E name K (.queueRemove (formatQueueName name st) x)
  | get (st : JobStatus) (d : Dir) : OwnOp E name K (.queueGet (formatQueueName name st) 20 d)
  | count (st : JobStatus) : OwnOp E name K (.queueCount (formatQueueName name st))
  | upsert (k v : Str) (h : K k) (hv : ∀ j, E.codec.dec v = some j → j.id = k) : OwnOp E name K (.storageUpsert STORAGE_HASH k v)
  | sget (k : Str) (h : K k) : OwnOp E name K (.storageGet STORAGE_HASH k)

/-- Answers about ids in `K`. -/
def OwnGood (E : Env D) (K : Str → Prop) : (op : BOp) → Except Error op.Res → Prop
  | .queueGet _ _ _, .ok l => ∀ x ∈ l, K x
  | .storageGet _ k, .ok (some v) => ∀ j, E.codec.dec v = some j → j.id = k
  | _, _ => True

/-- The lists of `name` have ids in `K` only, and stored jobs are stored under their ids. -/
structure Own (E : Env D) (name : Str) (K : Str → Prop) (s : SpecState) : Prop where
  lists : ∀ st, ∀ x ∈ s.q (formatQueueName name st), K x
  keyed : ∀ k, K k → ∀ v, s.st STORAGE_HASH k = some v → ∀ j, E.codec.dec v = some j → j.id = k

/-- The same for work queue `name` with ids in `K`. -/
structure SamePart (name : Str) (K : Str → Prop) (s s' : SpecState) : Prop where
  lists : ∀ st, s.q (formatQueueName name st) = s'.q (formatQueueName name st)
  stored : ∀ k, K k → s.st STORAGE_HASH k = s'.st STORAGE_HASH k

variable {K : Str → Prop}

theorem SamePart.refl (s : SpecState) : SamePart name K s s := ⟨fun _ => rfl, fun _ _ => rfl⟩

theorem SamePart.trans {s s' s'' : SpecState} (h : SamePart name K s s') (h' : SamePart name K s' s'') : SamePart name K s s'' :=
  ⟨fun st => (h.lists st).trans (h'.lists st), fun k hk => (h.stored k hk).trans (h'.stored k hk)⟩

theorem SamePart.symm {s s' : SpecState} (h : SamePart name K s s') : SamePart name K s' s :=
  ⟨fun st => (h.lists st).symm, fun k hk => (h.stored k hk).symm⟩

theorem Own.agree {s s' : SpecState} (h : Own E name K s) (ha : SamePart name K s s') : Own E name K s' :=
  ⟨fun st x hx => h.lists st x (by rw [ha.lists]; exact hx), fun k hk v hv => h.keyed k hk v (by rw [ha.stored k hk]; exact hv)⟩

private theorem fmt_ne {st st' : JobStatus} (h : st' ≠ st) : formatQueueName name st' ≠ formatQueueName name st :=
  fun e => h (formatQueueName_injective e).2

/-- Own calls get the same answer where the own part is the same, and keep it the same. -/
theorem own_agree {op : BOp} (hop : OwnOp E name K op) {s s' : SpecState} (h : SamePart name K s s') :
    (SpecB.exec op s).1 = (SpecB.exec op s').1 ∧ SamePart name K (SpecB.exec op s).2 (SpecB.exec op s').2 := by
  cases hop with
  | push st x hx =>
    refine ⟨rfl, fun st' => ?_, h.stored⟩
    show upd s.q _ _ _ = upd s'.q _ _ _
    simp only [upd, h.lists]
  | move a b fd td =>
    refine ⟨?_, fun st' => ?_, h.stored⟩
    · show Except.ok ((Spec.view fd (s.q _)).take 1) = .ok ((Spec.view fd (s'.q _)).take 1)
      rw [h.lists]
    · simp only [Spec.exec, upd, h.lists]
  | remove st x =>
    refine ⟨rfl, fun st' => ?_, h.stored⟩
    show upd s.q _ _ _ = upd s'.q _ _ _
    simp only [upd, h.lists]
  | get st d =>
    refine ⟨?_, h⟩
    show Except.ok ((Spec.view d (s.q _)).take 20) = .ok ((Spec.view d (s'.q _)).take 20)
    rw [h.lists]
  | count st =>
    refine ⟨?_, h⟩
    show Except.ok (s.q _).length = .ok (s'.q _).length
    rw [h.lists]
  | upsert k v hk hv =>
    refine ⟨rfl, h.lists, fun k' hk' => ?_⟩
    simp only [Spec.exec, upd, if_true, h.stored k' hk']
  | sget k hk =>
    refine ⟨?_, h⟩
    show Except.ok (s.st _ k) = .ok (s'.st _ k)
    rw [h.stored k hk]

/-- Calls of work queues of other names about other ids do not touch the own part. -/
theorem other_agree {D' : Type} {E' : Env D'} {name' : Str} {K' : Str → Prop} (hn : name' ≠ name) (hK : ∀ k, K k → ¬ K' k) {op : BOp}
    (hop : OwnOp E' name' K' op) (s : SpecState) : SamePart name K s (SpecB.exec op s).2 := by
  have hne : ∀ st st', formatQueueName name st ≠ formatQueueName name' st' := fun st st' e => hn (formatQueueName_injective e).1.symm
  cases hop with
  | push st x hx => exact ⟨fun st' => by simp [Spec.exec, upd, hne], fun _ _ => rfl⟩
  | move a b fd td => exact ⟨fun st' => by simp [Spec.exec, upd, hne], fun _ _ => rfl⟩
  | remove st x => exact ⟨fun st' => by simp [Spec.exec, upd, hne], fun _ _ => rfl⟩
  | get st d => exact .refl _
  | count st => exact .refl _
  | upsert k v hk hv =>
    refine ⟨fun _ => rfl, fun k' hk' => ?_⟩
    have : k' ≠ k := fun e => hK k' hk' (e ▸ hk)
    simp [Spec.exec, upd, this]
  | sget k hk => exact .refl _

private theorem mem_view {d : Dir} {l : List Str} {x : Str} : x ∈ Spec.view d l ↔ x ∈ l := by
  cases d <;> simp [Spec.view]

/-- Own calls keep to the own ids. -/
theorem own_keep (op : BOp) (s : SpecState) (hop : OwnOp E name K op) (h : Own E name K s) :
    Own E name K (SpecB.exec op s).2 ∧ OwnGood E K op (SpecB.exec op s).1 := by
  cases hop with
  | push st x hx =>
    refine ⟨⟨fun st' y hy => ?_, h.keyed⟩, trivial⟩
    simp only [Spec.exec, upd] at hy
    split at hy
    · rcases List.mem_cons.1 hy with rfl | hy
      · exact hx
      · exact h.lists _ _ hy
    · exact h.lists _ _ hy
  | move a b fd td =>
    refine ⟨⟨fun st' y hy => ?_, h.keyed⟩, trivial⟩
    have h1 : ∀ y, y ∈ Spec.view fd (List.drop 1 (Spec.view fd (s.q (formatQueueName name a)))) → K y := fun y hy =>
      h.lists a y (mem_view.1 (List.mem_of_mem_drop (mem_view.1 hy)))
    have h2 : ∀ y, y ∈ List.take 1 (Spec.view fd (s.q (formatQueueName name a))) → K y := fun y hy =>
      h.lists a y (mem_view.1 (List.mem_of_mem_take hy))
    have h3 : ∀ (l : List Str) y, (∀ y ∈ l, K y) → y ∈ Spec.put td (List.take 1 (Spec.view fd (s.q (formatQueueName name a)))) l → K y := by
      intro l y hl hy
      cases td <;> simp only [Spec.put, List.mem_append, List.mem_reverse] at hy
      · exact hy.elim (h2 y) (hl y)
      · exact hy.elim (hl y) (h2 y)
    simp only [Spec.exec, upd] at hy
    split at hy
    · refine h3 _ _ (fun z hz => ?_) hy
      split at hz
      · exact h1 _ hz
      · exact h.lists _ _ hz
    · split at hy
      · exact h1 _ hy
      · exact h.lists _ _ hy
  | remove st x =>
    refine ⟨⟨fun st' y hy => ?_, h.keyed⟩, trivial⟩
    simp only [Spec.exec, upd] at hy
    split at hy
    · exact h.lists _ _ (List.mem_of_mem_filter hy)
    · exact h.lists _ _ hy
  | get st d => exact ⟨h, fun y hy => h.lists st y (mem_view.1 (List.mem_of_mem_take hy))⟩
  | count st => exact ⟨h, trivial⟩
  | upsert k v hk hv =>
    refine ⟨⟨h.lists, fun k' hk' v' hv' j hj => ?_⟩, trivial⟩
    simp only [Spec.exec, upd, if_true] at hv'
    split at hv'
    · next e => cases hv'; subst e; exact hv j hj
    · exact h.keyed k' hk' v' hv' j hj
  | sget k hk =>
    refine ⟨h, ?_⟩
    show OwnGood E K (.storageGet STORAGE_HASH k) (.ok (s.st STORAGE_HASH k))
    cases hv : s.st STORAGE_HASH k with
    | none => trivial
    | some v => exact h.keyed k hk v hv

/-! ## The programs of a work queue keep to their part -/

/-- The program keeps to its part. -/
abbrev Keeps {α : Type} (E : Env D) (name : Str) (K : Str → Prop) (post : α → Prop) (p : Prog α) : Prop :=
  p.Rely (OwnOp E name K) (OwnGood E K) post

section
variable (L : E.Lawful)
include L

theorem keeps_upsert {j : Job D} (h : K j.id) : Keeps E name K (fun _ => True) (upsertToStorage E j.id j) :=
  Rely.callQ (op := .storageUpsert STORAGE_HASH j.id _) (.upsert _ _ h fun j' hj' => by
    cases he : E.codec.enc j with
    | none => rw [he] at hj'; rw [show (none : Option Str).getD [] = [] from rfl, L.dec_empty] at hj'; cases hj'
    | some v => rw [he] at hj'; rw [show (some v).getD [] = v from rfl, L.roundtrip j v he] at hj'; cases hj'; rfl) fun _ _ => trivial

omit L in
theorem keeps_get (k : Str) (h : K k) : Keeps E name K (fun r => ∀ j, r = some j → j.id = k) (getFromStorage E k) := by
  refine Rely.bind (Rely.callV (op := .storageGet STORAGE_HASH k) (.sget k h) fun r hr => hr) fun r hr => ?_
  split
  · next v => exact fun j hj => hr j hj
  · intro j hj; cases hj

theorem keeps_save {j : Job D} (h : K j.id) : Keeps E name K (fun _ => True) (Job.saveAndNotify E j) :=
  Rely.bind (keeps_upsert L h) fun _ _ => trivial

private theorem keeps_stamp (f : Int → Job D) {k : Str} (hf : ∀ ms, (f ms).id = k) (h : K k) :
    Keeps E name K (fun j' => j'.id = k) (Prog.getNowMs.bind fun ms => (Job.saveAndNotify E (f ms)).bind fun _ => .ret (f ms)) :=
  Rely.bind (mid := fun _ => True) (fun _ => trivial) fun ms _ => Rely.bind (keeps_save L (by rw [hf]; exact h)) fun _ _ => hf ms

theorem keeps_jEnqueue {j : Job D} (h : K j.id) : Keeps E name K (fun j' => j'.id = j.id) (Job.enqueue E j) :=
  keeps_stamp L _ (fun _ => rfl) h
theorem keeps_jProcess {j : Job D} (h : K j.id) : Keeps E name K (fun j' => j'.id = j.id) (Job.process E j) :=
  keeps_stamp L _ (fun _ => rfl) h
theorem keeps_jFinish {j : Job D} (h : K j.id) : Keeps E name K (fun j' => j'.id = j.id) (Job.finish E j) :=
  keeps_stamp L _ (fun _ => rfl) h
theorem keeps_jCancel {j : Job D} (h : K j.id) : Keeps E name K (fun j' => j'.id = j.id) (Job.cancel E j) :=
  keeps_stamp L _ (fun _ => rfl) h
theorem keeps_jFail {j : Job D} (h : K j.id) : Keeps E name K (fun j' => j'.id = j.id) (Job.fail E j) :=
  keeps_stamp L _ (fun _ => rfl) h

omit L in
theorem keeps_push (st : JobStatus) {k : Str} (h : K k) :
    Keeps E name K (fun _ => True) (Prog.queuePush (formatQueueName name st) k) := Rely.callV (.push st k h) fun _ _ => trivial

omit L in
theorem keeps_remove (st : JobStatus) (k : Str) :
    Keeps E name K (fun _ => True) (Prog.queueRemove (formatQueueName name st) k) := Rely.callV (.remove st k) fun _ _ => trivial

namespace WorkQueue

theorem keeps_enqueue {j : Job D} (h : K j.id) : Keeps E name K (fun _ => True) (enqueue E name j) :=
  Rely.bind (mid := fun _ => True) (Rely.callQ (.push _ _ h) fun _ _ => trivial) fun _ _ => Rely.bind (keeps_jEnqueue L h) fun _ _ => trivial

theorem keeps_submit {j : Job D} (h : K j.id) (c : EnqueueConfig) : Keeps E name K (fun _ => True) (runWithConfig E name j c) := by
  refine Rely.bind (keeps_get _ h) fun r _ => ?_
  cases r with
  | some ex =>
    have h2 : Keeps E name K (fun _ => True) (if (c.reRun && ex.isDone) = true then enqueue E name j else pure ()) :=
      Rely.ite (fun _ => keeps_enqueue L h) fun _ => trivial
    dsimp only
    split
    · exact Rely.bind (keeps_upsert L h) fun _ _ => h2
    · exact h2
  | none => exact keeps_enqueue L h

theorem keeps_reEnqueue {j : Job D} (h : K j.id) : Keeps E name K (fun _ => True) (reEnqueue E name j) :=
  Rely.bind (mid := fun _ => True) (Rely.callQ (.remove _ _) fun _ _ => trivial) fun _ _ => Rely.bind (keeps_jEnqueue L h) fun j' hj' =>
    Rely.bind (keeps_push _ (by rw [hj']; exact h)) fun _ _ => trivial

omit L in
theorem keeps_removeProcessing (k : Str) : Keeps E name K (fun _ => True) (removeProcessingJob name k) :=
  Rely.bind (keeps_remove _ _) fun _ _ => trivial

theorem keeps_finished {j : Job D} (h : K j.id) : Keeps E name K (fun _ => True) (markJobIsFinished E name j) :=
  Rely.bind (keeps_removeProcessing _) fun _ _ => Rely.bind (keeps_jFinish L h) fun j' hj' =>
    Rely.bind (keeps_push _ (by rw [hj']; exact h)) fun _ _ => trivial

theorem keeps_failed {j : Job D} (h : K j.id) : Keeps E name K (fun _ => True) (markJobIsFailed E name j) :=
  Rely.bind (keeps_jFail L h) fun j' hj' => Rely.bind (keeps_removeProcessing _) fun _ _ =>
    Rely.bind (keeps_push _ (by rw [hj']; exact h)) fun _ _ => trivial

theorem keeps_pickBatch (total : Nat) (ids : List Str) (hi : ∀ k ∈ ids, K k) (ready : List (Job D)) (hr : ∀ j ∈ ready, K j.id) :
    Keeps E name K (fun l => ∀ j ∈ l, K j.id) (pickBatch E name total ids ready) := by
  induction ids generalizing ready with
  | nil => exact hr
  | cons id ids ih =>
    have hk := hi id (List.mem_cons_self ..)
    have hrest : ∀ k ∈ ids, K k := fun k h => hi k (List.mem_cons_of_mem _ h)
    have hrot : Keeps E name K (fun l => ∀ j ∈ l, K j.id)
        (Prog.bind (orFail (queueMove (formatQueueName name .queued) (formatQueueName name .queued) 1 .back .front))
          fun _ => pickBatch E name total ids ready) :=
      Rely.bind (mid := fun _ => True) (Rely.callQ (op := .queueMove _ _ _ _ _) (.move _ _ _ _) fun _ _ => trivial) fun _ _ => ih hrest ready hr
    refine Rely.bind (keeps_get id hk) fun r hg => ?_
    cases r with
    | none => exact hrot
    | some j =>
      have hj : K j.id := by rw [hg j rfl]; exact hk
      refine Rely.bind (mid := fun _ => True) (fun _ => trivial) fun b _ => Rely.ite (fun _ => ?_) fun _ => hrot
      refine Rely.bind (keeps_jProcess L hj) fun j' hj' => Rely.bind (mid := fun _ => True)
        (Rely.callQ (op := .queueMove _ _ _ _ _) (.move _ _ _ _) fun _ _ => trivial) fun _ _ => ih hrest _ fun x hx => ?_
      rcases List.mem_append.1 hx with hx | hx
      · exact hr x hx
      · rw [List.mem_singleton.1 hx, hj']; exact hj

theorem keeps_pickLoop (total fuel : Nat) (cursor : Int) (ready : List (Job D)) (hr : ∀ j ∈ ready, K j.id) :
    Keeps E name K (fun l => ∀ j ∈ l, K j.id) (pickLoop E name total fuel cursor ready) := by
  induction fuel generalizing cursor ready with
  | zero => trivial
  | succ fuel ih =>
    refine Rely.bind (Rely.callQ (op := .queueGet _ _ _) (.get _ _) fun r h => h) fun ids hids =>
      Rely.bind (Rely.orPanic _) fun c _ => Rely.bind (keeps_pickBatch L _ _ hids _ hr) fun r hr => ?_
    exact Rely.ite (fun _ => hr) fun _ => Rely.ite (fun _ => hr) fun _ => ih _ _ hr

theorem keeps_pick (fuel : Nat) (cfg : WorkQueueConfig) :
    Keeps E name K (fun l => ∀ j ∈ l, K j.id) (pickJobsToProcess E name fuel cfg) := by
  refine Rely.bind (mid := fun _ => True) (Rely.callV (op := .queueCount _) (.count _) fun _ _ => trivial) fun r _ => ?_
  exact Rely.ite (fun _ _ h => by cases h) fun _ => Rely.bind (mid := fun _ => True)
    (Rely.callQ (op := .queueCount _) (.count _) fun _ _ => trivial) fun n _ => keeps_pickLoop L _ _ _ _ (fun _ h => by cases h)

omit L in
theorem keeps_start {j : Job D} (h : K j.id) : Keeps E name K (fun r => ∀ j', r = some j' → j'.id = j.id) (executeStart name j) := by
  unfold executeStart
  refine Rely.ite (fun _ => ?_) fun _ => ?_
  · exact Rely.bind (mid := fun _ => True) (Rely.bind (keeps_push _ h) fun _ _ => trivial) fun _ _ => fun j' hj' => by cases hj'
  · intro j' hj'; cases hj'; rfl

omit L in
theorem keeps_nextTick (j : Job D) : Keeps E name K (fun r => ∀ j', r = some j' → j'.id = j.id) (Job.nextTick E j) := by
  intro t
  simp only [pure_eq, bind_eq, ret_bind]
  split
  · split
    · intro j' hj'; cases hj'
    · intro t2
      simp only [ret_bind]
      refine Rely.bind (mid := fun j' : Job D => j'.id = j.id) ?_ fun j' hj => ?_
      · split
        · exact Rely.bind (Rely.orPanic _) fun _ _ => rfl
        · rfl
      · exact Rely.ite (fun _ x hx => by cases hx) fun _ => Rely.ite (fun _ x hx => by cases hx) fun _ x hx => by cases hx; exact hj
  · intro j' hj'; cases hj'

omit L in
theorem keeps_callRetryAt {O : Type} (x : Executable D O) (chk : Bool) (d : D) (r : Retry) (o : O) :
    Keeps E name K (fun _ => True) (x.callRetryAt chk d r o) := by
  unfold Executable.callRetryAt
  split
  · unfold defaultRetryAt
    split
    · exact Rely.bind (mid := fun _ => True) (fun _ => trivial) fun _ _ => Rely.bind (Rely.orPanic _) fun _ _ => trivial
    · trivial
  · exact fun _ => trivial

theorem keeps_executeFinish {O : Type} (x : Executable D O) {j : Job D} (h : K j.id) :
    Keeps E name K (fun _ => True) (executeFinish E name x j) := by
  have key : ∀ (b : Bool) (j : Job D), K j.id → Keeps E name K (fun _ => True) (Prog.bind (j.nextTick E) fun r => match r with
    | some next => reEnqueue E name next
    | none => if b then markJobIsFailed E name j else markJobIsFinished E name j) := by
    intro b j hj
    refine Rely.bind (keeps_nextTick _) fun r hr => ?_
    split
    · next nx => exact keeps_reEnqueue L (by rw [hr nx rfl]; exact hj)
    · exact Rely.ite (fun _ => keeps_failed L hj) fun _ => keeps_finished L hj
  unfold executeFinish
  refine Rely.bind (mid := fun _ => True) trivial fun _ _ => ?_
  split
  · refine Rely.bind (keeps_callRetryAt _ _ _ _ _) fun ⟨r, t⟩ _ => ?_
    cases t with
    | some t => exact keeps_reEnqueue L h
    | none => exact key _ _ h
  · exact key _ _ h

theorem keeps_taskFinish {O : Type} (x : Executable D O) {o j : Job D} (ho : K o.id) (hj : K j.id) :
    Keeps E name K (fun _ => True) (taskFinish E name x o j) := by
  refine Rely.bind (keeps_executeFinish L x hj).catchErr fun r _ => ?_
  split
  · trivial
  · exact Rely.bind (keeps_failed L ho).catchErr fun _ _ => trivial

theorem keeps_cancel {k : Str} (h : K k) : Keeps E name K (fun _ => True) (cancelJob E name k) := by
  refine Rely.bind (keeps_get k h) fun r hr => ?_
  split
  · next j =>
    exact Rely.ite (fun _ => Rely.bind (keeps_jCancel L (by rw [hr j rfl]; exact h)) fun _ _ =>
      Rely.callQ (.remove _ _) fun _ _ => trivial) fun _ => trivial
  · trivial

theorem keeps_retry {k : Str} (h : K k) : Keeps E name K (fun _ => True) (retryJob E name k) := by
  refine Rely.bind (keeps_get k h) fun r hr => ?_
  split
  · next j =>
    exact Rely.ite (fun _ => Rely.bind (keeps_reEnqueue L (by rw [hr j rfl]; exact h)) fun _ _ => trivial) fun _ => trivial
  · trivial

end WorkQueue

/-- The tasks of the process are about jobs with ids in `K`. -/
def Proc.On (K : Str → Prop) (p : Proc D) : Prop := ∀ t ∈ p.tasks, K t.orig.id ∧ ∀ j, t.executing = some j → K j.id

theorem keeps_turn {p : Proc D} (hp : p.On K) {op : Op D O} (hop : op.On K) :
    Keeps E name K (fun r => r.1.On K) (p.turn E name op) := by
  have hd : p.down.On K := fun t h => by cases h
  have hh : ∀ {α : Type} (q : Prog α) (dead : Resp D) (f : Except Error α → Resp D) (post : α → Prop), Keeps E name K post q →
      Keeps E name K (fun r => r.1.On K) (p.handle q dead f) := by
    intro α q dead f post hq
    refine Rely.bind (mid := fun _ => True) (hq.attempt.weaken fun _ _ => trivial) fun r _ => ?_
    cases r
    · exact hp
    · exact hp
    · exact hd
    · exact hd
  unfold Proc.turn
  refine Rely.ite (fun _ => ?_) fun _ => hp
  cases op with
  | enqueue job cfg => exact hh _ _ _ _ (WorkQueue.keeps_submit L hop cfg)
  | cancel id => exact hh _ _ _ _ (WorkQueue.keeps_cancel L hop)
  | get id => exact hh _ _ _ _ (keeps_get id hop)
  | retry id => exact hh _ _ _ _ (WorkQueue.keeps_retry L hop)
  | config c => exact hp
  | tick =>
    refine Rely.bind (mid := fun _ => True) (Rely.callV (op := .queueCount _) (.count _) fun _ _ => trivial) fun r _ =>
      Rely.bind (WorkQueue.keeps_pick L _ _).attempt fun r hr => ?_
    cases r with
    | ok jobs =>
      intro t ht
      rcases List.mem_append.1 ht with ht | ht
      · exact hp t ht
      · obtain ⟨j, hj, rfl⟩ := List.mem_map.1 ht
        exact ⟨hr jobs rfl j hj, fun _ h => by cases h⟩
    | err e => exact hp
    | panicked => exact hd
    | diverged => exact hd
  | start i =>
    simp only
    split
    · next orig hi =>
      have ht := hp _ (List.mem_of_getElem? hi)
      refine Rely.bind (WorkQueue.keeps_start ht.1).attempt fun r hr => ?_
      rcases r with (_ | j) | e | _ | _
      · exact fun t h => hp t (List.mem_of_mem_eraseIdx h)
      · intro t h
        rcases List.mem_or_eq_of_mem_set h with h | rfl
        · exact hp t h
        · refine ⟨ht.1, fun j' hj' => ?_⟩
          cases hj'
          rw [hr _ rfl j rfl]
          exact ht.1
      · exact hd
      · exact hd
      · exact hd
    · exact hp
  | finish i x =>
    simp only
    split
    · next orig job hi =>
      have ht := hp _ (List.mem_of_getElem? hi)
      refine Rely.bind (WorkQueue.keeps_taskFinish L x ht.1 (ht.2 job rfl)).attempt fun r _ => ?_
      cases r
      · exact fun t h => hp t (List.mem_of_mem_eraseIdx h)
      · exact hd
      · exact hd
      · exact hd
    · exact hp
  | userPanic i =>
    simp only
    split
    · exact hd
    · exact hp

theorem keeps_history {p : Proc D} (hp : p.On K) {ops : List (Op D O)} (hops : ∀ op ∈ ops, op.On K) :
    Keeps E name K (fun _ => True) (p.history E name ops) := by
  induction ops generalizing p with
  | nil => trivial
  | cons op ops ih =>
    exact Rely.bind (keeps_turn L hp (hops op (List.mem_cons_self ..))) fun a ha =>
      Rely.bind (ih ha fun o h => hops o (List.mem_cons_of_mem _ h)) fun _ _ => trivial

end
end

/-! ## Interleavings -/

namespace Many
variable {ι : Type} [DecidableEq ι] {α : ι → Type} {clk : ι → Nat → Time}

section
variable {B : Backend}

theorem step_prog (m : Many ι B α) (i : ι) : (m.step B clk i).prog i = ((m.prog i).step1 B (clk i) (m.world i)).1 := by
  simp [step]

theorem step_prog_ne (m : Many ι B α) {i j : ι} (h : i ≠ j) : (m.step B clk i).prog j = m.prog j := by
  simp [step, h]

theorem step_world (m : Many ι B α) (i : ι) : (m.step B clk i).world i = ((m.prog i).step1 B (clk i) (m.world i)).2 := by
  simp [step, world, upd]

theorem step_t_ne (m : Many ι B α) {i j : ι} (h : j ≠ i) : (m.step B clk i).t j = m.t j := by simp [step, upd, h]

theorem step_log_ne (m : Many ι B α) {i j : ι} (h : j ≠ i) : (m.step B clk i).log j = m.log j := by simp [step, upd, h]

theorem run_cons (m : Many ι B α) (i : ι) (sched : List ι) : m.run B clk (i :: sched) = (m.step B clk i).run B clk sched := rfl

/-- A party by itself. -/
theorem run_alone (m : Many ι B α) (i : ι) (n : Nat) :
    let r := stepN B (clk i) n (m.prog i, m.world i)
    (m.run B clk (List.replicate n i)).prog i = r.1 ∧ (m.run B clk (List.replicate n i)).world i = r.2 := by
  induction n generalizing m with
  | zero => exact ⟨rfl, rfl⟩
  | succ n ih =>
    have := ih (m.step B clk i)
    rw [step_prog, step_world] at this
    exact this

end

/-! ### Every backend -/

section
variable {b : Impl}

/-- Related situations on two backends. -/
structure Rel (b : Impl) (m : Many ι b.B α) (n : Many ι SpecB α) : Prop where
  s : b.sim.R m.s n.s
  prog : m.prog = n.prog
  t : m.t = n.t
  log : m.log = n.log
  ok : ∀ i, (n.prog i).AllOps b.ok

theorem Rel.step {m : Many ι b.B α} {n : Many ι SpecB α} (h : Rel b m n) (i : ι) :
    Rel b (m.step b.B clk i) (n.step SpecB clk i) := by
  have hw : b.sim.RW (m.world i) (n.world i) := ⟨h.s, by show m.t i = n.t i; rw [h.t], by show m.log i = n.log i; rw [h.log]⟩
  obtain ⟨h1, h2, h3⟩ := step1_rel (clk := clk i) (h.ok i) hw
  have hp := h.prog
  refine ⟨?_, ?_, ?_, ?_, ?_⟩
  · show b.sim.R ((m.prog i).step1 b.B (clk i) (m.world i)).2.s _
    rw [hp]; exact h2.s
  · funext j
    by_cases e : i = j
    · subst e
      rw [step_prog, step_prog, hp]
      exact h1
    · rw [step_prog_ne _ e, step_prog_ne _ e, hp]
  · show upd m.t i ((m.prog i).step1 b.B (clk i) (m.world i)).2.t = _
    rw [hp, h.t, h2.t]; rfl
  · show upd m.log i ((m.prog i).step1 b.B (clk i) (m.world i)).2.log = _
    rw [hp, h.log, h2.log]; rfl
  · intro j
    by_cases e : i = j
    · subst e; rw [step_prog]; exact h3
    · rw [step_prog_ne _ e]; exact h.ok j

theorem Rel.run {m : Many ι b.B α} {n : Many ι SpecB α} (h : Rel b m n) (sched : List ι) :
    Rel b (m.run b.B clk sched) (n.run SpecB clk sched) := by
  induction sched generalizing m n with
  | nil => exact h
  | cons i sched ih => exact ih (h.step i)

end

/-! ### Keeping to one's part -/

section
variable {D : ι → Type} {E : ∀ i, Env (D i)} {name : ι → Str} {K : ι → Str → Prop}

/-- Party `i` is about to keep to its part, and the part is in order. -/
structure Fits (E : ∀ i, Env (D i)) (name : ι → Str) (K : ι → Str → Prop) (m : Many ι SpecB α) (i : ι) : Prop where
  keeps : Keeps (E i) (name i) (K i) (fun _ => True) (m.prog i)
  own : Own (E i) (name i) (K i) m.s

/-- Situations that are the same for party `i`. -/
structure Same (name : ι → Str) (K : ι → Str → Prop) (i : ι) (m n : Many ι SpecB α) : Prop where
  prog : m.prog i = n.prog i
  reads : m.t i = n.t i
  log : m.log i = n.log i
  part : SamePart (name i) (K i) m.s n.s

theorem Fits.step_self {m : Many ι SpecB α} {i : ι} (h : Fits E name K m i) : Fits E name K (m.step SpecB clk i) i := by
  obtain ⟨h1, h2⟩ := Rely.step1 (B := SpecB) (clk := clk i) (own_keep (E := E i) (name := name i) (K := K i)) h.keeps (w := m.world i) h.own
  exact ⟨by rw [step_prog]; exact h1, h2⟩

theorem part_other (hname : ∀ i j, name i = name j → i = j) (hK : ∀ i j k, K i k → K j k → i = j) {m : Many ι SpecB α} {i j : ι}
    (hne : j ≠ i) (h : Fits E name K m j) : SamePart (name i) (K i) m.s (m.step SpecB clk j).s := by
  have hn : name j ≠ name i := fun e => hne (hname _ _ e)
  have hk : ∀ k, K i k → ¬ K j k := fun k h1 h2 => hne (hK _ _ k h2 h1)
  show SamePart (name i) (K i) m.s ((m.prog j).step1 SpecB (clk j) (m.world j)).2.s
  have hp := h.keeps
  cases hq : m.prog j with
  | call op k =>
    rw [hq] at hp
    exact other_agree hn hk hp.1 m.s
  | _ => exact .refl _

theorem Same.step_self {m n : Many ι SpecB α} {i : ι} (hm : Fits E name K m i) (h : Same name K i m n) :
    Same name K i (m.step SpecB clk i) (n.step SpecB clk i) := by
  have hw : (m.step SpecB clk i).t i = ((m.prog i).step1 SpecB (clk i) (m.world i)).2.t := by simp [step, upd]
  have hw' : (n.step SpecB clk i).t i = ((n.prog i).step1 SpecB (clk i) (n.world i)).2.t := by simp [step, upd]
  have hl : (m.step SpecB clk i).log i = ((m.prog i).step1 SpecB (clk i) (m.world i)).2.log := by simp [step, upd]
  have hl' : (n.step SpecB clk i).log i = ((n.prog i).step1 SpecB (clk i) (n.world i)).2.log := by simp [step, upd]
  have key : ((m.prog i).step1 SpecB (clk i) (m.world i)).1 = ((n.prog i).step1 SpecB (clk i) (n.world i)).1 ∧
      ((m.prog i).step1 SpecB (clk i) (m.world i)).2.t = ((n.prog i).step1 SpecB (clk i) (n.world i)).2.t ∧
      ((m.prog i).step1 SpecB (clk i) (m.world i)).2.log = ((n.prog i).step1 SpecB (clk i) (n.world i)).2.log ∧
      SamePart (name i) (K i) ((m.prog i).step1 SpecB (clk i) (m.world i)).2.s ((n.prog i).step1 SpecB (clk i) (n.world i)).2.s := by
    rw [← h.prog]
    have hp := hm.keeps
    cases hq : m.prog i with
    | call op k =>
      rw [hq] at hp
      obtain ⟨h1, h2⟩ := own_agree hp.1 h.part
      exact ⟨congrArg k h1, h.reads, h.log, h2⟩
    | now k => exact ⟨congrArg (fun t => k (clk i t)) h.reads, congrArg (· + 1) h.reads, h.log, h.part⟩
    | emit e k => exact ⟨rfl, h.reads, congrArg (· ++ [e]) h.log, h.part⟩
    | ret a => exact ⟨rfl, h.reads, h.log, h.part⟩
    | fail e => exact ⟨rfl, h.reads, h.log, h.part⟩
    | panic => exact ⟨rfl, h.reads, h.log, h.part⟩
    | diverge => exact ⟨rfl, h.reads, h.log, h.part⟩
  exact ⟨by rw [step_prog, step_prog]; exact key.1, by rw [hw, hw']; exact key.2.1, by rw [hl, hl']; exact key.2.2.1, key.2.2.2⟩

/-- The steps of the others make no difference to party `i`. -/
theorem same_run (hname : ∀ i j, name i = name j → i = j) (hK : ∀ i j k, K i k → K j k → i = j) {m n : Many ι SpecB α} {i : ι}
    (hm : ∀ j, Fits E name K m j) (hs : Same name K i m n) (sched : List ι) :
    Same name K i (m.run SpecB clk sched) (n.run SpecB clk (sched.filter (· = i))) := by
  induction sched generalizing m n with
  | nil => exact hs
  | cons j sched ih =>
    have hm' : ∀ k, Fits E name K (m.step SpecB clk j) k := fun k => by
      by_cases e : j = k
      · subst e; exact (hm j).step_self
      · exact ⟨by rw [step_prog_ne _ e]; exact (hm k).keeps, (hm k).own.agree (part_other hname hK e (hm j))⟩
    rw [run_cons]
    by_cases e : j = i
    · subst e
      rw [List.filter_cons_of_pos (by simp), run_cons]
      exact ih hm' (hs.step_self (hm j))
    · rw [List.filter_cons_of_neg (by simpa using e)]
      refine ih hm' ⟨by rw [step_prog_ne _ e]; exact hs.prog, by rw [step_t_ne _ (Ne.symm e)]; exact hs.reads,
        by rw [step_log_ne _ (Ne.symm e)]; exact hs.log, (part_other hname hK e (hm j)).symm.trans hs.part⟩

end
end Many
end AJ
