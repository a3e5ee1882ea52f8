import Verif.Spec.Overlap
import Verif.Proofs.Many

/-! # What overlapping processes keep: proofs

A condition on jobs becomes a type for stored values and list entries. Every program of a work queue makes only calls that respect
it, whatever the answers are, as long as what it reads respects it; so no interleaving breaks it. -/

namespace AJ
open Prog

/-- The program makes only `ok` calls, sends only `ev` messages and returns values with `post`, provided the answers it gets are
`good`. `T` holds of the times that were read. -/
def Prog.Safe {α : Type} (ok : BOp → Prop) (good : (op : BOp) → Except Error op.Res → Prop) (ev : (Time → Prop) → Event → Prop)
    (post : (Time → Prop) → α → Prop) : Prog α → (Time → Prop) → Prop
  | ret a, T => post T a
  | call op k, T => ok op ∧ ∀ r, good op r → Safe ok good ev post (k r) T
  | now k, T => ∀ t, Safe ok good ev post (k t) (fun u => T u ∨ u = t)
  | emit e k, T => ev T e ∧ Safe ok good ev post k T
  | _, _ => True

namespace Prog.Safe
variable {α β : Type} {ok : BOp → Prop} {good : (op : BOp) → Except Error op.Res → Prop} {ev : (Time → Prop) → Event → Prop}
variable {T T' : Time → Prop}

theorem bind {p : Prog α} {f : α → Prog β} {mid : (Time → Prop) → α → Prop} {post : (Time → Prop) → β → Prop}
    (hp : p.Safe ok good ev mid T) (hf : ∀ T' a, (∀ t, T t → T' t) → mid T' a → (f a).Safe ok good ev post T') :
    (p.bind f).Safe ok good ev post T := by
  induction p generalizing T with
  | ret a => exact hf T a (fun _ h => h) hp
  | call op k ih => exact ⟨hp.1, fun r h => ih r (hp.2 r h) hf⟩
  | now k ih => exact fun t => ih t (hp t) fun T' a h => hf T' a fun u hu => h u (.inl hu)
  | emit e k ih => exact ⟨hp.1, ih hp.2 hf⟩
  | _ => trivial

theorem callV {op : BOp} {post : (Time → Prop) → Except Error op.Res → Prop} (h : ok op) (hp : ∀ r, good op r → post T r) :
    (call' op).Safe ok good ev post T := ⟨h, hp⟩

theorem callQ {op : BOp} {post : (Time → Prop) → op.Res → Prop} (h : ok op) (hp : ∀ r, good op (.ok r) → post T r) :
    (orFail (call' op)).Safe ok good ev post T :=
  ⟨h, fun r hr => by
    cases r with
    | ok a => exact hp a hr
    | error e => trivial⟩

theorem ite {c : Prop} [Decidable c] {p q : Prog α} {post : (Time → Prop) → α → Prop} (hp : c → p.Safe ok good ev post T)
    (hq : ¬ c → q.Safe ok good ev post T) : (if c then p else q).Safe ok good ev post T := by
  split
  · next h => exact hp h
  · next h => exact hq h

theorem weaken {p : Prog α} {post post' : (Time → Prop) → α → Prop} (h : ∀ T a, post T a → post' T a) (hp : p.Safe ok good ev post T) :
    p.Safe ok good ev post' T := by
  induction p generalizing T with
  | ret a => exact h T a hp
  | call op k ih => exact ⟨hp.1, fun r hr => ih r (hp.2 r hr)⟩
  | now k ih => exact fun t => ih t (hp t)
  | emit e k ih => exact ⟨hp.1, ih hp.2⟩
  | _ => trivial

theorem more {p : Prog α} {post : (Time → Prop) → α → Prop} (hpost : ∀ T T' a, (∀ t, T t → T' t) → post T a → post T' a)
    (hev : ∀ T T' e, (∀ t, T t → T' t) → ev T e → ev T' e) (hT : ∀ t, T t → T' t) (hp : p.Safe ok good ev post T) :
    p.Safe ok good ev post T' := by
  induction p generalizing T T' with
  | ret a => exact hpost T T' a hT hp
  | call op k ih => exact ⟨hp.1, fun r hr => ih r hT (hp.2 r hr)⟩
  | now k ih => exact fun t => ih t (fun u hu => hu.imp (hT u) id) (hp t)
  | emit e k ih => exact ⟨hev T T' e hT hp.1, ih hT hp.2⟩
  | _ => trivial

theorem orPanic {o : Option α} {post : (Time → Prop) → α → Prop} (h : ∀ a, o = some a → post T a) : (Prog.orPanic o).Safe ok good ev post T := by
  cases o with
  | none => trivial
  | some a => exact h a rfl

theorem attempt {p : Prog α} {post : (Time → Prop) → α → Prop} (hp : p.Safe ok good ev post T) :
    p.attempt.Safe ok good ev (fun T r => ∀ a, r = .ok a → post T a) T := by
  induction p generalizing T with
  | ret a => intro b h; cases h; exact hp
  | fail e => intro b h; cases h
  | panic => intro b h; cases h
  | diverge => intro b h; cases h
  | call op k ih => exact ⟨hp.1, fun r h => ih r (hp.2 r h)⟩
  | now k ih => exact fun t => ih t (hp t)
  | emit e k ih => exact ⟨hp.1, ih hp.2⟩

theorem catchErr {p : Prog α} {post : (Time → Prop) → α → Prop} (hp : p.Safe ok good ev post T) :
    p.catchErr.Safe ok good ev (fun _ _ => True) T := by
  induction p generalizing T with
  | call op k ih => exact ⟨hp.1, fun r h => ih r (hp.2 r h)⟩
  | now k ih => exact fun t => ih t (hp t)
  | emit e k ih => exact ⟨hp.1, ih hp.2⟩
  | _ => trivial

end Prog.Safe

section
variable {D O : Type} {E : Env D} {name : Str} {p : Job D → Prop}

/-- Calls that respect the condition `p` on jobs. -/
inductive FitOp (E : Env D) (name : Str) (p : Job D → Prop) : BOp → Prop where
  | push (st : JobStatus) (j : Job D) (h : p j) : FitOp E name p (.queuePush (formatQueueName name st) j.id)
  | move (a b : JobStatus) (fd td : Dir) : FitOp E name p (.queueMove (formatQueueName name a) (formatQueueName name b) 1 fd td)
  | remove (st : JobStatus) (x : Str) : FitOp E name p (.queueRemove (formatQueueName name st) x)
  | get (st : JobStatus) (d : Dir) : FitOp E name p (.queueGet (formatQueueName name st) 20 d)
  | count (st : JobStatus) : FitOp E name p (.queueCount (formatQueueName name st))
  | upsert (j : Job D) (h : p j) : FitOp E name p (.storageUpsert STORAGE_HASH j.id ((E.codec.enc j).getD []))
  | sget (k : Str) : FitOp E name p (.storageGet STORAGE_HASH k)

/-- Answers that respect it. -/
def FitAns (E : Env D) (p : Job D → Prop) : (op : BOp) → Except Error op.Res → Prop
  | .storageGet _ k, .ok (some v) => ∀ j, E.codec.dec v = some j → j.id = k ∧ p j
  | _, _ => True

/-- Messages that respect it: they are about jobs that do; what is run was due at a time that was read. -/
def FitEv (p : Job D → Prop) (T : Time → Prop) : Event → Prop
  | .ran c => ∃ j : Job D, j.context = c ∧ p j ∧ ∃ t, T t ∧ j.Due t
  | e => ∃ j : Job D, p j ∧ j.id = e.id

theorem FitEv.more {T T' : Time → Prop} (hT : ∀ t, T t → T' t) {e : Event} (h : FitEv p T e) : FitEv p T' e := by
  cases e with
  | ran c => obtain ⟨j, h1, h2, t, h3, h4⟩ := h; exact ⟨j, h1, h2, t, hT t h3, h4⟩
  | _ => exact h

private theorem mem_view {d : Dir} {l : List Str} {x : Str} : x ∈ Spec.view d l ↔ x ∈ l := by
  cases d
  · exact Iff.rfl
  · exact List.mem_reverse

/-- Backend contents that respect it. -/
structure FitState (E : Env D) (p : Job D → Prop) (s : SpecState) : Prop where
  lists : ∀ name st x, x ∈ s.q (formatQueueName name st) → ∃ j, p j ∧ j.id = x
  jobs : ∀ k v j, s.st STORAGE_HASH k = some v → E.codec.dec v = some j → j.id = k ∧ p j

theorem fit_keep (L : E.Lawful) (hs : ∀ j, p j → p (j.norm L.normD)) (op : BOp) (s : SpecState) (hop : FitOp E name p op) (h : FitState E p s) :
    FitState E p (Spec.exec op s).2 ∧ FitAns E p op (.ok (Spec.exec op s).1) := by
  cases hop with
  | push st j hj =>
    refine ⟨⟨fun name' st' x hx => ?_, h.jobs⟩, trivial⟩
    simp only [Spec.exec, upd] at hx
    split at hx
    · rcases List.mem_cons.1 hx with rfl | hx
      · exact ⟨j, hj, rfl⟩
      · exact h.lists _ _ _ hx
    · exact h.lists _ _ _ hx
  | move a b fd td =>
    refine ⟨⟨fun name' st' y hy => ?_, h.jobs⟩, trivial⟩
    have h1 : ∀ y, y ∈ Spec.view fd (List.drop 1 (Spec.view fd (s.q (formatQueueName name a)))) → ∃ j, p j ∧ j.id = y := fun y hy =>
      h.lists _ a y (mem_view.1 (List.mem_of_mem_drop (mem_view.1 hy)))
    have h2 : ∀ y, y ∈ List.take 1 (Spec.view fd (s.q (formatQueueName name a))) → ∃ j, p j ∧ j.id = y := fun y hy =>
      h.lists _ a y (mem_view.1 (List.mem_of_mem_take hy))
    have h3 : ∀ (l : List Str) y, (∀ y ∈ l, ∃ j, p j ∧ j.id = y) →
        y ∈ Spec.put td (List.take 1 (Spec.view fd (s.q (formatQueueName name a)))) l → ∃ j, p j ∧ j.id = y := by
      intro l y hl hy
      cases td <;> simp only [Spec.put, List.mem_append, List.mem_reverse] at hy
      · exact hy.elim (h2 y) (hl y)
      · exact hy.elim (hl y) (h2 y)
    simp only [Spec.exec, upd] at hy
    split at hy
    · refine h3 _ _ (fun z hz => ?_) hy
      split at hz
      · exact h1 _ hz
      · exact h.lists _ _ _ hz
    · split at hy
      · exact h1 _ hy
      · exact h.lists _ _ _ hy
  | remove st x =>
    refine ⟨⟨fun name' st' y hy => ?_, h.jobs⟩, trivial⟩
    simp only [Spec.exec, upd] at hy
    split at hy
    · exact h.lists _ _ _ (List.mem_of_mem_filter hy)
    · exact h.lists _ _ _ hy
  | get st d => exact ⟨h, trivial⟩
  | count st => exact ⟨h, trivial⟩
  | upsert j hj =>
    refine ⟨⟨h.lists, fun k' v' j' hv' hj' => ?_⟩, trivial⟩
    simp only [Spec.exec, upd, if_true] at hv'
    split at hv'
    · next e =>
      cases hv'
      cases he : E.codec.enc j with
      | none => rw [he] at hj'; rw [show (none : Option Str).getD [] = [] from rfl, L.dec_empty] at hj'; cases hj'
      | some v =>
        rw [he] at hj'
        rw [show (some v).getD [] = v from rfl, L.roundtrip j v he] at hj'
        cases hj'
        exact ⟨e.symm, hs j hj⟩
    · exact h.jobs k' v' j' hv' hj'
  | sget k =>
    refine ⟨h, ?_⟩
    show FitAns E p (.storageGet STORAGE_HASH k) (.ok (s.st STORAGE_HASH k))
    cases hv : s.st STORAGE_HASH k with
    | none => trivial
    | some v => exact fun j hj => h.jobs k v j hv hj

/-! ## The programs of a work queue -/

abbrev Fit {α : Type} (E : Env D) (name : Str) (p : Job D → Prop) (post : (Time → Prop) → α → Prop) (q : Prog α) (T : Time → Prop) : Prop :=
  q.Safe (FitOp E name p) (FitAns E p) (FitEv p) post T

variable {L : E.Lawful} {Runs : Executable D O → Prop} {T : Time → Prop}

theorem fit_get (k : Str) : Fit E name p (fun _ r => ∀ j, r = some j → j.id = k ∧ p j) (getFromStorage E k) T := by
  refine Safe.bind (Safe.callV (op := .storageGet STORAGE_HASH k) (.sget k) (post := fun _ r => FitAns E p (.storageGet STORAGE_HASH k) r) fun r hr => hr)
    fun _ r _ hr => ?_
  split
  · next v => exact fun j hj => hr j hj
  · intro j hj; cases hj

theorem fit_upsert {j : Job D} (h : p j) : Fit E name p (fun _ _ => True) (upsertToStorage E j.id j) T :=
  Safe.callQ (op := .storageUpsert STORAGE_HASH j.id _) (.upsert j h) fun _ _ => trivial

theorem fit_save {j : Job D} (h : p j) : Fit E name p (fun _ _ => True) (Job.saveAndNotify E j) T :=
  Safe.bind (fit_upsert h) fun _ _ _ _ => ⟨⟨j, h, rfl⟩, trivial⟩

private theorem fit_stamp (f : Int → Job D) {j : Job D} (hf : ∀ ms, p (f ms) ∧ (f ms).id = j.id ∧ (f ms).context.jobType = j.context.jobType) :
    Fit E name p (fun _ j' => p j' ∧ j'.id = j.id ∧ j'.context.jobType = j.context.jobType)
      (Prog.getNowMs.bind fun ms => (Job.saveAndNotify E (f ms)).bind fun _ => .ret (f ms)) T :=
  Safe.bind (mid := fun _ _ => True) (fun _ => trivial) fun _ ms _ _ => Safe.bind (fit_save (hf ms).1) fun _ _ _ _ => hf ms

section
variable (S : Steady L Runs p)
include S

theorem fit_jEnqueue {j : Job D} (h : p j) : Fit E name p (fun _ j' => p j' ∧ j'.id = j.id ∧ j'.context.jobType = j.context.jobType) (Job.enqueue E j) T :=
  fit_stamp _ fun _ => ⟨S.touched _ _ h rfl rfl rfl, rfl, rfl⟩
theorem fit_jProcess {j : Job D} (h : p j) : Fit E name p (fun _ j' => p j' ∧ j'.id = j.id ∧ j'.context.jobType = j.context.jobType) (Job.process E j) T :=
  fit_stamp _ fun _ => ⟨S.touched _ _ h rfl rfl rfl, rfl, rfl⟩
theorem fit_jFinish {j : Job D} (h : p j) : Fit E name p (fun _ j' => p j' ∧ j'.id = j.id ∧ j'.context.jobType = j.context.jobType) (Job.finish E j) T :=
  fit_stamp _ fun _ => ⟨S.touched _ _ h rfl rfl rfl, rfl, rfl⟩
theorem fit_jCancel {j : Job D} (h : p j) : Fit E name p (fun _ j' => p j' ∧ j'.id = j.id ∧ j'.context.jobType = j.context.jobType) (Job.cancel E j) T :=
  fit_stamp _ fun _ => ⟨S.touched _ _ h rfl rfl rfl, rfl, rfl⟩
theorem fit_jFail {j : Job D} (h : p j) : Fit E name p (fun _ j' => p j' ∧ j'.id = j.id ∧ j'.context.jobType = j.context.jobType) (Job.fail E j) T :=
  fit_stamp _ fun _ => ⟨S.touched _ _ h rfl rfl rfl, rfl, rfl⟩

omit S in
theorem fit_push (st : JobStatus) {j : Job D} (h : p j) : Fit E name p (fun _ _ => True) (Prog.queuePush (formatQueueName name st) j.id) T :=
  Safe.callV (.push st j h) fun _ _ => trivial

omit S in
theorem fit_remove (st : JobStatus) (k : Str) : Fit E name p (fun _ _ => True) (Prog.queueRemove (formatQueueName name st) k) T :=
  Safe.callV (.remove st k) fun _ _ => trivial

namespace WorkQueue

theorem fit_enqueue {j : Job D} (h : p j) : Fit E name p (fun _ _ => True) (enqueue E name j) T :=
  Safe.bind (mid := fun _ _ => True) (Safe.callQ (.push _ _ h) fun _ _ => trivial) fun _ _ _ _ => Safe.bind (fit_jEnqueue S h) fun _ _ _ _ => trivial

theorem fit_submit {j : Job D} (h : p j) (c : EnqueueConfig) : Fit E name p (fun _ _ => True) (runWithConfig E name j c) T := by
  refine Safe.bind (fit_get _) fun T1 r _ _ => ?_
  cases r with
  | some ex =>
    have h2 : ∀ T, Fit E name p (fun _ _ => True) (if (c.reRun && ex.isDone) = true then enqueue E name j else pure ()) T := fun T =>
      Safe.ite (fun _ => fit_enqueue S h) fun _ => trivial
    dsimp only
    split
    · exact Safe.bind (fit_upsert h) fun _ _ _ _ => h2 _
    · exact h2 _
  | none => exact fit_enqueue S h

theorem fit_reEnqueue {j : Job D} (h : p j) : Fit E name p (fun _ _ => True) (reEnqueue E name j) T :=
  Safe.bind (mid := fun _ _ => True) (Safe.callQ (.remove _ _) fun _ _ => trivial) fun _ _ _ _ => Safe.bind (fit_jEnqueue S h) fun _ _ _ hj' =>
    Safe.bind (fit_push _ hj'.1) fun _ _ _ _ => trivial

omit S in
theorem fit_removeProcessing (k : Str) : Fit E name p (fun _ _ => True) (removeProcessingJob name k) T :=
  Safe.bind (fit_remove _ _) fun _ _ _ _ => trivial

theorem fit_finished {j : Job D} (h : p j) : Fit E name p (fun _ _ => True) (markJobIsFinished E name j) T :=
  Safe.bind (fit_removeProcessing _) fun _ _ _ _ => Safe.bind (fit_jFinish S h) fun _ _ _ hj' =>
    Safe.bind (fit_push _ hj'.1) fun _ _ _ _ => trivial

theorem fit_failed {j : Job D} (h : p j) : Fit E name p (fun _ _ => True) (markJobIsFailed E name j) T :=
  Safe.bind (fit_jFail S h) fun _ _ _ hj' => Safe.bind (fit_removeProcessing _) fun _ _ _ _ =>
    Safe.bind (fit_push _ hj'.1) fun _ _ _ _ => trivial

/-- Jobs that were picked: they respect the condition and were due. -/
def Picked (p : Job D → Prop) (T : Time → Prop) (j : Job D) : Prop := p j ∧ ∃ t, T t ∧ j.Due t

omit S in
theorem Picked.more {T T' : Time → Prop} (hT : ∀ t, T t → T' t) {j : Job D} (h : Picked p T j) : Picked p T' j := by
  obtain ⟨h1, t, h2, h3⟩ := h
  exact ⟨h1, t, hT t h2, h3⟩

theorem fit_pickBatch (total : Nat) (ids : List Str) (ready : List (Job D)) (hr : ∀ j ∈ ready, Picked p T j) :
    Fit E name p (fun T l => ∀ j ∈ l, Picked p T j) (pickBatch E name total ids ready) T := by
  induction ids generalizing ready T with
  | nil => exact hr
  | cons id ids ih =>
    have hrot : ∀ T, (∀ j ∈ ready, Picked p T j) → Fit E name p (fun T l => ∀ j ∈ l, Picked p T j)
        (Prog.bind (orFail (queueMove (formatQueueName name .queued) (formatQueueName name .queued) 1 .back .front))
          fun _ => pickBatch E name total ids ready) T := fun T hr =>
      Safe.bind (mid := fun _ _ => True) (Safe.callQ (op := .queueMove _ _ _ _ _) (.move _ _ _ _) fun _ _ => trivial) fun T' _ hT _ =>
        ih ready fun j hj => (hr j hj).more hT
    refine Safe.bind (fit_get id) fun T1 r hT1 hg => ?_
    have hr1 : ∀ j ∈ ready, Picked p T1 j := fun j hj => (hr j hj).more hT1
    cases r with
    | none => exact hrot T1 hr1
    | some j =>
      refine Safe.bind (mid := fun T b => b = true → ∃ t, T t ∧ j.Due t) (fun t => fun hb => ⟨t, .inr rfl, (readyAt_iff j t).mp hb⟩)
        fun T2 b hT2 hb => Safe.ite (fun hc => ?_) fun _ => hrot T2 fun j hj => (hr1 j hj).more hT2
      simp only [Bool.and_eq_true] at hc
      obtain ⟨t, ht, hd⟩ := hb hc.1.1
      refine Safe.bind (fit_jProcess S (hg j rfl).2) fun T3 j' hT3 hj' => Safe.bind (mid := fun _ _ => True)
        (Safe.callQ (op := .queueMove _ _ _ _ _) (.move _ _ _ _) fun _ _ => trivial) fun T4 _ hT4 _ => ih _ fun x hx => ?_
      rcases List.mem_append.1 hx with hx | hx
      · exact (((hr1 x hx).more hT2).more hT3).more hT4
      · rw [List.mem_singleton.1 hx]
        refine ⟨hj'.1, t, hT4 _ (hT3 _ ht), ?_⟩
        unfold Job.Due at hd ⊢
        rw [hj'.2.2]
        exact hd

theorem fit_pickLoop (total fuel : Nat) (cursor : Int) (ready : List (Job D)) (hr : ∀ j ∈ ready, Picked p T j) :
    Fit E name p (fun T l => ∀ j ∈ l, Picked p T j) (pickLoop E name total fuel cursor ready) T := by
  induction fuel generalizing cursor ready T with
  | zero => trivial
  | succ fuel ih =>
    refine Safe.bind (mid := fun _ _ => True) (Safe.callQ (op := .queueGet _ _ _) (.get _ _) fun r h => trivial) fun T1 ids hT1 _ =>
      Safe.bind (mid := fun _ _ => True) (Safe.orPanic fun _ _ => trivial) fun T2 c hT2 _ =>
      Safe.bind (fit_pickBatch S _ _ _ fun j hj => ((hr j hj).more hT1).more hT2) fun T3 r hT3 hr => ?_
    exact Safe.ite (fun _ => hr) fun _ => Safe.ite (fun _ => hr) fun _ => ih _ _ hr

theorem fit_pick (fuel : Nat) (cfg : WorkQueueConfig) :
    Fit E name p (fun T l => ∀ j ∈ l, Picked p T j) (pickJobsToProcess E name fuel cfg) T := by
  refine Safe.bind (mid := fun _ _ => True) (Safe.callV (op := .queueCount _) (.count _) fun _ _ => trivial) fun _ r _ _ => ?_
  exact Safe.ite (fun _ _ h => by cases h) fun _ => Safe.bind (mid := fun _ _ => True)
    (Safe.callQ (op := .queueCount _) (.count _) fun _ _ => trivial) fun _ n _ _ => fit_pickLoop S _ _ _ _ (fun _ h => by cases h)

theorem fit_start {j : Job D} (h : Picked p T j) : Fit E name p (fun _ r => ∀ j', r = some j' → p j') (executeStart name j) T := by
  unfold executeStart
  have h' : p { j with context := { j.context with runCount := j.context.runCount + 1 } } := S.touched j _ h.1 rfl rfl rfl
  refine Safe.ite (fun _ => ?_) fun _ => ?_
  · exact Safe.bind (mid := fun _ _ => True) (Safe.bind (fit_push _ h.1) fun _ _ _ _ => trivial) fun _ _ _ _ => fun j' hj' => by cases hj'
  · obtain ⟨t, ht, hd⟩ := h.2
    refine ⟨⟨j, h.1, rfl⟩, ⟨_, rfl, h', t, ht, hd⟩, ?_⟩
    intro j' hj'
    cases hj'
    exact h'

theorem fit_nextTick {j : Job D} (h : p j) : Fit E name p (fun _ r => ∀ j', r = some j' → p j') (Job.nextTick E j) T := by
  intro t
  simp only [pure_eq, bind_eq, ret_bind]
  split
  · split
    · intro j' hj'; cases hj'
    · intro t2
      simp only [ret_bind]
      refine Safe.bind (mid := fun _ j' => p j') ?_ fun _ j' _ hj => ?_
      · split
        · exact Safe.bind (mid := fun _ _ => True) (Safe.orPanic fun _ _ => trivial) fun _ _ _ _ => S.touched j _ h rfl rfl rfl
        · exact h
      · exact Safe.ite (fun _ x hx => by cases hx) fun _ => Safe.ite (fun _ x hx => by cases hx) fun _ x hx => by cases hx; exact hj
  · intro j' hj'; cases hj'

theorem fit_callRetryAt {x : Executable D O} (hx : Runs x) {j : Job D} (h : p j) {r : Retry} (hr : j.context.retry = some r) (o : O) :
    Fit E name p (fun _ a => p { j with context := { j.context with retry := some a.1 } }) (x.callRetryAt E.overflowChecks j.data r o) T := by
  have same : p { j with context := { j.context with retry := some r } } := S.touched j _ h rfl rfl hr.symm
  unfold Executable.callRetryAt
  split
  · next hd =>
    unfold defaultRetryAt
    split
    · next hc =>
      simp only [Bool.and_eq_true] at hc
      exact Safe.bind (mid := fun _ _ => True) (fun _ => trivial) fun _ now _ _ => Safe.bind (mid := fun _ (a : Retry × Time) => p { j with context := { j.context with retry := some a.1 } })
        (Safe.orPanic fun a ha => S.retried x j r now a.1 a.2 hx h hr hd hc.2 ha) fun _ ⟨_, _⟩ _ ha => ha
    · exact same
  · next f hf => exact fun now => S.asked x f j r now o hx h hr hf

theorem fit_executeFinish {x : Executable D O} (hx : Runs x) {j : Job D} (h : p j) :
    Fit E name p (fun _ _ => True) (executeFinish E name x j) T := by
  have key : ∀ (b : Bool) (j : Job D) T, p j → Fit E name p (fun _ _ => True) (Prog.bind (j.nextTick E) fun r => match r with
    | some next => reEnqueue E name next
    | none => if b then markJobIsFailed E name j else markJobIsFinished E name j) T := by
    intro b j T hj
    refine Safe.bind (fit_nextTick S hj) fun _ r _ hr => ?_
    split
    · next nx => exact fit_reEnqueue S (hr nx rfl)
    · exact Safe.ite (fun _ => fit_failed S hj) fun _ => fit_finished S hj
  have h1 := S.run x j hx h
  unfold executeFinish
  refine Safe.bind (mid := fun _ _ => True) ⟨⟨_, h1, rfl⟩, trivial⟩ fun _ _ _ _ => ?_
  split
  · next r hr =>
    refine Safe.bind (fit_callRetryAt S hx h1 hr _) fun _ ⟨r, t⟩ _ h2 => ?_
    cases t with
    | some t => exact fit_reEnqueue S (S.touched _ _ h2 rfl rfl rfl)
    | none => exact key _ _ _ h2
  · exact key _ _ _ h1

theorem fit_taskFinish {x : Executable D O} (hx : Runs x) {o j : Job D} (ho : p o) (hj : p j) :
    Fit E name p (fun _ _ => True) (taskFinish E name x o j) T := by
  refine Safe.bind (fit_executeFinish S hx hj).catchErr fun _ r _ _ => ?_
  split
  · trivial
  · exact Safe.bind (fit_failed S ho).catchErr fun _ _ _ _ => trivial

theorem fit_cancel (k : Str) : Fit E name p (fun _ _ => True) (cancelJob E name k) T := by
  refine Safe.bind (fit_get k) fun _ r _ hr => ?_
  split
  · next j =>
    exact Safe.ite (fun _ => Safe.bind (fit_jCancel S (hr j rfl).2) fun _ _ _ _ =>
      Safe.callQ (.remove _ _) fun _ _ => trivial) fun _ => trivial
  · trivial

theorem fit_retry (k : Str) : Fit E name p (fun _ _ => True) (retryJob E name k) T := by
  refine Safe.bind (fit_get k) fun _ r _ hr => ?_
  split
  · next j =>
    exact Safe.ite (fun _ => Safe.bind (fit_reEnqueue S (hr j rfl).2) fun _ _ _ _ => trivial) fun _ => trivial
  · trivial

end WorkQueue

/-- The tasks of the process respect the condition, and were due when they were picked. -/
def Proc.Fit (p : Job D → Prop) (T : Time → Prop) (q : Proc D) : Prop :=
  ∀ t ∈ q.tasks, WorkQueue.Picked p T t.orig ∧ ∀ j, t.executing = some j → p j

omit S in
theorem Proc.Fit.more {T T' : Time → Prop} (hT : ∀ t, T t → T' t) {q : Proc D} (h : q.Fit p T) : q.Fit p T' :=
  fun t ht => ⟨(h t ht).1.more hT, (h t ht).2⟩

/-- Answers that respect the condition. -/
def Resp.Fit (p : Job D → Prop) : Resp D → Prop
  | .job (some j) => p j
  | _ => True

/-- What a turn needs. -/
def Op.Fit (p : Job D → Prop) (Runs : Executable D O → Prop) : Op D O → Prop
  | .enqueue j _ => p j
  | .finish _ x => Runs x
  | _ => True

theorem fit_turn {q : Proc D} (hq : q.Fit p T) {op : Op D O} (hop : op.Fit p Runs) (n : Nat) :
    Fit E name p (fun T r => r.1.Fit p T ∧ r.2.Fit p) (q.turnIn E name op n) T := by
  have hd : ∀ T, q.down.Fit p T := fun T t h => by cases h
  have hh : ∀ {α : Type} (c : Prog α) (dead : Resp D) (f : Except Error α → Resp D) (post : (Time → Prop) → α → Prop), dead.Fit p →
      (∀ T a, post T a → (f (.ok a)).Fit p) → (∀ e, (f (.error e)).Fit p) → Fit E name p post c T →
      Fit E name p (fun T r => r.1.Fit p T ∧ r.2.Fit p) (q.handle c dead f) T := by
    intro α c dead f post h1 h2 h3 hc
    refine Safe.bind hc.attempt fun T' r hT hr => ?_
    cases r with
    | ok a => exact ⟨hq.more hT, h2 _ a (hr a rfl)⟩
    | err e => exact ⟨hq.more hT, h3 e⟩
    | panicked => exact ⟨hd _, h1⟩
    | diverged => exact ⟨hd _, h1⟩
  cases op with
  | tick =>
    refine Safe.ite (fun _ => Safe.bind (WorkQueue.fit_pick S _ _).attempt fun T' r hT hr => ?_) fun _ => ⟨hq, trivial⟩
    cases r with
    | ok jobs =>
      refine ⟨fun t ht => ?_, trivial⟩
      rcases List.mem_append.1 ht with ht | ht
      · exact hq.more hT t ht
      · obtain ⟨j, hj, rfl⟩ := List.mem_map.1 ht
        exact ⟨hr jobs rfl j hj, fun _ h => by cases h⟩
    | err e => exact ⟨hq.more hT, trivial⟩
    | panicked => exact ⟨hd _, trivial⟩
    | diverged => exact ⟨hd _, trivial⟩
  | enqueue job cfg =>
    exact Safe.ite (fun _ => hh _ _ _ _ trivial (fun _ _ _ => trivial) (fun _ => trivial) (WorkQueue.fit_submit S hop cfg)) fun _ => ⟨hq, trivial⟩
  | cancel id =>
    exact Safe.ite (fun _ => hh _ _ _ _ trivial (fun _ _ _ => trivial) (fun _ => trivial) (WorkQueue.fit_cancel S id)) fun _ => ⟨hq, trivial⟩
  | get id =>
    refine Safe.ite (fun _ => hh _ _ _ _ trivial (fun _ a ha => ?_) (fun _ => trivial) (fit_get id)) fun _ => ⟨hq, trivial⟩
    cases a with
    | none => trivial
    | some j => exact (ha j rfl).2
  | retry id =>
    exact Safe.ite (fun _ => hh _ _ _ _ trivial (fun _ _ _ => trivial) (fun _ => trivial) (WorkQueue.fit_retry S id)) fun _ => ⟨hq, trivial⟩
  | config c => exact Safe.ite (fun _ => ⟨hq, trivial⟩) fun _ => ⟨hq, trivial⟩
  | start i =>
    refine Safe.ite (fun _ => ?_) fun _ => ⟨hq, trivial⟩
    split
    · next orig hi =>
      have ht := hq _ (List.mem_of_getElem? hi)
      refine Safe.bind (WorkQueue.fit_start S ht.1).attempt fun T' r hT hr => ?_
      have hq' := hq.more hT
      rcases r with (_ | j) | e | _ | _
      · exact ⟨fun t h => hq' t (List.mem_of_mem_eraseIdx h), trivial⟩
      · refine ⟨fun t h => ?_, trivial⟩
        rcases List.mem_or_eq_of_mem_set h with h | rfl
        · exact hq' t h
        · refine ⟨ht.1.more hT, fun j' hj' => ?_⟩
          cases hj'
          exact hr _ rfl j rfl
      · exact ⟨hd _, trivial⟩
      · exact ⟨hd _, trivial⟩
      · exact ⟨hd _, trivial⟩
    · exact ⟨hq, trivial⟩
  | finish i x =>
    refine Safe.ite (fun _ => ?_) fun _ => ⟨hq, trivial⟩
    split
    · next orig job hi =>
      have ht := hq _ (List.mem_of_getElem? hi)
      refine Safe.bind (WorkQueue.fit_taskFinish S hop ht.1.1 (ht.2 job rfl)).attempt fun T' r hT _ => ?_
      cases r
      · exact ⟨fun t h => hq.more hT t (List.mem_of_mem_eraseIdx h), trivial⟩
      · exact ⟨hd _, trivial⟩
      · exact ⟨hd _, trivial⟩
      · exact ⟨hd _, trivial⟩
    · exact ⟨hq, trivial⟩
  | userPanic i =>
    refine Safe.ite (fun _ => ?_) fun _ => ⟨hq, trivial⟩
    split
    · exact ⟨hd _, trivial⟩
    · exact ⟨hq, trivial⟩

/-- What a process has done when it has taken its turns. -/
def Course.Fit (p : Job D → Prop) (T : Time → Prop) (r : Proc D × List (Resp D)) : Prop := r.1.Fit p T ∧ ∀ a ∈ r.2, a.Fit p

theorem fit_course {q : Proc D} (hq : q.Fit p T) {ops : List (Op D O × Nat)} (hops : ∀ op ∈ ops, op.1.Fit p Runs) :
    Fit E name p (Course.Fit p) (q.course E name ops) T := by
  induction ops generalizing q T with
  | nil => exact ⟨hq, fun _ h => by cases h⟩
  | cons op ops ih =>
    refine Safe.bind (fit_turn S hq (hops op (List.mem_cons_self ..)) _) fun T' a hT ha =>
      Safe.bind (ih ha.1 fun o h => hops o (List.mem_cons_of_mem _ h)) fun T'' c hT' hc => ⟨hc.1, fun r hr => ?_⟩
    rcases List.mem_cons.1 hr with rfl | hr
    · exact ha.2
    · exact hc.2 r hr

end
end

/-! ## Interleavings -/

section
variable {D O ι : Type} [DecidableEq ι] {E : Env D} {b : Impl} {script : Nat → Fate} {clk : ι → Nat → Time} {p : Job D → Prop} {name : ι → Str}

theorem FitOp.aj {name : Str} {op : BOp} (h : FitOp E name p op) : AjOp name op := by
  cases h <;> constructor

/-- The times that process `i` has read. -/
def Many.Times {B : Backend} {α : ι → Type} (clk : ι → Nat → Time) (m : Many ι B α) (i : ι) (t : Time) : Prop := ∃ n, n < m.t i ∧ clk i n = t

/-- All processes, and the backend they share, respect the condition. -/
structure Many.AllFit (b : Impl) (E : Env D) (name : ι → Str) (clk : ι → Nat → Time) (p : Job D → Prop)
    (m : Many ι (Faulty b.B script) fun _ => Proc D × List (Resp D)) : Prop where
  state : ∃ t, b.sim.R m.s.1 t ∧ FitState E p t
  prog : ∀ i, Fit E (name i) p (Course.Fit p) (m.prog i) (m.Times clk i)
  log : ∀ i, ∀ e ∈ m.log i, FitEv p (m.Times clk i) e

theorem faulty_keep (L : E.Lawful) (hs : ∀ j, p j → p (j.norm L.normD)) (hq : ∀ n, (script n).env = []) {name : Str} {op : BOp}
    (hop : FitOp E name p op) {s : b.B.S × Nat} (h : ∃ t, b.sim.R s.1 t ∧ FitState E p t) :
    (∃ t, b.sim.R ((Faulty b.B script).exec op s).2.1 t ∧ FitState E p t) ∧ FitAns E p op ((Faulty b.B script).exec op s).1 := by
  obtain ⟨t, hR, hF⟩ := h
  obtain ⟨s, n⟩ := s
  obtain ⟨h1, h2⟩ := b.sim.step op s t (b.okAj _ _ hop.aj) hR
  obtain ⟨h3, h4⟩ := fit_keep L hs op t hop hF
  have hbad : ∀ e, FitAns E p op (.error e) := by intro e; cases op <;> trivial
  unfold Faulty
  simp only [hq, Backend.execAll]
  cases (script n).fault with
  | none => exact ⟨⟨_, h2, h3⟩, by rw [show (b.B.exec op s).1 = _ from h1]; exact h4⟩
  | before => exact ⟨⟨t, hR, hF⟩, hbad _⟩
  | after => exact ⟨⟨_, h2, h3⟩, hbad _⟩

theorem Many.AllFit.step (L : E.Lawful) (hs : ∀ j, p j → p (j.norm L.normD)) (hq : ∀ n, (script n).env = [])
    {m : Many ι (Faulty b.B script) fun _ => Proc D × List (Resp D)} (h : m.AllFit b E name clk p) (i : ι) :
    (m.step (Faulty b.B script) clk i).AllFit b E name clk p := by
  have hother : ∀ j, j ≠ i → ∀ t, (m.step (Faulty b.B script) clk i).Times clk j t ↔ m.Times clk j t := by
    intro j hj t
    unfold Many.Times
    rw [Many.step_t_ne m hj]
  have hmono : ∀ T T' e, (∀ t, T t → T' t) → FitEv p T e → FitEv p T' e := fun T T' e hT he => he.more hT
  have hpost : ∀ (T T' : Time → Prop) (a : Proc D × List (Resp D)), (∀ t, T t → T' t) → Course.Fit p T a → Course.Fit p T' a :=
    fun T T' a hT ha => ⟨ha.1.more hT, ha.2⟩
  have hp := h.prog i
  have hprog := Many.step_prog (clk := clk) m i
  have hw := Many.step_world (clk := clk) m i
  have hws : (m.step (Faulty b.B script) clk i).s = ((m.prog i).step1 (Faulty b.B script) (clk i) (m.world i)).2.s := rfl
  have hwt : (m.step (Faulty b.B script) clk i).t i = ((m.prog i).step1 (Faulty b.B script) (clk i) (m.world i)).2.t := congrArg World.t hw
  have hwl : (m.step (Faulty b.B script) clk i).log i = ((m.prog i).step1 (Faulty b.B script) (clk i) (m.world i)).2.log := congrArg World.log hw
  have main : (∃ t, b.sim.R (m.step (Faulty b.B script) clk i).s.1 t ∧ FitState E p t) ∧
      Fit E (name i) p (Course.Fit p) ((m.step (Faulty b.B script) clk i).prog i) ((m.step (Faulty b.B script) clk i).Times clk i) ∧
      ∀ e ∈ (m.step (Faulty b.B script) clk i).log i, FitEv p ((m.step (Faulty b.B script) clk i).Times clk i) e := by
    rw [hprog, hws, hwl]
    unfold Many.Times
    rw [hwt]
    cases hc : m.prog i with
    | call op k =>
      rw [hc] at hp
      obtain ⟨h1, h2⟩ := faulty_keep L hs hq hp.1 h.state
      exact ⟨h1, hp.2 _ h2, h.log i⟩
    | now k =>
      rw [hc] at hp
      refine ⟨h.state, ?_, fun e he => (h.log i e he).more fun t ⟨n, hn, ht⟩ => ⟨n, Nat.lt_succ_of_lt hn, ht⟩⟩
      refine (hp (clk i (m.t i))).more hpost hmono fun t ht => ?_
      rcases ht with ⟨n, hn, ht⟩ | ht
      · exact ⟨n, Nat.lt_succ_of_lt hn, ht⟩
      · exact ⟨m.t i, Nat.lt_succ_self _, ht.symm⟩
    | emit e k =>
      rw [hc] at hp
      refine ⟨h.state, hp.2, fun e' he' => ?_⟩
      rcases List.mem_append.1 he' with he' | he'
      · exact h.log i e' he'
      · rw [List.mem_singleton.1 he']; exact hp.1
    | ret a => rw [hc] at hp; exact ⟨h.state, hp, h.log i⟩
    | fail e => exact ⟨h.state, trivial, h.log i⟩
    | panic => exact ⟨h.state, trivial, h.log i⟩
    | diverge => exact ⟨h.state, trivial, h.log i⟩
  refine ⟨main.1, fun j => ?_, fun j e he => ?_⟩
  · by_cases hj : j = i
    · subst hj; exact main.2.1
    · rw [Many.step_prog_ne m (Ne.symm hj)]
      exact (h.prog j).more hpost hmono fun t ht => (hother j hj t).mpr ht
  · by_cases hj : j = i
    · subst hj; exact main.2.2 e he
    · rw [Many.step_log_ne m hj] at he
      exact (h.log j e he).more fun t ht => (hother j hj t).mpr ht

theorem Many.AllFit.run (L : E.Lawful) (hs : ∀ j, p j → p (j.norm L.normD)) (hq : ∀ n, (script n).env = [])
    {m : Many ι (Faulty b.B script) fun _ => Proc D × List (Resp D)} (h : m.AllFit b E name clk p) (sched : List ι) :
    (m.run (Faulty b.B script) clk sched).AllFit b E name clk p := by
  induction sched generalizing m with
  | nil => exact h
  | cons i sched ih => exact ih (h.step L hs hq i)

theorem overlap_fits (L : E.Lawful) {ops : ι → List (Op D O × Nat)} (S : Steady L (Executes ops) p) (hsub : ∀ j, Submitted ops j → p j)
    (hq : ∀ n, (script n).env = []) (sched : List ι) :
    ((Many.overlap (Faulty b.B script) E name ops (b.empty, 0)).run (Faulty b.B script) clk sched).AllFit b E name clk p := by
  refine Many.AllFit.run L S.stored hq ⟨⟨Spec.empty, b.empty_rel, fun _ _ _ h => (by cases h), fun _ _ _ h => (by cases h)⟩, fun i => ?_, fun i e he => by cases he⟩ sched
  refine fit_course S (fun t h => by cases h) fun op hop => ?_
  obtain ⟨op, n⟩ := op
  cases op with
  | enqueue j c => exact hsub j ⟨c, i, n, hop⟩
  | finish k x => exact ⟨k, i, n, hop⟩
  | _ => trivial

/-! ## Stored jobs stay readable -/

theorem readable_exec (L : E.Lawful) (he : ∀ j, p j → E.Encodable j) {name : Str} {op : BOp} (hop : FitOp E name p op) {t : SpecState} {k : Str}
    (h : ((t.st STORAGE_HASH k).bind E.codec.dec).isSome = true) : (((Spec.exec op t).2.st STORAGE_HASH k).bind E.codec.dec).isSome = true := by
  cases hop with
  | upsert j hj =>
    simp only [Spec.exec, upd, if_true]
    split
    · obtain ⟨v, hv⟩ := Option.isSome_iff_exists.mp (he j hj)
      rw [hv, Option.bind_some, show (some v).getD [] = v from rfl, L.roundtrip j v hv]
      rfl
    · exact h
  | _ => exact h

theorem readable_step (L : E.Lawful) (he : ∀ j, p j → E.Encodable j) (hq : ∀ n, (script n).env = [])
    {m : Many ι (Faulty b.B script) fun _ => Proc D × List (Resp D)} (h : m.AllFit b E name clk p) (i : ι) {k : Str}
    (hk : ((b.stored m.s.1 k).bind E.codec.dec).isSome = true) :
    ((b.stored (m.step (Faulty b.B script) clk i).s.1 k).bind E.codec.dec).isSome = true := by
  have hp := h.prog i
  have hws : (m.step (Faulty b.B script) clk i).s = ((m.prog i).step1 (Faulty b.B script) (clk i) (m.world i)).2.s := rfl
  rw [hws]
  cases hc : m.prog i with
  | call op c =>
    rw [hc] at hp
    obtain ⟨t, hR, _⟩ := h.state
    obtain ⟨_, h2⟩ := b.sim.step op m.s.1 t (b.okAj _ _ hp.1.aj) hR
    rw [b.stored_eq _ _ _ hR] at hk
    have h3 := readable_exec L he hp.1 hk
    rw [← b.stored_eq _ _ _ h2] at h3
    rw [← b.stored_eq _ _ _ hR] at hk
    have key : ∀ s : b.B.S × Nat, ((b.stored s.1 k).bind E.codec.dec).isSome = true →
        ((b.stored (b.B.exec op s.1).2 k).bind E.codec.dec).isSome = true →
        ((b.stored ((Faulty b.B script).exec op s).2.1 k).bind E.codec.dec).isSome = true := by
      rintro ⟨s, n⟩ hk h3
      unfold Faulty
      simp only [hq, Backend.execAll]
      cases (script n).fault with
      | none => exact h3
      | before => exact hk
      | after => exact h3
    exact key m.s hk h3
  | _ => exact hk

end
end AJ
