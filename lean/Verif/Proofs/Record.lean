import Verif.Spec.Record
import Verif.Proofs.Overlap

/-! # The messages of a process as a record of what it did: proofs -/

namespace AJ
open Prog

/-- Whatever `good` answers the program gets: `inv` holds of the log after each message it sends; `post` holds when it returns and
`err` when it does not. -/
def Prog.Tells {α : Type} (good : (op : BOp) → Except Error op.Res → Prop) (inv : List Event → Prop) (post : List Event → α → Prop)
    (err : List Event → Prop) : Prog α → List Event → Prop
  | ret a, l => post l a
  | fail _, l => err l
  | panic, l => err l
  | diverge, l => err l
  | call op c, l => ∀ r, good op r → Tells good inv post err (c r) l
  | now c, l => ∀ t, Tells good inv post err (c t) l
  | emit e c, l => inv (l ++ [e]) ∧ Tells good inv post err c (l ++ [e])

namespace Prog.Tells
variable {α β : Type} {good : (op : BOp) → Except Error op.Res → Prop} {inv : List Event → Prop} {l : List Event}

theorem bind {p : Prog α} {f : α → Prog β} {mid : List Event → α → Prop} {post : List Event → β → Prop} {err : List Event → Prop}
    (hp : p.Tells good inv mid err l) (hf : ∀ l' a, mid l' a → (f a).Tells good inv post err l') : (p.bind f).Tells good inv post err l := by
  induction p generalizing l with
  | ret a => exact hf l a hp
  | call op k ih => exact fun r h => ih r (hp r h)
  | now k ih => exact fun t => ih t (hp t)
  | emit e k ih => exact ⟨hp.1, ih hp.2⟩
  | _ => exact hp

theorem callV {op : BOp} {post : List Event → Except Error op.Res → Prop} {err : List Event → Prop} (hp : ∀ r, good op r → post l r) :
    (call' op).Tells good inv post err l := hp

theorem callQ {op : BOp} {post : List Event → op.Res → Prop} {err : List Event → Prop} (hp : ∀ r, good op (.ok r) → post l r) (he : err l) :
    (orFail (call' op)).Tells good inv post err l := fun r hr => by
  cases r with
  | ok a => exact hp a hr
  | error e => exact he

theorem ite {c : Prop} [Decidable c] {p q : Prog α} {post : List Event → α → Prop} {err : List Event → Prop}
    (hp : c → p.Tells good inv post err l) (hq : ¬ c → q.Tells good inv post err l) : (if c then p else q).Tells good inv post err l := by
  split
  · next h => exact hp h
  · next h => exact hq h

theorem weaken {p : Prog α} {post post' : List Event → α → Prop} {err err' : List Event → Prop} (h : ∀ l a, post l a → post' l a)
    (he : ∀ l, err l → err' l) (hp : p.Tells good inv post err l) : p.Tells good inv post' err' l := by
  induction p generalizing l with
  | ret a => exact h l a hp
  | call op k ih => exact fun r hr => ih r (hp r hr)
  | now k ih => exact fun t => ih t (hp t)
  | emit e k ih => exact ⟨hp.1, ih hp.2⟩
  | _ => exact he l hp

theorem orPanic {o : Option α} {post : List Event → α → Prop} {err : List Event → Prop} (h : ∀ a, o = some a → post l a)
    (he : err l) : (Prog.orPanic o).Tells good inv post err l := by
  cases o with
  | none => exact he
  | some a => exact h a rfl

theorem attempt {p : Prog α} {post : List Event → α → Prop} {err : List Event → Prop} (hp : p.Tells good inv post err l) :
    p.attempt.Tells good inv (fun l r => match r with
      | .ok a => post l a
      | _ => err l) (fun _ => False) l := by
  induction p generalizing l with
  | ret a => exact hp
  | fail e => exact hp
  | panic => exact hp
  | diverge => exact hp
  | call op k ih => exact fun r h => ih r (hp r h)
  | now k ih => exact fun t => ih t (hp t)
  | emit e k ih => exact ⟨hp.1, ih hp.2⟩

theorem catchErr {p : Prog α} {post : List Event → α → Prop} {err : List Event → Prop} (hp : p.Tells good inv post err l) :
    p.catchErr.Tells good inv (fun l r => match r with
      | .ok a => post l a
      | .error _ => err l) err l := by
  induction p generalizing l with
  | ret a => exact hp
  | call op k ih => exact fun r h => ih r (hp r h)
  | now k ih => exact fun t => ih t (hp t)
  | emit e k ih => exact ⟨hp.1, ih hp.2⟩
  | _ => exact hp

end Prog.Tells

/-! ## The books -/

/-- What is still to come for a job: picked executions, running executions, requests to run and to cancel it; `open'` is 1 between
the message before an execution and the execution. -/
structure Due' where
  pend : Nat
  exec : Nat
  hook : Nat
  req : Nat
  can : Nat
  open' : Nat

/-- The messages so far, together with what is still to come, are covered. -/
structure Books (k : Str) (asked stops : Nat) (c : Due') (l : List Event) : Prop where
  announced : runsOf k l + c.pend ≤ told k .running l
  ended : told k .finished l + told k .failed l + c.exec ≤ runsOf k l
  queued : told k .queued l + told k .finished l + told k .failed l + c.exec + c.req ≤ asked + runsOf k l
  canceled : told k .canceled l + c.can ≤ stops
  before : runsOf k l + c.open' ≤ hookings k l
  after : hookings k l + c.hook ≤ 2 * runsOf k l + c.open'
  one : c.open' ≤ 1

namespace Books
variable {k : Str} {asked stops : Nat} {c : Due'} {l : List Event}

theorem record (h : Books k asked stops c l) : Record k asked stops l := by
  obtain ⟨h1, h2, h3, h4, h5, h6, h7⟩ := h
  constructor <;> omega

theorem less {c' : Due'} (h : Books k asked stops c l) (h1 : c'.pend ≤ c.pend) (h2 : c'.exec ≤ c.exec) (h3 : c'.hook ≤ c.hook)
    (h4 : c'.req ≤ c.req) (h5 : c'.can ≤ c.can) (h6 : c'.open' = c.open') : Books k asked stops c' l := by
  obtain ⟨g1, g2, g3, g4, g5, g6, g7⟩ := h
  constructor <;> omega

private theorem told_add (k : Str) (st : JobStatus) (l : List Event) (e : Event) :
    told k st (l ++ [e]) = told k st l + if e = .statusMsg k st then 1 else 0 := by
  simp [told, List.countP_append, List.countP_cons]

private theorem runs_add (k : Str) (l : List Event) (e : Event) : runsOf k (l ++ [e]) = runsOf k l + match e with
    | .ran c => if c.jobId = k then 1 else 0
    | _ => 0 := by
  cases e <;> simp [runsOf, List.countP_append, List.countP_cons]

private theorem hooks_add (k : Str) (l : List Event) (e : Event) : hookings k (l ++ [e]) = hookings k l + match e with
    | .hookMsg id _ => if id = k then 1 else 0
    | _ => 0 := by
  cases e <;> simp [hookings, List.countP_append, List.countP_cons]

theorem other (h : Books k asked stops c l) {e : Event} (he : e.id ≠ k) : Books k asked stops c (l ++ [e]) := by
  obtain ⟨g1, g2, g3, g4, g5, g6, g7⟩ := h
  cases e <;> simp only [Event.id] at he <;> constructor <;> (try simp [told_add, runs_add, hooks_add, he]) <;> omega

theorem running (h : Books k asked stops c l) : Books k asked stops { c with pend := c.pend + 1 } (l ++ [.statusMsg k .running]) := by
  obtain ⟨g1, g2, g3, g4, g5, g6, g7⟩ := h
  constructor <;> (try simp [told_add, runs_add, hooks_add]) <;> omega

theorem asked' (h : Books k asked stops { c with req := c.req + 1 } l) : Books k asked stops c (l ++ [.statusMsg k .queued]) := by
  obtain ⟨g1, g2, g3, g4, g5, g6, g7⟩ := h
  constructor <;> (try simp [told_add, runs_add, hooks_add]) <;> (try simp only at *) <;> omega

theorem ends (h : Books k asked stops { c with exec := c.exec + 1 } l) {st : JobStatus} (hst : st = .queued ∨ st = .finished ∨ st = .failed) :
    Books k asked stops c (l ++ [.statusMsg k st]) := by
  obtain ⟨g1, g2, g3, g4, g5, g6, g7⟩ := h
  rcases hst with rfl | rfl | rfl <;> constructor <;> (try simp [told_add, runs_add, hooks_add]) <;> (try simp only at *) <;> omega

theorem stops' (h : Books k asked stops { c with can := c.can + 1 } l) : Books k asked stops c (l ++ [.statusMsg k .canceled]) := by
  obtain ⟨g1, g2, g3, g4, g5, g6, g7⟩ := h
  constructor <;> (try simp [told_add, runs_add, hooks_add]) <;> (try simp only at *) <;> omega

theorem hookIn (h : Books k asked stops c l) (ho : c.open' = 0) (x : Bool) : Books k asked stops { c with open' := 1 } (l ++ [.hookMsg k x]) := by
  obtain ⟨g1, g2, g3, g4, g5, g6, g7⟩ := h
  constructor <;> (try simp [told_add, runs_add, hooks_add]) <;> omega

theorem ran (h : Books k asked stops { c with pend := c.pend + 1, open' := 1 } l) {x : JobContext} (hx : x.jobId = k) :
    Books k asked stops { c with exec := c.exec + 1, hook := c.hook + 1, open' := 0 } (l ++ [.ran x]) := by
  obtain ⟨g1, g2, g3, g4, g5, g6, g7⟩ := h
  constructor <;> (try simp [told_add, runs_add, hooks_add, hx]) <;> (try simp only at *) <;> omega

theorem hookOut (h : Books k asked stops { c with hook := c.hook + 1 } l) (x : Bool) : Books k asked stops c (l ++ [.hookMsg k x]) := by
  obtain ⟨g1, g2, g3, g4, g5, g6, g7⟩ := h
  constructor <;> (try simp [told_add, runs_add, hooks_add]) <;> (try simp only at *) <;> omega

end Books

/-! ## The programs of a work queue -/

section
variable {D O : Type} {E : Env D} {name : Str} {inv : List Event → Prop} {l : List Event}

/-- What is read under an id is a job with this id. -/
abbrev OwnId (E : Env D) : (op : BOp) → Except Error op.Res → Prop := FitAns E fun _ => True

theorem tells_get (k : Str) {err : List Event → Prop} :
    (getFromStorage E k).Tells (OwnId E) inv (fun l' r => l' = l ∧ ∀ j, r = some j → j.id = k) err l := by
  refine Tells.bind (Tells.callV (op := .storageGet STORAGE_HASH k) (post := fun l' r => l' = l ∧ FitAns E (fun _ => True) (.storageGet STORAGE_HASH k) r)
    fun r hr => ⟨rfl, hr⟩) fun _ r hr => ?_
  obtain ⟨rfl, hr⟩ := hr
  split
  · next v => exact ⟨rfl, fun j hj => (hr j hj).1⟩
  · exact ⟨rfl, fun j hj => by cases hj⟩

theorem tells_upsert (k : Str) (j : Job D) : (upsertToStorage E k j).Tells (OwnId E) inv (fun l' _ => l' = l) (fun l' => l' = l) l :=
  Tells.callQ (op := .storageUpsert STORAGE_HASH k _) (fun _ _ => rfl) rfl

theorem tells_save {j : Job D} (h : inv (l ++ [.statusMsg j.id j.context.jobStatus])) :
    (Job.saveAndNotify E j).Tells (OwnId E) inv (fun l' _ => l' = l ++ [.statusMsg j.id j.context.jobStatus]) (fun l' => l' = l) l :=
  Tells.bind (tells_upsert j.id j) fun _ _ e => by subst e; exact ⟨h, rfl⟩

private theorem tells_stamp (f : Int → Job D) {j : Job D} {st : JobStatus} (hf : ∀ ms, (f ms).id = j.id ∧ (f ms).context.jobStatus = st)
    (h : inv (l ++ [.statusMsg j.id st])) :
    (Prog.getNowMs.bind fun ms => (Job.saveAndNotify E (f ms)).bind fun _ => .ret (f ms)).Tells (OwnId E) inv
      (fun l' j' => l' = l ++ [.statusMsg j.id st] ∧ j'.id = j.id) (fun l' => l' = l) l := by
  refine Tells.bind (mid := fun l' _ => l' = l) (fun _ => rfl) fun _ ms e => ?_
  subst e
  refine Tells.bind (tells_save ?_) fun _ _ e => ?_
  · rw [(hf ms).1, (hf ms).2]; exact h
  · subst e
    exact ⟨by rw [(hf ms).1, (hf ms).2], (hf ms).1⟩

abbrev Marks (E : Env D) (inv : List Event → Prop) (j : Job D) (st : JobStatus) (l : List Event) (q : Prog (Job D)) : Prop :=
  q.Tells (OwnId E) inv (fun l' j' => l' = l ++ [.statusMsg j.id st] ∧ j'.id = j.id) (fun l' => l' = l) l

theorem tells_jEnqueue {j : Job D} (h : inv (l ++ [.statusMsg j.id .queued])) : Marks E inv j .queued l (Job.enqueue E j) :=
  tells_stamp _ (fun _ => ⟨rfl, rfl⟩) h
theorem tells_jProcess {j : Job D} (h : inv (l ++ [.statusMsg j.id .running])) : Marks E inv j .running l (Job.process E j) :=
  tells_stamp _ (fun _ => ⟨rfl, rfl⟩) h
theorem tells_jFinish {j : Job D} (h : inv (l ++ [.statusMsg j.id .finished])) : Marks E inv j .finished l (Job.finish E j) :=
  tells_stamp _ (fun _ => ⟨rfl, rfl⟩) h
theorem tells_jCancel {j : Job D} (h : inv (l ++ [.statusMsg j.id .canceled])) : Marks E inv j .canceled l (Job.cancel E j) :=
  tells_stamp _ (fun _ => ⟨rfl, rfl⟩) h
theorem tells_jFail {j : Job D} (h : inv (l ++ [.statusMsg j.id .failed])) : Marks E inv j .failed l (Job.fail E j) :=
  tells_stamp _ (fun _ => ⟨rfl, rfl⟩) h

/-- One message, or none when it fails. -/
abbrev Notes {α : Type} (E : Env D) (inv : List Event → Prop) (k : Str) (st : JobStatus) (l : List Event) (q : Prog α) : Prop :=
  q.Tells (OwnId E) inv (fun l' _ => l' = l ++ [.statusMsg k st]) (fun l' => l' = l) l

theorem tells_push (q k : Str) {err : List Event → Prop} : (Prog.queuePush q k).Tells (OwnId E) inv (fun l' _ => l' = l) err l :=
  Tells.callV (op := .queuePush q k) fun _ _ => rfl

theorem tells_remove (q k : Str) {err : List Event → Prop} : (Prog.queueRemove q k).Tells (OwnId E) inv (fun l' _ => l' = l) err l :=
  Tells.callV (op := .queueRemove q k) fun _ _ => rfl

namespace WorkQueue

theorem tells_enqueue {j : Job D} (h : inv (l ++ [.statusMsg j.id .queued])) : Notes E inv j.id .queued l (enqueue E name j) := by
  refine Tells.bind (mid := fun l' _ => l' = l) (Tells.callQ (op := .queuePush _ _) (fun _ _ => rfl) rfl) fun _ _ e => ?_
  subst e
  exact Tells.bind (tells_jEnqueue h) fun _ _ e => e.1

theorem tells_submit {j : Job D} (h : inv (l ++ [.statusMsg j.id .queued])) (c : EnqueueConfig) :
    (runWithConfig E name j c).Tells (OwnId E) inv (fun l' _ => l' = l ∨ l' = l ++ [.statusMsg j.id .queued]) (fun l' => l' = l) l := by
  refine Tells.bind (tells_get _) fun l1 r e => ?_
  obtain ⟨rfl, _⟩ := e
  cases r with
  | some ex =>
    have h2 : (if (c.reRun && ex.isDone) = true then enqueue E name j else pure ()).Tells (OwnId E) inv
        (fun l' _ => l' = l1 ∨ l' = l1 ++ [.statusMsg j.id .queued]) (fun l' => l' = l1) l1 :=
      Tells.ite (fun _ => (tells_enqueue h).weaken (fun _ _ h => .inr h) fun _ h => h) fun _ => .inl rfl
    dsimp only
    split
    · exact Tells.bind (tells_upsert _ _) fun _ _ e => by subst e; exact h2
    · exact h2
  | none => exact (tells_enqueue h).weaken (fun _ _ h => .inr h) fun _ h => h

theorem tells_reEnqueue {j : Job D} (h : inv (l ++ [.statusMsg j.id .queued])) : Notes E inv j.id .queued l (reEnqueue E name j) := by
  refine Tells.bind (mid := fun l' _ => l' = l) (Tells.callQ (op := .queueRemove _ _) (fun _ _ => rfl) rfl) fun _ _ e => ?_
  subst e
  exact Tells.bind (tells_jEnqueue h) fun _ _ e => Tells.bind (tells_push _ _) fun _ _ e' => e'.trans e.1

theorem tells_finished {j : Job D} (h : inv (l ++ [.statusMsg j.id .finished])) : Notes E inv j.id .finished l (markJobIsFinished E name j) := by
  refine Tells.bind (mid := fun l' _ => l' = l) (Tells.bind (tells_remove _ _) fun _ _ e => e) fun _ _ e => ?_
  subst e
  exact Tells.bind (tells_jFinish h) fun _ _ e => Tells.bind (tells_push _ _) fun _ _ e' => e'.trans e.1

theorem tells_failed {j : Job D} (h : inv (l ++ [.statusMsg j.id .failed])) : Notes E inv j.id .failed l (markJobIsFailed E name j) := by
  refine Tells.bind (tells_jFail h) fun l1 _ e => Tells.bind (mid := fun l' _ => l' = l1) (Tells.bind (tells_remove _ _) fun _ _ e => e) fun _ _ e1 => ?_
  exact Tells.bind (tells_push _ _) fun _ _ e' => e'.trans (e1.trans e.1)

theorem tells_nextTick {j : Job D} :
    (Job.nextTick E j).Tells (OwnId E) inv (fun l' r => l' = l ∧ ∀ j', r = some j' → j'.id = j.id) (fun l' => l' = l) l := by
  intro t
  simp only [pure_eq, bind_eq, ret_bind]
  split
  · split
    · exact ⟨rfl, fun j' hj' => by cases hj'⟩
    · intro t2
      simp only [ret_bind]
      refine Tells.bind (mid := fun l' j' => l' = l ∧ j'.id = j.id) ?_ fun _ j' hj => ?_
      · split
        · exact Tells.bind (mid := fun l' _ => l' = l) (Tells.orPanic (fun _ _ => rfl) rfl) fun _ _ e => ⟨e, rfl⟩
        · exact ⟨rfl, rfl⟩
      · exact Tells.ite (fun _ => ⟨hj.1, fun x hx => by cases hx⟩) fun _ => Tells.ite (fun _ => ⟨hj.1, fun x hx => by cases hx⟩) fun _ =>
          ⟨hj.1, fun x hx => by cases hx; exact hj.2⟩
  · exact ⟨rfl, fun j' hj' => by cases hj'⟩

theorem tells_callRetryAt (x : Executable D O) (d : D) (r : Retry) (o : O) :
    (x.callRetryAt E.overflowChecks d r o).Tells (OwnId E) inv (fun l' _ => l' = l) (fun l' => l' = l) l := by
  unfold Executable.callRetryAt
  split
  · unfold defaultRetryAt
    split
    · exact Tells.bind (mid := fun l' _ => l' = l) (fun _ => rfl) fun _ now e => Tells.bind (mid := fun l' (_ : Retry × Time) => l' = l)
        (Tells.orPanic (fun a _ => e) e) fun _ ⟨_, _⟩ e => e
    · rfl
  · exact fun now => rfl

/-- How an execution ends. -/
def Ended (st : JobStatus) : Prop := st = .queued ∨ st = .finished ∨ st = .failed

theorem tells_executeFinish (x : Executable D O) {j : Job D} (h1 : inv (l ++ [.hookMsg j.id true]))
    (h : ∀ st, Ended st → inv (l ++ [.hookMsg j.id true] ++ [.statusMsg j.id st])) :
    (executeFinish E name x j).Tells (OwnId E) inv (fun l' _ => ∃ st, Ended st ∧ l' = l ++ [.hookMsg j.id true] ++ [.statusMsg j.id st])
      (fun l' => l' = l ++ [.hookMsg j.id true]) l := by
  have key : ∀ (b : Bool) (j' : Job D), j'.id = j.id → (Prog.bind (j'.nextTick E) fun r => match r with
      | some next => reEnqueue E name next
      | none => if b then markJobIsFailed E name j' else markJobIsFinished E name j').Tells (OwnId E) inv
        (fun l' _ => ∃ st, Ended st ∧ l' = l ++ [.hookMsg j.id true] ++ [.statusMsg j.id st])
        (fun l' => l' = l ++ [.hookMsg j.id true]) (l ++ [.hookMsg j.id true]) := by
    intro b j' hj'
    refine Tells.bind tells_nextTick fun _ r hr => ?_
    obtain ⟨rfl, hr⟩ := hr
    split
    · next nx =>
      have e : nx.id = j.id := (hr nx rfl).trans hj'
      exact (tells_reEnqueue (by rw [e]; exact h _ (.inl rfl))).weaken (fun _ _ h => ⟨_, .inl rfl, h.trans (by rw [e])⟩) fun _ h => h
    · refine Tells.ite (fun _ => ?_) fun _ => ?_
      · exact (tells_failed (by rw [hj']; exact h _ (.inr (.inr rfl)))).weaken (fun _ _ h => ⟨_, .inr (.inr rfl), h.trans (by rw [hj'])⟩) fun _ h => h
      · exact (tells_finished (by rw [hj']; exact h _ (.inr (.inl rfl)))).weaken (fun _ _ h => ⟨_, .inr (.inl rfl), h.trans (by rw [hj'])⟩) fun _ h => h
  unfold executeFinish
  refine Tells.bind (mid := fun l' _ => l' = l ++ [Event.hookMsg j.id true]) ⟨h1, show _ = _ from rfl⟩ fun _ _ e => ?_
  subst e
  split
  · refine Tells.bind (tells_callRetryAt _ _ _ _) fun _ ⟨r, t⟩ e => ?_
    subst e
    cases t with
    | some t =>
      refine (tells_reEnqueue ?_).weaken (fun _ _ h => ⟨_, .inl rfl, h⟩) fun _ h => h
      exact h _ (.inl rfl)
    | none => exact key _ _ rfl
  · exact key _ _ rfl

theorem tells_taskFinish (x : Executable D O) {o j : Job D} (ho : o.id = j.id) (h1 : inv (l ++ [.hookMsg j.id true]))
    (h : ∀ st, Ended st → inv (l ++ [.hookMsg j.id true] ++ [.statusMsg j.id st])) :
    (taskFinish E name x o j).Tells (OwnId E) inv (fun l' _ => l' = l ++ [.hookMsg j.id true] ∨
      ∃ st, Ended st ∧ l' = l ++ [.hookMsg j.id true] ++ [.statusMsg j.id st]) (fun l' => l' = l ++ [.hookMsg j.id true]) l := by
  refine Tells.bind (tells_executeFinish x h1 h).catchErr fun _ r hr => ?_
  split
  · exact .inr hr
  · have hr : _ = _ := hr
    subst hr
    refine Tells.bind (tells_failed (by rw [ho]; exact h _ (.inr (.inr rfl)))).catchErr fun _ r hr => ?_
    cases r with
    | ok a => exact .inr ⟨_, .inr (.inr rfl), Eq.trans hr (by rw [ho])⟩
    | error e => exact .inl hr

theorem tells_cancel (k : Str) (h : inv (l ++ [.statusMsg k .canceled])) :
    (cancelJob E name k).Tells (OwnId E) inv (fun l' _ => l' = l ∨ l' = l ++ [.statusMsg k .canceled])
      (fun l' => l' = l ∨ l' = l ++ [.statusMsg k .canceled]) l := by
  refine Tells.bind (tells_get k) fun _ r hr => ?_
  obtain ⟨rfl, hr⟩ := hr
  split
  · next j =>
    have e := hr j rfl
    refine Tells.ite (fun _ => Tells.bind (((tells_jCancel (by rw [e]; exact h)).weaken (fun _ _ h => .inr (by rw [← e]; exact h.1)) fun _ h => .inl h))
      fun _ _ hl => Tells.callQ (op := .queueRemove _ _) (fun _ _ => hl) hl) fun _ => .inl rfl
  · exact .inl rfl

theorem tells_retry (k : Str) (h : inv (l ++ [.statusMsg k .queued])) :
    (retryJob E name k).Tells (OwnId E) inv (fun l' _ => l' = l ∨ l' = l ++ [.statusMsg k .queued]) (fun l' => l' = l) l := by
  refine Tells.bind (tells_get k) fun _ r hr => ?_
  obtain ⟨rfl, hr⟩ := hr
  split
  · next j =>
    have e := hr j rfl
    exact Tells.ite (fun _ => Tells.bind (tells_reEnqueue (by rw [e]; exact h)) fun _ _ hl => .inr (by rw [← e]; exact hl)) fun _ => .inl rfl
  · exact .inl rfl

section
variable {k : Str} {asked stops : Nat}

/-- How often `k` was picked. -/
def picks (k : Str) (js : List (Job D)) : Nat := js.countP fun j => decide (j.id = k)

theorem tells_pickBatch (hinv : ∀ c l, Books k asked stops c l → inv l) (c : Due') (total : Nat) (ids : List Str) (ready : List (Job D))
    (h : Books k asked stops { c with pend := c.pend + picks k ready } l) :
    (pickBatch E name total ids ready).Tells (OwnId E) inv (fun l' js => Books k asked stops { c with pend := c.pend + picks k js } l')
      (fun l' => Books k asked stops c l') l := by
  have hless : ∀ (js : List (Job D)) (l : List Event), Books k asked stops { c with pend := c.pend + picks k js } l → Books k asked stops c l :=
    fun js l h => h.less (Nat.le_add_right ..) (Nat.le_refl _) (Nat.le_refl _) (Nat.le_refl _) (Nat.le_refl _) rfl
  induction ids generalizing ready l with
  | nil => exact h
  | cons id ids ih =>
    have hrot : (Prog.bind (orFail (queueMove (formatQueueName name .queued) (formatQueueName name .queued) 1 .back .front))
          fun _ => pickBatch E name total ids ready).Tells (OwnId E) inv (fun l' js => Books k asked stops { c with pend := c.pend + picks k js } l')
      (fun l' => Books k asked stops c l') l :=
      Tells.bind (mid := fun l' _ => l' = l) (Tells.callQ (op := .queueMove _ _ _ _ _) (fun _ _ => rfl) (hless _ _ h)) fun _ _ e => by
        subst e; exact ih ready h
    refine Tells.bind (tells_get id) fun l r hr => ?_
    obtain ⟨rfl, _⟩ := hr
    cases r with
    | none => exact hrot
    | some j =>
      refine Tells.bind (mid := fun l' _ => l' = l) (fun t => rfl) fun l b e => ?_
      subst e
      refine Tells.ite (fun hc => ?_) fun _ => hrot
      have hadd : Books k asked stops { c with pend := c.pend + picks k ready + if j.id = k then 1 else 0 } (l ++ [.statusMsg j.id .running]) := by
        split
        · next e => rw [e]; exact h.running
        · next e => exact h.other e
      have hproc : (Job.process E j).Tells (OwnId E) inv (fun l' j' => Books k asked stops { c with pend := c.pend + picks k (ready ++ [j']) } l')
          (fun l' => Books k asked stops c l') l := by
        refine (tells_jProcess (hinv _ _ hadd)).weaken (fun l' j' h' => ?_) fun _ e => by rw [e]; exact hless _ _ h
        obtain ⟨e1, e2⟩ := h'
        have : picks k (ready ++ [j']) = picks k ready + if j.id = k then 1 else 0 := by
          simp [picks, List.countP_append, List.countP_cons, e2]
        rw [e1, this, ← Nat.add_assoc]
        exact hadd
      exact Tells.bind hproc fun _ j' hb => Tells.bind (mid := fun l' _ => Books k asked stops { c with pend := c.pend + picks k (ready ++ [j']) } l')
        (Tells.callQ (op := .queueMove _ _ _ _ _) (fun _ _ => hb) (hless _ _ hb)) fun _ _ hb => ih _ hb

theorem tells_pickLoop (hinv : ∀ c l, Books k asked stops c l → inv l) (c : Due') (total fuel : Nat) (cursor : Int) (ready : List (Job D))
    (h : Books k asked stops { c with pend := c.pend + picks k ready } l) :
    (pickLoop E name total fuel cursor ready).Tells (OwnId E) inv (fun l' js => Books k asked stops { c with pend := c.pend + picks k js } l')
      (fun l' => Books k asked stops c l') l := by
  induction fuel generalizing cursor ready l with
  | zero => exact h.less (Nat.le_add_right ..) (Nat.le_refl _) (Nat.le_refl _) (Nat.le_refl _) (Nat.le_refl _) rfl
  | succ fuel ih =>
    have h' : Books k asked stops c l := h.less (Nat.le_add_right ..) (Nat.le_refl _) (Nat.le_refl _) (Nat.le_refl _) (Nat.le_refl _) rfl
    refine Tells.bind (mid := fun l' _ => l' = l) (Tells.callQ (op := .queueGet _ _ _) (fun _ _ => rfl) h') fun _ ids e => ?_
    subst e
    refine Tells.bind (mid := fun l' _ => l' = _) (Tells.orPanic (fun _ _ => rfl) h') fun _ cur e => ?_
    subst e
    refine Tells.bind (tells_pickBatch hinv c _ _ _ h) fun _ r hr => ?_
    exact Tells.ite (fun _ => hr) fun _ => Tells.ite (fun _ => hr) fun _ => ih _ _ hr

theorem tells_pick (hinv : ∀ c l, Books k asked stops c l → inv l) (c : Due') (fuel : Nat) (cfg : WorkQueueConfig) (h : Books k asked stops c l) :
    (pickJobsToProcess E name fuel cfg).Tells (OwnId E) inv (fun l' js => Books k asked stops { c with pend := c.pend + picks k js } l')
      (fun l' => Books k asked stops c l') l := by
  refine Tells.bind (mid := fun l' _ => l' = l) (Tells.callV (op := .queueCount _) fun _ _ => rfl) fun _ r e => ?_
  subst e
  refine Tells.ite (fun _ => h) fun _ => Tells.bind (mid := fun l' _ => l' = _) (Tells.callQ (op := .queueCount _) (fun _ _ => rfl) h) fun _ n e => ?_
  subst e
  exact tells_pickLoop hinv c _ _ _ _ h

theorem tells_start (j : Job D) (h1 : inv (l ++ [.hookMsg j.id true]))
    (h2 : inv (l ++ [.hookMsg j.id true] ++ [.ran { j.context with runCount := j.context.runCount + 1 }])) {err : List Event → Prop} :
    (executeStart name j).Tells (OwnId E) inv (fun l' r => match r with
      | none => l' = l
      | some j' => j'.id = j.id ∧ l' = l ++ [.hookMsg j.id true] ++ [.ran { j.context with runCount := j.context.runCount + 1 }]) err l := by
  unfold executeStart
  refine Tells.ite (fun _ => ?_) fun _ => ?_
  · exact Tells.bind (mid := fun l' _ => l' = l) (Tells.bind (tells_push _ _) fun _ _ e => e) fun _ _ e => e
  · exact ⟨h1, h2, rfl, rfl⟩

end
end WorkQueue

/-! ## Turns -/

section
variable {k : Str} {asked stops : Nat}

/-- How many tasks for `k` wait for their start. -/
def Proc.waits (q : Proc D) (k : Str) : Nat := q.tasks.countP fun t => decide (t.orig.id = k) && t.executing.isNone
/-- How many tasks are executing `k`. -/
def Proc.busy (q : Proc D) (k : Str) : Nat := q.tasks.countP fun t => decide (t.orig.id = k) && t.executing.isSome

/-- The messages of a process, its tasks and its remaining requests are covered. -/
structure Proc.Kept (k : Str) (asked stops : Nat) (q : Proc D) (req can : Nat) (l : List Event) : Prop where
  books : Books k asked stops ⟨q.waits k, q.busy k, q.busy k, req, can, 0⟩ l
  ids : ∀ t ∈ q.tasks, ∀ j, t.executing = some j → j.id = t.orig.id

private theorem countP_set {α : Type} (P : α → Bool) (l : List α) (i : Nat) (a b : α) (h : l[i]? = some a) :
    (l.set i b).countP P + (if P a then 1 else 0) = l.countP P + if P b then 1 else 0 := by
  induction l generalizing i with
  | nil => cases h
  | cons x l ih =>
    cases i with
    | zero => cases h; simp only [List.set_cons_zero, List.countP_cons]; omega
    | succ i => have := ih i h; simp only [List.set_cons_succ, List.countP_cons]; omega

private theorem countP_erase {α : Type} (P : α → Bool) (l : List α) (i : Nat) (a : α) (h : l[i]? = some a) :
    (l.eraseIdx i).countP P + (if P a then 1 else 0) = l.countP P := by
  induction l generalizing i with
  | nil => cases h
  | cons x l ih =>
    cases i with
    | zero => cases h; simp only [List.eraseIdx_cons_zero, List.countP_cons]
    | succ i => have := ih i h; simp only [List.eraseIdx_cons_succ, List.countP_cons]; omega

private theorem Proc.Kept.dead {q : Proc D} {req can : Nat} {c : Due'} (h : Books k asked stops c l) (h1 : req ≤ c.req) (h2 : can ≤ c.can)
    (h3 : c.open' = 0) : q.down.Kept k asked stops req can l :=
  ⟨h.less (Nat.zero_le _) (Nat.zero_le _) (Nat.zero_le _) h1 h2 h3.symm, fun _ ht => by cases ht⟩

theorem kept_turn (hinv : ∀ c l, Books k asked stops c l → inv l) {q : Proc D} {req can : Nat} {op : Op D O}
    (hq : q.Kept k asked stops (req + if op.asks k then 1 else 0) (can + if op.cancels k then 1 else 0) l) (n : Nat) {err : List Event → Prop} :
    (q.turnIn E name op n).Tells (OwnId E) inv (fun l' r => r.1.Kept k asked stops req can l') err l := by
  have hb0 := hq.books
  have hb : Books k asked stops ⟨q.waits k, q.busy k, q.busy k, req, can, 0⟩ l :=
    hb0.less (Nat.le_refl _) (Nat.le_refl _) (Nat.le_refl _) (Nat.le_add_right ..) (Nat.le_add_right ..) rfl
  have stay : q.Kept k asked stops req can l := ⟨hb, hq.ids⟩
  have hh : ∀ {α : Type} (c : Prog α) (dead : Resp D) (f : Except Error α → Resp D),
      c.Tells (OwnId E) inv (fun l' _ => Books k asked stops ⟨q.waits k, q.busy k, q.busy k, req, can, 0⟩ l')
        (fun l' => Books k asked stops ⟨q.waits k, q.busy k, q.busy k, req, can, 0⟩ l') l →
      (q.handle c dead f).Tells (OwnId E) inv (fun l' r => r.1.Kept k asked stops req can l') err l := by
    intro α c dead f hc
    refine Tells.bind (hc.attempt.weaken (fun _ _ h => h) fun _ h => h.elim) fun l' r hr => ?_
    cases r with
    | ok a => exact ⟨hr, hq.ids⟩
    | err e => exact ⟨hr, hq.ids⟩
    | panicked => exact Proc.Kept.dead hr (Nat.le_refl _) (Nat.le_refl _) rfl
    | diverged => exact Proc.Kept.dead hr (Nat.le_refl _) (Nat.le_refl _) rfl
  cases op with
  | tick =>
    refine Tells.ite (fun _ => Tells.bind ((WorkQueue.tells_pick hinv _ _ _ hb).attempt.weaken (fun _ _ h => h) fun _ h => h.elim) fun l' r hr => ?_)
      fun _ => stay
    cases r with
    | ok jobs =>
      refine ⟨?_, fun t ht j hj => ?_⟩
      · have e1 : ({ q with tasks := q.tasks ++ jobs.map (fun j => ⟨j, none⟩) } : Proc D).waits k = q.waits k + WorkQueue.picks k jobs := by
          simp only [Proc.waits, WorkQueue.picks, List.countP_append, List.countP_map]
          congr 2
          funext j
          simp
        have e2 : ({ q with tasks := q.tasks ++ jobs.map (fun j => ⟨j, none⟩) } : Proc D).busy k = q.busy k := by
          simp only [Proc.busy, List.countP_append, List.countP_map, Nat.add_eq_left, List.countP_eq_zero]
          intro j _
          simp
        rw [e1, e2]
        exact hr
      · rcases List.mem_append.1 ht with ht | ht
        · exact hq.ids t ht j hj
        · obtain ⟨j', _, rfl⟩ := List.mem_map.1 ht
          cases hj
    | err e => exact ⟨hr, hq.ids⟩
    | panicked => exact Proc.Kept.dead hr (Nat.le_refl _) (Nat.le_refl _) rfl
    | diverged => exact Proc.Kept.dead hr (Nat.le_refl _) (Nat.le_refl _) rfl
  | enqueue job cfg =>
    refine Tells.ite (fun _ => hh _ _ _ ?_) fun _ => stay
    have key : Books k asked stops ⟨q.waits k, q.busy k, q.busy k, req, can, 0⟩ (l ++ [.statusMsg job.id .queued]) := by
      by_cases e : job.id = k
      · simp only [Op.asks, e, decide_true, if_true] at hb0
        rw [e]
        exact Books.asked' (hb0.less (Nat.le_refl _) (Nat.le_refl _) (Nat.le_refl _) (Nat.le_refl _) (Nat.le_add_right ..) rfl)
      · exact hb.other e
    exact (WorkQueue.tells_submit (hinv _ _ key) cfg).weaken (fun _ _ h => by rcases h with rfl | rfl <;> assumption) fun _ h => by rw [h]; exact hb
  | cancel id =>
    refine Tells.ite (fun _ => hh _ _ _ ?_) fun _ => stay
    have key : Books k asked stops ⟨q.waits k, q.busy k, q.busy k, req, can, 0⟩ (l ++ [.statusMsg id .canceled]) := by
      by_cases e : id = k
      · simp only [Op.cancels, e, decide_true, if_true] at hb0
        rw [e]
        exact Books.stops' (hb0.less (Nat.le_refl _) (Nat.le_refl _) (Nat.le_refl _) (Nat.le_add_right ..) (Nat.le_refl _) rfl)
      · exact hb.other e
    exact (WorkQueue.tells_cancel id (hinv _ _ key)).weaken (fun _ _ h => by rcases h with rfl | rfl <;> assumption)
      fun _ h => by rcases h with rfl | rfl <;> assumption
  | get id =>
    exact Tells.ite (fun _ => hh _ _ _ ((tells_get (err := fun _ => False) id).weaken (fun _ _ h => by rw [h.1]; exact hb) fun _ h => h.elim)) fun _ => stay
  | retry id =>
    refine Tells.ite (fun _ => hh _ _ _ ?_) fun _ => stay
    have key : Books k asked stops ⟨q.waits k, q.busy k, q.busy k, req, can, 0⟩ (l ++ [.statusMsg id .queued]) := by
      by_cases e : id = k
      · simp only [Op.asks, e, decide_true, if_true] at hb0
        rw [e]
        exact Books.asked' (hb0.less (Nat.le_refl _) (Nat.le_refl _) (Nat.le_refl _) (Nat.le_refl _) (Nat.le_add_right ..) rfl)
      · exact hb.other e
    exact (WorkQueue.tells_retry id (hinv _ _ key)).weaken (fun _ _ h => by rcases h with rfl | rfl <;> assumption) fun _ h => by rw [h]; exact hb
  | config c => exact Tells.ite (fun _ => ⟨hb, hq.ids⟩) fun _ => stay
  | start i =>
    refine Tells.ite (fun _ => ?_) fun _ => stay
    split
    · next orig hi =>
      have ew := fun b => countP_set (fun t : Task D => decide (t.orig.id = k) && t.executing.isNone) q.tasks i _ b hi
      have eb := fun b => countP_set (fun t : Task D => decide (t.orig.id = k) && t.executing.isSome) q.tasks i _ b hi
      have xw := countP_erase (fun t : Task D => decide (t.orig.id = k) && t.executing.isNone) q.tasks i _ hi
      have xb := countP_erase (fun t : Task D => decide (t.orig.id = k) && t.executing.isSome) q.tasks i _ hi
      have hids : ∀ t ∈ q.tasks.eraseIdx i, ∀ j, t.executing = some j → j.id = t.orig.id := fun t ht => hq.ids t (List.mem_of_mem_eraseIdx ht)
      have main : inv (l ++ [.hookMsg orig.id true]) ∧
          ∀ j' : Job D, Books k asked stops
            ⟨({ q with tasks := q.tasks.set i ⟨orig, some j'⟩ } : Proc D).waits k, ({ q with tasks := q.tasks.set i ⟨orig, some j'⟩ } : Proc D).busy k,
              ({ q with tasks := q.tasks.set i ⟨orig, some j'⟩ } : Proc D).busy k, req, can, 0⟩
            (l ++ [.hookMsg orig.id true] ++ [.ran { orig.context with runCount := orig.context.runCount + 1 }]) := by
        by_cases e : orig.id = k
        · have h1 : Books k asked stops ⟨q.waits k, q.busy k, q.busy k, req, can, 1⟩ (l ++ [.hookMsg orig.id true]) := by
            rw [e]
            exact hb.hookIn rfl true
          refine ⟨hinv _ _ h1, fun j' => ?_⟩
          have ew' := ew ⟨orig, some j'⟩
          have eb' := eb ⟨orig, some j'⟩
          simp only [e, decide_true, Bool.true_and, Option.isNone_none, Option.isNone_some, Option.isSome_none, Option.isSome_some, if_true,
            Bool.false_eq_true, if_false, Nat.add_zero] at ew' eb'
          have w : q.waits k = ({ q with tasks := q.tasks.set i ⟨orig, some j'⟩ } : Proc D).waits k + 1 := by
            simp only [Proc.waits]; omega
          have b : ({ q with tasks := q.tasks.set i ⟨orig, some j'⟩ } : Proc D).busy k = q.busy k + 1 := by
            simp only [Proc.busy]; omega
          rw [w] at h1
          rw [b]
          exact Books.ran (c := ⟨_, q.busy k, q.busy k, req, can, 0⟩) h1 e
        · have h1 := hb.other (e := .hookMsg orig.id true) e
          refine ⟨hinv _ _ h1, fun j' => ?_⟩
          have ew' := ew ⟨orig, some j'⟩
          have eb' := eb ⟨orig, some j'⟩
          simp only [e, decide_false, Bool.false_and, Bool.false_eq_true, if_false, Nat.add_zero] at ew' eb'
          have w : ({ q with tasks := q.tasks.set i ⟨orig, some j'⟩ } : Proc D).waits k = q.waits k := ew'
          have b : ({ q with tasks := q.tasks.set i ⟨orig, some j'⟩ } : Proc D).busy k = q.busy k := eb'
          rw [w, b]
          exact h1.other e
      refine Tells.bind ((WorkQueue.tells_start (err := fun _ => False) orig main.1 (hinv _ _ (main.2 orig))).attempt.weaken (fun _ _ h => h) fun _ h => h.elim)
        fun l' r hr => ?_
      rcases r with (_ | j) | e | _ | _
      · have hr : l' = l := hr
        subst hr
        refine ⟨hb.less ?_ ?_ ?_ (Nat.le_refl _) (Nat.le_refl _) rfl, hids⟩ <;> simp only [Proc.waits, Proc.busy] <;> omega
      · obtain ⟨e, rfl⟩ := hr
        refine ⟨main.2 j, fun t h j' hj' => ?_⟩
        rcases List.mem_or_eq_of_mem_set h with h | rfl
        · exact hq.ids t h j' hj'
        · cases hj'; exact e
      · exact hr.elim
      · exact hr.elim
      · exact hr.elim
    · exact stay
  | finish i x =>
    refine Tells.ite (fun _ => ?_) fun _ => stay
    split
    · next orig job hi =>
      have xw := countP_erase (fun t : Task D => decide (t.orig.id = k) && t.executing.isNone) q.tasks i _ hi
      have xb := countP_erase (fun t : Task D => decide (t.orig.id = k) && t.executing.isSome) q.tasks i _ hi
      have hid : job.id = orig.id := hq.ids _ (List.mem_of_getElem? hi) job rfl
      have hids : ∀ t ∈ q.tasks.eraseIdx i, ∀ j, t.executing = some j → j.id = t.orig.id := fun t ht => hq.ids t (List.mem_of_mem_eraseIdx ht)
      have main : Books k asked stops
            ⟨({ q with tasks := q.tasks.eraseIdx i } : Proc D).waits k, ({ q with tasks := q.tasks.eraseIdx i } : Proc D).busy k,
              ({ q with tasks := q.tasks.eraseIdx i } : Proc D).busy k, req, can, 0⟩ (l ++ [.hookMsg job.id true]) ∧
          ∀ st, WorkQueue.Ended st → Books k asked stops
            ⟨({ q with tasks := q.tasks.eraseIdx i } : Proc D).waits k, ({ q with tasks := q.tasks.eraseIdx i } : Proc D).busy k,
              ({ q with tasks := q.tasks.eraseIdx i } : Proc D).busy k, req, can, 0⟩ (l ++ [.hookMsg job.id true] ++ [.statusMsg job.id st]) := by
        by_cases e : job.id = k
        · have e' : orig.id = k := hid.symm.trans e
          simp only [e', decide_true, Bool.true_and, Option.isNone_some, Option.isSome_some, if_true, Bool.false_eq_true, if_false, Nat.add_zero] at xw xb
          have w : q.waits k = ({ q with tasks := q.tasks.eraseIdx i } : Proc D).waits k := by simp only [Proc.waits]; omega
          have b : q.busy k = ({ q with tasks := q.tasks.eraseIdx i } : Proc D).busy k + 1 := by simp only [Proc.busy]; omega
          rw [w, b] at hb
          have h1 := Books.hookOut (c := ⟨_, _, _, req, can, 0⟩) hb true
          rw [e]
          exact ⟨h1.less (Nat.le_refl _) (Nat.le_succ _) (Nat.le_refl _) (Nat.le_refl _) (Nat.le_refl _) rfl,
            fun st hst => Books.ends (c := ⟨_, _, _, req, can, 0⟩) h1 hst⟩
        · have e' : orig.id ≠ k := fun h => e (hid.trans h)
          simp only [e', decide_false, Bool.false_and, Bool.false_eq_true, if_false, Nat.add_zero] at xw xb
          have w : ({ q with tasks := q.tasks.eraseIdx i } : Proc D).waits k = q.waits k := xw
          have b : ({ q with tasks := q.tasks.eraseIdx i } : Proc D).busy k = q.busy k := xb
          rw [w, b]
          exact ⟨hb.other e, fun st _ => (hb.other (e := .hookMsg job.id true) e).other e⟩
      refine Tells.bind ((WorkQueue.tells_taskFinish x hid.symm (hinv _ _ main.1) fun st hst => hinv _ _ (main.2 st hst)).attempt.weaken (fun _ _ h => h)
        fun _ h => h.elim) fun l' r hr => ?_
      cases r with
      | ok _ =>
        refine ⟨?_, hids⟩
        rcases hr with rfl | ⟨st, hst, rfl⟩
        · exact main.1
        · exact main.2 st hst
      | _ =>
        have hr : l' = l ++ [.hookMsg job.id true] := hr
        subst hr
        exact Proc.Kept.dead main.1 (Nat.le_refl _) (Nat.le_refl _) rfl
    · exact stay
  | userPanic i =>
    refine Tells.ite (fun _ => ?_) fun _ => stay
    split
    · exact Proc.Kept.dead hb (Nat.le_refl _) (Nat.le_refl _) rfl
    · exact stay

/-- How many of the turns ask for `k`. -/
def askings (k : Str) (ops : List (Op D O × Nat)) : Nat := ops.countP fun o => o.1.asks k
/-- How many of the turns cancel `k`. -/
def stoppings (k : Str) (ops : List (Op D O × Nat)) : Nat := ops.countP fun o => o.1.cancels k

theorem kept_course (hinv : ∀ c l, Books k asked stops c l → inv l) {q : Proc D} {ops : List (Op D O × Nat)}
    (hq : q.Kept k asked stops (askings k ops) (stoppings k ops) l) {err : List Event → Prop} :
    (q.course E name ops).Tells (OwnId E) inv (fun l' r => r.1.Kept k asked stops 0 0 l') err l := by
  induction ops generalizing q l with
  | nil => exact hq
  | cons op ops ih =>
    refine Tells.bind (kept_turn hinv (req := askings k ops) (can := stoppings k ops) ?_ _) fun l' a ha =>
      Tells.bind (ih ha) fun l'' c hc => hc
    have e1 : askings k (op :: ops) = askings k ops + if op.1.asks k then 1 else 0 := List.countP_cons
    have e2 : stoppings k (op :: ops) = stoppings k ops + if op.1.cancels k then 1 else 0 := List.countP_cons
    rw [← e1, ← e2]
    exact hq

end
end

/-! ## Interleavings -/

section
variable {D O ι : Type} [DecidableEq ι] {E : Env D} {b : Impl} {script : Nat → Fate} {clk : ι → Nat → Time} {name : ι → Str}

theorem tells_step (L : E.Lawful) (hq : ∀ n, (script n).env = []) {inv : List Event → Prop} {post : List Event → Proc D × List (Resp D) → Prop}
    {m : Many ι (Faulty b.B script) fun _ => Proc D × List (Resp D)} (hf : m.AllFit b E name clk fun _ => True) (i : ι)
    (h : (m.prog i).Tells (OwnId E) inv post (fun _ => True) (m.log i)) (hl : ∀ l', l' <+: m.log i → inv l') (i' : ι) :
    ((m.step (Faulty b.B script) clk i').prog i).Tells (OwnId E) inv post (fun _ => True) ((m.step (Faulty b.B script) clk i').log i) ∧
      ∀ l', l' <+: (m.step (Faulty b.B script) clk i').log i → inv l' := by
  by_cases hi : i = i'
  · subst hi
    have hfi := hf.prog i
    have hw : (m.step (Faulty b.B script) clk i).log i = _ := congrArg World.log (Many.step_world (clk := clk) m i)
    rw [Many.step_prog, hw]
    cases hc : m.prog i with
    | call op c =>
      rw [hc] at h hfi
      exact ⟨h _ (faulty_keep L (fun _ _ => trivial) hq hfi.1 hf.state).2, hl⟩
    | now c => rw [hc] at h; exact ⟨h _, hl⟩
    | emit e c =>
      rw [hc] at h
      refine ⟨h.2, fun l' hl' => ?_⟩
      have hl' : l' <+: m.log i ++ [e] := hl'
      rcases List.prefix_concat_iff.mp hl' with rfl | hl'
      · exact h.1
      · exact hl _ hl'
    | ret a => rw [hc] at h; exact ⟨h, hl⟩
    | fail e => exact ⟨trivial, hl⟩
    | panic => exact ⟨trivial, hl⟩
    | diverge => exact ⟨trivial, hl⟩
  · rw [Many.step_prog_ne m (Ne.symm hi), Many.step_log_ne m hi]
    exact ⟨h, hl⟩

theorem overlap_record (L : E.Lawful) {ops : ι → List (Op D O × Nat)} (hq : ∀ n, (script n).env = []) (sched : List ι) (i : ι) (k : Str)
    {l : List Event} (hl : l <+: (b.overlapped E name ops script clk sched).log i) :
    Record k (askings k (ops i)) (stoppings k (ops i)) l := by
  have S : Steady L (Executes ops) (fun _ => True) :=
    ⟨fun _ _ _ _ _ _ => trivial, fun _ _ => trivial, fun _ _ _ _ => trivial, fun _ _ _ _ _ _ _ _ _ _ _ _ => trivial, fun _ _ _ _ _ _ _ _ _ _ => trivial⟩
  have h0 := overlap_fits (b := b) (name := name) (clk := clk) L S (fun _ _ => trivial) hq []
  have hk : ({} : Proc D).Kept k (askings k (ops i)) (stoppings k (ops i)) (askings k (ops i)) (stoppings k (ops i)) [] :=
    ⟨⟨Nat.le_refl _, Nat.le_refl _, by simp [told, runsOf, Proc.busy], by simp [told], Nat.le_refl _, by simp [hookings, runsOf, Proc.busy],
      Nat.zero_le _⟩, fun _ h => by cases h⟩
  have hp := kept_course (E := E) (name := name i) (inv := Record k (askings k (ops i)) (stoppings k (ops i))) (fun c l h => h.record) hk (err := fun _ => True)
  have hi : ∀ l', l' <+: ([] : List Event) → Record k (askings k (ops i)) (stoppings k (ops i)) l' := by
    intro l' h
    rw [List.prefix_nil.mp h]
    exact hk.books.record
  have key : ∀ (sched : List ι) (m : Many ι (Faulty b.B script) fun _ => Proc D × List (Resp D)), m.AllFit b E name clk (fun _ => True) →
      (m.prog i).Tells (OwnId E) (Record k (askings k (ops i)) (stoppings k (ops i))) (fun l' r => r.1.Kept k (askings k (ops i)) (stoppings k (ops i)) 0 0 l') (fun _ => True) (m.log i) →
      (∀ l', l' <+: m.log i → Record k (askings k (ops i)) (stoppings k (ops i)) l') →
      ∀ l', l' <+: (m.run (Faulty b.B script) clk sched).log i → Record k (askings k (ops i)) (stoppings k (ops i)) l' := by
    intro sched
    induction sched with
    | nil => exact fun m _ _ h => h
    | cons i' is ih =>
      intro m hf hs hl
      obtain ⟨h1, h2⟩ := tells_step L hq hf i hs hl i'
      exact ih _ (hf.step L (fun _ _ => trivial) hq i') h1 h2
  exact key sched _ h0 hp hi l hl

end
end AJ
