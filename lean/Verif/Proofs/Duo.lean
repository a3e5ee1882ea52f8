import Verif.Proofs.FaultTick
import Verif.Spec.Duo

/-! # Two processes on one backend -/

namespace AJ
open W Prog

/-! ## Steps and runs -/

namespace Prog
variable {α : Type} {B : Backend} {clk : Nat → Time}

/-- `n` steps of a program. -/
def stepN (B : Backend) (clk : Nat → Time) : Nat → Prog α × World B → Prog α × World B
  | 0, x => x
  | n + 1, x => stepN B clk n (x.1.step1 B clk x.2)

/-- A program that returns gets there step by step. -/
theorem stepN_run (p : Prog α) (w : World B) {a : α} {w' : World B} (h : p.run B clk w = (.ok a, w')) :
    ∃ n, stepN B clk n (p, w) = (.ret a, w') := by
  induction p generalizing w with
  | ret x => cases h; exact ⟨0, rfl⟩
  | fail e => cases h
  | panic => cases h
  | diverge => cases h
  | call op k ih => obtain ⟨n, hn⟩ := ih _ _ h; exact ⟨n + 1, hn⟩
  | now k ih => obtain ⟨n, hn⟩ := ih _ _ h; exact ⟨n + 1, hn⟩
  | emit e k ih => obtain ⟨n, hn⟩ := ih _ h; exact ⟨n + 1, hn⟩

/-- A step does not change how the program ends. -/
theorem run_step1 (p : Prog α) (w : World B) : (p.step1 B clk w).1.run B clk (p.step1 B clk w).2 = p.run B clk w := by
  cases p <;> rfl

theorem stepN_keep (n : Nat) (p : Prog α) (w : World B) : (stepN B clk n (p, w)).1.run B clk (stepN B clk n (p, w)).2 = p.run B clk w := by
  induction n generalizing p w with
  | zero => rfl
  | succ n ih => exact (ih _ _).trans (run_step1 p w)

end Prog

namespace Duo
variable {α β : Type} {B : Backend} {clk : Nat → Time}

theorem run_append (d : Duo B α β) (x y : List Bool) : d.run B clk (x ++ y) = (d.run B clk x).run B clk y :=
  List.foldl_append

theorem run_left (n : Nat) (p : Prog α) (q : Prog β) (w : World B) :
    (⟨p, q, w⟩ : Duo B α β).run B clk (List.replicate n true) =
      ⟨(stepN B clk n (p, w)).1, q, (stepN B clk n (p, w)).2⟩ := by
  induction n generalizing p w with
  | zero => rfl
  | succ n ih => exact ih _ _

theorem run_right (n : Nat) (p : Prog α) (q : Prog β) (w : World B) :
    (⟨p, q, w⟩ : Duo B α β).run B clk (List.replicate n false) =
      ⟨p, (stepN B clk n (q, w)).1, (stepN B clk n (q, w)).2⟩ := by
  induction n generalizing q w with
  | zero => rfl
  | succ n ih => exact ih _ _

end Duo

/-! ## Every backend -/

section
variable {α β : Type} {clk : Nat → Time} {b : Impl}

/-- Related pairs of processes. -/
structure Duo.Rel (b : Impl) (d : Duo b.B α β) (e : Duo SpecB α β) : Prop where
  left : d.left = e.left
  right : d.right = e.right
  w : b.sim.RW d.w e.w
  okl : e.left.AllOps b.ok
  okr : e.right.AllOps b.ok

theorem step1_rel {p : Prog α} (hp : p.AllOps b.ok) {w : World b.B} {v : World SpecB} (h : b.sim.RW w v) :
    (p.step1 b.B clk w).1 = (p.step1 SpecB clk v).1 ∧ b.sim.RW (p.step1 b.B clk w).2 (p.step1 SpecB clk v).2 ∧
    (p.step1 SpecB clk v).1.AllOps b.ok := by
  cases p with
  | call op k =>
    obtain ⟨h1, h2⟩ := b.sim.step op w.s v.s hp.1 h.s
    exact ⟨by show k _ = k _; rw [h1], ⟨h2, h.t, h.log⟩, hp.2 _⟩
  | now k => exact ⟨by show k _ = k _; rw [h.t], ⟨h.s, by show w.t + 1 = v.t + 1; rw [h.t], h.log⟩, hp _⟩
  | emit e k => exact ⟨rfl, ⟨h.s, h.t, by show w.log ++ _ = v.log ++ _; rw [h.log]⟩, hp⟩
  | ret a => exact ⟨rfl, h, hp⟩
  | fail e => exact ⟨rfl, h, hp⟩
  | panic => exact ⟨rfl, h, hp⟩
  | diverge => exact ⟨rfl, h, hp⟩

theorem Duo.Rel.run {d : Duo b.B α β} {e : Duo SpecB α β} (h : Duo.Rel b d e) (sched : List Bool) :
    Duo.Rel b (d.run b.B clk sched) (e.run SpecB clk sched) := by
  induction sched generalizing d e with
  | nil => exact h
  | cons c sched ih =>
    refine ih ?_
    cases c with
    | true =>
      obtain ⟨h1, h2, h3⟩ := step1_rel (clk := clk) h.okl h.w
      exact ⟨by show (d.left.step1 b.B clk d.w).1 = _; rw [h.left]; exact h1, h.right,
        by show b.sim.RW (d.left.step1 b.B clk d.w).2 _; rw [h.left]; exact h2, h3, h.okr⟩
    | false =>
      obtain ⟨h1, h2, h3⟩ := step1_rel (clk := clk) h.okr h.w
      exact ⟨h.left, by show (d.right.step1 b.B clk d.w).1 = _; rw [h.right]; exact h1,
        by show b.sim.RW (d.right.step1 b.B clk d.w).2 _; rw [h.right]; exact h2, h.okl, h3⟩

end

/-! ## Invariants of interleavings -/

namespace Prog
variable {α β : Type}

/-- The program makes only `ok` calls and returns values with `post`, provided the answers it gets are `good`. -/
def Rely (ok : BOp → Prop) (good : (op : BOp) → Except Error op.Res → Prop) (post : α → Prop) : Prog α → Prop
  | ret a => post a
  | call op k => ok op ∧ ∀ r, good op r → Rely ok good post (k r)
  | now k => ∀ t, Rely ok good post (k t)
  | emit _ k => Rely ok good post k
  | _ => True

namespace Rely
variable {ok : BOp → Prop} {good : (op : BOp) → Except Error op.Res → Prop}

theorem bind {p : Prog α} {f : α → Prog β} {mid : α → Prop} {post : β → Prop} (hp : p.Rely ok good mid)
    (hf : ∀ a, mid a → (f a).Rely ok good post) : (p.bind f).Rely ok good post := by
  induction p with
  | ret a => exact hf a hp
  | call op k ih => exact ⟨hp.1, fun r h => ih r (hp.2 r h)⟩
  | now k ih => exact fun t => ih t (hp t)
  | emit e k ih => exact ih hp
  | _ => trivial

theorem callV {op : BOp} {post : Except Error op.Res → Prop} (h : ok op) (hp : ∀ r, good op r → post r) :
    (call' op).Rely ok good post := ⟨h, hp⟩

theorem callQ {op : BOp} {post : op.Res → Prop} (h : ok op) (hp : ∀ r, good op (.ok r) → post r) :
    (orFail (call' op)).Rely ok good post :=
  ⟨h, fun r hr => by
    cases r with
    | ok a => exact hp a hr
    | error e => trivial⟩

theorem ite {c : Prop} [Decidable c] {p q : Prog α} {post : α → Prop} (hp : c → p.Rely ok good post)
    (hq : ¬ c → q.Rely ok good post) : (if c then p else q).Rely ok good post := by
  split
  · next h => exact hp h
  · next h => exact hq h

theorem weaken {p : Prog α} {post post' : α → Prop} (h : ∀ a, post a → post' a) (hp : p.Rely ok good post) :
    p.Rely ok good post' := by
  induction p with
  | ret a => exact h a hp
  | call op k ih => exact ⟨hp.1, fun r hr => ih r (hp.2 r hr)⟩
  | now k ih => exact fun t => ih t (hp t)
  | emit e k ih => exact ih hp
  | _ => trivial

theorem orPanic (o : Option α) : (Prog.orPanic o).Rely ok good fun _ => True := by cases o <;> trivial

variable {B : Backend} {clk : Nat → Time} {I : B.S → Prop}

theorem step1 (hI : ∀ op s, ok op → I s → I (B.exec op s).2 ∧ good op (B.exec op s).1) {p : Prog α} {post : α → Prop}
    (hp : p.Rely ok good post) {w : World B} (hw : I w.s) :
    (p.step1 B clk w).1.Rely ok good post ∧ I (p.step1 B clk w).2.s := by
  cases p with
  | call op k => exact ⟨hp.2 _ (hI op w.s hp.1 hw).2, (hI op w.s hp.1 hw).1⟩
  | now k => exact ⟨hp _, hw⟩
  | emit e k => exact ⟨hp, hw⟩
  | ret a => exact ⟨hp, hw⟩
  | fail e => exact ⟨hp, hw⟩
  | panic => exact ⟨hp, hw⟩
  | diverge => exact ⟨hp, hw⟩

/-- What every `ok` call keeps holds at every point of every interleaving. -/
theorem duo (hI : ∀ op s, ok op → I s → I (B.exec op s).2 ∧ good op (B.exec op s).1) {p : Prog α} {q : Prog β}
    {post : α → Prop} {post' : β → Prop} (hp : p.Rely ok good post) (hq : q.Rely ok good post') {w : World B} (hw : I w.s)
    (sched : List Bool) :
    let d := (⟨p, q, w⟩ : Duo B α β).run B clk sched
    d.left.Rely ok good post ∧ d.right.Rely ok good post' ∧ I d.w.s := by
  induction sched generalizing p q w with
  | nil => exact ⟨hp, hq, hw⟩
  | cons c sched ih =>
    cases c with
    | true =>
      obtain ⟨h1, h2⟩ := step1 (clk := clk) hI hp hw
      exact ih h1 hq h2
    | false =>
      obtain ⟨h1, h2⟩ := step1 (clk := clk) hI hq hw
      exact ih hp h1 h2

end Rely
end Prog

/-! ## Two picks -/

section
variable {D : Type} {E : Env D} {name : Str} {clk : Nat → Time}

/-- A job as a pick may read it: as stored before, or marked as Running in addition. -/
def Known (L : E.Lawful) (w0 : W) (id : Str) (j : Job D) : Prop :=
  j.id = id ∧ L.Stored j ∧ ∃ j0, view E w0 id = some j0 ∧ (j = j0 ∨ ∃ ms, j = j0.asRunning ms)

/-- Answers a pick gets. -/
def PickGood (L : E.Lawful) (w0 : W) : (op : BOp) → Except Error op.Res → Prop
  | .storageGet _ id, .ok (some v) => ∀ j, E.codec.dec v = some j → Known L w0 id j
  | _, _ => True

/-- Calls a pick makes. -/
def PickOk (L : E.Lawful) (name : Str) (w0 : W) (op : BOp) : Prop :=
  PickOp name op ∧ match op with
    | .storageUpsert _ id v => ∃ j ms, Known L w0 id j ∧ v = (E.codec.enc (j.asRunning ms)).getD []
    | _ => True

theorem pick_guarantee (L : E.Lawful) {w0 : W} (hk : Keyed E w0) (op : BOp) (s : SpecState) (hop : PickOk L name w0 op)
    (h : Marked E w0 s ∧ Kept name w0 (wld s)) :
    (Marked E w0 (SpecB.exec op s).2 ∧ Kept name w0 (wld (SpecB.exec op s).2)) ∧ PickGood L w0 op (SpecB.exec op s).1 := by
  refine ⟨⟨?_, kept_step w0 op s hop.1 h.2⟩, ?_⟩
  · obtain ⟨h1, h2⟩ := hop
    have hrest : (∀ k v, op ≠ .storageUpsert STORAGE_HASH k v) → Marked E w0 (SpecB.exec op s).2 := fun hne => by
      have e := view_exec_other (E := E) op s hne
      unfold Marked
      rw [e]
      exact h.1
    cases h1 with
    | upsert k v =>
      obtain ⟨j, ms, ⟨hid, hst, j0, hj0, hj⟩, rfl⟩ := h2
      have he : E.codec.dec ((E.codec.enc (j.asRunning ms)).getD []) = some (j.asRunning ms) := (hst.asRunning ms).encdec
      intro id
      rw [view_exec_upsert, he]
      by_cases e : id = k
      · subst e
        rw [upd_same]
        refine .inr ⟨j0, ms, hj0, ?_⟩
        rcases hj with rfl | ⟨ms0, rfl⟩
        · rfl
        · rw [asRunning_asRunning]
      · rw [upd_ne _ _ e]; exact h.1 id
    | _ => exact hrest fun _ _ e => by cases e
  · obtain ⟨h1, _⟩ := hop
    cases h1 with
    | sget k =>
      show PickGood L w0 (.storageGet STORAGE_HASH k) (.ok (s.st STORAGE_HASH k))
      cases hv : s.st STORAGE_HASH k with
      | none => trivial
      | some v =>
        intro j hj
        have hvw : view E (wld s) k = some j := by
          show (s.st STORAGE_HASH k).bind E.codec.dec = _
          rw [hv]; exact hj
        refine ⟨?_, Env.Lawful.stored_view (L := L) hvw, ?_⟩
        · rcases h.1 k with e | ⟨j0, ms, e1, e2⟩
          · rw [hvw] at e; exact hk k j e.symm
          · rw [hvw] at e2; injection e2 with e2; rw [e2]; exact hk k j0 e1
        · rcases h.1 k with e | ⟨j0, ms, e1, e2⟩
          · rw [hvw] at e; exact ⟨j, e.symm, .inl rfl⟩
          · rw [hvw] at e2; injection e2 with e2; exact ⟨j0, e1, .inr ⟨ms, e2⟩⟩
    | _ => trivial

section
variable (L : E.Lawful) {w0 : W}

private theorem rely_get (id : Str) : (getFromStorage E id).Rely (PickOk L name w0) (PickGood L w0) fun r => ∀ j, r = some j → Known L w0 id j := by
  refine Rely.bind (Rely.callV (op := .storageGet STORAGE_HASH id) ⟨.sget id, trivial⟩ fun r h => h) fun r hr => ?_
  split
  · next v => exact fun j hj => hr j hj
  · intro j hj; cases hj

private theorem rely_process {id : Str} {j : Job D} (h : Known L w0 id j) :
    (Job.process E j).Rely (PickOk L name w0) (PickGood L w0) fun j' => Known L w0 id j' ∧ j'.context.jobStatus = .running := by
  refine Rely.bind (mid := fun _ => True) (fun _ => trivial) fun ms _ => ?_
  refine Rely.bind (mid := fun _ => True) (Rely.bind (mid := fun _ => True) (Rely.callQ (op := .storageUpsert STORAGE_HASH _ _)
    ⟨.upsert _ _, j, ms, by show Known L w0 j.id j; rw [h.1]; exact h, rfl⟩ fun _ _ => trivial) fun _ _ => trivial) fun _ _ => ?_
  obtain ⟨h1, h2, j0, h3, h4⟩ := h
  refine ⟨⟨h1, h2.asRunning ms, j0, h3, .inr ?_⟩, rfl⟩
  rcases h4 with rfl | ⟨ms0, rfl⟩
  · exact ⟨ms, rfl⟩
  · exact ⟨ms, rfl⟩

/-- What a pick in company may return. -/
structure Picked (L : E.Lawful) (w0 : W) (total : Nat) (l : List (Job D)) : Prop where
  batch : WorkQueue.Batch total l
  known : ∀ j ∈ l, Known L w0 j.id j

private theorem rely_pickBatch (total : Nat) (ids : List Str) (ready : List (Job D)) (hr : Picked L w0 total ready) :
    (WorkQueue.pickBatch E name total ids ready).Rely (PickOk L name w0) (PickGood L w0) (Picked L w0 total) := by
  induction ids generalizing ready with
  | nil => exact hr
  | cons id ids ih =>
    have hrot : (Prog.bind (orFail (queueMove (formatQueueName name .queued) (formatQueueName name .queued) 1 .back .front))
      fun _ => WorkQueue.pickBatch E name total ids ready).Rely (PickOk L name w0) (PickGood L w0) (Picked L w0 total) :=
        Rely.bind (mid := fun _ => True) (Rely.callQ (op := .queueMove _ _ _ _ _) ⟨.rotate, trivial⟩ fun _ _ => trivial) fun _ _ => ih ready hr
    refine Rely.bind (rely_get L id) fun r hk => ?_
    cases r with
    | none => exact hrot
    | some j =>
      have hj := hk j rfl
      refine Rely.bind (mid := fun _ => True) (fun _ => trivial) fun b _ => Rely.ite (fun hc => ?_) fun _ => hrot
      simp only [Bool.and_eq_true, decide_eq_true_eq, Bool.not_eq_true', List.any_eq_false] at hc
      refine Rely.bind (rely_process L hj) fun j' hj' => Rely.bind (mid := fun _ => True)
        (Rely.callQ (op := .queueMove _ _ _ _ _) ⟨.move, trivial⟩ fun _ _ => trivial) fun _ _ => ih _ ⟨⟨?_, ?_, ?_⟩, ?_⟩
      · simp; omega
      · rw [List.map_append, List.nodup_append]
        refine ⟨hr.batch.once, by simp, ?_⟩
        intro a ha c hc' e
        obtain ⟨r, hr, rfl⟩ := List.mem_map.mp ha
        simp only [List.map_cons, List.map_nil, List.mem_singleton] at hc'
        exact hc.2 r hr (by rw [e, hc', hj'.1.1, hj.1])
      · intro r hm
        rcases List.mem_append.mp hm with hm | hm
        · exact hr.batch.running r hm
        · rw [List.mem_singleton.mp hm]; exact hj'.2
      · intro r hm
        rcases List.mem_append.mp hm with hm | hm
        · exact hr.known r hm
        · rw [List.mem_singleton.mp hm, hj'.1.1]; exact hj'.1

private theorem rely_pickLoop (total fuel : Nat) (cursor : Int) (ready : List (Job D)) (hr : Picked L w0 total ready) :
    (WorkQueue.pickLoop E name total fuel cursor ready).Rely (PickOk L name w0) (PickGood L w0) (Picked L w0 total) := by
  induction fuel generalizing cursor ready with
  | zero => trivial
  | succ fuel ih =>
    refine Rely.bind (mid := fun _ => True) (Rely.callQ (op := .queueGet _ _ _) ⟨.get _ _ _, trivial⟩ fun _ _ => trivial) fun ids _ =>
      Rely.bind (Rely.orPanic _) fun c _ => Rely.bind (rely_pickBatch L _ _ _ hr) fun r hr => ?_
    exact Rely.ite (fun _ => hr) fun _ => Rely.ite (fun _ => hr) fun _ => ih _ _ hr

/-- A pick keeps to the rules that both processes rely on. -/
theorem rely_pick (fuel : Nat) (cfg : WorkQueueConfig) :
    (WorkQueue.pickJobsToProcess E name fuel cfg).Rely (PickOk L name w0) (PickGood L w0) (Picked L w0 cfg.maxProcessingJobs) := by
  have h0 : ∀ n, Picked L w0 n ([] : List (Job D)) := fun n => ⟨⟨by simp, by simp, fun _ h => by cases h⟩, fun _ h => by cases h⟩
  refine Rely.bind (mid := fun _ => True) (Rely.callV (op := .queueCount _) ⟨.count _, trivial⟩ fun _ _ => trivial) fun r _ => ?_
  refine Rely.ite (fun _ => h0 _) fun _ => Rely.bind (mid := fun _ => True) (Rely.callQ (op := .queueCount _) ⟨.count _, trivial⟩ fun _ _ => trivial)
    fun n _ => (rely_pickLoop L _ _ _ _ (h0 _)).weaken fun l h => ?_
  exact ⟨⟨by have := h.batch.le; omega, h.batch.once, h.batch.running⟩, h.known⟩

end

/-! ## A scan of entries that are not at the end of the list any more -/

/-- The oldest entry, if there is one, goes to the front of another list. -/
def moveBack (name : Str) (a b : JobStatus) (w : W) : W :=
  let w1 := setL name a ((lst name w a).reverse.drop 1).reverse w
  setL name b (((lst name w a).reverse.take 1).reverse ++ lst name w1 b) w1

/-- Examine the entry `id`, whatever is at the end of the list. -/
def blind (E : Env D) (name : Str) (clk : Nat → Time) (total : Nat) (id : Str) (p : W × List (Job D)) : W × List (Job D) :=
  match view E p.1 id with
  | some job =>
    if takes total job (clk p.1.t) p.2 then
      let j := job.asRunning (clk (p.1.t + 1) / nsPerMs)
      (moveBack name .queued .running (put E j (tick (tick p.1))), p.2 ++ [j])
    else (moveBack name .queued .queued (tick p.1), p.2)
  | none => (moveBack name .queued .queued p.1, p.2)

theorem run_blind (total : Nat) (ids : List Str) (w : W) (rd : List (Job D)) :
    (WorkQueue.pickBatch E name total ids rd).run SpecB clk w =
      (.ok (ids.foldl (fun p id => blind E name clk total id p) (w, rd)).2, (ids.foldl (fun p id => blind E name clk total id p) (w, rd)).1) := by
  induction ids generalizing w rd with
  | nil => rfl
  | cons id ids ih =>
    rw [List.foldl_cons]
    refine Eq.trans ?_ (ih (blind E name clk total id (w, rd)).1 (blind E name clk total id (w, rd)).2)
    rw [WorkQueue.pickBatch_cons]
    simp only [run_bind, run_getFromStorage, contRun_ok]
    unfold blind
    cases hv : view E w id with
    | none =>
      simp only [run_bind, run_move?, contRun_ok]
      rfl
    | some job =>
      simp only [run_bind, run_isReady, contRun_ok]
      have ht : takes total job (clk w.t) rd =
        (job.readyAt (clk w.t) && decide (rd.length < total) && !(rd.any fun r => decide (r.id = job.id))) := rfl
      rw [← ht]
      cases takes total job (clk w.t) rd with
      | true =>
        simp only [if_true, run_bind, run_jProcess, contRun_ok, run_move?]
        rfl
      | false =>
        simp only [Bool.false_eq_true, if_false, run_bind, run_move?, contRun_ok]
        rfl

theorem blind_mono (total : Nat) (ids : List Str) (p : W × List (Job D)) :
    ∃ l, (ids.foldl (fun p id => blind E name clk total id p) p).2 = p.2 ++ l := by
  induction ids generalizing p with
  | nil => exact ⟨[], by simp⟩
  | cons id ids ih =>
    obtain ⟨l, hl⟩ := ih (blind E name clk total id p)
    have h1 : ∃ l1, (blind E name clk total id p).2 = p.2 ++ l1 := by
      unfold blind
      split
      · split
        · exact ⟨_, rfl⟩
        · exact ⟨[], by simp⟩
      · exact ⟨[], by simp⟩
    obtain ⟨l1, h1⟩ := h1
    exact ⟨l1 ++ l, by rw [List.foldl_cons, hl, h1, List.append_assoc]⟩

theorem lst_moveBack_same (w : W) (st : JobStatus) :
    lst name (moveBack name .queued .queued w) st =
      if st = .queued then ((lst name w .queued).reverse.take 1).reverse ++ ((lst name w .queued).reverse.drop 1).reverse else lst name w st := by
  unfold moveBack
  simp only [lst_setL]
  split <;> simp [*]

/-- With no capacity left, examining only turns the list. -/
theorem blind_full (total : Nat) (id : Str) (p : W × List (Job D)) (h : total ≤ p.2.length) :
    (blind E name clk total id p).2 = p.2 ∧ view E (blind E name clk total id p).1 = view E p.1 ∧
    (lst name (blind E name clk total id p).1 .queued).Perm (lst name p.1 .queued) ∧
    ∀ st, st ≠ .queued → lst name (blind E name clk total id p).1 st = lst name p.1 st := by
  have hp : ∀ w : W, (lst name (moveBack name .queued .queued w) .queued).Perm (lst name w .queued) := by
    intro w
    rw [lst_moveBack_same, if_pos rfl, take_last]
    generalize lst name w .queued = l
    have h1 : (l.reverse.take 1 ++ (l.reverse.drop 1).reverse).Perm (l.reverse.take 1 ++ l.reverse.drop 1) :=
      (List.reverse_perm _).append_left _
    rw [List.take_append_drop] at h1
    exact h1.trans (List.reverse_perm l)
  unfold blind
  split
  · next job hv =>
    rw [if_neg]
    · exact ⟨rfl, rfl, (hp (tick p.1)), fun st hst => by rw [lst_moveBack_same, if_neg hst]; rfl⟩
    · unfold takes
      simp only [Bool.and_eq_true, decide_eq_true_eq]
      omega
  · exact ⟨rfl, rfl, hp p.1, fun st hst => by rw [lst_moveBack_same, if_neg hst]⟩

theorem blinds_full (total : Nat) (ids : List Str) (p : W × List (Job D)) (h : total ≤ p.2.length) :
    let q := ids.foldl (fun p id => blind E name clk total id p) p
    q.2 = p.2 ∧ view E q.1 = view E p.1 ∧ (lst name q.1 .queued).Perm (lst name p.1 .queued) ∧
    ∀ st, st ≠ .queued → lst name q.1 st = lst name p.1 st := by
  induction ids generalizing p with
  | nil => exact ⟨rfl, rfl, .refl _, fun _ _ => rfl⟩
  | cons id ids ih =>
    obtain ⟨h1, h2, h3, h4⟩ := blind_full (E := E) (name := name) (clk := clk) total id p h
    obtain ⟨h5, h6, h7, h8⟩ := ih (blind E name clk total id p) (by rw [h1]; exact h)
    exact ⟨h5.trans h1, h6.trans h2, h7.trans h3, fun st hst => (h8 st hst).trans (h4 st hst)⟩

/-! ## A pick that is overtaken -/

/-- What is left of a pick after it has fetched its first batch. -/
def afterFetch (E : Env D) (name : Str) (total fuel : Nat) (len : Nat) (ids : List Str) : Prog (List (Job D)) :=
  (orPanic (addI32 E.overflowChecks (wrapI32 len) (-(ids.length : Int)))).bind fun cursor =>
    (WorkQueue.pickBatch E name total ids []).bind fun ready =>
      if ready.length ≥ total then ret ready
      else if cursor ≤ 0 then ret ready
      else WorkQueue.pickLoop E name total fuel cursor ready

theorem step_fetch (fuel : Nat) (cfg : WorkQueueConfig) (w : W) (h : 0 < free name cfg w) :
    stepN SpecB clk 3 (WorkQueue.pickJobsToProcess E name (fuel + 1) cfg, w) =
      (afterFetch E name (free name cfg w) fuel (lst name w .queued).length ((lst name w .queued).reverse.take 20), w) := by
  have e : stepN SpecB clk 3 (WorkQueue.pickJobsToProcess E name (fuel + 1) cfg, w) =
    stepN SpecB clk 2 (if (lst name w .running).length ≥ cfg.maxProcessingJobs then (ret [] : Prog (List (Job D)))
        else WorkQueue.tryPickSpecificReadyJobs E name (fuel + 1) (free name cfg w), w) := rfl
  rw [e, if_neg (by unfold free at h; omega)]
  have e2 : stepN SpecB clk 2 (WorkQueue.tryPickSpecificReadyJobs E name (fuel + 1) (free name cfg w), w) =
    stepN SpecB clk 1 (WorkQueue.pickLoop E name (free name cfg w) (fuel + 1) (wrapI32 (lst name w .queued).length) [], w) := rfl
  rw [e2, WorkQueue.pickLoop_succ]
  generalize hf : (fun (ids : List Str) => Prog.bind (orPanic (addI32 E.overflowChecks (wrapI32 (lst name w .queued).length) (-(ids.length : Int)))) fun cursor =>
    (WorkQueue.pickBatch E name (free name cfg w) ids []).bind fun ready =>
      if ready.length ≥ free name cfg w then ret ready
      else if cursor ≤ 0 then ret ready
      else WorkQueue.pickLoop E name (free name cfg w) fuel cursor ready) = f
  have e3 : ∀ ids, afterFetch E name (free name cfg w) fuel (lst name w .queued).length ids = f ids := fun ids => by rw [← hf]; rfl
  rw [e3]
  rfl

/-- The rest of a pick whose first batch was the whole list. -/
theorem run_afterFetch (total fuel len : Nat) (ids : List Str) (hl : ids.length = len) (h20 : len ≤ 20) (w : W) :
    (afterFetch E name total fuel len ids).run SpecB clk w =
      (.ok (ids.foldl (fun p id => blind E name clk total id p) (w, [])).2, (ids.foldl (fun p id => blind E name clk total id p) (w, [])).1) := by
  subst hl
  unfold afterFetch
  rw [WorkQueue.wrapI32_of_fits (by omega) (by omega)]
  have ha : addI32 E.overflowChecks (ids.length : Int) (-(ids.length : Int)) = some 0 := by
    simp [addI32, fitsI32, Int.add_right_neg]
  rw [ha]
  simp only [run_bind, run_orPanic_some, contRun_ok]
  rw [run_blind]
  simp only [contRun_ok]
  split <;> rfl

/-- One process fetches its batch, the other one makes its whole tick, then the first one goes on. -/
theorem overtake (fuel : Nat) (cfgA : WorkQueueConfig) (w : W) (hA : 0 < free name cfgA w)
    {p : Prog (List (Job D))} {jobsB : List (Job D)} {w1 : W} (hB : p.run SpecB clk w = (.ok jobsB, w1))
    {jobsA : List (Job D)} {w2 : W}
    (hA2 : (afterFetch E name (free name cfgA w) fuel (lst name w .queued).length ((lst name w .queued).reverse.take 20)).run SpecB clk w1 = (.ok jobsA, w2)) :
    ∃ sched, (⟨WorkQueue.pickJobsToProcess E name (fuel + 1) cfgA, p, w⟩ : Duo SpecB (List (Job D)) (List (Job D))).run SpecB clk sched =
      ⟨.ret jobsA, .ret jobsB, w2⟩ := by
  obtain ⟨n, hn⟩ := stepN_run _ _ hB
  obtain ⟨m, hm⟩ := stepN_run _ _ hA2
  refine ⟨List.replicate 3 true ++ (List.replicate n false ++ List.replicate m true), ?_⟩
  rw [Duo.run_append, Duo.run_left, step_fetch _ _ _ hA, Duo.run_append, Duo.run_right, hn, Duo.run_left, hm]

end
end AJ
