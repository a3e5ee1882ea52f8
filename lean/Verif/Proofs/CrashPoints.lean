import Verif.Proofs.Crash

/-! # What a crash in a turn leaves behind -/

namespace AJ
open W Prog

section
variable {D O : Type} (E : Env D) (name : Str)

/-- Calls that touch at most the entries and the stored value of job `k`. -/
inductive TouchOp (k : Str) : BOp → Prop where
  | push (st : JobStatus) : TouchOp k (.queuePush (formatQueueName name st) k)
  | remove (st : JobStatus) : TouchOp k (.queueRemove (formatQueueName name st) k)
  | upsert {v : Str} (h : ∀ j, E.codec.dec v = some j → j.id = k) : TouchOp k (.storageUpsert STORAGE_HASH k v)
  | sget (k' : Str) : TouchOp k (.storageGet STORAGE_HASH k')

/-- The backend holds nothing new about `k`. -/
structure Spares (k : Str) (w w' : W) : Prop where
  view : W.view E w' k = W.view E w k
  count : ∀ st, (lst name w' st).count k = (lst name w st).count k

variable {E name}

theorem Spares.refl (k : Str) (w : W) : Spares E name k w w := ⟨rfl, fun _ => rfl⟩

theorem Spares.of_same {k : Str} {w w' : W} (h1 : W.view E w' = W.view E w) (h2 : lst name w' = lst name w) :
    Spares E name k w w' := ⟨by rw [h1], fun _ => by rw [h2]⟩

/-- A world with this backend. -/
def wld (s : SpecState) : W := ⟨s, 0, []⟩

theorem touch_step {k k' : Str} (hk : k ≠ k') (w0 : W) (op : BOp) (s : SpecState) (hop : TouchOp E name k' op)
    (h : Keyed E (wld s) ∧ Spares E name k w0 (wld s)) :
    Keyed E (wld (SpecB.exec op s).2) ∧ Spares E name k w0 (wld (SpecB.exec op s).2) := by
  obtain ⟨h1, h2⟩ := h
  cases hop with
  | push st =>
    refine ⟨h1, h2.view, fun st' => ?_⟩
    rw [← h2.count st']
    exact (Touch.push (E := E) (name := name) k' st (wld s)).count k hk st'
  | remove st =>
    refine ⟨h1, h2.view, fun st' => ?_⟩
    rw [← h2.count st']
    exact (Touch.drop (E := E) (name := name) k' st (wld s)).count k hk st'
  | upsert hv =>
    rename_i v
    have hview : view E (wld (SpecB.exec (.storageUpsert STORAGE_HASH k' v) s).2) = upd (view E (wld s)) k' (E.codec.dec v) := by
      funext i
      show ((upd s.st STORAGE_HASH (upd (s.st STORAGE_HASH) k' (some v))) STORAGE_HASH i).bind E.codec.dec = _
      simp only [upd, if_true, view, wld]
      split <;> rfl
    refine ⟨?_, ?_, h2.count⟩
    · unfold Keyed; rw [hview]
      exact Inv.keyed_upd h1 hv
    · rw [hview, upd_ne _ _ hk]; exact h2.view
  | sget k' => exact ⟨h1, h2⟩

/-- Crash points of a program that touches only `k'`. -/
theorem Sat.spares {α : Type} {post : α → Prop} {clk : Nat → Time} {p : Prog α} {k' : Str} (hp : p.Sat (TouchOp E name k') post)
    {w w' : W} (hK : Keyed E w) (h : p.Crash SpecB clk w w') :
    Keyed E w' ∧ ∀ k, k ≠ k' → Spares E name k w w' := by
  refine ⟨?_, fun k hk => ?_⟩
  · have := Crash.sat (B := SpecB) (I := fun s => Keyed E (wld s) ∧ Spares E name (k' ++ ['x']) w (wld s))
      (fun op s h1 h2 => touch_step (fun e => by simpa using congrArg List.length e) w op s h1 h2) hp (w := w)
      ⟨hK, ⟨rfl, fun _ => rfl⟩⟩ h
    exact this.1
  · have := Crash.sat (B := SpecB) (I := fun s => Keyed E (wld s) ∧ Spares E name k w (wld s))
      (fun op s h1 h2 => touch_step hk w op s h1 h2) hp (w := w)
      ⟨hK, ⟨rfl, fun _ => rfl⟩⟩ h
    exact ⟨this.2.view, this.2.count⟩

/-! ## Which jobs the programs touch -/

section
variable {k : Str}

private abbrev T {α : Type} (E : Env D) (name k : Str) (p : Prog α) : Prop := p.Sat (TouchOp E name k) fun _ => True

theorem touches_upsert (L : E.Lawful) {j : Job D} (h : j.id = k) : T E name k (upsertToStorage E k j) :=
  Sat.callQ (.upsert fun _ hj => (encdec_id L hj).trans h)

theorem touches_save (L : E.Lawful) {j : Job D} (h : j.id = k) : T E name k (Job.saveAndNotify E j) := by
  subst h; exact Sat.bind (touches_upsert L rfl) fun _ _ => trivial

private theorem touches_stamp (L : E.Lawful) (f : Int → Job D) (h : ∀ ms, (f ms).id = k) :
    (Prog.bind getNowMs fun ms => Prog.bind (Job.saveAndNotify E (f ms)) fun _ => .ret (f ms)).Sat (TouchOp E name k)
      fun j => j.id = k :=
  Sat.bind (post := fun _ => True) (fun _ => trivial) fun ms _ => Sat.bind (touches_save L (h ms)) fun _ _ => h ms

theorem touches_jEnqueue (L : E.Lawful) {j : Job D} (h : j.id = k) :
    (Job.enqueue E j).Sat (TouchOp E name k) fun j => j.id = k := touches_stamp L (fun ms => j.asQueued ms) fun _ => h
theorem touches_jFinish (L : E.Lawful) {j : Job D} (h : j.id = k) :
    (Job.finish E j).Sat (TouchOp E name k) fun j => j.id = k := touches_stamp L (fun ms => j.asFinished ms) fun _ => h
theorem touches_jFail (L : E.Lawful) {j : Job D} (h : j.id = k) :
    (Job.fail E j).Sat (TouchOp E name k) fun j => j.id = k := touches_stamp L (fun ms => j.asFailed ms) fun _ => h
theorem touches_jCancel (L : E.Lawful) {j : Job D} (h : j.id = k) :
    (Job.cancel E j).Sat (TouchOp E name k) fun j => j.id = k := touches_stamp L (fun ms => j.asCanceled ms) fun _ => h

theorem touches_push (st : JobStatus) : T E name k (queuePush (formatQueueName name st) k) := Sat.callV (.push st)
theorem touches_remove (st : JobStatus) : T E name k (queueRemove (formatQueueName name st) k) := Sat.callV (.remove st)

theorem touches_get (k' : Str) : T E name k (getFromStorage E k') := by
  refine Sat.bind (Sat.callV (.sget k')) fun r _ => ?_
  split <;> trivial

namespace WorkQueue

theorem touches_enqueue (L : E.Lawful) {j : Job D} (h : j.id = k) : T E name k (enqueue E name j) := by
  subst h
  exact Sat.bind (Sat.callQ (.push _)) fun _ _ => Sat.bind (touches_jEnqueue L rfl) fun _ _ => trivial

theorem touches_submit (L : E.Lawful) {j : Job D} (c : EnqueueConfig) (h : j.id = k) :
    T E name k (runWithConfig E name j c) := by
  subst h
  refine Sat.bind (touches_get _) fun r _ => ?_
  split
  · next ex =>
    have h2 : T E name j.id (if (c.reRun && ex.isDone) = true then enqueue E name j else pure ()) := by
      split
      · exact touches_enqueue L rfl
      · trivial
    dsimp only
    split
    · exact Sat.bind (touches_upsert L rfl) fun _ _ => h2
    · exact h2
  · exact touches_enqueue L rfl

theorem touches_reEnqueue (L : E.Lawful) {j : Job D} (h : j.id = k) : T E name k (reEnqueue E name j) := by
  subst h
  exact Sat.bind (Sat.callQ (.remove _)) fun _ _ => Sat.bind (touches_jEnqueue L rfl) fun j' hj => by
    rw [hj]; exact Sat.bind (touches_push _) fun _ _ => trivial

theorem touches_markFinished (L : E.Lawful) {j : Job D} (h : j.id = k) : T E name k (markJobIsFinished E name j) := by
  subst h
  exact Sat.bind (Sat.bind (post' := fun _ => True) (touches_remove _) fun _ _ => trivial) fun _ _ => Sat.bind (touches_jFinish L rfl) fun j' hj => by
    rw [hj]; exact Sat.bind (touches_push _) fun _ _ => trivial

theorem touches_markFailed (L : E.Lawful) {j : Job D} (h : j.id = k) : T E name k (markJobIsFailed E name j) := by
  refine Sat.bind (touches_jFail L h) fun j' hj => ?_
  rw [hj]
  exact Sat.bind (Sat.bind (post' := fun _ => True) (touches_remove _) fun _ _ => trivial) fun _ _ => Sat.bind (touches_push _) fun _ _ => trivial

theorem touches_nextTick {j : Job D} (h : j.id = k) :
    (Job.nextTick E j).Sat (TouchOp E name k) fun r => ∀ j', r = some j' → j'.id = k := by
  intro t
  simp only [pure_eq, bind_eq, ret_bind]
  split
  · split
    · intro _ h; cases h
    · intro t2
      simp only [ret_bind]
      refine Sat.bind (post := fun j' => j'.id = k) ?_ fun j' hj => ?_
      · split
        · refine Sat.bind (post := fun _ => True) ?_ fun _ _ => ?_
          · unfold orPanic; split <;> trivial
          · exact h
        · exact h
      · repeat' split
        all_goals (first | (intro _ h; cases h; done) | (intro _ h; cases h; exact hj))
  · intro _ h; cases h

theorem touches_callRetryAt (x : Executable D O) (chk : Bool) (d : D) (r : Retry) (o : O) :
    T E name k (x.callRetryAt chk d r o) := by
  unfold Executable.callRetryAt
  split
  · unfold defaultRetryAt
    split
    · refine Sat.bind (post := fun _ => True) (fun _ => trivial) fun _ _ =>
        Sat.bind (post := fun _ => True) ?_ fun _ _ => trivial
      unfold orPanic; split <;> trivial
    · trivial
  · exact Sat.bind (post := fun _ => True) (fun _ => trivial) fun _ _ => trivial

theorem touches_executeFinish (L : E.Lawful) (x : Executable D O) {j : Job D} (h : j.id = k) :
    T E name k (executeFinish E name x j) := by
  have key : ∀ (b : Bool) (j : Job D), j.id = k → T E name k (Prog.bind (j.nextTick E) fun r => match r with
    | some next => reEnqueue E name next
    | none => if b then markJobIsFailed E name j else markJobIsFinished E name j) := by
    intro b j hj
    refine Sat.bind (touches_nextTick hj) fun r hr => ?_
    split
    · next n => exact touches_reEnqueue L (hr n rfl)
    · split
      · exact touches_markFailed L hj
      · exact touches_markFinished L hj
  unfold executeFinish
  refine Sat.bind (post := fun _ => True) (by trivial) fun _ _ => ?_
  split
  · refine Sat.bind (touches_callRetryAt _ _ _ _ _) fun ⟨r, t⟩ _ => ?_
    cases t with
    | some t => exact touches_reEnqueue L h
    | none => exact key _ _ h
  · exact key _ _ h

theorem touches_taskFinish (L : E.Lawful) (x : Executable D O) {o j : Job D} (ho : o.id = k) (h : j.id = k) :
    T E name k (taskFinish E name x o j) := by
  refine Sat.bind (Sat.catchErr (touches_executeFinish L x h)) fun r _ => ?_
  split
  · trivial
  · exact Sat.bind (Sat.catchErr (touches_markFailed L ho)) fun _ _ => trivial

theorem touches_executeStart {j : Job D} (h : j.id = k) : T E name k (executeStart name j) := by
  subst h
  unfold executeStart
  split
  · exact Sat.bind (Sat.bind (post' := fun _ => True) (touches_push _) fun _ _ => trivial) fun _ _ => trivial
  · exact Sat.bind (post := fun _ => True) (by trivial) fun _ _ => Sat.bind (post := fun _ => True) (by trivial) fun _ _ => trivial

end WorkQueue
end

/-! ## Requests that read first -/

theorem crash_get {clk : Nat → Time} {k : Str} {w w' : W} (h : (getFromStorage E k).Crash SpecB clk w w') : w' = w := by
  rcases h with h | h
  · exact h
  · simp only [ret_bind] at h
    split at h <;> exact h

theorem crash_after_get {α : Type} {clk : Nat → Time} {k : Str} {f : Option (Job D) → Prog α} {w w' : W}
    (h : ((getFromStorage E k).bind f).Crash SpecB clk w w') : w' = w ∨ (f (view E w k)).Crash SpecB clk w w' := by
  rcases Crash.bind h with h | ⟨a, w1, h1, h2⟩
  · exact .inl (crash_get h)
  · rw [run_getFromStorage] at h1
    cases h1
    exact .inr h2

theorem spares_cancel (L : E.Lawful) {clk : Nat → Time} {k' : Str} {w w' : W} (hK : Keyed E w)
    (h : (WorkQueue.cancelJob E name k').Crash SpecB clk w w') : Keyed E w' ∧ ∀ k, k ≠ k' → Spares E name k w w' := by
  rcases crash_after_get h with rfl | h
  · exact ⟨hK, fun k _ => .refl k w'⟩
  · refine Sat.spares (post := fun _ => True) ?_ hK h
    cases hv : view E w k' with
    | none => trivial
    | some j =>
      have hid := hK k' j hv
      simp only
      split
      · exact Sat.bind (touches_jCancel L hid) fun _ _ => Sat.callQ (.remove _)
      · trivial

theorem spares_retry (L : E.Lawful) {clk : Nat → Time} {k' : Str} {w w' : W} (hK : Keyed E w)
    (h : (WorkQueue.retryJob E name k').Crash SpecB clk w w') : Keyed E w' ∧ ∀ k, k ≠ k' → Spares E name k w w' := by
  rcases crash_after_get h with rfl | h
  · exact ⟨hK, fun k _ => .refl k w'⟩
  · refine Sat.spares (post := fun _ => True) ?_ hK h
    cases hv : view E w k' with
    | none => trivial
    | some j =>
      have hid := hK k' j hv
      simp only
      split
      · exact Sat.bind (WorkQueue.touches_reEnqueue L hid) fun _ _ => trivial
      · trivial

/-! ## Crashes in a tick -/

/-- A crash point while the oldest entry is examined. -/
structure AtPoint (E : Env D) (name : Str) (clk : Nat → Time) (total : Nat) (p : W × List (Job D)) (w' : W) : Prop where
  lists : lst name w' = lst name p.1
  view : W.view E w' = W.view E p.1 ∨ ∃ id F job i ms, (lst name p.1 .queued).reverse = id :: F ∧
    W.view E p.1 id = some job ∧ takes total job (clk i) p.2 = true ∧
    W.view E w' = upd (W.view E p.1) job.id (E.encdec (job.asRunning ms))
  time : p.1.t ≤ w'.t

theorem AtPoint.here {clk : Nat → Time} {total : Nat} (p : W × List (Job D)) : AtPoint E name clk total p p.1 :=
  ⟨rfl, .inl rfl, Nat.le_refl _⟩

theorem crash_process {clk : Nat → Time} {j : Job D} {w w' : W} (h : (Job.process E j).Crash SpecB clk w w') :
    (view E w' = view E w ∨ view E w' = upd (view E w) j.id (E.encdec (j.asRunning (clk w.t / nsPerMs)))) ∧
    lst name w' = lst name w ∧ w.t ≤ w'.t := by
  rcases h with rfl | h
  · exact ⟨.inl rfl, rfl, Nat.le_refl _⟩
  rcases h with rfl | h
  · exact ⟨.inl rfl, rfl, Nat.le_succ _⟩
  have key : ∀ w1 : W, w1 = upsert E j.id (j.asRunning (clk w.t / nsPerMs)) (tick w) →
      view E w1 = upd (view E w) j.id (E.encdec (j.asRunning (clk w.t / nsPerMs))) ∧ lst name w1 = lst name w ∧ w.t ≤ w1.t := by
    rintro w1 rfl
    exact ⟨by simp, rfl, by simp⟩
  rcases h with rfl | h
  · obtain ⟨a, b, c⟩ := key _ rfl
    exact ⟨.inr a, b, c⟩
  · have h : w' = _ := h
    subst h
    obtain ⟨a, b, c⟩ := key _ rfl
    exact ⟨.inr a, b, c⟩

theorem crash_pickBatch {clk : Nat → Time} {total : Nat} (ids rest : List Str) (w w' : W) (rd : List (Job D))
    (hq : (lst name w .queued).reverse = ids ++ rest)
    (h : (WorkQueue.pickBatch E name total ids rd).Crash SpecB clk w w') :
    ∃ n, AtPoint E name clk total (turns E name clk total n (w, rd)) w' := by
  induction ids generalizing w rd rest with
  | nil => cases h; exact ⟨0, .here _⟩
  | cons id ids ih =>
    have hq' : (lst name w .queued).reverse = id :: (ids ++ rest) := hq
    obtain ⟨u, hu⟩ := WorkQueue.turn_queue E name clk total id (ids ++ rest) w rd hq'
    rw [List.append_assoc] at hu
    have next : ∀ w1, (WorkQueue.pickBatch E name total ids (turn E name clk total (w, rd)).2).Crash SpecB clk w1 w' →
        w1 = (turn E name clk total (w, rd)).1 → ∃ n, AtPoint E name clk total (turns E name clk total n (w, rd)) w' := by
      rintro w1 h1 rfl
      obtain ⟨n, hn⟩ := ih (rest ++ u) _ _ hu h1
      exact ⟨n + 1, hn⟩
    have start : ∀ w1 : W, lst name w1 = lst name w → view E w1 = view E w → w.t ≤ w1.t → 
        ∃ n, AtPoint E name clk total (turns E name clk total n (w, rd)) w1 := fun w1 a b c => ⟨0, ⟨a, .inl b, c⟩⟩
    have done : w' = (turn E name clk total (w, rd)).1 → ∃ n, AtPoint E name clk total (turns E name clk total n (w, rd)) w' := by
      rintro rfl; exact ⟨1, .here _⟩
    rw [WorkQueue.pickBatch_cons] at h
    rcases crash_after_get h with rfl | h
    · exact ⟨0, .here _⟩
    cases hv : view E w id with
    | none =>
      simp only [hv] at h
      have ht : (turn E name clk total (w, rd)) = (rotate name id (ids ++ rest) w, rd) := by simp only [turn, hq', hv]
      rcases Crash.bind h with h | ⟨a, w1, h1, h2⟩
      · rcases Crash.callQ h with rfl | rfl
        · exact ⟨0, .here _⟩
        · refine done ?_
          rw [ht]
          exact congrArg Prod.snd (run_rotate name clk id _ w hq')
      · rw [run_rotate name clk id _ w hq'] at h1
        cases h1
        refine next _ ?_ (by rw [ht])
        rw [ht]; exact h2
    | some job =>
      simp only [hv] at h
      rcases Crash.bind h with h | ⟨a, w1, h1, h2⟩
      · rcases h with rfl | h
        · exact ⟨0, .here _⟩
        · have h : w' = tick w := h
          subst h
          exact start (tick w) rfl rfl (Nat.le_succ _)
      rw [run_isReady] at h1
      cases h1
      have hT : takes total job (clk w.t) rd =
        (job.readyAt (clk w.t) && decide (rd.length < total) && !(rd.any fun r => decide (r.id = job.id))) := rfl
      rw [← hT] at h2
      cases htk : takes total job (clk w.t) rd with
      | true =>
        rw [htk, if_pos rfl] at h2
        have ht : (turn E name clk total (w, rd)) =
            (toRunning name id (ids ++ rest) (put E (job.asRunning (clk (w.t + 1) / nsPerMs)) (tick (tick w))),
              rd ++ [job.asRunning (clk (w.t + 1) / nsPerMs)]) := by
          simp only [turn, hq', hv, htk, if_true]
        have hq2 : (lst name (put E (job.asRunning (clk (w.t + 1) / nsPerMs)) (tick (tick w))) .queued).reverse
            = id :: (ids ++ rest) := by simpa using hq'
        have mid : ∀ w1 : W, lst name w1 = lst name w → w.t ≤ w1.t →
            view E w1 = upd (view E w) job.id (E.encdec (job.asRunning (clk (w.t + 1) / nsPerMs))) →
            ∃ n, AtPoint E name clk total (turns E name clk total n (w, rd)) w1 := by
          intro w1 a b c
          exact ⟨0, ⟨a, .inr ⟨id, _, job, w.t, _, hq', hv, htk, c⟩, b⟩⟩
        rcases Crash.bind h2 with h | ⟨a, w1, h1, h2⟩
        · obtain ⟨h1, h2, h3⟩ := crash_process (name := name) h
          rcases h1 with h1 | h1
          · exact start w' h2 h1 (Nat.le_of_succ_le h3)
          · exact mid w' h2 (Nat.le_of_succ_le h3) h1
        · rw [run_jProcess] at h1
          cases h1
          rcases Crash.bind h2 with h | ⟨a, w1, h1, h2⟩
          · rcases Crash.callQ h with rfl | rfl
            · exact mid _ rfl (by simp; omega) (by simp)
            · refine done ?_
              rw [ht]
              exact congrArg Prod.snd (run_toRunning name clk id _ _ hq2)
          · have := run_toRunning name clk id _ _ hq2
            rw [show (put E (job.asRunning (clk (tick w).t / nsPerMs)) (tick (tick w))) =
              put E (job.asRunning (clk (w.t + 1) / nsPerMs)) (tick (tick w)) from rfl] at h1
            rw [this] at h1
            cases h1
            refine next _ ?_ (by rw [ht])
            rw [ht]; exact h2
      | false =>
        rw [htk] at h2
        simp only [Bool.false_eq_true, if_false] at h2
        have ht : (turn E name clk total (w, rd)) = (rotate name id (ids ++ rest) (tick w), rd) := by
          simp [turn, hq', hv, htk]
        have hq2 : (lst name (tick w) .queued).reverse = id :: (ids ++ rest) := hq'
        rcases Crash.bind h2 with h | ⟨a, w1, h1, h2⟩
        · rcases Crash.callQ h with rfl | rfl
          · exact start (tick w) rfl rfl (Nat.le_succ _)
          · refine done ?_
            rw [ht]
            exact congrArg Prod.snd (run_rotate name clk id _ (tick w) hq2)
        · rw [run_rotate name clk id _ (tick w) hq2] at h1
          cases h1
          refine next _ ?_ (by rw [ht])
          rw [ht]; exact h2

theorem crash_orPanic {α : Type} {B : Backend} {clk : Nat → Time} {o : Option α} {w w' : World B}
    (h : (orPanic o).Crash B clk w w') : w' = w := by cases o <;> exact h

theorem crash_pickLoop {clk : Nat → Time} {total : Nat} (fuel : Nat) (cursor : Int) (w w' : W) (rd : List (Job D))
    (h : (WorkQueue.pickLoop E name total fuel cursor rd).Crash SpecB clk w w') :
    ∃ n, AtPoint E name clk total (turns E name clk total n (w, rd)) w' := by
  induction fuel generalizing cursor w rd with
  | zero => cases h; exact ⟨0, .here _⟩
  | succ fuel ih =>
    rw [WorkQueue.pickLoop_succ] at h
    rcases Crash.bind h with h | ⟨ids, w1, h1, h⟩
    · rcases Crash.callQ h with rfl | rfl
      · exact ⟨0, .here _⟩
      · exact ⟨0, .here (w, rd)⟩
    rw [run_get?] at h1
    cases h1
    rcases Crash.bind h with h | ⟨c, w1, h1, h⟩
    · rw [crash_orPanic h]; exact ⟨0, .here _⟩
    have hw1 : w1 = w := by
      cases ha : addI32 E.overflowChecks cursor (-((((lst name w .queued).reverse.take 20).length : Nat) : Int)) with
      | none => rw [ha] at h1; cases h1
      | some c => rw [ha] at h1; cases h1; rfl
    subst hw1
    have hQ : (lst name w1 .queued).reverse = (lst name w1 .queued).reverse.take 20 ++ (lst name w1 .queued).reverse.drop 20 := by
      simp
    rcases Crash.bind h with h | ⟨rd', w2, h1, h⟩
    · exact crash_pickBatch _ _ _ _ _ hQ h
    rw [WorkQueue.run_pickBatch E name clk total _ _ w1 rd hQ] at h1
    cases h1
    split at h
    · cases h; exact ⟨_, .here _⟩
    · split at h
      · cases h; exact ⟨_, .here _⟩
      · obtain ⟨n, hn⟩ := ih _ _ _ h
        exact ⟨_ + n, by rw [turns_add]; exact hn⟩

/-- Crash points of a tick. -/
theorem crash_tick {clk : Nat → Time} {fuel : Nat} {cfg : WorkQueueConfig} {w w' : W}
    (h : (WorkQueue.pickJobsToProcess E name fuel cfg : Prog (List (Job D))).Crash SpecB clk w w') :
    ∃ n, AtPoint E name clk (free name cfg w) (turns E name clk (free name cfg w) n ((w, []) : W × List (Job D))) w' := by
  rcases Crash.bind h with h | ⟨r, w1, h1, h⟩
  · rcases h with rfl | h
    · exact ⟨0, .here _⟩
    · have h : w' = w := h
      subst h; exact ⟨0, .here _⟩
  rw [run_queueCount] at h1
  cases h1
  simp only at h
  split at h
  · cases h; exact ⟨0, .here _⟩
  · rcases Crash.bind h with h | ⟨r, w1, h1, h⟩
    · rcases Crash.callQ h with rfl | rfl
      · exact ⟨0, .here _⟩
      · exact ⟨0, .here (w, [])⟩
    · rw [run_count?] at h1
      cases h1
      exact crash_pickLoop _ _ _ _ _ h

end
end AJ
