import Verif.Proofs.Fault

/-! # Turns on a failing backend -/

namespace AJ
open W Prog

namespace Prog
variable {α β : Type} {B : Backend} {clk : Nat → Time}

theorem Sat.mono {ok ok' : BOp → Prop} {post : α → Prop} (h : ∀ op, ok op → ok' op) {p : Prog α} (hp : p.Sat ok post) :
    p.Sat ok' post := by
  induction p with
  | call op k ih => exact ⟨h _ hp.1, fun r => ih r (hp.2 r)⟩
  | now k ih => exact fun t => ih t (hp t)
  | emit e k ih => exact ih hp
  | _ => exact hp

/-- An invariant of the calls holds after a run. -/
theorem Sat.inv {ok : BOp → Prop} {post : α → Prop} {I : B.S → Prop} {p : Prog α} (hp : p.Sat ok post)
    (hI : ∀ op s, ok op → I s → I (B.exec op s).2) {w : World B} (hw : I w.s) : I (p.run B clk w).2.s :=
  Crash.sat hI hp hw (Crash.last p w)

end Prog

section
variable {script : Nat → Fate}

/-- An invariant of calls is an invariant of calls that may fail. -/
theorem faulty_inv {B : Backend} {I : B.S → Prop} {ok : BOp → Prop} (hI : ∀ op s, ok op → I s → I (B.exec op s).2)
    (hA : ∀ i, ∀ op ∈ (script i).env, ok op) (op : BOp) (s : (Faulty B script).S) (ho : ok op) (hs : I s.1) :
    I ((Faulty B script).exec op s).2.1 := by
  obtain ⟨s, i⟩ := s
  have h1 : I (B.execAll (script i).env s) := by
    have h2 := hA i
    generalize (script i).env = l at h2
    have hs : I s := hs
    clear ho
    induction l generalizing s with
    | nil => exact hs
    | cons o l ih =>
      have h3 := hI _ _ (h2 o List.mem_cons_self) hs
      exact ih (B.exec o s).2 h3 (fun o' ho' => h2 o' (List.mem_cons_of_mem _ ho')) h3
  unfold Faulty
  dsimp only
  cases (script i).fault with
  | none => exact hI _ _ ho h1
  | before => exact h1
  | after => exact hI _ _ ho h1

theorem exec_ok {B : Backend} (hA : Alone script) {i : Nat} (h : (script i).fault = .none) (op : BOp) (s : B.S) :
    (Faulty B script).exec op (s, i) = ((B.exec op s).1, ((B.exec op s).2, i + 1)) := by
  simp [Faulty, h, hA i, Backend.execAll]

theorem exec_bad {B : Backend} (hA : Alone script) {i : Nat} (h : (script i).fault = .before) (op : BOp) (s : B.S) :
    (Faulty B script).exec op (s, i) = (.error .redis, (s, i + 1)) := by
  simp [Faulty, h, hA i, Backend.execAll]

/-- A world whose next call is number `i`. -/
def fw {B : Backend} (script : Nat → Fate) (w : World B) (i : Nat) : World (Faulty B script) := ⟨(w.s, i), w.t, w.log⟩

/-- A program without calls does not notice. -/
theorem run_silent {α : Type} {B : Backend} {clk : Nat → Time} {post : α → Prop} {p : Prog α} (hp : p.Sat (fun _ => False) post)
    (w : World B) (i : Nat) :
    p.run (Faulty B script) clk (fw script w i) = ((p.run B clk w).1, fw script (p.run B clk w).2 i) := by
  induction p generalizing w with
  | call op k ih => exact hp.1.elim
  | now k ih => exact ih _ (hp _) { w with t := w.t + 1 }
  | emit e k ih => exact ih hp { w with log := w.log ++ [e] }
  | _ => rfl

/-- The world after a program without calls. -/
theorem run_silent_s {α : Type} {B : Backend} {clk : Nat → Time} {post : α → Prop} {p : Prog α} (hp : p.Sat (fun _ => False) post)
    (w : World B) : (p.run B clk w).2.s = w.s := hp.quiet (Crash.last p w)

end

section
variable {D O : Type} {E : Env D} {name : Str} {clk : Nat → Time}

/-! ## Jobs are stored under their ids -/

/-- If the call stores a job, then under its own id. -/
def KeyOp (E : Env D) (op : BOp) : Prop :=
  ∀ k v, op = .storageUpsert STORAGE_HASH k v → ∀ j, E.codec.dec v = some j → j.id = k

theorem TouchOp.key {k : Str} {op : BOp} (h : TouchOp E name k op) : KeyOp E op := by
  intro k' v e
  subst e
  cases h with
  | upsert h => exact h

theorem view_exec_upsert (s : SpecState) (k v : Str) :
    view E (wld (SpecB.exec (.storageUpsert STORAGE_HASH k v) s).2) = upd (view E (wld s)) k (E.codec.dec v) := by
  funext i
  show ((upd s.st STORAGE_HASH (upd (s.st STORAGE_HASH) k (some v))) STORAGE_HASH i).bind E.codec.dec = _
  simp only [upd, if_true, view, wld]
  split <;> rfl

/-- Only storing a job changes what is stored. -/
theorem view_exec_other (op : BOp) (s : SpecState) (h : ∀ k v, op ≠ .storageUpsert STORAGE_HASH k v) :
    view E (wld (SpecB.exec op s).2) = view E (wld s) := by
  cases op with
  | storageUpsert hs k v =>
    have : STORAGE_HASH ≠ hs := fun e => h k v (by rw [e])
    funext i
    show ((upd s.st hs (upd (s.st hs) k (some v))) STORAGE_HASH i).bind E.codec.dec = _
    rw [upd_ne _ _ this]; rfl
  | _ => rfl

theorem key_step (op : BOp) (s : SpecState) (hop : KeyOp E op) (h : Keyed E (wld s)) : Keyed E (wld (SpecB.exec op s).2) := by
  by_cases hu : ∃ k v, op = .storageUpsert STORAGE_HASH k v
  · obtain ⟨k, v, rfl⟩ := hu
    unfold Keyed
    rw [view_exec_upsert]
    exact Inv.keyed_upd h (hop k v rfl)
  · unfold Keyed
    rw [view_exec_other op s fun k v e => hu ⟨k, v, e⟩]
    exact h

private abbrev K {α : Type} (E : Env D) (p : Prog α) : Prop := p.Sat (KeyOp E) fun _ => True

theorem keyed_get (k : Str) : K E (getFromStorage E k) := (touches_get (name := []) (k := k) k).mono fun _ h => h.key

theorem keyed_stamp {k : Str} {p : Prog (Job D)} (h : p.Sat (TouchOp E name k) fun j => j.id = k) : K E p :=
  (h.mono fun _ h => h.key).weaken fun _ _ => trivial

theorem keyed_jProcess (L : E.Lawful) (j : Job D) : K E (Job.process E j) :=
  Sat.bind (post := fun _ => True) (fun _ => trivial) fun ms _ =>
    Sat.bind ((touches_save (name := []) (k := j.id) L (j := j.asRunning ms) rfl).mono fun _ h => h.key) fun _ _ => trivial

theorem keyed_callQ {op : BOp} (h : ∀ k v, op ≠ .storageUpsert STORAGE_HASH k v) : K E (orFail (call' op)) :=
  Sat.callQ fun k v e => absurd e (h k v)

theorem keyed_callV {op : BOp} (h : ∀ k v, op ≠ .storageUpsert STORAGE_HASH k v) : K E (call' op) :=
  Sat.callV fun k v e => absurd e (h k v)

namespace WorkQueue

theorem keyed_cancel (L : E.Lawful) (id : Str) : K E (cancelJob E name id) := by
  refine Sat.bind (keyed_get id) fun r _ => ?_
  cases r with
  | none => trivial
  | some j =>
    exact Sat.ite (Sat.bind (keyed_stamp (name := name) (touches_jCancel L rfl)) fun _ _ => keyed_callQ (by intro _ _ e; cases e)) trivial

theorem keyed_retry (L : E.Lawful) (id : Str) : K E (retryJob E name id) := by
  refine Sat.bind (keyed_get id) fun r _ => ?_
  cases r with
  | none => trivial
  | some j =>
    exact Sat.ite (Sat.bind ((touches_reEnqueue (name := name) L rfl).mono fun _ h => h.key) fun _ _ => trivial) trivial

theorem keyed_pickBatch (L : E.Lawful) (total : Nat) (ids : List Str) (ready : List (Job D)) :
    K E (pickBatch E name total ids ready) := by
  induction ids generalizing ready with
  | nil => trivial
  | cons id ids ih =>
    refine Sat.bind (keyed_get _) fun r _ => ?_
    have hrot : ∀ ready, K E (Prog.bind (orFail (queueMove (formatQueueName name .queued) (formatQueueName name .queued) 1 .back .front))
      fun _ => pickBatch E name total ids ready) := fun ready =>
        Sat.bind (keyed_callQ (by intro _ _ e; cases e)) fun _ _ => ih ready
    cases r with
    | none => exact hrot _
    | some j =>
      refine Sat.bind (post := fun _ => True) (Sat.bind (post := fun _ => True) (fun _ => trivial) fun _ _ => trivial) fun b _ => ?_
      refine Sat.ite ?_ (hrot _)
      exact Sat.bind (keyed_jProcess L j) fun j' _ => Sat.bind (keyed_callQ (by intro _ _ e; cases e)) fun _ _ => ih _

theorem sat_orPanic {α : Type} {ok : BOp → Prop} (o : Option α) : (orPanic o).Sat ok fun _ => True := by cases o <;> trivial

theorem keyed_pickLoop (L : E.Lawful) (total fuel : Nat) (cursor : Int) (ready : List (Job D)) :
    K E (pickLoop E name total fuel cursor ready) := by
  induction fuel generalizing cursor ready with
  | zero => trivial
  | succ fuel ih =>
    refine Sat.bind (keyed_callQ (by intro _ _ e; cases e)) fun ids _ => Sat.bind (sat_orPanic _) fun c _ =>
      Sat.bind (keyed_pickBatch L _ _ _) fun r _ => ?_
    exact Sat.ite trivial (Sat.ite trivial (ih _ _))

theorem keyed_pick (L : E.Lawful) (fuel : Nat) (cfg : WorkQueueConfig) : K E (pickJobsToProcess E name fuel cfg) := by
  refine Sat.bind (keyed_callV (by intro _ _ e; cases e)) fun r _ => ?_
  exact Sat.ite trivial (Sat.bind (keyed_callQ (by intro _ _ e; cases e)) fun n _ => keyed_pickLoop L _ _ _ _)

end WorkQueue

/-! ## A turn is its own last crash point -/

theorem Sys.crash_step {B : Backend} (s : Sys D B) (op : Op D O) :
    Sys.CrashIn E name B clk s op (Sys.step E name B clk s op).1.w := by
  have hh : ∀ {α : Type} (p : Prog α) (d : Resp D) (f : Except Error α → Resp D),
      (Sys.handle B clk s p d f).1.w = (p.run B clk s.w).2 := by
    intro α p d f
    unfold Sys.handle
    generalize p.run B clk s.w = q
    obtain ⟨r, w⟩ := q
    cases r <;> rfl
  unfold Sys.step
  split
  swap
  · exact .between op
  next ha =>
  cases op with
  | enqueue j c => dsimp only; rw [hh]; exact .enqueue ha (Crash.last _ _)
  | cancel id => dsimp only; rw [hh]; exact .cancel ha (Crash.last _ _)
  | get id => dsimp only; rw [hh]; exact .get ha (Crash.last _ _)
  | retry id => dsimp only; rw [hh]; exact .retry ha (Crash.last _ _)
  | config c => exact .between _
  | tick =>
    refine .tick ha ?_
    have := Crash.last (B := B) (clk := clk) (WorkQueue.pickJobsToProcess E name (Sys.tickFuel name B s.w.s) s.cfg) s.w
    dsimp only
    generalize (WorkQueue.pickJobsToProcess E name (Sys.tickFuel name B s.w.s) s.cfg).run B clk s.w = q at this ⊢
    obtain ⟨r, w⟩ := q
    cases r <;> exact this
  | start i =>
    dsimp only
    split
    · next orig ht =>
      refine .start ha ht ?_
      have := Crash.last (B := B) (clk := clk) (WorkQueue.executeStart name orig) s.w
      generalize (WorkQueue.executeStart name orig).run B clk s.w = q at this ⊢
      obtain ⟨r, w⟩ := q
      rcases r with (_ | _) | _ | _ | _ <;> exact this
    · exact .between _
  | finish i x =>
    dsimp only
    split
    · next orig job ht =>
      refine .finish ha ht ?_
      have := Crash.last (B := B) (clk := clk) (WorkQueue.taskFinish E name x orig job) s.w
      generalize (WorkQueue.taskFinish E name x orig job).run B clk s.w = q at this ⊢
      obtain ⟨r, w⟩ := q
      cases r <;> exact this
    · exact .between _
  | userPanic i =>
    dsimp only
    split
    · exact .between _
    · exact .between _

/-- An invariant of storing jobs under their ids, at every crash point on every backend. -/
theorem Sys.CrashIn.keyed (L : E.Lawful) {B : Backend} {I : B.S → Prop} (hI : ∀ op s, KeyOp E op → I s → I (B.exec op s).2)
    {s : Sys D B} {op : Op D O} {w : World B} (hs : I s.w.s) (h : Sys.CrashIn E name B clk s op w)
    (hx : ∀ t ∈ s.tasks, ∀ j, t.executing = some j → j = t.orig.counted) : I w.s := by
  cases h with
  | between => exact hs
  | enqueue _ h => exact Crash.sat hI ((WorkQueue.touches_submit (name := name) L _ rfl).mono fun _ h => h.key) hs h
  | cancel _ h => exact Crash.sat hI (WorkQueue.keyed_cancel L _) hs h
  | get _ h => exact Crash.sat hI (keyed_get _) hs h
  | retry _ h => exact Crash.sat hI (WorkQueue.keyed_retry L _) hs h
  | tick _ h => exact Crash.sat hI (WorkQueue.keyed_pick L _ _) hs h
  | start _ ht h => exact Crash.sat hI ((WorkQueue.touches_executeStart (E := E) (name := name) rfl).mono fun _ h => h.key) hs h
  | finish _ ht h =>
    have e := hx _ (List.mem_of_getElem? ht) _ rfl
    exact Crash.sat hI ((WorkQueue.touches_taskFinish (name := name) L _ rfl (by rw [e]; rfl)).mono fun _ h => h.key) hs h

/-! ## Executions -/

/-- The job inside user code is the picked one with the run counted, and a dead actor has no tasks. -/
def InOrder {B : Backend} (s : Sys D B) : Prop :=
  (∀ t ∈ s.tasks, ∀ j, t.executing = some j → j = t.orig.counted) ∧ (s.alive = false → s.tasks = [])

theorem sat_executeStart (j : Job D) : (WorkQueue.executeStart name j).Sat (fun _ => True) fun r => ∀ j', r = some j' → j' = j.counted := by
  unfold WorkQueue.executeStart
  split
  · refine Sat.bind (post := fun _ => True) (Sat.bind (post := fun _ => True) ⟨trivial, fun _ => trivial⟩ fun _ _ => trivial) fun _ _ => ?_
    intro _ h; cases h
  · exact Sat.bind (post := fun _ => True) (by trivial) fun _ _ => Sat.bind (post := fun _ => True) (by trivial) fun _ _ => by
      intro _ h; cases h; rfl

theorem inOrder_step {B : Backend} {s : Sys D B} (h : InOrder s) (op : Op D O) : InOrder (Sys.step E name B clk s op).1 := by
  obtain ⟨h1, h2⟩ := h
  have hh : ∀ {α : Type} (p : Prog α) (d : Resp D) (f : Except Error α → Resp D), s.alive = true → InOrder (Sys.handle B clk s p d f).1 := by
    intro α p d f ha
    unfold Sys.handle
    generalize p.run B clk s.w = q
    obtain ⟨r, w⟩ := q
    cases r with
    | ok a => exact ⟨h1, h2⟩
    | err e => exact ⟨h1, h2⟩
    | panicked => exact ⟨fun t ht => (by cases ht), fun _ => rfl⟩
    | diverged => exact ⟨fun t ht => (by cases ht), fun _ => rfl⟩
  have gone : ∀ w : World B, InOrder ({ s with w := w, tasks := [], alive := false } : Sys D B) := fun w =>
    ⟨fun t ht => (by cases ht), fun _ => rfl⟩
  unfold Sys.step
  split
  swap
  · exact ⟨h1, h2⟩
  next ha =>
  have na : ∀ {P : Prop}, s.alive = false → P := fun h => by rw [ha] at h; cases h
  cases op with
  | enqueue j c => exact hh _ _ _ ha
  | cancel id => exact hh _ _ _ ha
  | get id => exact hh _ _ _ ha
  | retry id => exact hh _ _ _ ha
  | config c => exact ⟨h1, h2⟩
  | tick =>
    dsimp only
    split
    · next jobs w _ =>
      refine ⟨fun t ht j hj => ?_, fun h => na h⟩
      rcases List.mem_append.mp ht with ht | ht
      · exact h1 t ht j hj
      · obtain ⟨j0, _, rfl⟩ := List.mem_map.mp ht
        cases hj
    · exact ⟨h1, h2⟩
    · exact gone _
    · exact gone _
  | start i =>
    dsimp only
    split
    · next orig ht =>
      have hs := sat_executeStart (name := name) orig
      split
      · next job w hr =>
        refine ⟨fun t hm j hj => ?_, fun h => na h⟩
        rcases List.mem_or_eq_of_mem_set hm with hm | rfl
        · exact h1 t hm j hj
        · cases hj
          exact hs.run hr job rfl
      · exact ⟨fun t hm j hj => h1 t (List.mem_of_mem_eraseIdx hm) j hj, fun h => na h⟩
      · exact gone _
    · exact ⟨h1, h2⟩
  | finish i x =>
    dsimp only
    split
    · split
      · exact ⟨fun t hm j hj => h1 t (List.mem_of_mem_eraseIdx hm) j hj, fun h => na h⟩
      · exact gone _
    · exact ⟨h1, h2⟩
  | userPanic i =>
    dsimp only
    split
    · exact gone _
    · exact ⟨h1, h2⟩

theorem filter_eraseIdx {α : Type} {p : α → Bool} (l : List α) (i : Nat) (h : ∀ a, l[i]? = some a → p a = false) :
    (l.eraseIdx i).filter p = l.filter p := by
  induction l generalizing i with
  | nil => rfl
  | cons a l ih =>
    cases i with
    | zero =>
      have := h a rfl
      simp [this]
    | succ i =>
      simp only [List.eraseIdx_cons_succ, List.filter_cons]
      rw [ih i fun a ha => h a (by simpa using ha)]

theorem filter_set {α : Type} {p : α → Bool} (l : List α) (i : Nat) (b : α) (hb : p b = false) (h : ∀ a, l[i]? = some a → p a = false) :
    (l.set i b).filter p = l.filter p := by
  induction l generalizing i with
  | nil => rfl
  | cons a l ih =>
    cases i with
    | zero =>
      have := h a rfl
      simp [this, hb]
    | succ i =>
      simp only [List.set_cons_succ, List.filter_cons]
      rw [ih i fun a ha => h a (by simpa using ha)]

/-- Turns of other executions and requests do not change the executions of `k`, unless the actor dies. -/
theorem own_step {B : Backend} {s : Sys D B} {k : Str} (op : Op D O) (ho : op ≠ .tick)
    (hk : ∀ i t, s.tasks[i]? = some t → (op = .start i ∨ ∃ x, op = .finish i x) → t.orig.id ≠ k)
    (ha : (Sys.step E name B clk s op).1.alive = true) :
    (Sys.step E name B clk s op).1.tasks.filter (fun t => t.orig.id = k) = s.tasks.filter fun t => t.orig.id = k := by
  have hh : ∀ {α : Type} (p : Prog α) (d : Resp D) (f : Except Error α → Resp D),
      (Sys.handle B clk s p d f).1.alive = true → (Sys.handle B clk s p d f).1.tasks = s.tasks := by
    intro α p d f ha
    unfold Sys.handle at ha ⊢
    generalize p.run B clk s.w = q at ha ⊢
    obtain ⟨r, w⟩ := q
    cases r with
    | ok a => rfl
    | err e => rfl
    | panicked => cases ha
    | diverged => cases ha
  unfold Sys.step at ha ⊢
  split
  swap
  · rfl
  next hal =>
  rw [if_pos hal] at ha
  cases op with
  | enqueue j c => dsimp only at ha ⊢; rw [hh _ _ _ ha]
  | cancel id => dsimp only at ha ⊢; rw [hh _ _ _ ha]
  | get id => dsimp only at ha ⊢; rw [hh _ _ _ ha]
  | retry id => dsimp only at ha ⊢; rw [hh _ _ _ ha]
  | config c => rfl
  | tick => exact absurd rfl ho
  | start i =>
    dsimp only at ha ⊢
    split
    · next orig ht =>
      have hne := hk i _ ht (.inl rfl)
      have hne' : ∀ a, s.tasks[i]? = some a → decide (a.orig.id = k) = false := by
        intro a h; rw [ht] at h; cases h; simpa using hne
      simp only [ht] at ha
      generalize (WorkQueue.executeStart name orig).run B clk s.w = q at ha ⊢
      obtain ⟨r, w⟩ := q
      rcases r with (_ | _) | _ | _ | _
      · exact filter_eraseIdx _ _ hne'
      · exact filter_set _ _ _ (by simpa using hne) hne'
      all_goals cases ha
    · rfl
  | finish i x =>
    dsimp only at ha ⊢
    split
    · next orig job ht =>
      have hne := hk i _ ht (.inr ⟨x, rfl⟩)
      have hne' : ∀ a, s.tasks[i]? = some a → decide (a.orig.id = k) = false := by
        intro a h; rw [ht] at h; cases h; simpa using hne
      simp only [ht] at ha
      generalize (WorkQueue.taskFinish E name x orig job).run B clk s.w = q at ha ⊢
      obtain ⟨r, w⟩ := q
      rcases r with _ | _ | _ | _
      · exact filter_eraseIdx _ _ hne'
      all_goals cases ha
    · rfl
  | userPanic i =>
    dsimp only at ha ⊢
    split
    · next hx => simp only [hx] at ha; cases ha
    · rfl

end

/-! ## Turns under faults -/

section
variable {D O : Type} {E : Env D} {name : Str} {clk : Nat → Time} {script : Nat → Fate} {k : Str}

theorem Alone.all (h : Alone script) {P : BOp → Prop} : ∀ i, ∀ op ∈ (script i).env, P op := by
  intro i op hm; rw [h i] at hm; cases hm

theorem tidy_with (L : E.Lawful) (hA : ∀ i, ∀ op ∈ (script i).env, KeyOp E op) {t : Sys D SpecB} (hT : Tidy E t) (op : Op D O) :
    Tidy E (Sys.stepWith E name SpecB clk script t op).1 := by
  have hI := faulty_inv (B := SpecB) (script := script) (I := fun s => Keyed E (wld s)) (fun op s h => key_step op s h) hA
  by_cases ho : op = .tick
  · subst ho
    show Tidy E (Sys.tickWith E name SpecB clk script t).1
    unfold Sys.tickWith
    split
    swap
    · exact hT
    have h1 := Sat.inv (B := Faulty SpecB script) (clk := clk) (I := fun s => Keyed E (wld s.1))
      (WorkQueue.keyed_pick L (name := name) (Sys.tickFuel name SpecB t.w.s) t.cfg) hI (w := (t.faulty script).w) hT.keyed
    dsimp only
    generalize (WorkQueue.pickJobsToProcess E name (Sys.tickFuel name SpecB t.w.s) t.cfg).run (Faulty SpecB script) clk (t.faulty script).w = q at h1 ⊢
    obtain ⟨r, w⟩ := q
    cases r with
    | ok jobs =>
      refine ⟨h1, fun u hu j hj => ?_, fun h => ?_⟩
      · rcases List.mem_append.mp hu with hu | hu
        · exact hT.exec u hu j hj
        · obtain ⟨j0, _, rfl⟩ := List.mem_map.mp hu
          cases hj
      · next ha => exact absurd (show t.alive = false from h) (by rw [ha]; simp)
    | err e => exact ⟨h1, hT.exec, hT.dead⟩
    | panicked => exact ⟨h1, fun u hu => (by cases hu), fun _ => rfl⟩
    | diverged => exact ⟨h1, fun u hu => (by cases hu), fun _ => rfl⟩
  have h1 := Sys.CrashIn.keyed (name := name) (clk := clk) L (B := Faulty SpecB script) (I := fun s => Keyed E (wld s.1))
    hI (s := t.faulty script) (op := op) hT.keyed (Sys.crash_step _ op) hT.exec
  rw [stepWith_ne _ ho]
  have h2 := inOrder_step (E := E) (name := name) (clk := clk) (s := t.faulty script) ⟨hT.exec, hT.dead⟩ op
  exact ⟨h1, h2.1, h2.2⟩

/-- What a failing backend answers to a read. -/
theorem faulty_get (hA : Alone script) (k : Str) (w : W) (i : Nat) :
    ∃ r : Option (Job D), ((script i).fault ≠ .none ∧ r = none ∨ (script i).fault = .none ∧ r = view E w k) ∧
      (getFromStorage E k).run (Faulty SpecB script) clk (fw script w i) = (.ok r, fw script w (i + 1)) := by
  unfold getFromStorage storageGet call'
  simp only [bind_eq, run_bind, run_call, fw]
  cases h : (script i).fault with
  | none =>
    refine ⟨view E w k, .inr ⟨rfl, rfl⟩, ?_⟩
    rw [exec_ok (B := SpecB) hA h]
    cases hv : w.s.st STORAGE_HASH k <;> simp [view, Spec.exec, hv]
  | before =>
    refine ⟨none, .inl ⟨by simp, rfl⟩, ?_⟩
    rw [exec_bad (B := SpecB) hA h]
    simp
  | after =>
    refine ⟨none, .inl ⟨by simp, rfl⟩, ?_⟩
    simp [Faulty, hA i, h, Backend.execAll, Spec.exec]

theorem Crash.fw_get (hA : Alone script) {k : Str} {w : W} {i : Nat} {w' : World (Faulty SpecB script)}
    (h : (getFromStorage E k).Crash (Faulty SpecB script) clk (fw script w i) w') : w'.s.1 = w.s := by
  have hI := faulty_inv (script := script) (B := SpecB) (I := fun s => s = w.s) (ok := fun op => op = .storageGet STORAGE_HASH k)
    (fun op s h1 h2 => by subst h1; exact h2) hA.all
  refine Crash.sat (B := Faulty SpecB script) (I := fun s => s.1 = w.s) hI (post := fun _ => True) ?_ rfl h
  refine Sat.bind (Sat.callV rfl) fun r _ => ?_
  split <;> trivial

/-- Crash points of a request that reads first. -/
theorem Crash.fw_after_get {α : Type} (hA : Alone script) {k : Str} {f : Option (Job D) → Prog α} {w : W} {i : Nat}
    {w' : World (Faulty SpecB script)} (h : ((getFromStorage E k).bind f).Crash (Faulty SpecB script) clk (fw script w i) w') :
    w'.s.1 = w.s ∨ ∃ r : Option (Job D), ((script i).fault ≠ .none ∧ r = none ∨ (script i).fault = .none ∧ r = view E w k) ∧
      (f r).Crash (Faulty SpecB script) clk (fw script w (i + 1)) w' := by
  rcases Crash.bind h with h | ⟨a, w1, h1, h2⟩
  · exact .inl (Crash.fw_get hA h)
  · obtain ⟨r, hr, e⟩ := faulty_get (E := E) (clk := clk) hA k w i
    rw [e] at h1
    obtain ⟨e1, rfl⟩ := Prod.mk.inj h1
    cases e1
    exact .inr ⟨_, hr, h2⟩

/-- A program that touches only `k'`, on a failing backend. -/
theorem Sat.fw_spares {α : Type} {post : α → Prop} (hA : Alone script) {p : Prog α} {k' : Str} (hk : k ≠ k')
    (hp : p.Sat (TouchOp E name k') post) {w : W} (hK : Keyed E w) {i : Nat} {w' : World (Faulty SpecB script)}
    (h : p.Crash (Faulty SpecB script) clk (fw script w i) w') : Spares E name k w (wld w'.s.1) := by
  have hI := faulty_inv (script := script) (B := SpecB) (I := fun s => Keyed E (wld s) ∧ Spares E name k w (wld s))
    (fun op s h1 h2 => touch_step hk w op s h1 h2) hA.all
  exact (Crash.sat (B := Faulty SpecB script) (I := fun s => Keyed E (wld s.1) ∧ Spares E name k w (wld s.1)) hI hp
    (w := fw script w i) ⟨hK, ⟨rfl, fun _ => rfl⟩⟩ h).2

/-- A turn that is not about `k` does not touch `k`, whichever calls fail. -/
theorem spares_with (L : E.Lawful) (hA : Alone script) {t : Sys D SpecB} (hT : Tidy E t) (op : Op D O) (ho : op ≠ .tick)
    (hn : NotAbout k op) (hot : OtherTask k (Sys.obs E name t) op) :
    Spares E name k t.w (Sys.stepWith E name SpecB clk script t op).1.w := by
  suffices h : ∀ w' : World (Faulty SpecB script), Sys.CrashIn E name (Faulty SpecB script) clk (t.faulty script) op w' →
      Spares E name k t.w (wld w'.s.1) by
    have := h _ (Sys.crash_step _ op)
    rw [stepWith_ne _ ho]
    exact ⟨this.view, this.count⟩
  intro w' h
  have same : w'.s.1 = t.w.s → Spares E name k t.w (wld w'.s.1) := fun e => by rw [e]; exact ⟨rfl, fun _ => rfl⟩
  cases h with
  | between => exact ⟨rfl, fun _ => rfl⟩
  | @enqueue job cfg _ ha h => exact Sat.fw_spares hA (fun e => hn.1 job cfg rfl e.symm) (WorkQueue.touches_submit L cfg rfl) hT.keyed (i := 0) h
  | @cancel id _ ha h =>
    have hne : k ≠ id := fun e => hn.2.1 (by rw [e])
    rcases Crash.fw_after_get hA (w := t.w) (i := 0) h with h | ⟨r, hr, h⟩
    · exact same h
    · refine Sat.fw_spares hA hne (post := fun _ => True) ?_ hT.keyed h
      cases r with
      | none => trivial
      | some j =>
        have hid : j.id = id := by
          rcases hr with ⟨_, hr⟩ | ⟨_, hr⟩
          · cases hr
          · exact hT.keyed id j hr.symm
        exact Sat.ite (Sat.bind (touches_jCancel L hid) fun _ _ => Sat.callQ (.remove _)) trivial
  | @get id _ ha h => exact same (Crash.fw_get hA (w := t.w) (i := 0) h)
  | @retry id _ ha h =>
    have hne : k ≠ id := fun e => hn.2.2 (by rw [e])
    rcases Crash.fw_after_get hA (w := t.w) (i := 0) h with h | ⟨r, hr, h⟩
    · exact same h
    · refine Sat.fw_spares hA hne (post := fun _ => True) ?_ hT.keyed h
      cases r with
      | none => trivial
      | some j =>
        have hid : j.id = id := by
          rcases hr with ⟨_, hr⟩ | ⟨_, hr⟩
          · cases hr
          · exact hT.keyed id j hr.symm
        exact Sat.ite (Sat.bind (WorkQueue.touches_reEnqueue L hid) fun _ _ => trivial) trivial
  | tick _ _ => exact absurd rfl ho
  | @start i orig _ ha ht h =>
    exact Sat.fw_spares hA (fun e => hot i _ ht (.inl rfl) e.symm) (WorkQueue.touches_executeStart rfl) hT.keyed (i := 0) h
  | @finish i x orig job _ ha ht h =>
    have e := hT.exec _ (List.mem_of_getElem? ht) _ rfl
    exact Sat.fw_spares hA (fun e => hot i _ ht (.inr ⟨x, rfl⟩) e.symm)
      (WorkQueue.touches_taskFinish L x rfl (by rw [e]; rfl)) hT.keyed (i := 0) h

/-! ## Ticks under faults -/

/-- The calls of a tick. -/
inductive PickOp (name : Str) : BOp → Prop where
  | count (st : JobStatus) : PickOp name (.queueCount (formatQueueName name st))
  | get (st : JobStatus) (n : Nat) (d : Dir) : PickOp name (.queueGet (formatQueueName name st) n d)
  | rotate : PickOp name (.queueMove (formatQueueName name .queued) (formatQueueName name .queued) 1 .back .front)
  | move : PickOp name (.queueMove (formatQueueName name .queued) (formatQueueName name .running) 1 .back .front)
  | upsert (k v : Str) : PickOp name (.storageUpsert STORAGE_HASH k v)
  | sget (k : Str) : PickOp name (.storageGet STORAGE_HASH k)

namespace WorkQueue

private abbrev P {α : Type} (name : Str) (p : Prog α) : Prop := p.Sat (PickOp name) fun _ => True

theorem picks_get (k : Str) : P name (getFromStorage E k) := by
  refine Sat.bind (Sat.callV (.sget k)) fun r _ => ?_
  split <;> trivial

theorem picks_process (j : Job D) : (Job.process E j).Sat (PickOp name) fun j' => j'.id = j.id ∧ j'.context.jobStatus = .running :=
  Sat.bind (post := fun _ => True) (fun _ => trivial) fun _ _ =>
    Sat.bind (post := fun _ => True) (Sat.bind (post := fun _ => True) (Sat.callQ (.upsert _ _)) fun _ _ => trivial) fun _ _ => ⟨rfl, rfl⟩

/-- What a pick may return: not more than `total` jobs, no id twice, all marked. -/
structure Batch (total : Nat) (l : List (Job D)) : Prop where
  le : l.length ≤ total
  once : (l.map Job.id).Nodup
  running : ∀ j ∈ l, j.context.jobStatus = .running

theorem picks_pickBatch (total : Nat) (ids : List Str) (ready : List (Job D)) (hr : Batch total ready) :
    (pickBatch E name total ids ready).Sat (PickOp name) (Batch total) := by
  induction ids generalizing ready with
  | nil => exact hr
  | cons id ids ih =>
    refine Sat.bind (picks_get _) fun r _ => ?_
    have hrot : (Prog.bind (orFail (queueMove (formatQueueName name .queued) (formatQueueName name .queued) 1 .back .front))
      fun _ => pickBatch E name total ids ready).Sat (PickOp name) (Batch total) :=
        Sat.bind (Sat.callQ .rotate) fun _ _ => ih ready hr
    cases r with
    | none => exact hrot
    | some j =>
      refine Sat.bind (post := fun _ => True) (Sat.bind (post := fun _ => True) (fun _ => trivial) fun _ _ => trivial) fun b _ => ?_
      split
      · next hc =>
        simp only [Bool.and_eq_true, decide_eq_true_eq, Bool.not_eq_true', List.any_eq_false] at hc
        refine Sat.bind (picks_process j) fun j' hj' => Sat.bind (Sat.callQ .move) fun _ _ => ih _ ⟨?_, ?_, ?_⟩
        · simp; omega
        · rw [List.map_append, List.nodup_append]
          refine ⟨hr.once, by simp, ?_⟩
          intro a ha c hc' e
          obtain ⟨r, hr, rfl⟩ := List.mem_map.mp ha
          simp only [List.map_cons, List.map_nil, List.mem_singleton] at hc'
          exact hc.2 r hr (by rw [e, hc', hj'.1])
        · intro r hm
          rcases List.mem_append.mp hm with hm | hm
          · exact hr.running r hm
          · rw [List.mem_singleton.mp hm]; exact hj'.2
      · exact hrot

theorem picks_pickLoop (total fuel : Nat) (cursor : Int) (ready : List (Job D)) (hr : Batch total ready) :
    (pickLoop E name total fuel cursor ready).Sat (PickOp name) (Batch total) := by
  induction fuel generalizing cursor ready with
  | zero => trivial
  | succ fuel ih =>
    refine Sat.bind (Sat.callQ (.get _ _ _)) fun ids _ => Sat.bind (sat_orPanic _) fun c _ =>
      Sat.bind (picks_pickBatch _ _ _ hr) fun r hr => ?_
    exact Sat.ite hr (Sat.ite hr (ih _ _ hr))

/-- The calls of a pick, and what it returns, whatever the backend answers. -/
theorem picks_pick (fuel : Nat) (cfg : WorkQueueConfig) :
    (pickJobsToProcess E name fuel cfg).Sat (PickOp name) (Batch cfg.maxProcessingJobs) := by
  have h0 : ∀ n, Batch n ([] : List (Job D)) := fun n => ⟨by simp, by simp, fun _ h => by cases h⟩
  refine Sat.bind (Sat.callV (.count _)) fun r _ => ?_
  refine Sat.ite (h0 _) (Sat.bind (Sat.callQ (.count _)) fun n _ => (picks_pickLoop _ _ _ _ (h0 _)).weaken fun l h => ?_)
  exact ⟨by have := h.le; omega, h.once, h.running⟩

end WorkQueue

/-- The queued and running lists together hold what they held, and the other lists are the same. -/
structure Kept (name : Str) (w w' : W) : Prop where
  perm : (lst name w' .queued ++ lst name w' .running).Perm (lst name w .queued ++ lst name w .running)
  lists : ∀ st, st ≠ .queued → st ≠ .running → lst name w' st = lst name w st

theorem take_last {α : Type} (l : List α) : (l.reverse.take 1).reverse = l.reverse.take 1 := by
  cases l.reverse <;> simp

theorem kept_step (w0 : W) (op : BOp) (s : SpecState) (hop : PickOp name op) (h : Kept name w0 (wld s)) :
    Kept name w0 (wld (SpecB.exec op s).2) := by
  have hql : ∀ (l : List Str), (l.reverse.take 1 ++ (l.reverse.drop 1).reverse).Perm l := by
    intro l
    have h1 : (l.reverse.take 1 ++ (l.reverse.drop 1).reverse).Perm (l.reverse.take 1 ++ l.reverse.drop 1) :=
      (List.reverse_perm _).append_left _
    rw [List.take_append_drop] at h1
    exact h1.trans (List.reverse_perm l)
  cases hop with
  | count st => exact h
  | get st n d => exact h
  | sget k => exact h
  | upsert k v => exact ⟨h.perm, h.lists⟩
  | rotate =>
    have e : wld (SpecB.exec (.queueMove (formatQueueName name .queued) (formatQueueName name .queued) 1 .back .front) s).2 =
        setL name .queued ((s.q (formatQueueName name .queued)).reverse.take 1 ++ ((s.q (formatQueueName name .queued)).reverse.drop 1).reverse) (wld s) := by
      simp [Spec.exec, Spec.view, Spec.put, wld, setL, upd, take_last]
    rw [e]
    refine ⟨?_, fun st h1 h2 => ?_⟩
    · rw [lst_setL_same, lst_setL_ne (by simp)]
      exact ((hql _).append_right _).trans h.perm
    · rw [lst_setL_ne h1]; exact h.lists st h1 h2
  | move =>
    have hne : formatQueueName name .running ≠ formatQueueName name .queued := fun e => by
      have := (formatQueueName_injective e).2; cases this
    have e : wld (SpecB.exec (.queueMove (formatQueueName name .queued) (formatQueueName name .running) 1 .back .front) s).2 =
        setL name .running ((s.q (formatQueueName name .queued)).reverse.take 1 ++ s.q (formatQueueName name .running))
          (setL name .queued ((s.q (formatQueueName name .queued)).reverse.drop 1).reverse (wld s)) := by
      simp [Spec.exec, Spec.view, Spec.put, wld, setL, take_last, upd_ne _ _ hne]
    rw [e]
    refine ⟨?_, fun st h1 h2 => ?_⟩
    · rw [lst_setL_same, lst_setL_ne (by simp), lst_setL_same]
      refine List.Perm.trans ?_ h.perm
      rw [← List.append_assoc]
      refine List.Perm.append_right _ ?_
      exact List.perm_append_comm.trans (hql _)
    · rw [lst_setL_ne h2, lst_setL_ne h1]; exact h.lists st h1 h2

/-- From `pre`, the program keeps `I` at every point and returns values with `post`. -/
def Tri {α : Type} (B : Backend) (clk : Nat → Time) (pre I : B.S → Prop) (p : Prog α) (post : α → B.S → Prop) : Prop :=
  ∀ w : World B, pre w.s → (∀ w', p.Crash B clk w w' → I w'.s) ∧ ∀ a w', p.run B clk w = (.ok a, w') → post a w'.s

namespace Tri
variable {α β : Type} {B : Backend} {clk : Nat → Time} {pre I : B.S → Prop}

theorem bind {p : Prog α} {f : α → Prog β} {mid : α → B.S → Prop} {post : β → B.S → Prop}
    (hp : Tri B clk pre I p mid) (hf : ∀ a, Tri B clk (mid a) I (f a) post) : Tri B clk pre I (p.bind f) post := by
  intro w hw
  obtain ⟨h1, h2⟩ := hp w hw
  refine ⟨fun w' h => ?_, fun b w' h => ?_⟩
  · rcases Crash.bind h with h | ⟨a, w1, h3, h4⟩
    · exact h1 w' h
    · exact (hf a w1 (h2 a w1 h3)).1 w' h4
  · rw [run_bind] at h
    rcases hr : p.run B clk w with ⟨r, w1⟩
    rw [hr] at h
    cases r with
    | ok a => exact (hf a w1 (h2 a w1 hr)).2 b w' h
    | err e => cases h
    | panicked => cases h
    | diverged => cases h

theorem ret {a : α} {post : α → B.S → Prop} (h : ∀ s, pre s → post a s) (hI : ∀ s, pre s → I s) : Tri B clk pre I (.ret a) post :=
  fun w hw => ⟨fun w' h' => by cases h'; exact hI _ hw, fun b w' e => by cases e; exact h _ hw⟩

theorem pre_mono {pre' : B.S → Prop} (h : ∀ s, pre' s → pre s) {p : Prog α} {post : α → B.S → Prop} (hp : Tri B clk pre I p post) :
    Tri B clk pre' I p post := fun w hw => hp w (h _ hw)

theorem ite {c : Prop} [Decidable c] {p q : Prog α} {post : α → B.S → Prop} (hp : Tri B clk pre I p post)
    (hq : Tri B clk pre I q post) : Tri B clk pre I (if c then p else q) post := by split <;> assumption

/-- A program all whose calls keep `pre`. -/
theorem of_sat {ok : BOp → Prop} {q : α → Prop} {p : Prog α} (hp : p.Sat ok q) (hI : ∀ op s, ok op → I s → I (B.exec op s).2) :
    Tri B clk I I p fun _ => I :=
  fun w hw => ⟨fun w' h => Crash.sat hI hp hw h, fun a w' h => by
    have := Sat.inv (clk := clk) hp hI hw
    rwa [h] at this⟩

end Tri

/-- Every job is stored as in `w`, or marked as Running in addition. -/
def Marked (E : Env D) (w : W) (s : SpecState) : Prop :=
  ∀ id, view E (wld s) id = view E w id ∨ ∃ j ms, view E w id = some j ∧ view E (wld s) id = some (j.asRunning ms)

theorem asRunning_asRunning (j : Job D) (a c : Int) : (j.asRunning a).asRunning c = j.asRunning c := rfl

section
variable (hA : Alone script) (L : E.Lawful) {w0 : W}
include hA L

omit L in
private theorem tri_get (id : Str) :
    Tri (Faulty SpecB script) clk (fun s => Marked E w0 s.1 ∧ Keyed E (wld s.1)) (fun s => Marked E w0 s.1 ∧ Keyed E (wld s.1))
      (getFromStorage E id) fun r s => (Marked E w0 s.1 ∧ Keyed E (wld s.1)) ∧ ∀ j, r = some j → view E (wld s.1) id = some j := by
  intro w hw
  obtain ⟨⟨s, i⟩, t, l⟩ := w
  refine ⟨fun w' h => ?_, fun a w' h => ?_⟩
  · have := Crash.fw_get hA (w := ⟨s, t, l⟩) (i := i) h
    show Marked E w0 w'.s.1 ∧ Keyed E (wld w'.s.1)
    rw [this]; exact hw
  · obtain ⟨r, hr, e⟩ := faulty_get (E := E) (clk := clk) hA id (⟨s, t, l⟩ : W) i
    have h : _ = (Out.ok a, w') := h
    rw [show (⟨(s, i), t, l⟩ : World (Faulty SpecB script)) = fw script (⟨s, t, l⟩ : W) i from rfl, e] at h
    obtain ⟨e1, rfl⟩ := Prod.mk.inj h
    cases e1
    refine ⟨hw, fun j hj => ?_⟩
    rcases hr with ⟨_, hr⟩ | ⟨_, hr⟩
    · rw [hr] at hj; cases hj
    · rw [hj] at hr; exact hr.symm

omit hA in
private theorem mark_step {j : Job D} {ms : Int} {s : SpecState} (h : Marked E w0 s ∧ Keyed E (wld s))
    (hj : view E (wld s) j.id = some j) :
    Marked E w0 (SpecB.exec (.storageUpsert STORAGE_HASH j.id ((E.codec.enc (j.asRunning ms)).getD [])) s).2 ∧
    Keyed E (wld (SpecB.exec (.storageUpsert STORAGE_HASH j.id ((E.codec.enc (j.asRunning ms)).getD [])) s).2) := by
  have he : E.codec.dec ((E.codec.enc (j.asRunning ms)).getD []) = some (j.asRunning ms) :=
    ((Env.Lawful.stored_view (L := L) hj).asRunning ms).encdec
  refine ⟨fun id => ?_, ?_⟩
  · rw [view_exec_upsert, he]
    by_cases hid : id = j.id
    · subst hid
      rw [upd_same]
      rcases h.1 j.id with h1 | ⟨j0, ms0, h1, h2⟩
      · exact .inr ⟨j, ms, by rw [← h1]; exact hj, rfl⟩
      · rw [hj] at h2
        injection h2 with h2
        exact .inr ⟨j0, ms, h1, by rw [h2, asRunning_asRunning]⟩
    · rw [upd_ne _ _ hid]; exact h.1 id
  · unfold Keyed
    rw [view_exec_upsert, he]
    exact Inv.keyed_upd h.2 fun j' e => by cases e; rfl

omit L in
private theorem tri_other {α : Type} {ok : BOp → Prop} {q : α → Prop} {p : Prog α} (hp : p.Sat ok q)
    (h : ∀ op, ok op → ∀ k v, op ≠ .storageUpsert STORAGE_HASH k v) :
    Tri (Faulty SpecB script) clk (fun s => Marked E w0 s.1 ∧ Keyed E (wld s.1)) (fun s => Marked E w0 s.1 ∧ Keyed E (wld s.1))
      p fun _ s => Marked E w0 s.1 ∧ Keyed E (wld s.1) := by
  refine Tri.of_sat hp (faulty_inv (B := SpecB) (I := fun s => Marked E w0 s ∧ Keyed E (wld s)) (fun op s ho hs => ?_) hA.all)
  have e := view_exec_other (E := E) op s (h op ho)
  unfold Marked Keyed
  rw [e]
  exact hs

private theorem tri_process (j : Job D) :
    Tri (Faulty SpecB script) clk (fun s => (Marked E w0 s.1 ∧ Keyed E (wld s.1)) ∧ view E (wld s.1) j.id = some j)
      (fun s => Marked E w0 s.1 ∧ Keyed E (wld s.1)) (Job.process E j) fun _ s => Marked E w0 s.1 ∧ Keyed E (wld s.1) := by
  intro w hw
  have key : ∀ w', (Job.process E j).Crash (Faulty SpecB script) clk w w' → Marked E w0 w'.s.1 ∧ Keyed E (wld w'.s.1) := by
    intro w' h
    rcases h with rfl | h
    · exact hw.1
    have h : (Prog.bind (Job.saveAndNotify E (j.asRunning (clk w.t / nsPerMs))) fun _ => .ret (j.asRunning (clk w.t / nsPerMs))).Crash
      (Faulty SpecB script) clk { w with t := w.t + 1 } w' := h
    generalize hms : clk w.t / nsPerMs = ms at h
    have hex : Marked E w0 ((Faulty SpecB script).exec (.storageUpsert STORAGE_HASH j.id ((E.codec.enc (j.asRunning ms)).getD [])) w.s).2.1 ∧
        Keyed E (wld ((Faulty SpecB script).exec (.storageUpsert STORAGE_HASH j.id ((E.codec.enc (j.asRunning ms)).getD [])) w.s).2.1) := by
      obtain ⟨⟨s, i⟩, t, l⟩ := w
      have hm := mark_step L (ms := ms) hw.1 hw.2
      unfold Faulty
      dsimp only
      rw [hA i]
      cases (script i).fault with
      | none => exact hm
      | before => exact hw.1
      | after => exact hm
    rcases h with rfl | h
    · exact hw.1
    simp only [ret_bind] at h
    have h' : w'.s = ((Faulty SpecB script).exec (.storageUpsert STORAGE_HASH j.id ((E.codec.enc (j.asRunning ms)).getD [])) w.s).2 := by
      revert h
      generalize hR : ((Faulty SpecB script).exec (.storageUpsert STORAGE_HASH j.id ((E.codec.enc (j.asRunning ms)).getD [])) w.s) = R
      have hR' : ((Faulty SpecB script).exec (.storageUpsert STORAGE_HASH (j.asRunning ms).id ((E.codec.enc (j.asRunning ms)).getD [])) w.s) = R := hR
      intro h
      rw [hR'] at h
      obtain ⟨r, s'⟩ := R
      cases r with
      | error e => cases h; rfl
      | ok u =>
        rcases h with h | h
        · cases h; rfl
        · cases h; rfl
    rw [h']
    exact hex
  refine ⟨key, fun a w' h => ?_⟩
  have := key _ (Crash.last (Job.process E j) w)
  rwa [h] at this

private theorem tri_pickBatch (total : Nat) (ids : List Str) (ready : List (Job D)) :
    Tri (Faulty SpecB script) clk (fun s => Marked E w0 s.1 ∧ Keyed E (wld s.1)) (fun s => Marked E w0 s.1 ∧ Keyed E (wld s.1))
      (WorkQueue.pickBatch E name total ids ready) fun _ s => Marked E w0 s.1 ∧ Keyed E (wld s.1) := by
  induction ids generalizing ready with
  | nil => exact Tri.ret (fun _ h => h) (fun _ h => h)
  | cons id ids ih =>
    have hmv : ∀ (dst : Str) ready, Tri (Faulty SpecB script) clk (fun s => Marked E w0 s.1 ∧ Keyed E (wld s.1)) (fun s => Marked E w0 s.1 ∧ Keyed E (wld s.1))
        (Prog.bind (orFail (queueMove (formatQueueName name .queued) dst 1 .back .front))
          fun _ => WorkQueue.pickBatch E name total ids ready) fun _ s => Marked E w0 s.1 ∧ Keyed E (wld s.1) := fun dst ready =>
      Tri.bind (tri_other hA (Sat.callQ (ok := fun op => ∃ a c n d e, op = .queueMove a c n d e) ⟨_, _, _, _, _, rfl⟩)
        (by rintro _ ⟨_, _, _, _, _, rfl⟩ _ _ e; cases e)) fun _ => ih ready
    refine Tri.bind (tri_get hA id) fun r => ?_
    cases r with
    | none => exact (hmv _ _).pre_mono fun _ h => h.1
    | some j =>
      refine Tri.bind (mid := fun _ (s : (Faulty SpecB script).S) => (Marked E w0 s.1 ∧ Keyed E (wld s.1)) ∧ view E (wld s.1) id = some j) ?_ fun b => ?_
      · intro w hw
        have hw' : (Marked E w0 w.s.1 ∧ Keyed E (wld w.s.1)) ∧ view E (wld w.s.1) id = some j := ⟨hw.1, hw.2 j rfl⟩
        refine ⟨fun w' h => ?_, fun a w' h => ?_⟩
        · rcases h with rfl | h
          · exact hw.1
          · cases h; exact hw.1
        · cases h; exact hw'
      · refine Tri.ite ?_ ((hmv _ _).pre_mono fun _ h => h.1)
        refine Tri.bind ((tri_process hA L j).pre_mono fun s h => ⟨h.1, ?_⟩) fun j' => hmv _ _
        rw [h.1.2 id j h.2]; exact h.2

private theorem tri_pickLoop (total fuel : Nat) (cursor : Int) (ready : List (Job D)) :
    Tri (Faulty SpecB script) clk (fun s => Marked E w0 s.1 ∧ Keyed E (wld s.1)) (fun s => Marked E w0 s.1 ∧ Keyed E (wld s.1))
      (WorkQueue.pickLoop E name total fuel cursor ready) fun _ s => Marked E w0 s.1 ∧ Keyed E (wld s.1) := by
  induction fuel generalizing cursor ready with
  | zero => exact fun w hw => ⟨fun w' h => by cases h; exact hw, fun a w' h => by cases h⟩
  | succ fuel ih =>
    refine Tri.bind (tri_other hA (Sat.callQ (ok := fun op => ∃ a c n, op = .queueGet a c n) ⟨_, _, _, rfl⟩)
      (by rintro _ ⟨_, _, _, rfl⟩ _ _ e; cases e)) fun ids => ?_
    refine Tri.bind (tri_other hA (ok := fun _ => False) (WorkQueue.sat_orPanic _) (by rintro _ ⟨⟩)) fun c => ?_
    refine Tri.bind (tri_pickBatch hA L _ _ _) fun r => ?_
    exact Tri.ite (Tri.ret (fun _ h => h) fun _ h => h) (Tri.ite (Tri.ret (fun _ h => h) fun _ h => h) (ih _ _))

/-- What is stored during and after a tick on a failing backend. -/
theorem marked_pick (fuel : Nat) (cfg : WorkQueueConfig) (hK : Keyed E w0) {i : Nat} {w' : World (Faulty SpecB script)}
    (h : (WorkQueue.pickJobsToProcess E name fuel cfg).Crash (Faulty SpecB script) clk (fw script w0 i) w') : Marked E w0 w'.s.1 := by
  have ht : Tri (Faulty SpecB script) clk (fun s => Marked E w0 s.1 ∧ Keyed E (wld s.1)) (fun s => Marked E w0 s.1 ∧ Keyed E (wld s.1))
      (WorkQueue.pickJobsToProcess E name fuel cfg) fun _ s => Marked E w0 s.1 ∧ Keyed E (wld s.1) := by
    have hc : ∀ op : BOp, (∃ a, op = .queueCount a) → ∀ k v, op ≠ .storageUpsert STORAGE_HASH k v := by
      rintro _ ⟨_, rfl⟩ _ _ e; cases e
    refine Tri.bind (tri_other hA (Sat.callV (ok := fun op => ∃ a, op = .queueCount a) ⟨_, rfl⟩) hc) fun r => ?_
    refine Tri.ite (Tri.ret (fun _ h => h) fun _ h => h) ?_
    exact Tri.bind (tri_other hA (Sat.callQ (ok := fun op => ∃ a, op = .queueCount a) ⟨_, rfl⟩) hc) fun n => tri_pickLoop hA L _ _ _ _
  exact ((ht (fw script w0 i) ⟨fun _ => .inl rfl, hK⟩).1 w' h).1

end
end
end AJ
