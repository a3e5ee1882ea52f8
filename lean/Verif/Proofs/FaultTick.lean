import Verif.Proofs.FaultOps

/-! # Ticks on a failing backend end; turns up to a fault -/

namespace AJ
open W Prog

/-! ## Programs with a known number of calls -/

namespace Prog
variable {α β : Type} {B : Backend} {clk : Nat → Time} {script : Nat → Fate}

/-- Every run that returns a value makes `n` calls. -/
def Exact : Nat → Prog α → Prop
  | n, ret _ => n = 0
  | n, call _ k => ∃ m, n = m + 1 ∧ ∀ r, Exact m (k r)
  | n, now k => ∀ t, Exact n (k t)
  | n, emit _ k => Exact n k
  | _, _ => True

/-- As long as the calls do not fail, nothing is noticed. -/
theorem Exact.run {n : Nat} {p : Prog α} (hp : p.Exact n) (hA : Alone script) {i : Nat}
    (hq : ∀ j, i ≤ j → j < i + n → (script j).fault = .none) {w w' : World B} {a : α} (h : p.run B clk w = (.ok a, w')) :
    p.run (Faulty B script) clk (fw script w i) = (.ok a, fw script w' (i + n)) := by
  induction p generalizing n i w with
  | ret x => cases h; rw [show n = 0 from hp]; rfl
  | fail e => cases h
  | panic => cases h
  | diverge => cases h
  | call op k ih =>
    obtain ⟨m, rfl, hm⟩ := hp
    have e : (Faulty B script).exec op (fw script w i).s = ((B.exec op w.s).1, ((B.exec op w.s).2, i + 1)) :=
      exec_ok hA (hq i (Nat.le_refl _) (by omega)) op w.s
    rw [run_call, e]
    have := ih _ (hm _) (i := i + 1) (fun j h1 h2 => hq j (by omega) (by omega)) (w := { w with s := (B.exec op w.s).2 }) h
    rw [show i + (m + 1) = i + 1 + m by omega]
    exact this
  | now k ih => exact ih _ (hp _) hq (w := { w with t := w.t + 1 }) h
  | emit e k ih => exact ih hp hq (w := { w with log := w.log ++ [e] }) h

theorem exact_call (op : BOp) : (call' op).Exact 1 := ⟨0, rfl, fun _ => rfl⟩
theorem exact_callQ (op : BOp) : (orFail (call' op)).Exact 1 := ⟨0, rfl, fun r => by cases r <;> trivial⟩

/-- A failing call whose answer is looked at. -/
theorem run_failed (hA : Alone script) {i : Nat} (h : (script i).fault = .before) (op : BOp) (w : World B) :
    (call' op).run (Faulty B script) clk (fw script w i) = (.ok (.error .redis), fw script w (i + 1)) := by
  have e : (Faulty B script).exec op (fw script w i).s = (.error .redis, (w.s, i + 1)) := exec_bad hA h op w.s
  unfold call'
  rw [run_call, e]
  rfl

end Prog

section
variable {D O : Type} {E : Env D} {name : Str} {clk : Nat → Time} {script : Nat → Fate}

theorem exact_get (k : Str) : (getFromStorage E k).Exact 1 :=
  ⟨0, rfl, fun r => by rcases r with _ | _ | _ <;> exact rfl⟩

theorem exact_save (j : Job D) : (Job.saveAndNotify E j).Exact 1 := ⟨0, rfl, fun r => by cases r <;> trivial⟩
theorem exact_jEnqueue (j : Job D) : (Job.enqueue E j).Exact 1 := fun _ => ⟨0, rfl, fun r => by cases r <;> trivial⟩
theorem exact_jFinish (j : Job D) : (Job.finish E j).Exact 1 := fun _ => ⟨0, rfl, fun r => by cases r <;> trivial⟩

/-! ## Ends -/

/-- From `pre` the program returns a value with `post`, or an error; it does not panic or hang. -/
def Ends {α : Type} (B : Backend) (clk : Nat → Time) (pre : B.S → Prop) (p : Prog α) (post : α → B.S → Prop) : Prop :=
  ∀ w : World B, pre w.s → (∃ e, (p.run B clk w).1 = .err e) ∨ ∃ a w', p.run B clk w = (.ok a, w') ∧ post a w'.s

namespace Ends
variable {α β : Type} {B : Backend} {pre : B.S → Prop}

theorem bind {p : Prog α} {f : α → Prog β} {mid : α → B.S → Prop} {post : β → B.S → Prop}
    (hp : Ends B clk pre p mid) (hf : ∀ a, Ends B clk (mid a) (f a) post) : Ends B clk pre (p.bind f) post := by
  intro w hw
  rw [run_bind]
  rcases hp w hw with ⟨e, h⟩ | ⟨a, w1, h, h1⟩
  · generalize p.run B clk w = q at h
    obtain ⟨r, w1⟩ := q
    cases h
    exact .inl ⟨e, rfl⟩
  · rw [h]
    exact hf a w1 h1

theorem ret {a : α} {post : α → B.S → Prop} (h : ∀ s, pre s → post a s) : Ends B clk pre (.ret a) post :=
  fun w hw => .inr ⟨a, w, rfl, h _ hw⟩

theorem ite {c : Prop} [Decidable c] {p q : Prog α} {post : α → B.S → Prop} (hp : c → Ends B clk pre p post)
    (hq : ¬ c → Ends B clk pre q post) : Ends B clk pre (if c then p else q) post := by
  split
  · next h => exact hp h
  · next h => exact hq h

theorem pre_mono {pre' : B.S → Prop} (h : ∀ s, pre' s → pre s) {p : Prog α} {post : α → B.S → Prop} (hp : Ends B clk pre p post) :
    Ends B clk pre' p post := fun w hw => hp w (h _ hw)

theorem callV {op : BOp} {post : Except Error op.Res → B.S → Prop} (h : ∀ s, pre s → post (B.exec op s).1 (B.exec op s).2) :
    Ends B clk pre (call' op) post := fun _ hw => .inr ⟨_, _, rfl, h _ hw⟩

theorem callQ {op : BOp} {post : op.Res → B.S → Prop}
    (h : ∀ s r, pre s → (B.exec op s).1 = .ok r → post r (B.exec op s).2) : Ends B clk pre (orFail (call' op)) post := by
  intro w hw
  have := h w.s
  unfold call' orFail
  simp only [run_bind, run_call]
  cases hr : (B.exec op w.s).1 with
  | error e => exact .inl ⟨e, rfl⟩
  | ok r => exact .inr ⟨r, _, rfl, this r hw hr⟩

end Ends

/-- At least `n` entries are queued. -/
def AtLeast (name : Str) (n : Int) (s : SpecState) : Prop := n ≤ ((s.q (formatQueueName name .queued)).length : Int)

/-- States of the failing specification. -/
abbrev FS (script : Nat → Fate) := (Faulty SpecB script).S

/-- A call that does not take entries out of the queued list leaves at least as many. -/
theorem atLeast_exec {op : BOp} (h : ¬ op.Takes name) {n : Int} {s : SpecState} (hs : AtLeast name n s) :
    AtLeast name n (SpecB.exec op s).2 := by
  unfold AtLeast at hs ⊢
  have key : (s.q (formatQueueName name .queued)).length ≤ ((SpecB.exec op s).2.q (formatQueueName name .queued)).length := by
    cases op with
    | queuePush q x =>
      simp only [Spec.exec, upd]
      split
      · next e => rw [e]; simp
      · exact Nat.le_refl _
    | queueMove src dst m fd td =>
      simp only [BOp.Takes, not_and, Classical.not_not] at h
      have hput : ∀ d (l m : List Str), (Spec.put d l m).length = l.length + m.length := by
        intro d l m; cases d <;> simp [Spec.put]; omega
      have hview : ∀ d (l : List Str), (Spec.view d l).length = l.length := by
        intro d l; cases d <;> simp [Spec.view]
      by_cases hsrc : src = formatQueueName name .queued
      · have hd := h hsrc
        subst hsrc
        subst hd
        simp only [Spec.exec, upd, if_true, hput, List.length_take, hview, List.length_drop]
        omega
      · simp only [Spec.exec, upd]
        split
        · next e =>
          subst e
          rw [if_neg (fun e => hsrc e.symm), hput]
          omega
        · rw [if_neg (fun e => hsrc e.symm)]; exact Nat.le_refl _
    | queueRemove q x =>
      have h : q ≠ formatQueueName name .queued := h
      simp only [Spec.exec, upd, if_neg h.symm]
      exact Nat.le_refl _
    | _ => exact Nat.le_refl _
  omega

section
variable (hA : Gentle name script)
include hA

private theorem env_atLeast {i : Nat} {n : Int} {s : SpecState} (hs : AtLeast name n s) :
    AtLeast name n (SpecB.execAll (script i).env s) := by
  have : ∀ (l : List BOp), (∀ op ∈ l, ¬ op.Takes name) → ∀ s, AtLeast name n s → AtLeast name n (SpecB.execAll l s) := by
    intro l
    induction l with
    | nil => exact fun _ s h => h
    | cons op l ih => exact fun hl s h => ih (fun o ho => hl o (List.mem_cons_of_mem _ ho)) _ (atLeast_exec (hl op List.mem_cons_self) h)
  exact this _ (hA i) s hs

private theorem quiet_op {op : BOp} {n m : Int} (hop : ∀ s, AtLeast name n s → AtLeast name m (SpecB.exec op s).2) (hmn : m ≤ n)
    {s : (Faulty SpecB script).S} (h : AtLeast name n s.1) : AtLeast name m ((Faulty SpecB script).exec op s).2.1 := by
  obtain ⟨s, i⟩ := s
  have h1 : AtLeast name n (SpecB.execAll (script i).env s) := env_atLeast hA (i := i) h
  unfold Faulty
  dsimp only
  have h2 : AtLeast name m (SpecB.execAll (script i).env s) := by
    unfold AtLeast at h1 ⊢; omega
  cases (script i).fault with
  | none => exact hop _ h1
  | before => exact h2
  | after => exact hop _ h1

private theorem ends_get {n : Int} (id : Str) :
    Ends (Faulty SpecB script) clk (fun s => AtLeast name n s.1) (getFromStorage E id) fun _ (s : FS script) => AtLeast name n s.1 := by
  refine Ends.bind (Ends.callV (op := .storageGet STORAGE_HASH id) (post := fun _ (s : FS script) => AtLeast name n s.1) fun s h => quiet_op hA (op := .storageGet STORAGE_HASH id) (fun _ h => h) (Int.le_refl _) h) fun r => ?_
  split
  · exact Ends.ret fun _ h => h
  · exact Ends.ret fun _ h => h

private theorem ends_process {n : Int} (j : Job D) :
    Ends (Faulty SpecB script) clk (fun s => AtLeast name n s.1) (Job.process E j) fun _ (s : FS script) => AtLeast name n s.1 := by
  refine Ends.bind (mid := fun _ (s : FS script) => AtLeast name n s.1) (fun w hw => .inr ⟨_, _, rfl, hw⟩) fun ms => ?_
  refine Ends.bind (mid := fun _ (s : FS script) => AtLeast name n s.1) ?_ fun _ => Ends.ret fun _ h => h
  exact Ends.bind (mid := fun _ (s : FS script) => AtLeast name n s.1) (Ends.callQ (op := .storageUpsert STORAGE_HASH _ _)
    fun s _ h _ => quiet_op hA (op := .storageUpsert STORAGE_HASH _ _) (fun _ h => h) (Int.le_refl _) h)
    fun _ w hw => .inr ⟨_, _, rfl, hw⟩

private theorem ends_pickBatch (total : Nat) (ids : List Str) (ready : List (Job D)) (n : Int) :
    Ends (Faulty SpecB script) clk (fun s => AtLeast name (n + (ids.length : Int)) s.1) (WorkQueue.pickBatch E name total ids ready)
      fun _ (s : FS script) => AtLeast name n s.1 := by
  induction ids generalizing ready with
  | nil => exact Ends.ret fun s h => by simpa using h
  | cons id ids ih =>
    have hlen : (((id :: ids).length : Nat) : Int) = (ids.length : Int) + 1 := by simp
    have hrot : ∀ s, AtLeast name (n + (ids.length : Int)) s → AtLeast name (n + (ids.length : Int))
        (SpecB.exec (.queueMove (formatQueueName name .queued) (formatQueueName name .queued) 1 .back .front) s).2 := by
      intro s h
      unfold AtLeast at h ⊢
      have : ((SpecB.exec (.queueMove (formatQueueName name .queued) (formatQueueName name .queued) 1 .back .front) s).2.q
          (formatQueueName name .queued)).length = (s.q (formatQueueName name .queued)).length := by
        simp [Spec.exec, Spec.view, Spec.put, upd]
        omega
      rw [this]; exact h
    have hmove : ∀ s, AtLeast name (n + ((id :: ids).length : Int)) s → AtLeast name (n + (ids.length : Int))
        (SpecB.exec (.queueMove (formatQueueName name .queued) (formatQueueName name .running) 1 .back .front) s).2 := by
      intro s h
      unfold AtLeast at h ⊢
      have hne : formatQueueName name .queued ≠ formatQueueName name .running := fun e => by
        have := (formatQueueName_injective e).2; cases this
      have : ((SpecB.exec (.queueMove (formatQueueName name .queued) (formatQueueName name .running) 1 .back .front) s).2.q
          (formatQueueName name .queued)).length = (s.q (formatQueueName name .queued)).length - 1 := by
        simp [Spec.exec, Spec.view, upd_ne _ _ hne]
      rw [this]
      rw [hlen] at h
      omega
    have weak : ∀ s, AtLeast name (n + ((id :: ids).length : Int)) s → AtLeast name (n + (ids.length : Int)) s := by
      intro s h; unfold AtLeast at h ⊢; rw [hlen] at h; omega
    have hr : ∀ ready, Ends (Faulty SpecB script) clk (fun s => AtLeast name (n + ((id :: ids).length : Int)) s.1)
        (Prog.bind (orFail (queueMove (formatQueueName name .queued) (formatQueueName name .queued) 1 .back .front))
          fun _ => WorkQueue.pickBatch E name total ids ready) fun _ (s : FS script) => AtLeast name n s.1 := fun ready =>
      (Ends.bind (Ends.callQ (pre := fun (s : FS script) => AtLeast name (n + (ids.length : Int)) s.1)
        (post := fun _ (s : FS script) => AtLeast name (n + (ids.length : Int)) s.1) fun s _ h _ => quiet_op hA hrot (Int.le_refl _) h) fun _ => ih ready).pre_mono
          fun s h => weak _ h
    refine Ends.bind (ends_get hA (n := n + ((id :: ids).length : Int)) id) fun r => ?_
    cases r with
    | none => exact hr _
    | some j =>
      refine Ends.bind (mid := fun _ (s : FS script) => AtLeast name (n + ((id :: ids).length : Int)) s.1) (fun w hw => .inr ⟨_, _, rfl, hw⟩) fun b => ?_
      refine Ends.ite (fun _ => ?_) fun _ => hr _
      refine Ends.bind (ends_process hA j) fun j' => ?_
      refine Ends.bind (Ends.callQ (post := fun _ (s : FS script) => AtLeast name (n + (ids.length : Int)) s.1) fun s _ h _ => quiet_op hA hmove (by omega) h) fun _ => ih _

/-- The scan returns if nobody takes entries meanwhile. -/
theorem ends_pickLoop (total fuel : Nat) (cursor : Int) (ready : List (Job D)) (h0 : 0 ≤ cursor) (h1 : cursor < 2 ^ 31)
    (hf : cursor < fuel) :
    Ends (Faulty SpecB script) clk (fun s => AtLeast name cursor s.1) (WorkQueue.pickLoop E name total fuel cursor ready)
      fun _ _ => True := by
  induction fuel generalizing cursor ready with
  | zero => omega
  | succ fuel ih =>
    refine Ends.bind (Ends.callQ (op := .queueGet (formatQueueName name .queued) 20 .back) (post := fun (ids : List Str) (s : FS script) => AtLeast name cursor s.1 ∧ (ids.length : Int) ≤ 20 ∧ (0 < cursor → ids ≠ []))
      fun s r h hr => ⟨quiet_op hA (op := .queueGet (formatQueueName name .queued) 20 .back) (fun _ h => h) (Int.le_refl _) h, ?_⟩) fun ids => ?_
    · obtain ⟨s, i⟩ := s
      have h : AtLeast name cursor (SpecB.execAll (script i).env s) := env_atLeast hA h
      have e : r = ((SpecB.execAll (script i).env s).q (formatQueueName name .queued)).reverse.take 20 := by
        unfold Faulty at hr
        dsimp only at hr
        cases hfl : (script i).fault with
        | none => rw [hfl] at hr; injection hr with hr; exact hr.symm
        | before => rw [hfl] at hr; cases hr
        | after => rw [hfl] at hr; cases hr
      subst e
      generalize SpecB.execAll (script i).env s = s at h
      unfold AtLeast at h
      refine ⟨by simp; omega, fun hc e => ?_⟩
      have : (s.q (formatQueueName name .queued)).length = 0 := by
        have := congrArg List.length e
        simp at this
        simp [this]
      omega
    · by_cases hids : (ids.length : Int) ≤ 20 ∧ (0 < cursor → ids ≠ [])
      swap
      · intro w hw; exact absurd hw.2 hids
      have ha : addI32 E.overflowChecks cursor (-(ids.length : Int)) = some (cursor - (ids.length : Int)) := by
        unfold addI32 fitsI32
        rw [if_pos]
        · rfl
        · simp only [Bool.and_eq_true, decide_eq_true_eq]
          omega
      rw [ha]
      refine Ends.bind (mid := fun c (s : FS script) => c = cursor - (ids.length : Int) ∧ AtLeast name cursor s.1)
        (fun w hw => .inr ⟨_, _, rfl, rfl, hw.1⟩) fun c => ?_
      by_cases hc : c = cursor - (ids.length : Int)
      swap
      · intro w hw; exact absurd hw.1 hc
      subst hc
      refine Ends.bind ((ends_pickBatch hA total ids ready (cursor - (ids.length : Int))).pre_mono fun s h => ?_) fun r => ?_
      · have h := h.2
        unfold AtLeast at h ⊢
        omega
      · refine Ends.ite (fun _ => Ends.ret fun _ _ => trivial) fun _ => Ends.ite (fun _ => Ends.ret fun _ _ => trivial) fun hc => ?_
        have : (0 : Int) < cursor := by omega
        have hne := hids.2 this
        have : 0 < ids.length := List.length_pos_of_ne_nil hne
        exact ih _ _ (by omega) (by omega) (by omega)

end

section
variable (hA : Alone script)
include hA

theorem Alone.gentle : Gentle name script := fun i op h => by rw [hA i] at h; cases h

private theorem quiet_op' {op : BOp} {P : SpecState → Prop} (hop : ∀ s, P s → P (SpecB.exec op s).2) {s : (Faulty SpecB script).S}
    (h : P s.1) : P ((Faulty SpecB script).exec op s).2.1 :=
  faulty_inv (B := SpecB) (I := P) (ok := fun o => o = op) (fun o s e h => by subst e; exact hop s h) hA.all op s rfl h

/-- The scan of a tick on a failing backend returns. -/
theorem ends_pick (cfg : WorkQueueConfig) (w : W) (i : Nat) (hl : (lst name w .queued).length < 2 ^ 31) :
    (∃ e, ((WorkQueue.pickJobsToProcess E name (Sys.tickFuel name SpecB w.s) cfg).run (Faulty SpecB script) clk (fw script w i)).1 = .err e) ∨
    ∃ jobs w', (WorkQueue.pickJobsToProcess E name (Sys.tickFuel name SpecB w.s) cfg).run (Faulty SpecB script) clk (fw script w i) = (.ok jobs, w') := by
  have hfuel : Sys.tickFuel name SpecB w.s = (lst name w .queued).length + 1 := rfl
  rw [hfuel]
  generalize hn : (lst name w .queued).length = n at hl
  have key : Ends (Faulty SpecB script) clk (fun s => s.1 = w.s) (WorkQueue.pickJobsToProcess E name (n + 1) cfg) fun _ _ => True := by
    refine Ends.bind (Ends.callV (op := .queueCount (formatQueueName name .running)) (post := fun _ (s : FS script) => s.1 = w.s) fun s h =>
      quiet_op' hA (op := .queueCount (formatQueueName name .running)) (P := fun s => s = w.s) (fun _ h => h) h) fun r => ?_
    refine Ends.ite (fun _ => Ends.ret fun _ _ => trivial) fun _ => ?_
    refine Ends.bind (Ends.callQ (op := .queueCount (formatQueueName name .queued)) (post := fun (m : Nat) (s : FS script) => m = n ∧ s.1 = w.s) fun s r h hr =>
      ⟨?_, quiet_op' hA (op := .queueCount (formatQueueName name .queued)) (P := fun s => s = w.s) (fun _ h => h) h⟩) fun m => ?_
    · obtain ⟨s, i⟩ := s
      have h : s = w.s := h
      subst h
      unfold Faulty at hr
      dsimp only at hr
      rw [hA i] at hr
      cases hfl : (script i).fault with
      | none => rw [hfl] at hr; injection hr with hr; rw [← hn]; exact hr.symm
      | before => rw [hfl] at hr; cases hr
      | after => rw [hfl] at hr; cases hr
    · by_cases hm : m = n
      swap
      · intro w hw; exact absurd hw.1 hm
      subst hm
      have hw : wrapI32 (m : Int) = m := WorkQueue.wrapI32_of_fits (by omega) (by omega)
      show Ends _ _ _ (WorkQueue.pickLoop E name _ (m + 1) (wrapI32 (m : Int)) []) _
      rw [hw]
      refine (ends_pickLoop hA.gentle _ _ _ _ (by omega) (by omega) (by omega)).pre_mono fun s h => ?_
      unfold AtLeast
      rw [h.2, ← hn]
      exact Int.le_refl _
  rcases key (fw script w i) rfl with h | ⟨a, w', h, _⟩
  · exact .inl h
  · exact .inr ⟨a, w', h⟩

end

/-! ## Answers of turns -/

theorem stepWith_enqueue {t : Sys D SpecB} (ha : t.alive = true) {job : Job D} {cfg : EnqueueConfig} {w : W} {n : Nat}
    (h : (WorkQueue.runWithConfig E name job cfg).run (Faulty SpecB script) clk (fw script t.w 0) = (.ok (), fw script w n)) :
    Sys.stepWith E name SpecB clk script t (.enqueue job cfg : Op D O) = ({ t with w := w }, .unit (.ok ())) := by
  rw [stepWith_ne _ (by intro e; cases e)]
  unfold Sys.step Sys.handle
  rw [if_pos (show (t.faulty script).alive = true from ha)]
  rw [show (t.faulty script).w = fw script t.w 0 from rfl]
  simp only [h]
  rfl

theorem stepWith_retry {t : Sys D SpecB} (ha : t.alive = true) {k : Str} {r : Bool} {w : W} {n : Nat}
    (h : (WorkQueue.retryJob E name k).run (Faulty SpecB script) clk (fw script t.w 0) = (.ok r, fw script w n)) :
    Sys.stepWith E name SpecB clk script t (.retry k : Op D O) = ({ t with w := w }, .bool (.ok r)) := by
  rw [stepWith_ne _ (by intro e; cases e)]
  unfold Sys.step Sys.handle
  rw [if_pos (show (t.faulty script).alive = true from ha)]
  rw [show (t.faulty script).w = fw script t.w 0 from rfl]
  simp only [h]
  rfl

theorem stepWith_finish {t : Sys D SpecB} (ha : t.alive = true) {i : Nat} {orig job : Job D} (ht : t.tasks[i]? = some ⟨orig, some job⟩)
    {x : Executable D O} {w : W} {n : Nat}
    (h : (WorkQueue.taskFinish E name x orig job).run (Faulty SpecB script) clk (fw script t.w 0) = (.ok (), fw script w n)) :
    Sys.stepWith E name SpecB clk script t (.finish i x) = ({ t with w := w, tasks := t.tasks.eraseIdx i }, .silent) := by
  rw [stepWith_ne _ (by intro e; cases e)]
  unfold Sys.step
  rw [if_pos (show (t.faulty script).alive = true from ha)]
  rw [show (t.faulty script).w = fw script t.w 0 from rfl]
  simp only [show (t.faulty script).tasks[i]? = some ⟨orig, some job⟩ from ht, h]
  rfl

/-- If the read fails, a submission takes the job for a new one. -/
theorem submit_unread (job : Job D) (cfg : EnqueueConfig) (w : W) :
    ∃ n, (WorkQueue.runWithConfig E name job cfg).run (Faulty SpecB (faultAt 0)) clk (fw (faultAt 0) w 0) =
      (.ok (), fw (faultAt 0) (enq E name clk job w) n) := by
  obtain ⟨r, hr, e⟩ := faulty_get (E := E) (clk := clk) (alone_faultAt 0) job.id w 0
  have hr : r = none := by
    rcases hr with ⟨_, hr⟩ | ⟨h, _⟩
    · exact hr
    · cases h
  subst hr
  obtain ⟨n, h⟩ := run_quiet (B := SpecB) (clk := clk) (alone_faultAt 0) (i := 1)
    (fun j hj => by simp [faultAt]; omega) (WorkQueue.enqueue E name job) w
  refine ⟨n, ?_⟩
  unfold WorkQueue.runWithConfig
  simp only [bind_eq, run_bind, e, contRun_ok]
  rw [show fw (faultAt 0) w (0 + 1) = ⟨(w.s, 1), w.t, w.log⟩ from rfl, h, WorkQueue.run_enqueue]
  rfl

/-- `re_enqueue` whose last call fails: everything but the entry in the queued list. -/
def unpushed (E : Env D) (name : Str) (clk : Nat → Time) (j : Job D) (w : W) : W :=
  put E (j.asQueued (clk w.t / nsPerMs)) (tick (setL name j.context.jobStatus ((lst name w j.context.jobStatus).filter (· ≠ j.id)) w))

theorem reEnqueue_unpushed (hA : Alone script) {i : Nat} (h0 : (script i).fault = .none) (h1 : (script (i + 1)).fault = .none)
    (h2 : (script (i + 2)).fault = .before) (j : Job D) (w : W) :
    (WorkQueue.reEnqueue E name j).run (Faulty SpecB script) clk (fw script w i) = (.ok (), fw script (unpushed E name clk j w) (i + 3)) := by
  unfold WorkQueue.reEnqueue
  simp only [bind_eq, run_bind]
  have e := Exact.run (p := orFail (queueRemove (formatQueueName name j.context.jobStatus) j.id)) (exact_callQ _) hA (i := i)
    (fun k h3 h4 => by rw [show k = i by omega]; exact h0) (run_remove? name clk j.context.jobStatus j.id w)
  rw [e]
  simp only [contRun_ok, run_bind]
  rw [Exact.run (exact_jEnqueue j) hA (fun k h3 h4 => by rw [show k = i + 1 by omega]; exact h1) (run_jEnqueue E clk j _)]
  simp only [contRun_ok, run_bind]
  unfold queuePush
  rw [run_failed hA h2]
  rfl

/-- `retry_job` whose last call fails. -/
theorem retry_unpushed {k : Str} {j : Job D} {w : W} (hv : view E w k = some j) (hd : j.isDone = true) :
    (WorkQueue.retryJob E name k).run (Faulty SpecB (faultAt 3)) clk (fw (faultAt 3) w 0) =
      (.ok true, fw (faultAt 3) (unpushed E name clk j w) 4) := by
  unfold WorkQueue.retryJob
  simp only [bind_eq, run_bind]
  rw [Exact.run (exact_get k) (alone_faultAt 3) (fun k h3 h4 => by rw [show k = 0 by omega]; rfl) (run_getFromStorage E clk k w), hv]
  simp only [contRun_ok, hd, if_true, run_bind]
  rw [reEnqueue_unpushed (alone_faultAt 3) rfl rfl rfl]
  rfl

/-- The end of a run, when the writes are known. -/
theorem taskFinish_with {x : Executable D O} {orig job : Job D} {w w1 w' : W} {p : Plan D} {n : Nat}
    (hp : (WorkQueue.plan E x job).run SpecB clk w = (.ok p, w1))
    (ha : (WorkQueue.act E name p).run (Faulty SpecB script) clk (fw script w1 0) = (.ok (), fw script w' n)) :
    (WorkQueue.taskFinish E name x orig job).run (Faulty SpecB script) clk (fw script w 0) = (.ok (), fw script w' n) := by
  unfold WorkQueue.taskFinish
  rw [WorkQueue.executeFinish_eq]
  simp only [bind_eq, run_bind, run_catchErr]
  rw [run_silent (WorkQueue.sat_plan x job), hp]
  simp only [contRun_ok]
  rw [ha]
  rfl

/-- `mark_job_is_finished` whose first call fails: the id stays in the running list. -/
theorem markFinished_kept (j : Job D) (w : W) :
    (WorkQueue.markJobIsFinished E name j).run (Faulty SpecB (faultAt 0)) clk (fw (faultAt 0) w 0) =
      (.ok (), fw (faultAt 0) (setL name .finished (j.id :: lst name w .finished) (put E (j.asFinished (clk w.t / nsPerMs)) (tick w))) 3) := by
  unfold WorkQueue.markJobIsFinished WorkQueue.removeProcessingJob
  simp only [bind_eq, run_bind]
  unfold queueRemove
  rw [run_failed (alone_faultAt 0) rfl]
  simp only [contRun_ok]
  rw [show (pure () : Prog Unit) = .ret () from rfl]
  simp only [Prog.run, contRun_ok, run_bind]
  rw [Exact.run (exact_jFinish j) (alone_faultAt 0) (fun k h3 h4 => by rw [show k = 1 by omega]; rfl) (run_jFinish E clk j _)]
  simp only [contRun_ok, run_bind]
  have e := Exact.run (p := queuePush (formatQueueName name .finished) (j.asFinished (clk w.t / nsPerMs)).id) (exact_call _)
    (alone_faultAt 0) (i := 2) (fun k h3 h4 => by rw [show k = 2 by omega]; rfl)
    (run_queuePush name clk .finished j.id (put E (j.asFinished (clk w.t / nsPerMs)) (tick w)))
  rw [e]
  rfl

/-- The world after the last turn of a task without faults. -/
theorem run_taskFinish_w (x : Executable D O) (orig job : Job D) (w : W) :
    ((WorkQueue.taskFinish E name x orig job).run SpecB clk w).2 = ((WorkQueue.executeFinish E name x job).run SpecB clk w).2 := by
  have h := fin_cases (E := E) (name := name) (clk := clk) x job w
  unfold WorkQueue.taskFinish
  simp only [Prog.bind_eq, Prog.run_bind, Prog.run_catchErr]
  generalize (WorkQueue.executeFinish E name x job).run SpecB clk w = p at h ⊢
  rcases p with ⟨(r | e | _ | _), w3⟩
  · rfl
  · cases h
  · rfl
  · cases h

/-- A run whose end changes the status of its job was planned. -/
theorem plan_of_changed {x : Executable D O} {orig job : Job D} {w : W} (hj : view E w job.id ≠
      view E ((WorkQueue.taskFinish E name x orig job).run SpecB clk w).2 job.id) :
    ∃ p w1, (WorkQueue.plan E x job).run SpecB clk w = (.ok p, w1) ∧ w1.s = w.s ∧ Plan.Of job p ∧
      ((WorkQueue.taskFinish E name x orig job).run SpecB clk w).2 = ((WorkQueue.act E name p).run SpecB clk w1).2 := by
  have hsat := WorkQueue.sat_plan (E := E) x job
  rw [run_taskFinish_w, WorkQueue.executeFinish_eq, run_bind] at hj ⊢
  have hlast := Crash.last (B := SpecB) (clk := clk) (WorkQueue.plan E x job) w
  cases hp : (WorkQueue.plan E x job).run SpecB clk w with
  | mk r w1 =>
    rw [hp] at hlast hj
    have hs : w1.s = w.s := hsat.quiet hlast
    have hv := view_of_s (E := E) hs
    cases r with
    | err e => exact absurd (congrFun hv _).symm hj
    | panicked => exact absurd (congrFun hv _).symm hj
    | diverged => exact absurd (congrFun hv _).symm hj
    | ok p => exact ⟨p, w1, rfl, hs, hsat.run hp, rfl⟩

end
end AJ
