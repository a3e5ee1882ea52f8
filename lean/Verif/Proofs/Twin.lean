import Verif.Spec.Duo
import Verif.Proofs.Life

/-! # Two processes that take turns

As long as both live, they behave like one process that has the tasks of both. -/

namespace AJ

variable {D O : Type} {E : Env D} {name : Str} {clk : Nat → Time}

private theorem perm_idx {α : Type} {l m r : List α} (h : m.Perm (l ++ r)) {i : Nat} {u : α} (hu : l[i]? = some u) :
    ∃ i', m[i']? = some u ∧ (m.eraseIdx i').Perm (l.eraseIdx i ++ r) ∧ ∀ u', (m.set i' u').Perm (l.set i u' ++ r) := by
  have hm : u ∈ m := h.mem_iff.mpr (List.mem_append_left _ (List.mem_of_getElem? hu))
  obtain ⟨i', hi'⟩ := List.getElem?_of_mem hm
  obtain ⟨a, b, h1, h2, h3⟩ := split_at hu
  obtain ⟨c, d, h4, h5, h6⟩ := split_at hi'
  have key : (c ++ d).Perm (a ++ b ++ r) := by
    have h7 : (u :: (c ++ d)).Perm (u :: (a ++ b ++ r)) := by
      refine List.perm_middle.symm.trans ?_
      rw [← h4]
      refine h.trans ?_
      rw [h1, List.append_assoc, List.cons_append, List.append_assoc]
      exact List.perm_middle
    exact h7.cons_inv
  refine ⟨i', hi', by rw [h6, h3]; exact key, fun u' => ?_⟩
  rw [h5, h2]
  refine List.perm_middle.trans ((key.cons u').trans ?_)
  rw [List.append_assoc, List.append_assoc, List.cons_append]
  exact List.perm_middle.symm

section
variable {b : Impl} {k : Str}

/-- One turn of a process with tasks `s.tasks` is one turn of a process that has further tasks. -/
theorem merge_sys {s m : Sys D b.B} {rest : List (Task D)} (hw : m.w = s.w) (hc : m.cfg = s.cfg) (hs : s.alive = true) (hm : m.alive = true)
    (ht : m.tasks.Perm (s.tasks ++ rest)) (op : Op D O) (hP : CarefulFor E k (b.snap E name s) op)
    (ha : (Sys.step E name b.B clk s op).1.alive = true) :
    ∃ op' : Op D O, CarefulFor E k (b.snap E name m) op' ∧
      (Sys.step E name b.B clk m op').1.w = (Sys.step E name b.B clk s op).1.w ∧
      (Sys.step E name b.B clk m op').1.alive = true ∧
      (Sys.step E name b.B clk m op').1.tasks.Perm ((Sys.step E name b.B clk s op).1.tasks ++ rest) := by
  obtain ⟨w, cfg, tasks, alive⟩ := s
  obtain ⟨w', cfg', tasks', alive'⟩ := m
  simp only at hw hc hs hm ht
  subst hw hc hs hm
  have hhandle : ∀ {α : Type} (p : Prog α) (f : Except Error α → Resp D) (dead : Resp D),
      (Sys.handle b.B clk (⟨w', cfg', tasks, true⟩ : Sys D b.B) p dead f).1.alive = true →
      (Sys.handle b.B clk (⟨w', cfg', tasks', true⟩ : Sys D b.B) p dead f).1.w = (Sys.handle b.B clk (⟨w', cfg', tasks, true⟩ : Sys D b.B) p dead f).1.w ∧
      (Sys.handle b.B clk (⟨w', cfg', tasks', true⟩ : Sys D b.B) p dead f).1.alive = true ∧
      (Sys.handle b.B clk (⟨w', cfg', tasks', true⟩ : Sys D b.B) p dead f).1.tasks.Perm
        ((Sys.handle b.B clk (⟨w', cfg', tasks, true⟩ : Sys D b.B) p dead f).1.tasks ++ rest) := by
    intro α p f dead h
    unfold Sys.handle at h ⊢
    simp only at h ⊢
    generalize p.run b.B clk w' = q at h ⊢
    obtain ⟨r, w1⟩ := q
    cases r with
    | ok a => exact ⟨rfl, rfl, ht⟩
    | err e => exact ⟨rfl, rfl, ht⟩
    | panicked => cases h
    | diverged => cases h
  cases op with
  | enqueue job cfg => exact ⟨.enqueue job cfg, hP, hhandle _ _ _ ha⟩
  | cancel id => exact ⟨.cancel id, hP, hhandle _ _ _ ha⟩
  | get id => exact ⟨.get id, hP, hhandle (WorkQueue.getJob E id) (fun r => match r with
      | .ok j => .job j
      | .error _ => .job none) (Sys.deadResp (.get id : Op D O)) ha⟩
  | retry id => exact ⟨.retry id, hP, hhandle _ _ _ ha⟩
  | config c => exact ⟨.config c, hP, rfl, rfl, ht⟩
  | tick =>
    refine ⟨.tick, hP, ?_⟩
    simp only [Sys.step, if_true] at ha ⊢
    generalize (WorkQueue.pickJobsToProcess E name (Sys.tickFuel name b.B w'.s) cfg').run b.B clk w' = q at ha ⊢
    obtain ⟨r, w1⟩ := q
    cases r with
    | ok jobs =>
      refine ⟨rfl, rfl, ?_⟩
      show (tasks' ++ _).Perm (tasks ++ _ ++ rest)
      refine (ht.append_right _).trans ?_
      rw [List.append_assoc, List.append_assoc]
      exact List.perm_append_comm.append_left _
    | err e => exact ⟨rfl, rfl, ht⟩
    | panicked => cases ha
    | diverged => cases ha
  | start i =>
    cases hu : tasks[i]? with
    | none =>
      refine ⟨.start tasks'.length, trivial, ?_⟩
      simp only [Sys.step, if_true, hu, List.getElem?_length] at ha ⊢
      exact ⟨trivial, trivial, ht⟩
    | some u =>
      obtain ⟨i', h1, h2, h3⟩ := perm_idx ht hu
      refine ⟨.start i', trivial, ?_⟩
      obtain ⟨orig, ex⟩ := u
      simp only [Sys.step, if_true, hu, h1] at ha ⊢
      cases ex with
      | some j => exact ⟨rfl, rfl, ht⟩
      | none =>
        simp only at ha ⊢
        generalize (WorkQueue.executeStart name orig).run b.B clk w' = q at ha ⊢
        obtain ⟨r, w1⟩ := q
        rcases r with (_ | j) | _ | _ | _
        · exact ⟨rfl, rfl, h2⟩
        · exact ⟨rfl, rfl, h3 _⟩
        · cases ha
        · cases ha
        · cases ha
  | finish i x =>
    cases hu : tasks[i]? with
    | none =>
      refine ⟨.finish tasks'.length x, fun orig job h => ?_, ?_⟩
      · have h : tasks'[tasks'.length]? = some _ := h
        simp at h
      simp only [Sys.step, if_true, hu, List.getElem?_length] at ha ⊢
      exact ⟨trivial, trivial, ht⟩
    | some u =>
      obtain ⟨i', h1, h2, h3⟩ := perm_idx ht hu
      refine ⟨.finish i' x, fun orig job h hid => ?_, ?_⟩
      · have h : tasks'[i']? = some _ := h
        rw [h1] at h
        exact hP orig job (hu.trans h) hid
      obtain ⟨orig, ex⟩ := u
      simp only [Sys.step, if_true, hu, h1] at ha ⊢
      cases ex with
      | none => exact ⟨rfl, rfl, ht⟩
      | some job =>
        simp only at ha ⊢
        generalize (WorkQueue.taskFinish E name x orig job).run b.B clk w' = q at ha ⊢
        obtain ⟨r, w1⟩ := q
        rcases r with a | _ | _ | _
        · exact ⟨rfl, rfl, h2⟩
        · cases ha
        · cases ha
        · cases ha
  | userPanic i =>
    cases hu : tasks[i]? with
    | none =>
      refine ⟨.userPanic tasks'.length, trivial, ?_⟩
      simp only [Sys.step, if_true, hu, List.getElem?_length] at ha ⊢
      exact ⟨trivial, trivial, ht⟩
    | some u =>
      obtain ⟨orig, ex⟩ := u
      simp only [Sys.step, if_true, hu] at ha ⊢
      cases ex with
      | some j => cases ha
      | none => exact ⟨.config cfg', trivial, rfl, rfl, ht⟩

private theorem dead_stays {s : Sys D b.B} (h : s.alive = false) (op : Op D O) : (Sys.step E name b.B clk s op).1.alive = false := by
  unfold Sys.step
  rw [if_neg (by rw [h]; decide)]
  exact h

/-- As long as both processes live, one process with the tasks of both reaches the same state. -/
theorem twin_merge {t : Twin D b.B} (h : TwinReach (O := O) b E name clk (CarefulFor E k) t) (ha : ∀ who, (t.proc who).alive = true) :
    ∃ m : Sys D b.B, Reach (O := O) b E name clk (CarefulFor E k) m ∧ m.w = t.w ∧ m.alive = true ∧
      m.tasks.Perm ((t.proc true).tasks ++ (t.proc false).tasks) := by
  induction h with
  | start => exact ⟨_, .start, rfl, rfl, .refl _⟩
  | @step t who op _ hp ih =>
    have hstep : (Sys.step E name b.B clk (t.side who) op).1.alive = true := by
      have := ha who
      unfold Twin.step at this
      simpa using this
    have hb : ∀ c, (t.proc c).alive = true := by
      intro c
      by_cases e : c = who
      · subst e
        by_contra hc
        rw [Bool.not_eq_true] at hc
        rw [dead_stays (s := t.side c) hc] at hstep
        cases hstep
      · have := ha c
        unfold Twin.step at this
        simp only [upd_ne _ _ e] at this
        exact this
    obtain ⟨m, h1, h2, h3, h4⟩ := ih hb
    have hperm : m.tasks.Perm ((t.side who).tasks ++ (t.proc (!who)).tasks) := by
      cases who with
      | true => exact h4
      | false => exact h4.trans List.perm_append_comm
    have r1 : Reach (O := O) b E name clk (CarefulFor E k) (Sys.step E name b.B clk m (.config (t.proc who).cfg : Op D O)).1 :=
      .step _ h1 trivial
    have em : (Sys.step E name b.B clk m (.config (t.proc who).cfg : Op D O)).1 = { m with cfg := (t.proc who).cfg } := by
      unfold Sys.step
      rw [if_pos h3]
    rw [em] at r1
    obtain ⟨op', p1, p2, p3, p4⟩ := merge_sys (E := E) (name := name) (clk := clk) (k := k) (s := t.side who)
      (m := { m with cfg := (t.proc who).cfg }) (rest := (t.proc (!who)).tasks) h2 rfl (hb who) h3 hperm op hp hstep
    refine ⟨_, .step op' r1 p1, p2, p3, p4.trans ?_⟩
    unfold Twin.step
    cases who with
    | true => simp [upd]
    | false => simpa [upd] using List.perm_append_comm

end
end AJ
