import Verif.Spec.CrewCrash
import Verif.Proofs.Crew
import Verif.Proofs.CrashEnd
import Verif.Proofs.RunEnd

/-! # Crashes inside turns of any number of processes -/

namespace AJ
open W Prog

variable {D O : Type} {E : Env D} {name : Str} {clk : Nat → Time} {b : Impl} {k : Str}

/-- Job `k`, as a process sees it while the others have `r` executions of it in flight: there is at most one entry in
the queued list or execution; executions are Running; a done job has no entry; executions are in the running list. -/
structure Once (k : Str) (r : Nat) (v : Snap D) : Prop where
  sum : (v.lists .queued).count k + (v.own k).length + r ≤ 1
  flight : v.status k ≠ some .running → (v.own k).length + r = 0
  done : ∀ st : JobStatus, v.status k = some st → st.Done → (v.lists .queued).count k = 0
  run : (v.own k).length + r ≤ (v.lists .running).count k

theorem Once.less {r : Nat} {v v' : Snap D} (h : Once k r v) (hj : v'.job k = v.job k)
    (hq : (v'.lists .queued).count k = (v.lists .queued).count k) (hr : (v'.lists .running).count k = (v.lists .running).count k)
    (ho : (v'.own k).length ≤ (v.own k).length) : Once k r v' := by
  have hs : v'.status k = v.status k := by unfold Snap.status; rw [hj]
  obtain ⟨h1, h2, h3, h4⟩ := h
  refine ⟨by omega, fun h => ?_, fun st h hd => ?_, by omega⟩
  · rw [hs] at h; have := h2 h; omega
  · rw [hs] at h; rw [hq]; exact h3 st h hd

/-- Nothing is in flight any more. -/
theorem Once.idle {v : Snap D} (ho : v.own k = []) (hq : (v.lists .queued).count k ≤ 1)
    (hd : ∀ st : JobStatus, v.status k = some st → st.Done → (v.lists .queued).count k = 0) : Once k 0 v := by
  refine ⟨by rw [ho]; simpa using hq, fun _ => by rw [ho]; rfl, hd, by rw [ho]; exact Nat.zero_le _⟩

theorem own_pos {v : Snap D} {i : Nat} {t : Task D} (hi : v.tasks[i]? = some t) (e : t.orig.id = k) : 1 ≤ (v.own k).length :=
  List.length_pos_of_mem (List.mem_filter.mpr ⟨List.mem_of_getElem? hi, by simpa using e⟩)

/-- The execution of `k` ends: nothing is in flight any more, and there is at most one entry. -/
theorem Once.ended {r : Nat} {v v' : Snap D} (h : Once k r v) {i : Nat} {t : Task D} (hi : v.tasks[i]? = some t) (hk : t.orig.id = k)
    (ht : v'.tasks = v.tasks.eraseIdx i ∨ v'.tasks = [])
    (hq : (v'.lists .queued).count k = (v.lists .queued).count k ∨
      (v'.lists .queued).count k = (v.lists .queued).count k + 1 ∧ ∀ st : JobStatus, v'.status k = some st → ¬ st.Done) : Once k r v' := by
  have h1 := own_pos hi hk
  have h2 := h.sum
  have h3 : r = 0 := by omega
  have h4 : (v.lists .queued).count k = 0 := by omega
  have h5 : (v.own k).length = 1 := by omega
  have h6 : v'.own k = [] := by
    unfold Snap.own
    rcases ht with ht | ht
    · obtain ⟨u, hu⟩ := List.length_eq_one_iff.mp h5
      rw [ht]
      exact (own_single hi hk hu).2.1
    · rw [ht]; rfl
  subst h3
  refine Once.idle h6 ?_ fun st hst hd => ?_
  · omega
  · rcases hq with e | ⟨_, e⟩
    · omega
    · exact absurd hd (e st hst)

theorem Once.runEnds {r : Nat} {v v' : Snap D} (h : Once k r v) {i : Nat} {orig job j' : Job D}
    (hi : v.tasks[i]? = some ⟨orig, some job⟩) (hk : orig.id = k) (hk' : job.id = k) (he : v.RunEnds v' i job j') : Once k r v' := by
  refine h.ended hi hk (.inl he.tasks) ?_
  by_cases e : j'.context.jobStatus = .queued
  · right
    have ht := he.target
    rw [e, hk'] at ht
    refine ⟨by rw [ht, List.count_cons_self], fun st hst hd => ?_⟩
    have hs := he.stored
    rw [hk'] at hs
    unfold Snap.status at hst
    rw [hs] at hst
    have hst : j'.context.jobStatus = st := Option.some.inj hst
    rw [← hst, e] at hd
    exact absurd hd (by decide)
  · left
    rw [he.lists .queued (by decide) (Ne.symm e)]

theorem Once.runLost {r : Nat} {v v' : Snap D} (h : Once k r v) {i : Nat} {orig job : Job D} {st : JobStatus}
    (hi : v.tasks[i]? = some ⟨orig, some job⟩) (hk : orig.id = k) (hk' : job.id = k) (he : v.RunLost v' i job st) : Once k r v' := by
  refine h.ended hi hk (.inl he.tasks) ?_
  have hs := he.stored
  rw [hk'] at hs
  by_cases e : st = .queued
  · right
    have ht := he.target
    rw [e, hk'] at ht
    refine ⟨by rw [ht, List.count_cons_self], fun st hst hd => ?_⟩
    unfold Snap.status at hst
    rw [hs] at hst
    cases hst
  · left
    rw [he.lists .queued (by decide) (Ne.symm e)]

section
variable {s : Sys D SpecB}

theorem status_view {w : W} {x : Sys D SpecB} (hx : x.w = w) : (Sys.obs E name x).status k = (view E w k).map (·.context.jobStatus) := by
  subst hx; rfl

theorem status_obs {w : W} {x : Sys D SpecB} {j : Job D} (hx : x.w = w) (h : view E w k = some j) :
    (Sys.obs E name x).status k = some j.context.jobStatus := by
  rw [status_view hx, h]; rfl

theorem encdec_status (L : E.Lawful) (j : Job D) :
    (E.encdec j).map (·.context.jobStatus) = none ∨ (E.encdec j).map (·.context.jobStatus) = some j.context.jobStatus := by
  cases h : E.encdec j with
  | none => exact .inl rfl
  | some j' => right; rw [encdec_some L h]; rfl

private theorem queued_not_done : ¬ JobStatus.queued.Done := by decide
private theorem running_not_done : ¬ JobStatus.running.Done := by decide

/-- The state after the writes of a submission in `w`, where nothing is in flight and there is no entry. -/
theorem Once.enq (L : E.Lawful) {r : Nat} {j : Job D} {w : W} {s' : Sys D SpecB} (hid : j.id = k)
    (hq : (lst name w .queued).count k = 0) (ho : ((Sys.obs E name s').own k).length + r = 0)
    (hw : s'.w = W.enq E name clk j w) : Once k r (Sys.obs E name s') := by
  refine ⟨?_, fun _ => ho, fun st hst hd => ?_, by rw [ho]; exact Nat.zero_le _⟩
  · have : ((Sys.obs E name s').lists .queued).count k = 1 := by
      show (lst name s'.w .queued).count k = 1
      rw [hw]; unfold W.enq; simp [hid, hq]
    omega
  · rw [status_view hw] at hst
    unfold W.enq at hst
    rw [view_put, Job.id_asQueued, hid, upd_same] at hst
    rcases encdec_status (E := E) L (j.asQueued (clk w.t / nsPerMs)) with e | e <;> rw [e] at hst <;> cases hst
    exact absurd hd queued_not_done

theorem Once.submit (L : E.Lawful) {r : Nat} (h : Once k r (Sys.obs E name s)) {j : Job D} {c : EnqueueConfig} (hid : j.id = k)
    (ho : Orderly k (Sys.obs E name s) (.enqueue j c : Op D O)) : Once k r (Sys.obs E name { s with w := W.submit E name clk j c s.w }) := by
  obtain ⟨o1, o2⟩ := ho j c rfl hid
  unfold W.submit
  rw [hid]
  cases hv : view E s.w k with
  | none =>
    have hst : (Sys.obs E name s).status k ≠ some .running := by rw [status_view rfl, hv]; simp
    exact Once.enq (w := s.w) L hid (List.count_eq_zero.mpr (o1 hv)) (h.flight hst) rfl
  | some ex =>
    have hst := status_obs (name := name) (x := s) rfl hv
    simp only
    by_cases hd : (c.reRun && ex.isDone) = true
    · rw [if_pos hd]
      rw [Bool.and_eq_true] at hd
      have hd2 := Job.done_iff.mp hd.2
      have hnr : (Sys.obs E name s).status k ≠ some .running := by
        rw [hst]; intro e; have e := Option.some.inj e; rw [e] at hd2; exact running_not_done hd2
      refine Once.enq L hid ?_ (h.flight hnr) rfl
      have : (lst name s.w .queued).count k = 0 := h.done _ hst hd2
      rw [← this]
      split <;> rfl
    · rw [if_neg hd]
      split
      · next hov =>
        simp only [Bool.and_eq_true, Bool.not_eq_true'] at hov
        have hs := o2 ex hv hov.1 hov.2 (by simpa using hd)
        have hnr : (Sys.obs E name s).status k ≠ some .running := by
          rw [hst]; intro e; have e := Option.some.inj e
          have := hov.2; simp [Job.isRunning, e] at this
        refine ⟨h.sum, fun _ => h.flight hnr, fun st hst' hd' => ?_, h.run⟩
        refine h.done st ?_ hd'
        rw [hst, ← hs]
        rw [status_view (w := upsert E k j s.w) rfl, view_upsert, upd_same] at hst'
        rcases encdec_status (E := E) L j with e | e <;> rw [e] at hst'
        · cases hst'
        · exact hst'
      · exact h

theorem Once.retry (L : E.Lawful) {r : Nat} (h : Once k r (Sys.obs E name s)) (hk : Keyed E s.w) :
    Once k r (Sys.obs E name { s with w := W.retry E name clk k s.w }) := by
  unfold W.retry
  cases hv : view E s.w k with
  | none => exact h
  | some j =>
    have hid := hk k j hv
    have hst := status_obs (name := name) (x := s) rfl hv
    simp only
    split
    · next hd =>
      have hd2 := Job.done_iff.mp hd
      have hne : j.context.jobStatus ≠ .queued := by rintro e; rw [e] at hd2; exact queued_not_done hd2
      have hnr : (Sys.obs E name s).status k ≠ some .running := by
        rw [hst]; intro e; have e := Option.some.inj e; rw [e] at hd2; exact running_not_done hd2
      have hf := h.flight hnr
      refine ⟨?_, fun _ => hf, fun st hst' hd' => ?_, Nat.le_trans (Nat.le_of_eq hf) (Nat.zero_le _)⟩
      · have h0 : (lst name s.w .queued).count k = 0 := h.done _ hst hd2
        have : (lst name (reEnq E name clk j s.w) .queued).count k = 1 := by
          unfold reEnq; simp [lst_setL_ne (Ne.symm hne), hid, h0]
        show (lst name (reEnq E name clk j s.w) .queued).count k + _ + r ≤ 1
        rw [this]
        have hf : ((Sys.obs E name s).own k).length + r = 0 := hf
        show 1 + ((Sys.obs E name s).own k).length + r ≤ 1
        omega
      · rw [status_view (w := reEnq E name clk j s.w) rfl] at hst'
        unfold reEnq at hst'
        simp only [view_setL, view_put, Job.id_asQueued, hid, upd_same] at hst'
        rcases encdec_status (E := E) L (j.asQueued (clk s.w.t / nsPerMs)) with e | e <;> rw [e] at hst' <;> cases hst'
        exact absurd hd' queued_not_done
    · exact h

theorem Once.cancel {r : Nat} (h : Once k r (Sys.obs E name s)) (hk : Keyed E s.w) :
    Once k r (Sys.obs E name { s with w := W.cancel E name clk k s.w }) := by
  unfold W.cancel
  cases hv : view E s.w k with
  | none => exact h
  | some j =>
    have hid := hk k j hv
    have hst := status_obs (name := name) (x := s) rfl hv
    simp only
    split
    · next hd =>
      have hd2 := Job.isQueued_iff.mp hd
      have hf := h.flight (by rw [hst, hd2]; simp)
      have h0 : (lst name (canc E name clk k j s.w) .queued).count k = 0 := by
        unfold canc; rw [lst_setL_same]; exact count_filter_ne _ _
      refine ⟨?_, fun _ => hf, fun st hst' hd' => h0, Nat.le_trans (Nat.le_of_eq hf) (Nat.zero_le _)⟩
      show (lst name (canc E name clk k j s.w) .queued).count k + _ + r ≤ 1
      rw [h0]
      have hf : ((Sys.obs E name s).own k).length + r = 0 := hf
      show 0 + ((Sys.obs E name s).own k).length + r ≤ 1
      omega
    · exact h

/-- A turn with orderly submissions of `k`. -/
theorem Once.step (L : E.Lawful) (hT : Tidy E s) (hR : ∀ t ∈ s.tasks, t.orig.context.jobStatus = .running) {r : Nat}
    (h : Once k r (Sys.obs E name s)) (op : Op D O) (ho : Orderly k (Sys.obs E name s) op) :
    Once k r (Sys.obs E name (Sys.step E name SpecB clk s op).1) := by
  by_cases ha : s.alive = true
  swap
  · rw [Sys.step_dead s (by simpa using ha)]; exact h
  have hs := Sys.step_cases (E := E) (name := name) (clk := clk) s ha op
  have hother : ∀ (s' : Sys D SpecB) (k' : Str), k ≠ k' → Touch E name k' s.w s'.w →
      (Sys.obs E name s').own k = (Sys.obs E name s).own k → Once k r (Sys.obs E name s') :=
    fun s' k' hk ht ho => h.less (ht.view k hk) (ht.count k hk .queued) (ht.count k hk .running) (Nat.le_of_eq (by rw [ho]))
  have hdied : ∀ s' : Sys D SpecB, (Sys.obs E name s').lists = (Sys.obs E name s).lists → (Sys.obs E name s').job = (Sys.obs E name s).job →
      s'.tasks = [] → Once k r (Sys.obs E name s') := by
    intro s' h1 h2 h3
    refine h.less (by rw [h2]) (by rw [h1]) (by rw [h1]) ?_
    have : (Sys.obs E name s').own k = [] := by
      show s'.tasks.filter _ = []
      rw [h3]; rfl
    rw [this]; exact Nat.zero_le _
  by_cases hfin : ∃ i x orig job, op = .finish i x ∧ s.tasks[i]? = some ⟨orig, some job⟩ ∧ orig.id = k
  · obtain ⟨i, x, orig, job, rfl, hi, hk⟩ := hfin
    have hjob : job = orig.counted := hT.exec _ (List.mem_of_getElem? hi) job rfl
    have hrun : job.context.jobStatus = .running := by rw [hjob]; exact hR _ (List.mem_of_getElem? hi)
    have hk' : job.id = k := by rw [hjob]; exact hk
    rcases run_ends (b := Impl.spec) (E := E) (name := name) (clk := clk) L s ⟨_, rfl⟩ ha (x := x) hi hrun with ⟨hd, _⟩ | ⟨_, j', he, _⟩ | ⟨_, st, he, _⟩
    · exact hdied _ hd.lists hd.jobs hd.tasks
    · exact h.runEnds hi hk hk' he
    · exact h.runLost hi hk hk' he
  generalize Sys.step E name SpecB clk s op = p at hs
  cases hs with
  | enqueue j c =>
    by_cases e : j.id = k
    · exact h.submit L e ho
    · exact hother _ j.id (fun e' => e e'.symm) (Touch.submit j c s.w) rfl
  | cancel k' =>
    by_cases e : k' = k
    · subst e; exact h.cancel hT.keyed
    · exact hother _ k' (fun e' => e e'.symm) (Touch.cancel hT.keyed k') rfl
  | get k' => exact h
  | retry k' =>
    by_cases e : k' = k
    · subst e; exact h.retry L hT.keyed
    · exact hother _ k' (fun e' => e e'.symm) (Touch.retry hT.keyed k') rfl
  | config c => exact ⟨h.sum, h.flight, h.done, h.run⟩
  | tick n hk hk20 =>
    have hp := (Scan.init (E := E) (name := name) (clk := clk) (free name s.cfg s.w) s.w).turns L hT.keyed n
    generalize turns E name clk (free name s.cfg s.w) n (s.w, []) = p at hp
    rcases p with ⟨w, rd⟩
    have hcq : (lst name w .queued).count k + (rd.map Job.id).count k = (lst name s.w .queued).count k := by
      rw [← List.count_append]; exact hp.queued.count_eq k
    have hcr : (lst name w .running).count k = (rd.map Job.id).count k + (lst name s.w .running).count k := by
      rw [show lst name w .running = _ from hp.running, List.count_append, List.count_reverse]
    have hown : ((Sys.obs E name { s with w := w, tasks := s.tasks ++ rd.map fun j => (⟨j, none⟩ : Task D) }).own k).length =
        ((Sys.obs E name s).own k).length + (rd.map Job.id).count k := by
      show ((s.tasks ++ rd.map fun j => (⟨j, none⟩ : Task D)).filter fun t => decide (t.orig.id = k)).length =
        (s.tasks.filter fun t => decide (t.orig.id = k)).length + _
      rw [List.filter_append, List.length_append, List.filter_map, List.length_map, List.count, List.countP_map,
        List.countP_eq_length_filter]
      congr 2
      exact List.filter_congr fun j _ => by by_cases e : j.id = k <;> simp [e]
    have h1 : (lst name s.w .queued).count k + ((Sys.obs E name s).own k).length + r ≤ 1 := h.sum
    have h4 : ((Sys.obs E name s).own k).length + r ≤ (lst name s.w .running).count k := h.run
    by_cases hm : k ∈ rd.map Job.id
    · obtain ⟨j, hj, e⟩ := List.mem_map.mp hm
      obtain ⟨i, job, _, _, h5, _, h6, h7⟩ := hp.started j hj
      have hst := (Env.Lawful.stored_view (L := L) h5).asRunning (clk (i + 1) / nsPerMs)
      rw [← h6] at hst
      rw [e] at h7
      have h7 : view E w k = some j := h7.trans hst.encdec
      have hs : (Sys.obs E name { s with w := w, tasks := s.tasks ++ rd.map fun j => (⟨j, none⟩ : Task D) }).status k = some .running := by
        rw [status_obs (w := w) rfl h7, h6]; rfl
      refine ⟨?_, fun hn => absurd hs hn, fun st hst hd => ?_, ?_⟩
      · show (lst name w .queued).count k + _ + r ≤ 1
        rw [hown]; omega
      · rw [hs] at hst
        cases hst
        exact absurd hd running_not_done
      · show _ ≤ (lst name w .running).count k
        rw [hown]; omega
    · have h0 : (rd.map Job.id).count k = 0 := List.count_eq_zero.mpr hm
      refine h.less (hp.same k hm) ?_ ?_ (by rw [hown]; omega)
      · show (lst name w .queued).count k = (lst name s.w .queued).count k
        omega
      · show (lst name w .running).count k = (lst name s.w .running).count k
        omega
  | tickPanic => exact hdied _ rfl rfl rfl
  | userPanic => exact hdied _ rfl rfl rfl
  | noStart => exact h
  | noFinish => exact h
  | noUserPanic => exact h
  | started i orig hi hcan =>
    refine h.less rfl rfl rfl (Nat.le_of_eq ?_)
    obtain ⟨a, d, e, h1, _⟩ := split_at hi
    show ((s.tasks.set i ⟨orig, some orig.counted⟩).filter fun t => decide (t.orig.id = k)).length = (s.tasks.filter fun t => decide (t.orig.id = k)).length
    rw [h1, e]
    simp only [List.filter_append, List.filter_cons]
    split <;> simp
  | startCancelled i orig hi hcan =>
    have := hR _ (List.mem_of_getElem? hi)
    simp only at this
    simp [Job.isCancelled, this] at hcan
  | finished i x orig job w hi hf =>
    have hjob : job = orig.counted := hT.exec _ (List.mem_of_getElem? hi) job rfl
    subst hjob
    by_cases e : orig.id = k
    · exact absurd ⟨i, x, orig, _, rfl, hi, e⟩ hfin
    · exact hother _ orig.id (fun e' => e e'.symm) hf.touch (own_erase_other hi e)
  | finishPanic i x orig job w hi hf => exact hdied _ hf.panic_same.1 hf.panic_same.2 rfl

theorem Once.hit {r : Nat} {v v' : Snap D} (h : Once k r v) (ho : v'.own k = []) (hh : Snap.Hit k v v') : Once k r v' := by
  have h1 := h.sum
  have h4 := h.run
  cases hh with
  | spared hj hc => exact h.less hj (hc .queued) (hc .running) (by rw [ho]; exact Nat.zero_le _)
  | half j ms hq hj hj' hc =>
    have hq := List.count_pos_iff.mpr hq
    have hr : r = 0 := by omega
    subst hr
    refine Once.idle ho ?_ fun st hst hd => ?_
    · rw [hc]; omega
    · unfold Snap.status at hst
      rw [hj'] at hst
      have hst : JobStatus.running = st := Option.some.inj hst
      rw [← hst] at hd
      exact absurd hd running_not_done
  | picked j ms hj hj' hq hr hc =>
    have hr : r = 0 := by omega
    subst hr
    refine Once.idle ho ?_ fun st hst hd => ?_
    · omega
    · omega

theorem Once.torn {r : Nat} {v vf v' : Snap D} (h : Once k r v) (hf : Once k r vf) (ho : v'.tasks = []) {i : Nat} {t : Task D}
    (hi : v.tasks[i]? = some t) (hk : t.orig.id = k) (ht : Snap.Torn k v vf v') : Once k r v' := by
  have own : v'.own k = [] := by unfold Snap.own; rw [ho]; rfl
  cases ht with
  | nothing hl hj => exact h.ended hi hk (.inr ho) (.inl (by rw [hl]))
  | removed hl hj => exact h.ended hi hk (.inr ho) (.inl (by rw [hl, if_neg (by decide)]))
  | unpushed hl hj => exact h.ended hi hk (.inr ho) (.inl (by rw [hl, if_neg (by decide)]))
  | stored hl hj hf => exact h.ended hi hk (.inr ho) (.inl (by rw [hl]))
  | all hl hj => exact hf.less (by rw [hj]) (by rw [hl]) (by rw [hl]) (by rw [own]; exact Nat.zero_le _)

/-- Crash points of `retry_job`. -/
theorem crash_retry {w w' : W} (hK : Keyed E w) (h : (WorkQueue.retryJob E name k).Crash SpecB clk w w') :
    w' = w ∨ ∃ j, view E w k = some j ∧ j.context.jobStatus.Done ∧
      (view E w' k = view E w k ∨ ∃ ms, view E w' k = E.encdec (j.asQueued ms)) ∧
      (lst name w' .queued = lst name w .queued ∨ lst name w' .queued = k :: lst name w .queued ∧ ∃ ms, view E w' k = E.encdec (j.asQueued ms)) := by
  by_cases hw : w' = w
  · exact .inl hw
  right
  rcases crash_after_get h with h | h
  · exact absurd h hw
  cases hv : view E w k with
  | none => rw [hv] at h; exact absurd h hw
  | some j =>
    rw [hv] at h
    simp only at h
    have hid := hK k j hv
    cases hd : j.isDone with
    | false =>
      simp only [hd, Bool.false_eq_true, if_false] at h
      exact absurd h hw
    | true =>
      have hd2 := Job.done_iff.mp hd
      have hne : JobStatus.queued ≠ j.context.jobStatus := by rintro e; rw [← e] at hd2; exact queued_not_done hd2
      simp only [hd, if_true] at h
      refine ⟨j, rfl, hd2, ?_⟩
      have hdrop : lst name (setL name j.context.jobStatus ((lst name w j.context.jobStatus).filter (· ≠ j.id)) w) .queued = lst name w .queued :=
        lst_setL_ne hne _ _
      have key : ∀ w', (WorkQueue.reEnqueue E name j).Crash SpecB clk w w' →
          (view E w' k = some j ∨ ∃ ms, view E w' k = E.encdec (j.asQueued ms)) ∧
          (lst name w' .queued = lst name w .queued ∨ lst name w' .queued = k :: lst name w .queued ∧ ∃ ms, view E w' k = E.encdec (j.asQueued ms)) := by
        intro w' h
        rcases Crash.bind h with h | ⟨a, w1, h1, h⟩
        · rcases Crash.callQ h with rfl | rfl
          · exact ⟨.inl hv, .inl rfl⟩
          · exact ⟨.inl hv, .inl hdrop⟩
        rw [run_remove?] at h1
        cases h1
        rcases Crash.bind h with h | ⟨a, w1, h1, h⟩
        · rcases crash_jEnqueue h with rfl | rfl | rfl | rfl
          · exact ⟨.inl hv, .inl hdrop⟩
          · exact ⟨.inl hv, .inl hdrop⟩
          · refine ⟨.inr ⟨clk w.t / nsPerMs, ?_⟩, .inl hdrop⟩
            rw [view_upsert, hid, upd_same]; rfl
          · refine ⟨.inr ⟨clk w.t / nsPerMs, ?_⟩, .inl hdrop⟩
            rw [view_put, Job.id_asQueued, hid, upd_same]; rfl
        rw [run_jEnqueue] at h1
        cases h1
        rcases crash_call_ h with rfl | h
        · refine ⟨.inr ⟨clk w.t / nsPerMs, ?_⟩, .inl hdrop⟩
          rw [view_put, Job.id_asQueued, hid, upd_same]; rfl
        · have h : w' = _ := h
          have e : w' = reEnq E name clk j w := h
          have hvw : view E w' k = E.encdec (j.asQueued (clk w.t / nsPerMs)) := by
            rw [e]; unfold reEnq
            simp only [view_setL, view_put, Job.id_asQueued, hid, upd_same]
          refine ⟨.inr ⟨_, hvw⟩, .inr ⟨?_, _, hvw⟩⟩
          rw [e]; unfold reEnq; simp [lst_setL_ne hne, hid]
      rcases Crash.bind h with h | ⟨a, w1, h1, h⟩
      · exact key w' h
      · have := Crash.last (B := SpecB) (clk := clk) (WorkQueue.reEnqueue E name j) w
        rw [h1] at this
        cases h
        exact key _ this

/-- A turn with orderly submissions of `k` that is cut short. -/
theorem Once.crash (L : E.Lawful) (hT : Tidy E s) (hR : ∀ t ∈ s.tasks, t.orig.context.jobStatus = .running) {r : Nat}
    (h : Once k r (Sys.obs E name s)) {op : Op D O} (ho : Orderly k (Sys.obs E name s) op) (hm : MayBeCut k (Sys.obs E name s) op)
    {w : W} (hc : Sys.CrashIn E name SpecB clk s op w) :
    Once k r (Sys.obs E name (Sys.restart w : Sys D SpecB)) := by
  have hnow : ∀ {w : W}, lst name w = lst name s.w → view E w = view E s.w → Once k r (Sys.obs E name (Sys.restart w : Sys D SpecB)) := by
    intro w h1 h2
    refine h.less ?_ ?_ ?_ (Nat.zero_le _)
    · show view E w k = view E s.w k
      rw [h2]
    · show (lst name w .queued).count k = (lst name s.w .queued).count k
      rw [h1]
    · show (lst name w .running).count k = (lst name s.w .running).count k
      rw [h1]
  rcases not_about_cases k op with hn | ⟨j, c, rfl, hid⟩ | rfl | rfl
  · by_cases hO : OtherTask k (Sys.obs E name s) op
    · exact h.hit rfl ((crash_spec (k := k) L hT hc).2 hn hO)
    · unfold OtherTask at hO
      push Not at hO
      obtain ⟨i, t, hi, hop, hk⟩ := hO
      rcases hop with rfl | ⟨x, rfl⟩
      · cases hc with
        | between => exact hnow rfl rfl
        | start ha ht h' =>
          rename_i orig
          have hi : s.tasks[i]? = some t := hi
          rw [ht] at hi
          cases hi
          have hrun := hR _ (List.mem_of_getElem? ht)
          have hcan : orig.isCancelled = false := by simp [Job.isCancelled, show orig.context.jobStatus = .running from hrun]
          have hs : w.s = s.w.s := by
            unfold WorkQueue.executeStart at h'
            rw [hcan] at h'
            simp only [Bool.false_eq_true, if_false] at h'
            rcases h' with rfl | rfl | h'
            · rfl
            · rfl
            · have h' : w = _ := h'
              rw [h']
          exact hnow (lst_of_s hs) (view_of_s hs)
      · cases hc with
        | between => exact hnow rfl rfl
        | finish ha ht h' =>
          rename_i orig job
          have hi : s.tasks[i]? = some t := hi
          rw [ht] at hi
          cases hi
          have hjob : job = orig.counted := hT.exec _ (List.mem_of_getElem? ht) job rfl
          have hrun : job.context.jobStatus = .running := by rw [hjob]; exact hR _ (List.mem_of_getElem? ht)
          have hk' : job.id = k := by rw [hjob]; exact hk
          have h2 := torn_any (b := Impl.spec) (s := s) ⟨_, rfl⟩ ht hrun x (.finish ha ht h')
          rw [hk'] at h2
          exact Once.torn h (h.step (clk := clk) L hT hR (.finish i x) ho) rfl ht hk h2
  · cases hc with
    | between => exact hnow rfl rfl
    | enqueue ha h' =>
      obtain ⟨o1, o2⟩ := ho j c rfl hid
      have hhalf : ∀ {w0 : W}, lst name w0 = lst name s.w → (lst name s.w .queued).count k = 0 → ((Sys.obs E name s).own k).length + r = 0 →
          (∀ j, view E w0 k = some j → ¬ j.context.jobStatus.Done) →
          Half E name j w0 w → Once k r (Sys.obs E name (Sys.restart w : Sys D SpecB)) := by
        intro w0 hl hq hf hd hh
        have hr : r = 0 := by omega
        subst hr
        cases hh with
        | nothing hl' hv' =>
          refine Once.idle rfl ?_ fun st hst hd' => ?_
          · show (lst name w .queued).count k ≤ 1
            rw [hl', hl]; omega
          · show (lst name w .queued).count k = 0
            rw [hl', hl]; exact hq
        | pushed hl' hv' =>
          refine Once.idle rfl ?_ fun st hst hd' => ?_
          · show (lst name w .queued).count k ≤ 1
            rw [hl', if_pos rfl, hl, hid, List.count_cons_self]; omega
          · rw [status_view (w := w) rfl, hv'] at hst
            cases hv0 : view E w0 k with
            | none => rw [hv0] at hst; cases hst
            | some j0 =>
              rw [hv0] at hst
              have hst : j0.context.jobStatus = st := Option.some.inj hst
              exact absurd (by rw [hst]; exact hd') (hd j0 hv0)
        | all ms hl' hv' =>
          refine Once.idle rfl ?_ fun st hst hd' => ?_
          · show (lst name w .queued).count k ≤ 1
            rw [hl', if_pos rfl, hl, hid, List.count_cons_self]; omega
          · rw [status_view (w := w) rfl, hv', hid, upd_same] at hst
            rcases encdec_status (E := E) L (j.asQueued ms) with e | e <;> rw [e] at hst <;> cases hst
            exact absurd hd' queued_not_done
      rcases crash_submit h' with rfl | ⟨hv, hh⟩ | ⟨ex, hv, hh⟩
      · exact hnow rfl rfl
      · rw [hid] at hv
        have hst : (Sys.obs E name s).status k ≠ some .running := by rw [status_view rfl, hv]; simp
        exact hhalf rfl (List.count_eq_zero.mpr (o1 hv)) (h.flight hst) (fun j0 h0 => by rw [hv] at h0; cases h0) hh
      · rw [hid] at hv hh
        have hst := status_obs (name := name) (x := s) rfl hv
        rcases hh with ⟨h1, h2, h3⟩ | ⟨h1, h2, h3⟩
        · have hnr : (Sys.obs E name s).status k ≠ some .running := by
            rw [hst]; intro e; have e := Option.some.inj e
            simp [Job.isRunning, e] at h2
          have hf := h.flight hnr
          have hr : r = 0 := by omega
          subst hr
          subst h3
          refine Once.idle rfl ?_ fun st hst' hd' => ?_
          · show (lst name s.w .queued).count k ≤ 1
            have : (lst name s.w .queued).count k + _ + 0 ≤ 1 := h.sum
            omega
          · show (lst name s.w .queued).count k = 0
            by_cases hd : (c.reRun && ex.isDone) = true
            · rw [Bool.and_eq_true] at hd
              exact h.done _ hst (Job.done_iff.mp hd.2)
            · have hs := o2 ex hv h1 h2 (by simpa using hd)
              refine h.done st ?_ hd'
              rw [hst, ← hs]
              rw [status_view (w := upsert E k j s.w) rfl, view_upsert, upd_same] at hst'
              rcases encdec_status (E := E) L j with e | e <;> rw [e] at hst'
              · cases hst'
              · exact hst'
        · have hd2 := Job.done_iff.mp h2
          have hnr : (Sys.obs E name s).status k ≠ some .running := by
            rw [hst]; intro e; have e := Option.some.inj e; rw [e] at hd2; exact running_not_done hd2
          obtain ⟨m1, m2⟩ := hm.2 j c ex rfl hid hv hd2 h1
          have hov : (c.overrideData && !ex.isRunning) = true := by
            rw [Bool.and_eq_true]
            refine ⟨m1, ?_⟩
            cases hi : ex.isRunning with
            | false => rfl
            | true =>
              exfalso
              apply hnr
              rw [hst]
              simpa [Job.isRunning] using hi
          rw [if_pos hov] at h3
          refine hhalf (w0 := upsert E k j s.w) rfl (h.done _ hst hd2) (h.flight hnr) (fun j0 h0 => ?_) h3
          rw [view_upsert, upd_same] at h0
          rcases encdec_status (E := E) L j with e | e <;> rw [h0] at e
          · cases e
          · have e : j0.context.jobStatus = _ := Option.some.inj e
            rw [e]; exact m2
  · exact absurd rfl hm.1
  · cases hc with
    | between => exact hnow rfl rfl
    | retry ha h' =>
      rcases crash_retry hT.keyed h' with rfl | ⟨j, hv, hd, h1, h2⟩
      · exact hnow rfl rfl
      have hst := status_obs (name := name) (x := s) rfl hv
      have hnr : (Sys.obs E name s).status k ≠ some .running := by
        rw [hst]; intro e; have e := Option.some.inj e; rw [e] at hd; exact running_not_done hd
      have hf := h.flight hnr
      have hq : (lst name s.w .queued).count k = 0 := h.done _ hst hd
      have hr : r = 0 := by omega
      subst hr
      refine Once.idle rfl ?_ fun st hst' hd' => ?_
      · show (lst name w .queued).count k ≤ 1
        rcases h2 with e | ⟨e, _⟩ <;> rw [e]
        · omega
        · rw [List.count_cons_self]; omega
      · show (lst name w .queued).count k = 0
        rcases h2 with e | ⟨_, ms, e⟩
        · rw [e]; exact hq
        · rw [status_view (w := w) rfl, e] at hst'
          rcases encdec_status (E := E) L (j.asQueued ms) with e | e <;> rw [e] at hst' <;> cases hst'
          exact absurd hd' queued_not_done

theorem running_step (L : E.Lawful) (hT : Tidy E s) (hR : ∀ t ∈ s.tasks, t.orig.context.jobStatus = .running) (op : Op D O) :
    ∀ t ∈ (Sys.step E name SpecB clk s op).1.tasks, t.orig.context.jobStatus = .running := by
  by_cases ha : s.alive = true
  swap
  · rw [Sys.step_dead s (by simpa using ha)]; exact hR
  have hs := Sys.step_cases (E := E) (name := name) (clk := clk) s ha op
  generalize Sys.step E name SpecB clk s op = p at hs
  cases hs with
  | tick n hk hk20 =>
    have hp := (Scan.init (E := E) (name := name) (clk := clk) (free name s.cfg s.w) s.w).turns L hT.keyed n
    intro t ht
    rcases List.mem_append.mp ht with ht | ht
    · exact hR t ht
    · obtain ⟨j, hj, e⟩ := List.mem_map.mp ht
      obtain ⟨i, job, _, _, _, _, h6, _⟩ := hp.started j hj
      rw [← e, show (⟨j, none⟩ : Task D).orig = j from rfl, h6]; rfl
  | started i orig hi hcan =>
    intro t ht
    rcases List.mem_or_eq_of_mem_set ht with ht | rfl
    · exact hR t ht
    · exact hR ⟨orig, none⟩ (List.mem_of_getElem? hi)
  | _ => first
    | exact hR
    | exact fun t ht => absurd ht List.not_mem_nil
    | exact fun t ht => hR t (List.mem_of_mem_eraseIdx ht)

theorem grow_step (L : E.Lawful) (hT : Tidy E s) (op : Op D O) :
    (Sys.step E name SpecB clk s op).1.tasks.length ≤ s.tasks.length + free name s.cfg s.w := by
  by_cases ha : s.alive = true
  swap
  · rw [Sys.step_dead s (by simpa using ha)]; exact Nat.le_add_right _ _
  have hst := Sys.step_cases (E := E) (name := name) (clk := clk) s ha op
  generalize Sys.step E name SpecB clk s op = p at hst
  cases hst with
  | tick n hk hk20 =>
    have hsc := (Scan.init (clk := clk) (E := E) (name := name) (free name s.cfg s.w) s.w).turns L hT.keyed n
    have hb := hsc.bound
    show (s.tasks ++ List.map _ _).length ≤ _
    rw [List.length_append, List.length_map]
    omega
  | _ => refine Nat.le_trans ?_ (Nat.le_add_right _ _); first
    | exact Nat.le_refl _
    | exact Nat.zero_le _
    | exact List.length_eraseIdx_le _ _
    | exact (by simp)

end

/-! ## On every backend -/

/-- The executions were started as Running. -/
def Snap.AllRunning (v : Snap D) : Prop := ∀ t ∈ v.tasks, t.orig.context.jobStatus = .running

section
variable {s : Sys D b.B} (hg : b.Good s.w.s) (hT : (b.snap E name s).Tidy)
include hg hT

theorem once_any (L : E.Lawful) (hR : (b.snap E name s).AllRunning) {r : Nat} (h : Once k r (b.snap E name s)) (op : Op D O)
    (ho : Orderly k (b.snap E name s) op) : Once k r (b.snap E name (Sys.step E name b.B clk s op).1) :=
  Impl.lift_any (Q := fun v op _ v' => v.Tidy → v.AllRunning → Once k r v → Orderly k v op → Once k r v')
    (fun _ op hT hR h ho => Once.step L (tidy_iff.mp hT) hR h op ho) hg op hT hR h ho

theorem running_any (L : E.Lawful) (hR : (b.snap E name s).AllRunning) (op : Op D O) :
    (b.snap E name (Sys.step E name b.B clk s op).1).AllRunning :=
  Impl.lift_any (Q := fun v _ _ v' => v.Tidy → v.AllRunning → v'.AllRunning)
    (fun _ op hT hR => running_step L (tidy_iff.mp hT) hR op) hg op hT hR

theorem grow_any (L : E.Lawful) (op : Op D O) :
    (b.snap E name (Sys.step E name b.B clk s op).1).tasks.length ≤
      (b.snap E name s).tasks.length + ((b.snap E name s).cfg.maxProcessingJobs - ((b.snap E name s).lists .running).length) :=
  Impl.lift_any (Q := fun v _ _ v' => v.Tidy → v'.tasks.length ≤ v.tasks.length + (v.cfg.maxProcessingJobs - (v.lists .running).length))
    (fun _ op hT => grow_step L (tidy_iff.mp hT) op) hg op hT

theorem once_crash (L : E.Lawful) (hR : (b.snap E name s).AllRunning) {r : Nat} (h : Once k r (b.snap E name s)) {op : Op D O}
    (ho : Orderly k (b.snap E name s) op) (hm : MayBeCut k (b.snap E name s) op) {w : World b.B}
    (hc : Sys.CrashIn E name b.B clk s op w) : Once k r (b.snap E name (Sys.restart w : Sys D b.B)) := by
  obtain ⟨t, hr⟩ := Impl.rs_of_good hg
  obtain ⟨v, h1, h2⟩ := crash_mirror hr hc
  rw [Impl.snap_eq hr] at hT hR h ho hm
  rw [Impl.snap_eq h2]
  exact Once.crash L (tidy_iff.mp hT) hR h ho hm h1

end

/-! ## Crews -/

/-- What holds of every crew. -/
structure CrewFit (E : Env D) (name : Str) (c : Crew D b.B) : Prop where
  good : b.Good c.w.s
  tidy : ∀ p ∈ c.procs, (b.snap E name (p.sys c.w)).Tidy
  keyed : (b.see E name c.w).Keyed
  running : ∀ p ∈ c.procs, (b.snap E name (p.sys c.w)).AllRunning

theorem CrewFit.set {c : Crew D b.B} (h : CrewFit E name c) {w : World b.B} (hg : b.Good w.s) (hk : (b.see E name w).Keyed) (i : Nat) {q : Proc D}
    (ht : (b.snap E name (q.sys w)).Tidy) (hr : (b.snap E name (q.sys w)).AllRunning) : CrewFit E name ⟨w, c.procs.set i q⟩ := by
  refine ⟨hg, fun p hp => ?_, hk, fun p hp => ?_⟩
  · rcases List.mem_or_eq_of_mem_set hp with hp | rfl
    · exact ⟨hk, (h.tidy p hp).exec, (h.tidy p hp).dead⟩
    · exact ht
  · rcases List.mem_or_eq_of_mem_set hp with hp | rfl
    · exact h.running p hp
    · exact hr

theorem CrewFit.step (L : E.Lawful) {c : Crew D b.B} (h : CrewFit E name c) (op : CrewOp D O) :
    CrewFit E name (Crew.step E name b.B clk c op) := by
  cases op with
  | join =>
    refine ⟨h.good, fun p hp => ?_, h.keyed, fun p hp => ?_⟩
    · rcases List.mem_append.mp hp with hp | hp
      · exact h.tidy p hp
      · rw [List.mem_singleton.mp hp]; exact ⟨h.keyed, fun t ht => (by cases ht), fun _ => rfl⟩
    · rcases List.mem_append.mp hp with hp | hp
      · exact h.running p hp
      · rw [List.mem_singleton.mp hp]; intro t ht; cases ht
  | kill i =>
    cases hpi : c.procs[i]? with
    | none =>
      have e : Crew.step E name b.B clk c (.kill i : CrewOp D O) = c := by simp only [Crew.step, hpi]
      rw [e]; exact h
    | some p =>
      have e : Crew.step E name b.B clk c (.kill i : CrewOp D O) = ⟨c.w, c.procs.set i { p with tasks := [], alive := false }⟩ := by
        simp only [Crew.step, hpi]
      rw [e]
      exact h.set h.good h.keyed i ⟨h.keyed, fun t ht => (by cases ht), fun _ => rfl⟩ (fun t ht => (by cases ht))
  | turn i op =>
    cases hpi : c.procs[i]? with
    | none =>
      have e : Crew.step E name b.B clk c (.turn i op : CrewOp D O) = c := by simp only [Crew.step, hpi]
      rw [e]; exact h
    | some p =>
      have hp : p ∈ c.procs := List.mem_of_getElem? hpi
      have e : Crew.step E name b.B clk c (.turn i op : CrewOp D O) = ⟨(Sys.step E name b.B clk (p.sys c.w) op).1.w,
          c.procs.set i ⟨(Sys.step E name b.B clk (p.sys c.w) op).1.cfg, (Sys.step E name b.B clk (p.sys c.w) op).1.tasks,
            (Sys.step E name b.B clk (p.sys c.w) op).1.alive⟩⟩ := by simp only [Crew.step, hpi]
      rw [e]
      have ht := tidy_step (clk := clk) L (s := p.sys c.w) h.good (h.tidy p hp) op
      exact h.set (good_step (E := E) (name := name) (clk := clk) (s := p.sys c.w) h.good op) ht.keyed i ht
        (running_any (clk := clk) (s := p.sys c.w) h.good (h.tidy p hp) L (h.running p hp) op)

theorem CrewFit.crash (L : E.Lawful) {c : Crew D b.B} (h : CrewFit E name c) {i : Nat} {p : Proc D} (hpi : c.procs[i]? = some p) {op : Op D O}
    {w : World b.B} (hc : Sys.CrashIn E name b.B clk (p.sys c.w) op w) : CrewFit E name (c.crash i w) := by
  obtain ⟨h1, h2, _⟩ := crash_any (k := []) (s := p.sys c.w) L h.good (h.tidy p (List.mem_of_getElem? hpi)) hc
  exact h.set h1 h2.keyed i ⟨h2.keyed, fun t ht => (by cases ht), fun _ => rfl⟩ (fun t ht => (by cases ht))

theorem crew_fit (L : E.Lawful) {P Q : Snap D → Op D O → Prop} {c : Crew D b.B} (h : CrewLives (O := O) b E name clk P Q c) :
    CrewFit E name c := by
  induction h with
  | start =>
    refine ⟨Reach.good (O := O) (E := E) (name := name) (clk := clk) (P := fun _ _ => True) .start, fun p hp => (by cases hp), ?_, fun p hp => (by cases hp)⟩
    exact (tidy_reach (O := O) (clk := clk) (P := fun _ _ => True) L .start : (b.snap E name (Sys.init b.B b.empty : Sys D b.B)).Tidy).keyed
  | @step c op _ hp ih => exact ih.step L op
  | @crash c i p op w _ hp _ hc ih => exact ih.crash L hp hc

/-- The executions of a process may be counted with those of the others. -/
theorem once_shift {p : Proc D} {w : World b.B} {r : Nat} :
    Once k r (b.snap E name (p.sys w)) ↔ Once k ((p.tasks.map (·.orig.id)).count k + r) (b.see E name w) := by
  have e1 : ((b.snap E name (p.sys w)).own k).length = (p.tasks.map (·.orig.id)).count k := by
    show (p.tasks.filter fun t => decide (t.orig.id = k)).length = _
    rw [List.count_eq_length_filter, List.filter_map, List.length_map]
    congr 1
    exact List.filter_congr fun t _ => by by_cases e : t.orig.id = k <;> simp [e]
  have e2 : ((b.see E name w).own k).length = 0 := rfl
  have e3 : (b.snap E name (p.sys w)).status k = (b.see E name w).status k := rfl
  have e4 : (b.snap E name (p.sys w)).lists = (b.see E name w).lists := rfl
  constructor
  · rintro ⟨h1, h2, h3, h4⟩
    rw [e1] at h1 h2 h4
    rw [e3] at h2 h3
    rw [e4] at h1 h3 h4
    exact ⟨by omega, fun h => by have := h2 h; omega, h3, by omega⟩
  · rintro ⟨h1, h2, h3, h4⟩
    rw [e2] at h1 h2 h4
    refine ⟨by rw [e4, e1]; omega, fun h => ?_, by rw [e3, e4]; exact h3, by rw [e4, e1]; omega⟩
    rw [e3] at h
    have := h2 h
    omega

theorem inFlight_set {c : Crew D b.B} {i : Nat} {p : Proc D} (hpi : c.procs[i]? = some p) :
    ∃ rest : List Str, c.inFlight.Perm (p.tasks.map (·.orig.id) ++ rest) ∧
      ∀ (w : World b.B) (q : Proc D), (Crew.inFlight ⟨w, c.procs.set i q⟩ : List Str).Perm (q.tasks.map (·.orig.id) ++ rest) := by
  obtain ⟨rest, h1, h2⟩ := flatMap_set (f := fun p : Proc D => p.tasks.map (·.orig.id)) hpi
  exact ⟨rest, h1, fun w q => h2 q⟩

/-- However processes come, go and die inside turns: at most one entry or execution of `k`, if its submissions are orderly
and no turn is cut short that must not be. -/
theorem crew_once (L : E.Lawful) {P Q : Snap D → Op D O → Prop} (hP : ∀ v op, P v op → Orderly k v op)
    (hQ : ∀ v op, Q v op → Orderly k v op ∧ MayBeCut k v op) {c : Crew D b.B} (h : CrewLives (O := O) b E name clk P Q c) :
    Once k (c.inFlight.count k) (b.see E name c.w) := by
  induction h with
  | start =>
    have e : b.see E name (Crew.init b.B b.empty : Crew D b.B).w = Sys.obs E name (Sys.init SpecB Spec.empty : Sys D SpecB) :=
      Impl.snap_eq Impl.rs_init
    rw [e]
    exact ⟨Nat.zero_le _, fun _ => rfl, fun _ _ _ => rfl, Nat.zero_le _⟩
  | @step c op hc hp ih =>
    have hf := crew_fit L hc
    cases op with
    | join =>
      have e : (Crew.step E name b.B clk c (.join : CrewOp D O)).inFlight = c.inFlight := by
        show (c.procs ++ [({} : Proc D)]).flatMap _ = c.procs.flatMap _
        rw [List.flatMap_append]
        simp
      rw [e]
      exact ih
    | kill i =>
      cases hpi : c.procs[i]? with
      | none =>
        have e : Crew.step E name b.B clk c (.kill i : CrewOp D O) = c := by simp only [Crew.step, hpi]
        rw [e]; exact ih
      | some p =>
        have e : Crew.step E name b.B clk c (.kill i : CrewOp D O) = ⟨c.w, c.procs.set i { p with tasks := [], alive := false }⟩ := by
          simp only [Crew.step, hpi]
        rw [e]
        obtain ⟨rest, h1, h2⟩ := inFlight_set hpi
        rw [(h1.count_eq k), List.count_append] at ih
        rw [((h2 _ _).count_eq k), List.count_append]
        refine (once_shift (p := { p with tasks := [], alive := false })).mp ?_
        exact (once_shift.mpr ih).less rfl rfl rfl (Nat.zero_le _)
    | turn i op =>
      cases hpi : c.procs[i]? with
      | none =>
        have e : Crew.step E name b.B clk c (.turn i op : CrewOp D O) = c := by simp only [Crew.step, hpi]
        rw [e]; exact ih
      | some p =>
        have hp' : p ∈ c.procs := List.mem_of_getElem? hpi
        have e : Crew.step E name b.B clk c (.turn i op : CrewOp D O) = ⟨(Sys.step E name b.B clk (p.sys c.w) op).1.w,
            c.procs.set i ⟨(Sys.step E name b.B clk (p.sys c.w) op).1.cfg, (Sys.step E name b.B clk (p.sys c.w) op).1.tasks,
              (Sys.step E name b.B clk (p.sys c.w) op).1.alive⟩⟩ := by simp only [Crew.step, hpi]
        rw [e]
        obtain ⟨rest, h1, h2⟩ := inFlight_set hpi
        rw [(h1.count_eq k), List.count_append] at ih
        rw [((h2 _ _).count_eq k), List.count_append]
        refine (once_shift (p := ⟨(Sys.step E name b.B clk (p.sys c.w) op).1.cfg, (Sys.step E name b.B clk (p.sys c.w) op).1.tasks,
              (Sys.step E name b.B clk (p.sys c.w) op).1.alive⟩)).mp ?_
        exact once_any (s := p.sys c.w) hf.good (hf.tidy p hp') L (hf.running p hp') (once_shift.mpr ih) op (hP _ _ (hp i op p rfl hpi))
  | @crash c i p op w hc hpi hq hcr ih =>
    have hf := crew_fit L hc
    have hp' : p ∈ c.procs := List.mem_of_getElem? hpi
    obtain ⟨rest, h1, h2⟩ := inFlight_set hpi
    rw [(h1.count_eq k), List.count_append] at ih
    show Once k (Crew.inFlight ⟨w, c.procs.set i _⟩ |>.count k) (b.see E name w)
    rw [((h2 _ _).count_eq k), List.count_append]
    obtain ⟨hq1, hq2⟩ := hQ _ _ hq
    have := once_crash (s := p.sys c.w) hf.good (hf.tidy p hp') L (hf.running p hp') (once_shift.mpr ih) hq1 hq2 hcr
    exact (once_shift (p := { tasks := [], alive := false })).mp (this.less rfl rfl rfl (Nat.zero_le _))

/-- What is in flight is in the running list. -/
theorem crew_within (L : E.Lawful) {P Q : Snap D → Op D O → Prop} (hP : ∀ v op k, P v op → Orderly k v op)
    (hQ : ∀ v op k, Q v op → Orderly k v op ∧ MayBeCut k v op) {c : Crew D b.B} (h : CrewLives (O := O) b E name clk P Q c) :
    c.inFlight.length ≤ ((b.see E name c.w).lists .running).length := by
  refine (List.subperm_ext_iff.mpr fun k _ => ?_).length_le
  have := (crew_once (k := k) L (fun v op h => hP v op k h) (fun v op h => hQ v op k h) h).run
  omega

/-- The processes together run no more jobs than the greatest limit under which a turn was taken. -/
theorem crew_capacity (L : E.Lawful) {M : Nat} {P Q : Snap D → Op D O → Prop}
    (hP : ∀ v op k, P v op → Orderly k v op) (hM : ∀ v op, P v op → v.cfg.maxProcessingJobs ≤ M)
    (hQ : ∀ v op k, Q v op → Orderly k v op ∧ MayBeCut k v op) {c : Crew D b.B} (h : CrewLives (O := O) b E name clk P Q c) :
    c.inFlight.length ≤ M := by
  induction h with
  | start => exact Nat.zero_le _
  | @step c op hc hp ih =>
    have hf := crew_fit L hc
    have hw := crew_within L hP hQ hc
    cases op with
    | join =>
      have e : (Crew.step E name b.B clk c (.join : CrewOp D O)).inFlight = c.inFlight := by
        show (c.procs ++ [({} : Proc D)]).flatMap _ = c.procs.flatMap _
        rw [List.flatMap_append]
        simp
      rw [e]
      exact ih
    | kill i =>
      cases hpi : c.procs[i]? with
      | none =>
        have e : Crew.step E name b.B clk c (.kill i : CrewOp D O) = c := by simp only [Crew.step, hpi]
        rw [e]; exact ih
      | some p =>
        have e : Crew.step E name b.B clk c (.kill i : CrewOp D O) = ⟨c.w, c.procs.set i { p with tasks := [], alive := false }⟩ := by
          simp only [Crew.step, hpi]
        rw [e]
        obtain ⟨rest, h1, h2⟩ := inFlight_set hpi
        rw [h1.length_eq, List.length_append] at ih
        rw [(h2 _ _).length_eq, List.length_append]
        exact Nat.le_trans (Nat.add_le_add_right (Nat.zero_le _) _) ih
    | turn i op =>
      cases hpi : c.procs[i]? with
      | none =>
        have e : Crew.step E name b.B clk c (.turn i op : CrewOp D O) = c := by simp only [Crew.step, hpi]
        rw [e]; exact ih
      | some p =>
        have hp' : p ∈ c.procs := List.mem_of_getElem? hpi
        have e : Crew.step E name b.B clk c (.turn i op : CrewOp D O) = ⟨(Sys.step E name b.B clk (p.sys c.w) op).1.w,
            c.procs.set i ⟨(Sys.step E name b.B clk (p.sys c.w) op).1.cfg, (Sys.step E name b.B clk (p.sys c.w) op).1.tasks,
              (Sys.step E name b.B clk (p.sys c.w) op).1.alive⟩⟩ := by simp only [Crew.step, hpi]
        rw [e]
        obtain ⟨rest, h1, h2⟩ := inFlight_set hpi
        rw [h1.length_eq, List.length_append, List.length_map] at ih hw
        rw [(h2 _ _).length_eq, List.length_append, List.length_map]
        have hg := grow_any (clk := clk) (s := p.sys c.w) hf.good (hf.tidy p hp') L op
        have hm := hM _ _ (hp i op p rfl hpi)
        have e1 : (b.snap E name (p.sys c.w)).tasks.length = p.tasks.length := rfl
        have e2 : ((b.snap E name (p.sys c.w)).lists .running).length = ((b.see E name c.w).lists .running).length := rfl
        have e3 : (b.snap E name (Sys.step E name b.B clk (p.sys c.w) op).1).tasks.length = (Sys.step E name b.B clk (p.sys c.w) op).1.tasks.length := rfl
        rw [e1, e2, e3] at hg
        show (Sys.step E name b.B clk (p.sys c.w) op).1.tasks.length + rest.length ≤ M
        omega
  | @crash c i p op w hc hpi hq hcr ih =>
    obtain ⟨rest, h1, h2⟩ := inFlight_set hpi
    rw [h1.length_eq, List.length_append] at ih
    show (Crew.inFlight ⟨w, c.procs.set i _⟩).length ≤ M
    rw [(h2 _ _).length_eq, List.length_append]
    exact Nat.le_trans (Nat.add_le_add_right (Nat.zero_le _) _) ih

theorem CrewLives.mono {P P' Q Q' : Snap D → Op D O → Prop}
    (hP : ∀ v op, P v op → P' v op) (hQ : ∀ v op, Q v op → Q' v op) {c : Crew D b.B} (h : CrewLives b E name clk P Q c) :
    CrewLives b E name clk P' Q' c := by
  induction h with
  | start => exact .start
  | step op _ hp ih => exact .step op ih fun i op' p e hpi => hP _ _ (hp i op' p e hpi)
  | crash i p op _ hpi hq hc ih => exact .crash i p op ih hpi (hQ _ _ hq) hc

end AJ
