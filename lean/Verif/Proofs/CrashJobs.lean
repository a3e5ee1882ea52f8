import Verif.Proofs.CrashPoints

/-! # What a crash means for one job -/

namespace AJ
open W Prog

section
variable {D O : Type} {E : Env D} {name : Str} {clk : Nat → Time} {b : Impl} {k : Str}

/-- What a crash in a turn that is no request about `k` does to `k`: nothing; or `k` was about to be picked and
is stored as Running; or it was picked. -/
inductive Snap.Hit (k : Str) (v v' : Snap D) : Prop where
  | spared (hj : v'.job k = v.job k) (hc : ∀ st, (v'.lists st).count k = (v.lists st).count k)
  | half (j : Job D) (ms : Int) (hq : k ∈ v.lists .queued) (hj : v.job k = some j) (hj' : v'.job k = some (j.asRunning ms))
      (hc : ∀ st, (v'.lists st).count k = (v.lists st).count k)
  | picked (j : Job D) (ms : Int) (hj : v.job k = some j) (hj' : v'.job k = some (j.asRunning ms))
      (hq : (v'.lists .queued).count k + 1 = (v.lists .queued).count k)
      (hr : (v'.lists .running).count k = (v.lists .running).count k + 1)
      (hc : ∀ st, st ≠ .queued → st ≠ .running → (v'.lists st).count k = (v.lists st).count k)

theorem Spares.hit {s : Sys D SpecB} {w' : W} (h : Spares E name k s.w w') :
    Snap.Hit k (Sys.obs E name s) (Sys.obs E name (Sys.restart w')) := .spared h.view h.count

theorem OtherTask.of_own {v : Snap D} (h : v.own k = []) (op : Op D O) : OtherTask k v op :=
  fun _ _ hi _ => own_nil_mem h hi

theorem crash_spec (L : E.Lawful) {s : Sys D SpecB} (hT : Tidy E s) {op : Op D O} {w' : W}
    (h : Sys.CrashIn E name SpecB clk s op w') :
    Keyed E w' ∧ (NotAbout k op → OtherTask k (Sys.obs E name s) op →
      Snap.Hit k (Sys.obs E name s) (Sys.obs E name (Sys.restart w'))) := by
  cases h with
  | between => exact ⟨hT.keyed, fun _ _ => .spared rfl fun _ => rfl⟩
  | enqueue ha h =>
    rename_i j c
    obtain ⟨h1, h2⟩ := Sat.spares (WorkQueue.touches_submit L c (rfl : j.id = j.id)) hT.keyed h
    exact ⟨h1, fun hn _ => (h2 k fun e => hn.1 j c rfl e.symm).hit⟩
  | cancel ha h =>
    obtain ⟨h1, h2⟩ := spares_cancel L hT.keyed h
    exact ⟨h1, fun hn _ => (h2 k fun e => hn.2.1 (by rw [e])).hit⟩
  | retry ha h =>
    obtain ⟨h1, h2⟩ := spares_retry L hT.keyed h
    exact ⟨h1, fun hn _ => (h2 k fun e => hn.2.2 (by rw [e])).hit⟩
  | get ha h => cases crash_get h; exact ⟨hT.keyed, fun _ _ => .spared rfl fun _ => rfl⟩
  | start ha ht h =>
    rename_i i orig
    obtain ⟨h1, h2⟩ := Sat.spares (E := E) (WorkQueue.touches_executeStart (rfl : orig.id = orig.id)) hT.keyed h
    exact ⟨h1, fun _ ho => (h2 k fun e => ho i _ ht (.inl rfl) e.symm).hit⟩
  | finish ha ht h =>
    rename_i i x orig job
    have hjob : job = orig.counted := hT.exec _ (List.mem_of_getElem? ht) job rfl
    subst hjob
    obtain ⟨h1, h2⟩ := Sat.spares (WorkQueue.touches_taskFinish (j := orig.counted) L x (rfl : orig.id = orig.id) rfl) hT.keyed h
    exact ⟨h1, fun _ ho => (h2 k fun e => ho i _ ht (.inr ⟨x, rfl⟩) e.symm).hit⟩
  | tick ha h =>
    obtain ⟨n, hn⟩ := crash_tick h
    have hp := (Scan.init (E := E) (name := name) (clk := clk) (free name s.cfg s.w) s.w).turns L hT.keyed n
    generalize turns E name clk (free name s.cfg s.w) n (s.w, []) = p at hn hp
    obtain ⟨w, rd⟩ := p
    have hkeyed : Keyed E w := hp.keyed L hT.keyed
    have hlists := hn.lists
    simp only at hlists
    have hcq : (lst name w' .queued).count k + (rd.map Job.id).count k = (lst name s.w .queued).count k := by
      rw [hlists, ← List.count_append]; exact hp.queued.count_eq k
    have hcr : (lst name w' .running).count k = (rd.map Job.id).count k + (lst name s.w .running).count k := by
      rw [hlists, show lst name w .running = _ from hp.running, List.count_append, List.count_reverse]
    have hco : ∀ st, st ≠ .queued → st ≠ .running → (lst name w' st).count k = (lst name s.w st).count k := by
      intro st h1 h2
      rw [hlists, show lst name w st = _ from hp.others st h1 h2]
    by_cases hm : k ∈ rd.map Job.id
    · have h1 : (rd.map Job.id).count k = 1 := by
        have h2 : (rd.map Job.id).count k ≤ 1 := (List.nodup_iff_count.mp hp.nodup) k
        have h3 := List.count_pos_iff.mpr hm
        omega
      obtain ⟨r, hr, e⟩ := List.mem_map.mp hm
      obtain ⟨i, job, _, _, h3, _, h5, h6⟩ := hp.started r hr
      rw [e] at h3 h6
      have hst := (Env.Lawful.stored_view (L := L) h3).asRunning (clk (i + 1) / nsPerMs)
      have h6 : view E w k = E.encdec r := h6
      rw [h5, hst.encdec] at h6
      have hview : view E w' k = some (job.asRunning (clk (i + 1) / nsPerMs)) := by
        rcases hn.view with h | ⟨id, F, job', i', ms, _, h2', h3', h4'⟩
        · rw [h]; exact h6
        · rw [h4', upd_ne _ _ ?_]
          · exact h6
          · intro e'
            simp only [takes, Bool.and_eq_true, Bool.not_eq_true', List.any_eq_false, decide_eq_true_eq] at h3'
            exact h3'.2 r hr (e.trans e')
      have hkey' : Keyed E w' := by
        rcases hn.view with h | ⟨id, F, job', i', ms, _, _, _, h4'⟩
        · unfold Keyed; rw [h]; exact hkeyed
        · unfold Keyed; rw [h4']; exact Inv.keyed_upd hkeyed fun j hj => encdec_id (j := job'.asRunning ms) L hj
      exact ⟨hkey', fun _ _ => .picked job _ h3 hview (show _ + 1 = _ by
          show (lst name w' .queued).count k + 1 = (lst name s.w .queued).count k; omega)
        (by show (lst name w' .running).count k = (lst name s.w .running).count k + 1; omega) hco⟩
    · have h0 : (rd.map Job.id).count k = 0 := List.count_eq_zero.mpr hm
      have hall : ∀ st, (lst name w' st).count k = (lst name s.w st).count k := by
        intro st
        by_cases e1 : st = .queued
        · subst e1; omega
        · by_cases e2 : st = .running
          · subst e2; omega
          · exact hco st e1 e2
      rcases hn.view with h | ⟨id, F, job', i', ms, h1', h2', h3', h4'⟩
      · refine ⟨by unfold Keyed; rw [h]; exact hkeyed, fun _ _ => .spared ?_ hall⟩
        show view E w' k = view E s.w k
        rw [h]; exact hp.same k hm
      · have hid : job'.id = id := hkeyed id job' h2'
        refine ⟨by unfold Keyed; rw [h4']; exact Inv.keyed_upd hkeyed fun j hj => encdec_id (j := job'.asRunning ms) L hj, fun _ _ => ?_⟩
        by_cases e : k = job'.id
        · have hv : view E s.w k = some job' := by
            rw [← hp.same k hm, e, hid]; exact h2'
          have hst := (Env.Lawful.stored_view (L := L) hv).asRunning ms
          refine .half job' ms ?_ hv ?_ hall
          · show k ∈ lst name s.w .queued
            have : k ∈ lst name w .queued := by
              rw [← List.mem_reverse, h1', e, hid]; exact List.mem_cons_self
            exact hp.queued.mem_iff.mp (List.mem_append_left _ this)
          · show view E w' k = _
            rw [h4', e, upd_same]; exact hst.encdec
        · refine .spared ?_ hall
          show view E w' k = view E s.w k
          rw [h4', upd_ne _ _ e]; exact hp.same k hm

/-! ## On every backend -/

theorem crash_mirror {s : Sys D b.B} {t : Sys D SpecB} (hr : b.sim.RS s t) {op : Op D O} {w : World b.B}
    (h : Sys.CrashIn E name b.B clk s op w) :
    ∃ v, Sys.CrashIn E name SpecB clk t op v ∧ b.sim.RS (Sys.restart w : Sys D b.B) (Sys.restart v) := by
  have lift : ∀ {α : Type} {p : Prog α}, p.Aj name → p.AllOps b.ok := fun hp => hp.mono (b.okAj name)
  have fin : ∀ {v : W}, Sys.CrashIn E name SpecB clk t op v → b.sim.RW w v → 
      ∃ v, Sys.CrashIn E name SpecB clk t op v ∧ b.sim.RS (Sys.restart w : Sys D b.B) (Sys.restart v) :=
    fun {v} h1 h2 => ⟨v, h1, h2, rfl, rfl, rfl⟩
  have ha' : s.alive = true → t.alive = true := fun h => by rw [← hr.alive]; exact h
  cases h with
  | between => exact fin (.between op) hr.w
  | enqueue ha h =>
    obtain ⟨v, h1, h2⟩ := Crash.sim b.sim (lift (WorkQueue.aj_runWithConfig E name _ _)) hr.w h
    exact fin (.enqueue (ha' ha) h1) h2
  | cancel ha h =>
    obtain ⟨v, h1, h2⟩ := Crash.sim b.sim (lift (WorkQueue.aj_cancelJob E name _)) hr.w h
    exact fin (.cancel (ha' ha) h1) h2
  | get ha h =>
    obtain ⟨v, h1, h2⟩ := Crash.sim b.sim (lift (WorkQueue.aj_getJob E name _)) hr.w h
    exact fin (.get (ha' ha) h1) h2
  | retry ha h =>
    obtain ⟨v, h1, h2⟩ := Crash.sim b.sim (lift (WorkQueue.aj_retryJob E name _)) hr.w h
    exact fin (.retry (ha' ha) h1) h2
  | tick ha h =>
    have hq := (b.sim.step (.queueCount (formatQueueName name .queued)) s.w.s t.w.s (b.okAj name _ (.count _)) hr.w.s).1
    have hf : Sys.tickFuel name b.B s.w.s = Sys.tickFuel name SpecB t.w.s := by
      unfold Sys.tickFuel; rw [hq]
    rw [hf, hr.cfg] at h
    obtain ⟨v, h1, h2⟩ := Crash.sim b.sim (lift (WorkQueue.aj_pickJobs E name _ _)) hr.w h
    exact fin (.tick (ha' ha) h1) h2
  | start ha ht h =>
    obtain ⟨v, h1, h2⟩ := Crash.sim b.sim (lift (WorkQueue.aj_executeStart name _)) hr.w h
    exact fin (.start (ha' ha) (by rw [← hr.tasks]; exact ht) h1) h2
  | finish ha ht h =>
    obtain ⟨v, h1, h2⟩ := Crash.sim b.sim (lift (WorkQueue.aj_taskFinish E name _ _ _)) hr.w h
    exact fin (.finish (ha' ha) (by rw [← hr.tasks]; exact ht) h1) h2

/-- A crash, on any backend. -/
theorem crash_any (L : E.Lawful) {s : Sys D b.B} (hg : b.Good s.w.s) (hT : (b.snap E name s).Tidy) {op : Op D O}
    {w : World b.B} (h : Sys.CrashIn E name b.B clk s op w) :
    b.Good w.s ∧ (b.snap E name (Sys.restart w)).Tidy ∧
    (NotAbout k op → OtherTask k (b.snap E name s) op →
      Snap.Hit k (b.snap E name s) (b.snap E name (Sys.restart w))) := by
  obtain ⟨t, hr⟩ := Impl.rs_of_good hg
  obtain ⟨v, h1, h2⟩ := crash_mirror hr h
  rw [Impl.snap_eq hr] at hT ⊢
  rw [Impl.snap_eq h2]
  obtain ⟨h3, h4⟩ := crash_spec (k := k) L (tidy_iff.mp hT) h1
  exact ⟨⟨_, h2.w.s⟩, ⟨h3, (by intro t ht; cases ht), fun _ => rfl⟩, h4⟩

theorem own_restart (w : World b.B) : (b.snap E name (Sys.restart w : Sys D b.B)).own k = [] := rfl

/-! ## A job that waits in the queue -/

/-- Job `j0` waits under id `k`: it has `c` entries in the queued list, it is stored as it was or marked Running
by a crash in the middle of a pick, and it is not in flight. -/
structure Snap.Waits (k : Str) (j0 : Job D) (c : Nat) (v : Snap D) : Prop where
  count : (v.lists .queued).count k = c
  job : v.job k = some j0 ∨ ∃ ms, v.job k = some (j0.asRunning ms)
  own : v.own k = []

theorem waits_step (L : E.Lawful) {s : Sys D SpecB} (hT : Tidy E s) {j0 : Job D} {c : Nat}
    (h : (Sys.obs E name s).Waits k j0 c) (op : Op D O) (hop : NotAbout k op) :
    (Sys.obs E name (Sys.step E name SpecB clk s op).1).Waits k j0 c ∨
    k ∈ lst name (Sys.step E name SpecB clk s op).1.w .running := by
  by_cases ha : s.alive = true
  swap
  · rw [Sys.step_dead s (by simpa using ha)]; exact .inl h
  have hs := Sys.step_cases (E := E) (name := name) (clk := clk) s ha op
  have hown : ∀ {i : Nat} {t : Task D}, s.tasks[i]? = some t → t.orig.id ≠ k := fun hi =>
    own_nil_mem (v := Sys.obs E name s) h.own hi
  have ho' : s.tasks.filter (fun t => decide (t.orig.id = k)) = [] := h.own
  have touch : ∀ {k' : Str} {s' : Sys D SpecB}, k ≠ k' → Touch E name k' s.w s'.w → (Sys.obs E name s').own k = [] →
      (Sys.obs E name s').Waits k j0 c ∨ k ∈ lst name s'.w .running := by
    intro k' s' hk ht ho
    refine .inl ⟨(ht.count k hk .queued).trans h.count, ?_, ho⟩
    have : (Sys.obs E name s').job k = (Sys.obs E name s).job k := ht.view k hk
    rw [this]; exact h.job
  generalize Sys.step E name SpecB clk s op = p at hs
  cases hs with
  | enqueue j c => exact touch (fun e => hop.1 j c rfl e.symm) (Touch.submit j c s.w) h.own
  | cancel k' => exact touch (fun e => hop.2.1 (by rw [e])) (Touch.cancel hT.keyed k') h.own
  | retry k' => exact touch (fun e => hop.2.2 (by rw [e])) (Touch.retry hT.keyed k') h.own
  | get k' => exact .inl h
  | config c => exact .inl ⟨h.count, h.job, h.own⟩
  | tick n hk hk20 =>
    have hp := (Scan.init (E := E) (name := name) (clk := clk) (free name s.cfg s.w) s.w).turns L hT.keyed n
    generalize turns E name clk (free name s.cfg s.w) n (s.w, []) = p at hp
    rcases p with ⟨w, rd⟩
    by_cases hm : k ∈ rd.map Job.id
    · right
      show k ∈ lst name w .running
      rw [show lst name w .running = _ from hp.running]
      exact List.mem_append_left _ (List.mem_reverse.mpr hm)
    · left
      have h0 : (rd.map Job.id).count k = 0 := List.count_eq_zero.mpr hm
      have hfil : rd.filter (fun j => decide (j.id = k)) = [] := by
        rw [List.filter_eq_nil_iff]
        intro j hj
        have : j.id ≠ k := fun e => hm (List.mem_map.mpr ⟨j, hj, e⟩)
        simpa using this
      refine ⟨?_, ?_, ?_⟩
      · have := hp.queued.count_eq k
        rw [List.count_append, h0, Nat.add_zero] at this
        exact this.trans h.count
      · have : view E w k = view E s.w k := hp.same k hm
        show view E w k = _ ∨ ∃ ms, view E w k = _
        rw [this]; exact h.job
      · show (s.tasks ++ rd.map fun j => (⟨j, none⟩ : Task D)).filter (fun t => decide (t.orig.id = k)) = []
        rw [List.filter_append, ho', List.filter_map]
        show [] ++ (rd.filter (fun j => decide (j.id = k))).map _ = []
        rw [hfil]; rfl
  | tickPanic => exact .inl ⟨h.count, h.job, rfl⟩
  | userPanic => exact .inl ⟨h.count, h.job, rfl⟩
  | noStart => exact .inl h
  | noFinish => exact .inl h
  | noUserPanic => exact .inl h
  | started i orig hi hcan =>
    refine touch (k' := orig.id) (fun e => hown hi e.symm) ?_ ?_
    · exact (Touch.say (.hookMsg orig.id true) rfl _).trans (Touch.say (.ran orig.counted.context) rfl _)
    · have hne : orig.id ≠ k := hown hi
      exact (own_set_other (t' := ⟨orig, some orig.counted⟩) hi hne hne).trans h.own
  | startCancelled i orig hi hcan =>
    exact touch (k' := orig.id) (fun e => hown hi e.symm) (Touch.push orig.id .canceled s.w)
      ((own_erase_other hi (hown hi)).trans h.own)
  | finished i x orig job w hi hf =>
    have hjob : job = orig.counted := hT.exec _ (List.mem_of_getElem? hi) job rfl
    subst hjob
    exact touch (k' := orig.id) (fun e => hown hi e.symm) hf.touch ((own_erase_other hi (hown hi)).trans h.own)
  | finishPanic i x orig job w hi hf =>
    have hjob : job = orig.counted := hT.exec _ (List.mem_of_getElem? hi) job rfl
    subst hjob
    exact touch (k' := orig.id) (fun e => hown hi e.symm) hf.touch rfl

theorem waits_any (L : E.Lawful) {s : Sys D b.B} (hg : b.Good s.w.s) (hT : (b.snap E name s).Tidy) {j0 : Job D} {c : Nat}
    (h : (b.snap E name s).Waits k j0 c) (op : Op D O) (hop : NotAbout k op) :
    (b.snap E name (Sys.step E name b.B clk s op).1).Waits k j0 c ∨
    k ∈ (b.snap E name (Sys.step E name b.B clk s op).1).lists .running :=
  Impl.lift_any (Q := fun v op _ v' => v.Tidy → v.Waits k j0 c → NotAbout k op → v'.Waits k j0 c ∨ k ∈ v'.lists .running)
    (fun _ op hT h hop => waits_step L (tidy_iff.mp hT) h op hop) hg op hT h hop

/-- A waiting job survives turns and crashes until it is picked. -/
theorem waits_lives (L : E.Lawful) {P : Snap D → Op D O → Prop} {s s' : Sys D b.B} (hg : b.Good s.w.s)
    (hT : (b.snap E name s).Tidy) {j0 : Job D} {c : Nat} (h0 : (b.snap E name s).Waits k j0 c)
    (hP : ∀ v op, P v op → NotAbout k op ∧ k ∉ v.lists .running) (h : Lives b E name clk P s s') :
    b.Good s'.w.s ∧ (b.snap E name s').Tidy ∧
    ((b.snap E name s').Waits k j0 c ∨ k ∈ (b.snap E name s').lists .running) := by
  induction h with
  | refl => exact ⟨hg, hT, .inl h0⟩
  | turn op _ hp ih =>
    obtain ⟨h1, h2, h3⟩ := ih
    obtain ⟨hn, hr⟩ := hP _ _ hp
    exact ⟨good_step h1 op, tidy_step L h1 h2 op, waits_any L h1 h2 (h3.resolve_right hr) op hn⟩
  | crash op _ hp hc ih =>
    obtain ⟨h1, h2, h3⟩ := ih
    obtain ⟨hn, hr⟩ := hP _ _ hp
    have hw := h3.resolve_right hr
    obtain ⟨h4, h5, h6⟩ := crash_any (k := k) L h1 h2 hc
    refine ⟨h4, h5, ?_⟩
    cases h6 hn (.of_own hw.own _) with
    | spared hj hcn => exact .inl ⟨(hcn _).trans hw.count, by rw [hj]; exact hw.job, rfl⟩
    | half j ms hq hj hj' hcn =>
      refine .inl ⟨(hcn _).trans hw.count, .inr ⟨ms, ?_⟩, rfl⟩
      rcases hw.job with h | ⟨ms', h⟩
      · rw [hj] at h; cases h; exact hj'
      · rw [hj] at h; cases h; exact hj'
    | picked j ms hj hj' hq hr' hcn =>
      right
      rw [← List.count_pos_iff, hr']
      omega

/-! ## A job that nobody will pick -/

/-- A request about a Running job that is cut short has done nothing. -/
theorem crash_request {s : Sys D b.B} (hg : b.Good s.w.s) {j : Job D} (hj : (b.snap E name s).job k = some j)
    (hst : j.context.jobStatus = .running) {op : Op D O} {w : World b.B} (hc : Sys.CrashIn E name b.B clk s op w)
    (hn : (∃ j c, op = .enqueue j c ∧ j.id = k) ∨ op = .cancel k ∨ op = .retry k) :
    (b.snap E name (Sys.restart w : Sys D b.B)).job k = (b.snap E name s).job k ∧
    ∀ st, ((b.snap E name (Sys.restart w : Sys D b.B)).lists st).count k = ((b.snap E name s).lists st).count k := by
  obtain ⟨t, hr⟩ := Impl.rs_of_good hg
  obtain ⟨v, hv, hrv⟩ := crash_mirror hr hc
  rw [Impl.snap_eq hr] at hj
  rw [Impl.snap_eq hrv, Impl.snap_eq hr]
  have hj : view E t.w k = some j := hj
  have hnr : j.isRunning = true := by simp [Job.isRunning, hst]
  have hnd : j.isDone = false := by simp [Job.isDone, hst]
  have hnq : j.isQueued = false := by simp [Job.isQueued, hst]
  suffices e : v = t.w by subst e; exact ⟨rfl, fun _ => rfl⟩
  rcases hn with ⟨j', c, rfl, rfl⟩ | rfl | rfl
  · cases hv with
    | between => rfl
    | enqueue _ hv =>
      rcases crash_after_get hv with h | h
      · exact h
      · rw [hj] at h
        simp only [hnr, hnd, Bool.not_true, Bool.and_false, Bool.false_eq_true, if_false] at h
        exact h
  · cases hv with
    | between => rfl
    | cancel _ hv =>
      rcases crash_after_get hv with h | h
      · exact h
      · rw [hj] at h
        simp only [hnq, Bool.false_eq_true, if_false] at h
        exact h
  · cases hv with
    | between => rfl
    | retry _ hv =>
      rcases crash_after_get hv with h | h
      · exact h
      · rw [hj] at h
        simp only [hnd, Bool.false_eq_true, if_false] at h
        exact h

/-- A job stored as Running that is neither queued nor in flight stays so, through crashes too. -/
theorem adrift_lives (L : E.Lawful) {P : Snap D → Op D O → Prop} {s s' : Sys D b.B} (hg : b.Good s.w.s)
    (hT : (b.snap E name s).Tidy) {j : Job D} (hj : (b.snap E name s).job k = some j)
    (hst : j.context.jobStatus = .running) (hq : k ∉ (b.snap E name s).lists .queued)
    (ho : (b.snap E name s).own k = []) (h : Lives b E name clk P s s') :
    b.Good s'.w.s ∧ (b.snap E name s').Tidy ∧ (b.snap E name s').job k = some j ∧
    (b.snap E name s').own k = [] ∧
    ∀ st, ((b.snap E name s').lists st).count k = ((b.snap E name s).lists st).count k := by
  induction h with
  | refl => exact ⟨hg, hT, hj, ho, fun _ => rfl⟩
  | @turn s1 op _ _ ih =>
    obtain ⟨h1, h2, h3, h4, h5⟩ := ih
    have hq' : k ∉ (b.snap E name s1).lists .queued := by
      rw [← List.count_eq_zero, h5 .queued, List.count_eq_zero]; exact hq
    have h6 := adrift_running_step (clk := clk) L h1 h2 h3 hst hq' h4 op
    exact ⟨good_step h1 op, tidy_step L h1 h2 op, h6.job.trans h3, h6.own, fun st => (h6.counts st).trans (h5 st)⟩
  | @crash s1 op w _ _ hc ih =>
    obtain ⟨h1, h2, h3, h4, h5⟩ := ih
    have hq' : k ∉ (b.snap E name s1).lists .queued := by
      rw [← List.count_eq_zero, h5 .queued, List.count_eq_zero]; exact hq
    obtain ⟨h6, h7, h8⟩ := crash_any (k := k) L h1 h2 hc
    suffices hs : (b.snap E name (Sys.restart w : Sys D b.B)).job k = (b.snap E name s1).job k ∧
        ∀ st, ((b.snap E name (Sys.restart w : Sys D b.B)).lists st).count k = ((b.snap E name s1).lists st).count k from
      ⟨h6, h7, hs.1.trans h3, rfl, fun st => (hs.2 st).trans (h5 st)⟩
    rcases not_about_cases k op with hn | hn
    · cases h8 hn (.of_own h4 _) with
      | spared hj hcn => exact ⟨hj, hcn⟩
      | half j ms hq => exact absurd hq hq'
      | picked j ms hj hj' hq2 => rw [List.count_eq_zero.mpr hq'] at hq2; omega
    · exact crash_request h1 h3 hst hc hn

end
end AJ
