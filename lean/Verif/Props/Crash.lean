import Verif.Proofs.CrashEnd
import Verif.Proofs.RunEnd
import Verif.Proofs.Picked
import Verif.Props.Demo

/-!
# Crashes (C47–C50)

A crash may happen at any point of any turn (`Sys.CrashIn`); a new process then starts on what is left in the
backend (`Sys.restart`). `Lives` are the histories of turns, crashes and restarts.
-/

namespace AJ.Props
open W Prog

section
variable {D O : Type} {E : Env D} {name : Str} {clk : Nat → Time} {b : Impl} {k : Str}

private theorem solo_waits (L : E.Lawful) {s : Sys D b.B} (hs : Reach (O := O) b E name clk (Orderly k) s)
    {j : Job D} (hj : (b.snap E name s).job k = some j) (hq : j.context.jobStatus = .queued) :
    (b.snap E name s).Waits k j 1 ∧ k ∉ (b.snap E name s).lists .running := by
  have hsolo := solo_of L hs hj
  have hst : (b.snap E name s).status k = some .queued := by simp [Snap.status, hj, hq]
  refine ⟨⟨by rw [hsolo.queued, if_pos hst], .inl hj, hsolo.idle (by simp [hst])⟩, ?_⟩
  rw [← List.count_eq_zero, hsolo.running, if_neg (by simp [hst])]

/-- C47: a Queued job survives any number of turns of the work queue, crashes at any point of them and
restarts, as long as none of the requests is about it: it is picked, or it still has its entry in the queued
list and is readable, as it was or marked Running by a pick that was cut short. Missing for C47 as stated: the
queue may be full with jobs lost in the crash, and then it is never picked (`C47_blocked`, `C47_refuted`). -/
theorem C47_survives_partial (L : E.Lawful) {s s' : Sys D b.B} (hs : Reach (O := O) b E name clk (Orderly k) s)
    {j : Job D} (hj : (b.snap E name s).job k = some j) (hq : j.context.jobStatus = .queued)
    (h : Lives (O := O) b E name clk (fun v op => NotAbout k op ∧ k ∉ v.lists .running) s s') :
    let v' := b.snap E name s'
    k ∈ v'.lists .running ∨
    ((v'.lists .queued).count k = 1 ∧ k ∉ v'.inFlight ∧
      (v'.job k = some j ∨ ∃ ms, v'.job k = some { j with context := { j.context with
        jobStatus := .running, runAt := some ms } })) := by
  intro v'
  obtain ⟨h1, _⟩ := solo_waits L hs hj hq
  obtain ⟨_, _, h3⟩ := waits_lives L hs.good (tidy_reach L hs) h1 (fun _ _ h => h) h
  refine h3.symm.imp id fun h => ⟨h.count, ?_, h.job⟩
  intro hm
  obtain ⟨t, ht, e⟩ := List.mem_map.mp hm
  have : t ∈ v'.own k := List.mem_filter.mpr ⟨ht, by simpa using e⟩
  rw [h.own] at this; cases this

/-- C47: and the next tick that finds enough capacity for the whole queue starts it, if it is due. -/
theorem C47_picked_partial (L : E.Lawful) {s s' : Sys D b.B} (hs : Reach (O := O) b E name clk (Orderly k) s)
    {j : Job D} (hj : (b.snap E name s).job k = some j) (hq : j.context.jobStatus = .queued)
    (h : Lives (O := O) b E name clk (fun v op => NotAbout k op ∧ k ∉ v.lists .running) s s') :
    let v' := b.snap E name s'
    let v'' := b.snap E name (Sys.step E name b.B clk s' (.tick : Op D O)).1
    k ∉ v'.lists .running → s'.alive = true → (v'.lists .queued).length < 2 ^ 31 →
    (v'.lists .queued).length ≤ v'.free → (∀ i, v'.reads ≤ i → i < v''.reads → j.Due (clk i)) →
    k ∈ v''.inFlight ∧ k ∈ v''.lists .running ∧ v''.status k = some .running := by
  intro v' v'' hr ha hl hcap hdue
  obtain ⟨h1, _⟩ := solo_waits L hs hj hq
  obtain ⟨hg, hT, h3⟩ := waits_lives L hs.good (tidy_reach L hs) h1 (fun _ _ h => h) h
  exact (h3.resolve_right hr).picked L hg hT Nat.one_pos ha hl hcap hdue

private theorem idle_step {B : Backend} {s : Sys D B} (h : s.tasks = []) (op : Op D O) (ho : op ≠ .tick)
    (hc : ∀ c, op ≠ .config c) : (Sys.step E name B clk s op).1.tasks = [] ∧ (Sys.step E name B clk s op).1.cfg = s.cfg := by
  have hh : ∀ {α : Type} (p : Prog α) (d : Resp D) (f : Except Error α → Resp D),
      (Sys.handle B clk s p d f).1.tasks = [] ∧ (Sys.handle B clk s p d f).1.cfg = s.cfg := by
    intro α p d f
    unfold Sys.handle
    generalize p.run B clk s.w = q
    obtain ⟨r, w⟩ := q
    cases r <;> first | exact ⟨h, rfl⟩ | exact ⟨rfl, rfl⟩
  unfold Sys.step
  split
  swap
  · exact ⟨h, rfl⟩
  cases op with
  | enqueue j c => exact hh _ _ _
  | cancel id => exact hh _ _ _
  | get id => exact hh _ _ _
  | retry id => exact hh _ _ _
  | config c => exact absurd rfl (hc c)
  | tick => exact absurd rfl ho
  | start i => simp [h]
  | finish i x => simp [h]
  | userPanic i => simp [h]

private theorem length_of_nodup {ks l : List Str} (hn : ks.Nodup) (h : ∀ x ∈ ks, x ∈ l) : ks.length ≤ l.length :=
  (List.subperm_of_subset hn h).length_le

/-- C47, C49: if a process dies with as many executions running as the default capacity allows, then in the
processes after it no job is ever started (unless the configuration is changed after the restart). -/
theorem C47_blocked (L : E.Lawful) {s s' : Sys D b.B} (hg : b.Good s.w.s) (hT : (b.snap E name s).Tidy)
    (hts : s.tasks = []) (ks : List Str) (hn : ks.Nodup) (h20 : 20 ≤ ks.length) (hcfg : s.cfg.maxProcessingJobs ≤ ks.length)
    (hk : ∀ k ∈ ks, (b.snap E name s).status k = some .running ∧ k ∈ (b.snap E name s).lists .running ∧
      k ∉ (b.snap E name s).lists .queued)
    (h : Lives (O := O) b E name clk (fun _ op => ∀ c, op ≠ .config c) s s') :
    s'.tasks = [] := by
  suffices hh : s'.tasks = [] ∧ s'.cfg.maxProcessingJobs ≤ ks.length from hh.1
  have full : ∀ s1, Lives (O := O) b E name clk (fun _ op => ∀ c, op ≠ .config c) s s1 →
      b.Good s1.w.s ∧ (b.snap E name s1).Tidy ∧ ks.length ≤ ((b.snap E name s1).lists .running).length := by
    intro s1 h1
    have key : ∀ k ∈ ks, b.Good s1.w.s ∧ (b.snap E name s1).Tidy ∧ k ∈ (b.snap E name s1).lists .running := by
      intro k hkk
      obtain ⟨hst, hr, hq⟩ := hk k hkk
      obtain ⟨j, hj, hst⟩ := Option.map_eq_some_iff.mp hst
      obtain ⟨h2, h3, _, _, h4⟩ := adrift_lives L hg hT hj hst hq (by show s.tasks.filter _ = []; rw [hts]; rfl) h1
      refine ⟨h2, h3, ?_⟩
      rw [← List.count_pos_iff, h4, List.count_pos_iff]
      exact hr
    obtain ⟨k0, hk0⟩ := List.exists_mem_of_length_pos (l := ks) (by omega)
    exact ⟨(key k0 hk0).1, (key k0 hk0).2.1, length_of_nodup hn fun x hx => (key x hx).2.2⟩
  induction h with
  | refl => exact ⟨hts, hcfg⟩
  | @turn s1 op h1 hp ih =>
    obtain ⟨ih1, ih2⟩ := ih
    by_cases ho : op = .tick
    · subst ho
      obtain ⟨h2, h3, h4⟩ := full s1 h1
      by_cases ha : s1.alive = true
      · rcases tick_facts_any (O := O) (clk := clk) b L s1 h2 h3.keyed ha with ⟨st, hf, _⟩ | ⟨hd, _⟩
        · have hcap := hf.ticked.capacity
          have h5 : (b.snap E name s1).free = 0 := by
            unfold Snap.free
            have : (b.snap E name s1).cfg = s1.cfg := rfl
            rw [this]; omega
          rw [h5] at hcap
          have : st = [] := List.length_eq_zero_iff.mp (by omega)
          subst this
          have h6 := hf.ticked.tasks
          have h7 := hf.ticked.cfg
          refine ⟨?_, ?_⟩
          · have h6 : (Sys.step E name b.B clk s1 (.tick : Op D O)).1.tasks = s1.tasks ++ [] := h6
            rw [h6, ih1]; rfl
          · have h7 : (Sys.step E name b.B clk s1 (.tick : Op D O)).1.cfg = s1.cfg := h7
            rw [h7]; exact ih2
        · have e1 := congrArg Snap.tasks hd
          have e2 := congrArg Snap.cfg hd
          exact ⟨e1, by rw [show (Sys.step E name b.B clk s1 (.tick : Op D O)).1.cfg = s1.cfg from e2]; exact ih2⟩
      · rw [dead_step (by simpa using ha)]; exact ⟨ih1, ih2⟩
    · obtain ⟨h2, h3⟩ := idle_step (E := E) (name := name) (clk := clk) ih1 op ho hp
      exact ⟨h2, by rw [h3]; exact ih2⟩
  | crash op h1 hp hc ih => exact ⟨rfl, h20⟩

/-! ## C48 -/

private theorem submit_crash_b {s : Sys D b.B} (hg : b.Good s.w.s) {job : Job D} {cfg : EnqueueConfig}
    (hnew : (b.snap E name s).job job.id = none) {w : World b.B}
    (hc : Sys.CrashIn E name b.B clk s (.enqueue job cfg : Op D O) w) :
    b.Good w.s ∧ (((b.snap E name (Sys.restart w : Sys D b.B)).lists .queued).count job.id =
        ((b.snap E name s).lists .queued).count job.id ∧ (b.snap E name (Sys.restart w : Sys D b.B)).job job.id = none ∨
      ((b.snap E name (Sys.restart w : Sys D b.B)).lists .queued).count job.id =
        ((b.snap E name s).lists .queued).count job.id + 1 ∧
      ((b.snap E name (Sys.restart w : Sys D b.B)).job job.id = none ∨
        ∃ ms, (b.snap E name (Sys.restart w : Sys D b.B)).job job.id = E.encdec (job.asQueued ms))) := by
  obtain ⟨t, hr⟩ := Impl.rs_of_good hg
  obtain ⟨v, h1, h2⟩ := crash_mirror hr hc
  rw [Impl.snap_eq hr] at hnew ⊢
  rw [Impl.snap_eq h2]
  refine ⟨⟨_, h2.w.s⟩, ?_⟩
  have hnew : view E t.w job.id = none := hnew
  have hcnt : (Impl.spec.snap E name (Sys.restart v : Sys D SpecB)).lists .queued = lst name v .queued := rfl
  have hjob : (Impl.spec.snap E name (Sys.restart v : Sys D SpecB)).job job.id = view E v job.id := rfl
  have hcnt' : (Impl.spec.snap E name t).lists .queued = lst name t.w .queued := rfl
  rw [hcnt, hjob, hcnt']
  cases h1 with
  | between => exact .inl ⟨rfl, hnew⟩
  | enqueue ha h =>
    rcases crash_submit h with rfl | ⟨_, h⟩ | ⟨ex, h, _⟩
    · exact .inl ⟨rfl, hnew⟩
    · cases h with
      | nothing hl hv => exact .inl ⟨by rw [hl], by rw [hv]; exact hnew⟩
      | pushed hl hv =>
        refine .inr ⟨by rw [hl, if_pos rfl, List.count_cons_self], .inl ?_⟩
        rw [hv]; exact hnew
      | all ms hl hv =>
        refine .inr ⟨by rw [hl, if_pos rfl, List.count_cons_self], .inr ⟨ms, ?_⟩⟩
        rw [hv, upd_same]
    · rw [hnew] at h; cases h

/-- C48: the process dies at any point of the submission of a new job, and the job is submitted again after the
restart. The second submission returns `Ok` and the job is stored as Queued. It is in the queued list once,
unless the crash fell between adding the id to the list and storing the job; then it is there twice. Missing
for C48 as stated: that case (`C48_duplicate`), and submissions of a job that exists already (`C48_lost`). -/
theorem C48_resubmit_partial (L : E.Lawful) (s : Sys D b.B) (hg : b.Good s.w.s) (job job2 : Job D) (cfg cfg2 : EnqueueConfig)
    (hid : job2.id = job.id) (he : E.Encodable job) (he2 : E.Encodable job2)
    (hnew : (b.snap E name s).job job.id = none) (hq : job.id ∉ (b.snap E name s).lists .queued) {w : World b.B}
    (hc : Sys.CrashIn E name b.B clk s (.enqueue job cfg : Op D O) w) :
    let v1 := b.snap E name (Sys.restart w : Sys D b.B)
    let p := Sys.step E name b.B clk (Sys.restart w) (.enqueue job2 cfg2 : Op D O)
    let v2 := b.snap E name p.1
    p.2 = .unit (.ok ()) ∧
    (cfg2.overrideData = true → job2.context.jobStatus = .queued → v2.status job.id = some .queued) ∧
    ((v1.job job.id = none ∧ job.id ∈ v1.lists .queued ∧ (v2.lists .queued).count job.id = 2) ∨
     ((v1.job job.id ≠ none ∨ job.id ∉ v1.lists .queued) ∧ (v2.lists .queued).count job.id = 1)) := by
  intro v1 p v2
  obtain ⟨hg1, h1⟩ := submit_crash_b hg hnew hc
  have hq0 : ((b.snap E name s).lists .queued).count job.id = 0 := List.count_eq_zero.mpr hq
  rw [hq0] at h1
  have h1 : (v1.lists .queued).count job.id = 0 ∧ v1.job job.id = none ∨ (v1.lists .queued).count job.id = 0 + 1 ∧
    (v1.job job.id = none ∨ ∃ ms, v1.job job.id = E.encdec (job.asQueued ms)) := h1
  obtain ⟨h2, h3, h4, h5⟩ := submit_any (O := O) (name := name) (clk := clk) (s := (Sys.restart w : Sys D b.B)) L hg1 rfl job2 cfg2
  refine ⟨h2, ?_, ?_⟩
  · intro hov hst
    show Option.map _ (v2.job job.id) = _
    by_cases hv : v1.job job.id = none
    · have hv : (b.snap E name (Sys.restart w : Sys D b.B)).job job2.id = none := by rw [hid]; exact hv
      obtain ⟨_, _, _, _, h6⟩ := h4 (.inl hv)
      rw [← hid, show v2.job job2.id = _ from h6 he2]
      rfl
    · have hex : ∃ ms, v1.job job.id = E.encdec (job.asQueued ms) := by
        rcases h1 with ⟨_, h⟩ | ⟨_, h | h⟩
        · exact absurd h hv
        · exact absurd h hv
        · exact h
      obtain ⟨ms, hms⟩ := hex
      rw [Env.Lawful.encdec_enc (L := L) (Env.Lawful.congr' (j := job) (j' := job.asQueued ms) L rfl rfl he)] at hms
      obtain ⟨_, _, _, _, h7⟩ := h5 _ (by rw [hid]; exact hms) (fun h => by
        have := h.1; simp [Job.norm, JobContext.norm, JobStatus.Done] at this)
      rw [← hid, show v2.job job2.id = _ from h7 hov (by simp [Job.norm, JobContext.norm]) he2]
      simp [Job.norm, JobContext.norm, hst]
  · by_cases hv : v1.job job.id = none
    · have hv' : (b.snap E name (Sys.restart w : Sys D b.B)).job job2.id = none := by rw [hid]; exact hv
      obtain ⟨h6, _⟩ := h4 (.inl hv')
      rw [hid] at h6
      have h6 : v2.lists .queued = job.id :: v1.lists .queued := h6
      rcases h1 with ⟨h, _⟩ | ⟨h, _⟩
      · exact .inr ⟨.inr (List.count_eq_zero.mp h), by rw [h6, List.count_cons_self, h]⟩
      · exact .inl ⟨hv, by rw [← List.count_pos_iff, h]; omega, by rw [h6, List.count_cons_self, h]⟩
    · have hex : ∃ ms, v1.job job.id = E.encdec (job.asQueued ms) := by
        rcases h1 with ⟨_, h⟩ | ⟨_, h | h⟩
        · exact absurd h hv
        · exact absurd h hv
        · exact h
      obtain ⟨ms, hms⟩ := hex
      rw [Env.Lawful.encdec_enc (L := L) (Env.Lawful.congr' (j := job) (j' := job.asQueued ms) L rfl rfl he)] at hms
      obtain ⟨h6, _⟩ := h5 _ (by rw [hid]; exact hms) (fun h => by
        have := h.1; simp [Job.norm, JobContext.norm, JobStatus.Done] at this)
      have h6 : v2.lists = v1.lists := h6
      refine .inr ⟨.inl hv, ?_⟩
      rw [h6]
      rcases h1 with ⟨_, h⟩ | ⟨h, _⟩
      · exact absurd h hv
      · exact h

/-- C48 is false: every submission of a new job has a moment at which a crash leads to two queued entries when
the job is submitted again. -/
theorem C48_duplicate (L : E.Lawful) (s : Sys D b.B) (hg : b.Good s.w.s) (ha : s.alive = true) (job : Job D) (cfg : EnqueueConfig)
    (hnew : (b.snap E name s).job job.id = none) (hq : job.id ∉ (b.snap E name s).lists .queued) :
    ∃ w, Sys.CrashIn E name b.B clk s (.enqueue job cfg : Op D O) w ∧
      ((b.snap E name (Sys.step E name b.B clk (Sys.restart w) (.enqueue job cfg : Op D O)).1).lists .queued).count job.id = 2 := by
  obtain ⟨t, hr⟩ := Impl.rs_of_good hg
  rw [Impl.snap_eq hr] at hnew hq
  have hnew : view E t.w job.id = none := hnew
  have hq : job.id ∉ lst name t.w .queued := hq
  have hcr : Sys.CrashIn E name SpecB clk t (.enqueue job cfg : Op D O) (setL name .queued (job.id :: lst name t.w .queued) t.w) := by
    refine .enqueue (by rw [← hr.alive]; exact ha) ?_
    refine Crash.right (run_getFromStorage E clk job.id t.w) ?_
    rw [hnew]
    exact Crash.right (run_push? name clk .queued job.id t.w) (Crash.refl _ _)
  obtain ⟨w, h1, h2⟩ := crash_mirror' hr hcr
  refine ⟨w, h1, ?_⟩
  obtain ⟨_, _, h4, _⟩ := submit_any (O := O) (name := name) (clk := clk) (E := E) (s := (Sys.restart w : Sys D b.B)) L ⟨_, h2.w.s⟩ rfl job cfg
  obtain ⟨h5, _⟩ := h4 (.inl (by rw [Impl.snap_eq h2]; exact hnew))
  rw [h5, List.count_cons_self, Impl.snap_eq h2]
  show (lst name (setL name .queued (job.id :: lst name t.w .queued) t.w) .queued).count job.id + 1 = 2
  rw [lst_setL_same, List.count_cons_self, List.count_eq_zero.mpr hq]

/-- C48 is false in the other direction too: `run()` of a done job has a moment at which a crash makes the job
Queued without an entry in the queued list; submitting it again does not help, and it never runs, as long as it
is not cancelled first. -/
theorem C48_lost (L : E.Lawful) (s : Sys D b.B) (hs : Reach (O := O) b E name clk (Orderly k) s) (ha : s.alive = true)
    (job : Job D) (hid : job.id = k) (he : E.Encodable job) (hst : job.context.jobStatus = .queued)
    {ex : Job D} (hex : (b.snap E name s).job k = some ex) (hd : ex.context.jobStatus.Done) :
    ∃ w, Sys.CrashIn E name b.B clk s (.enqueue job .newReRun : Op D O) w ∧
      ∀ s', Lives (O := O) b E name clk (fun _ op => NoRescue E k op) (Sys.restart w) s' →
        k ∉ (b.snap E name s').lists .queued ∧ k ∉ (b.snap E name s').inFlight := by
  subst hid
  have hsolo := solo_of L hs hex
  have hT := tidy_reach L hs
  have hnq : job.id ∉ (b.snap E name s).lists .queued := by
    rw [← List.count_eq_zero, hsolo.queued, if_neg]
    simp only [Snap.status, hex, Option.map_some]
    rcases hd with e | e | e <;> rw [e] <;> simp
  obtain ⟨t, hr⟩ := Impl.rs_of_good hs.good
  have hex' : view E t.w job.id = some ex := by rw [Impl.snap_eq hr] at hex; exact hex
  have hnq' : job.id ∉ lst name t.w .queued := by rw [Impl.snap_eq hr] at hnq; exact hnq
  have hnr : ex.isRunning = false := by rcases hd with e | e | e <;> simp [Job.isRunning, e]
  have hdn : ex.isDone = true := by rcases hd with e | e | e <;> simp [Job.isDone, e]
  have hcr : Sys.CrashIn E name SpecB clk t (.enqueue job .newReRun : Op D O) (upsert E job.id job t.w) := by
    refine .enqueue (by rw [← hr.alive]; exact ha) ?_
    refine Crash.right (run_getFromStorage E clk job.id t.w) ?_
    rw [hex']
    simp only [hnr, EnqueueConfig.newReRun, Bool.not_false, Bool.and_true, if_true, hdn]
    exact Crash.right (run_upsert E clk job.id job t.w) (Crash.refl _ _)
  obtain ⟨w, h1, h2⟩ := crash_mirror' hr hcr
  refine ⟨w, h1, fun s' hl => ?_⟩
  obtain ⟨h3, h4, _⟩ := crash_any (k := job.id) L hs.good hT h1
  have hstr : Stranded job.id (b.snap E name (Sys.restart w : Sys D b.B)) := by
    rw [Impl.snap_eq h2]
    refine ⟨⟨job.norm L.normD, ?_, .inl ?_⟩, hnq', rfl⟩
    · show view E (upsert E job.id job t.w) job.id = _
      rw [view_upsert, upd_same]
      exact Env.Lawful.encdec_enc (L := L) he
    · simpa [Job.norm, JobContext.norm] using hst
  obtain ⟨_, _, h5⟩ := stranded_lives L h3 h4 hstr (fun _ _ h => h) hl
  refine ⟨h5.queued, fun hm => ?_⟩
  obtain ⟨u, hu, e⟩ := List.mem_map.mp hm
  have : u ∈ (b.snap E name s').own job.id := List.mem_filter.mpr ⟨hu, by simpa using e⟩
  rw [h5.own] at this; cases this

/-! ## C49 -/

private theorem not_flying {v : Snap D} (h : v.own k = []) : k ∉ v.inFlight := by
  intro hm
  obtain ⟨u, hu, e⟩ := List.mem_map.mp hm
  have : u ∈ v.own k := List.mem_filter.mpr ⟨hu, by simpa using e⟩
  rw [h] at this; cases this

/-- C49 is false, for every job: when the process dies while a job is Running, in any turn but the last one of
its execution, the job is never run again. It stays Running, nothing that is asked of the work queue changes
that, and its slot in the running list is never released. -/
theorem C49_refuted (L : E.Lawful) {s s' : Sys D b.B} (hs : Reach (O := O) b E name clk (Orderly k) s)
    {j : Job D} (hj : (b.snap E name s).job k = some j) (hst : j.context.jobStatus = .running)
    {op : Op D O} (hop : OtherTask k (b.snap E name s) op) {w : World b.B} (hc : Sys.CrashIn E name b.B clk s op w)
    (h : Lives (O := O) b E name clk (fun _ _ => True) (Sys.restart w) s') :
    let v' := b.snap E name s'
    v'.job k = some j ∧ k ∉ v'.inFlight ∧ k ∉ v'.lists .queued ∧ (v'.lists .running).count k = 1 := by
  intro v'
  have hsolo := solo_of L hs hj
  have hT := tidy_reach L hs
  have hstat : (b.snap E name s).status k = some .running := by simp [Snap.status, hj, hst]
  have hq0 : ((b.snap E name s).lists .queued).count k = 0 := by rw [hsolo.queued, if_neg (by simp [hstat])]
  have hr1 : ((b.snap E name s).lists .running).count k = 1 := by rw [hsolo.running, if_pos hstat]
  obtain ⟨h1, h2, h3⟩ := crash_any (k := k) L hs.good hT hc
  have key : (b.snap E name (Sys.restart w : Sys D b.B)).job k = some j ∧
      ∀ st, ((b.snap E name (Sys.restart w : Sys D b.B)).lists st).count k = ((b.snap E name s).lists st).count k := by
    rcases not_about_cases k op with hn | hn
    · cases h3 hn hop with
      | spared hj' hcn => exact ⟨hj'.trans hj, hcn⟩
      | half j' ms hq => exact absurd hq (List.count_eq_zero.mp hq0)
      | picked j' ms hj hj' hq2 => rw [hq0] at hq2; omega
    · have e := crash_request hs.good hj hst hc hn
      exact ⟨e.1.trans hj, e.2⟩
  obtain ⟨_, _, h4, h5, h6⟩ := adrift_lives L h1 h2 key.1 hst
    (by rw [← List.count_eq_zero, key.2, hq0]) rfl h
  refine ⟨h4, not_flying h5, ?_, ?_⟩
  · rw [← List.count_eq_zero]; show (v'.lists .queued).count k = 0; rw [h6, key.2, hq0]
  · show (v'.lists .running).count k = 1; rw [h6, key.2, hr1]

/-- C49: a crash inside a tick before the job was moved to the running list does no harm. The job still has
its entry, and after the restart the first tick with enough capacity starts it if it is due. Missing for C49
as stated: crashes at any later moment of the run (`C49_refuted`). -/
theorem C49_before_move_partial (L : E.Lawful) {s : Sys D b.B} (hs : Reach (O := O) b E name clk (Orderly k) s)
    {j : Job D} (hj : (b.snap E name s).job k = some j) (hq : j.context.jobStatus = .queued) {w : World b.B}
    (hc : Sys.CrashIn E name b.B clk s (.tick : Op D O) w) :
    let v1 := b.snap E name (Sys.restart w : Sys D b.B)
    let v2 := b.snap E name (Sys.step E name b.B clk (Sys.restart w) (.tick : Op D O)).1
    k ∉ v1.lists .running → (v1.lists .queued).count k = 1 ∧
    ((v1.lists .queued).length < 2 ^ 31 → (v1.lists .queued).length ≤ v1.free →
      (∀ i, v1.reads ≤ i → i < v2.reads → j.Due (clk i)) → k ∈ v2.inFlight) := by
  intro v1 v2 hr
  obtain ⟨_, h0⟩ := solo_waits L hs hj hq
  have hl : Lives (O := O) b E name clk (fun v op => NotAbout k op ∧ k ∉ v.lists .running) s (Sys.restart w) :=
    .crash .tick .refl ⟨⟨fun _ _ e => (by cases e), (by intro e; cases e), (by intro e; cases e)⟩, h0⟩ hc
  refine ⟨((C47_survives_partial L hs hj hq hl).resolve_left hr).1, fun h1 h2 h3 => ?_⟩
  exact (C47_picked_partial L hs hj hq hl hr rfl h1 h2 h3).1

/-! ## C50 -/

/-- C50: what a crash in the turn that records the end of a run can leave behind, exactly. Nothing is recorded
and the job is still in the running list; or everything is; or the job is in neither list, with its old or its
new value stored; or, if the run failed, the job is stored as Failed and still in the running list. In every
case the job is readable if the result of the run can be serialised, and no other job is touched. Missing for C50 as stated: the two moments at which the
job is in neither list do occur whenever the job is put back into the queue (`C50_refuted`). -/
theorem C50_torn_partial (L : E.Lawful) {s : Sys D b.B} (hs : Reach (O := O) b E name clk (Orderly k) s)
    (ha : s.alive = true) {i : Nat} {orig job : Job D} (ht : (b.snap E name s).tasks[i]? = some ⟨orig, some job⟩) (hid : orig.id = k)
    (x : Executable D O) {w : World b.B} (hc : Sys.CrashIn E name b.B clk s (.finish i x) w) :
    let v := b.snap E name s
    let vf := b.snap E name (Sys.step E name b.B clk s (.finish i x)).1
    let v' := b.snap E name (Sys.restart w : Sys D b.B)
    v.Torn k vf v' ∧ (x.Serialisable E job → ∃ j, v'.job k = some j) ∧
    ∀ id, id ≠ k → v'.job id = v.job id ∧ ∀ st, (v'.lists st).count id = (v.lists st).count id := by
  intro v vf v'
  obtain ⟨hj, hst, _, _, hjob⟩ := reach_task L hs ha ht hid
  have hjob := hjob job rfl
  have hst' : job.context.jobStatus = .running := by rw [hjob]; exact hst
  have hjid : job.id = k := by rw [hjob]; exact hid
  have htorn := torn_any hs.good ht hst' x hc
  rw [hjid] at htorn
  have hends := run_ends (O := O) (name := name) (clk := clk) L s hs.good ha ht hst' (x := x)
  have hvf : (x.Serialisable E job → ∃ j, vf.job k = some j) ∧ ∀ id, id ≠ k → vf.job id = v.job id ∧
      ∀ st, (vf.lists st).count id = (v.lists st).count id := by
    rcases hends with ⟨h, _⟩ | ⟨_, j', h, _⟩ | ⟨hne', st', h, _⟩
    · exact ⟨fun _ => ⟨orig, by rw [show vf.job = v.job from h.jobs]; exact hj⟩, fun id _ =>
        ⟨by rw [show vf.job = v.job from h.jobs], fun st => by rw [show vf.lists = v.lists from h.lists]⟩⟩
    · refine ⟨fun _ => ⟨j', by rw [← hjid]; exact h.stored⟩, fun id hne => ⟨h.jobs id (by rw [hjid]; exact hne), fun st => ?_⟩⟩
      by_cases h1 : st = .running
      · subst h1
        rw [show vf.lists .running = _ from h.running, List.count_filter (by simp [hjid, hne])]
      · by_cases h2 : st = j'.context.jobStatus
        · subst h2
          rw [show vf.lists _ = _ from h.target, List.count_cons_of_ne (by rw [hjid]; exact hne.symm)]
        · rw [show vf.lists st = _ from h.lists st h1 h2]
    · refine ⟨fun hx => absurd (hx.leaves _) hne', fun id hne => ⟨h.jobs id (by rw [hjid]; exact hne), fun st => ?_⟩⟩
      by_cases h1 : st = .running
      · subst h1
        rw [show vf.lists .running = _ from h.running, List.count_filter (by simp [hjid, hne])]
      · by_cases h2 : st = st'
        · subst h2
          rw [show vf.lists _ = _ from h.target, List.count_cons_of_ne (by rw [hjid]; exact hne.symm)]
        · rw [show vf.lists st = _ from h.lists st h1 h2]
  have hdrop : ∀ (l : JobStatus → List Str), (∀ st, l st = if st = .running then (v.lists .running).filter (· ≠ k) else v.lists st) →
      ∀ id, id ≠ k → ∀ st, (l st).count id = (v.lists st).count id := by
    intro l hl id hne st
    rw [hl]
    split
    · next h => rw [h, List.count_filter (by simp [hne])]
    · rfl
  refine ⟨htorn, fun hx => ?_, fun id hne => ?_⟩
  · cases htorn with
    | nothing _ h => exact ⟨orig, by show v'.job k = _; rw [h]; exact hj⟩
    | removed _ h => exact ⟨orig, by show v'.job k = _; rw [h]; exact hj⟩
    | unpushed _ h => obtain ⟨j, hj⟩ := hvf.1 hx; exact ⟨j, by show v'.job k = _; rw [h]; exact hj⟩
    | stored _ h => obtain ⟨j, hj⟩ := hvf.1 hx; exact ⟨j, by show v'.job k = _; rw [h]; exact hj⟩
    | all _ h => obtain ⟨j, hj⟩ := hvf.1 hx; exact ⟨j, by show v'.job k = _; rw [h]; exact hj⟩
  · cases htorn with
    | nothing hl h => exact ⟨by rw [show v'.job = _ from h], fun st => by rw [show v'.lists = _ from hl]⟩
    | removed hl h => exact ⟨by rw [show v'.job = _ from h], hdrop _ hl id hne⟩
    | unpushed hl h => exact ⟨by rw [show v'.job = _ from h]; exact (hvf.2 id hne).1, hdrop _ hl id hne⟩
    | stored hl h => exact ⟨by rw [show v'.job = _ from h]; exact (hvf.2 id hne).1, fun st => by rw [show v'.lists = _ from hl]⟩
    | all hl h => exact ⟨by rw [show v'.job = _ from h]; exact (hvf.2 id hne).1, fun st => by
        rw [show v'.lists = _ from hl]; exact (hvf.2 id hne).2 st⟩

/-- C50 is false whenever the end of a run puts the job back into the queue (a retry or the next cron slot).
There is a moment at which a crash leaves the job Running but in neither list: it stays so for ever, whatever
is asked of the work queue. And there is a moment at which a crash leaves it Queued but in neither list: nobody
will pick it unless it is cancelled first. -/
theorem C50_refuted (L : E.Lawful) {s : Sys D b.B} (hs : Reach (O := O) b E name clk (Orderly k) s)
    (ha : s.alive = true) {i : Nat} {orig job : Job D} (ht : (b.snap E name s).tasks[i]? = some ⟨orig, some job⟩) (hid : orig.id = k)
    (x : Executable D O)
    (hq : (b.snap E name (Sys.step E name b.B clk s (.finish i x)).1).status k = some .queued) :
    (∃ w, Sys.CrashIn E name b.B clk s (.finish i x) w ∧
      ∀ s', Lives (O := O) b E name clk (fun _ _ => True) (Sys.restart w) s' →
        let v' := b.snap E name s'
        v'.status k = some .running ∧ k ∉ v'.lists .queued ∧ k ∉ v'.lists .running ∧ k ∉ v'.inFlight) ∧
    (∃ w, Sys.CrashIn E name b.B clk s (.finish i x) w ∧
      (b.snap E name (Sys.restart w : Sys D b.B)).status k = some .queued ∧
      k ∉ (b.snap E name (Sys.restart w : Sys D b.B)).lists .running ∧
      ∀ s', Lives (O := O) b E name clk (fun _ op => NoRescue E k op) (Sys.restart w) s' →
        let v' := b.snap E name s'
        k ∉ v'.lists .queued ∧ k ∉ v'.inFlight) := by
  obtain ⟨hj, hst, _, _, hjob⟩ := reach_task L hs ha ht hid
  have hjob := hjob job rfl
  have hst' : job.context.jobStatus = .running := by rw [hjob]; exact hst
  have hjid : job.id = k := by rw [hjob]; exact hid
  have hsolo := solo_of L hs hj
  have hT := tidy_reach L hs
  have hstat : (b.snap E name s).status k = some .running := by simp [Snap.status, hj, hst]
  have hnq : k ∉ (b.snap E name s).lists .queued := by
    rw [← List.count_eq_zero, hsolo.queued, if_neg (by simp [hstat])]
  have hin : k ∈ (b.snap E name (Sys.step E name b.B clk s (.finish i x)).1).lists .queued := by
    obtain ⟨j', hj', _⟩ := Option.map_eq_some_iff.mp hq
    have h2 := solo_of (b := b) (O := O) (name := name) (clk := clk) L (Reach.step (.finish i x) hs (by intro j c e; cases e)) hj'
    rw [← List.count_pos_iff, h2.queued, if_pos hq]
    omega
  obtain ⟨t, hr⟩ := Impl.rs_of_good hs.good
  obtain ⟨_, hr'⟩ := Impl.rs_step (E := E) (name := name) (clk := clk) hr (.finish i x)
  rw [Impl.snap_eq hr'] at hin hq
  rw [Impl.snap_eq hr] at hnq ht hj
  have ha' : t.alive = true := by rw [← hr.alive]; exact ha
  have ht : t.tasks[i]? = some ⟨orig, some job⟩ := ht
  have hnq : k ∉ lst name t.w .queued := hnq
  have hj : view E t.w k = some orig := hj
  have hwf := step_finish_w (E := E) (name := name) (clk := clk) (x := x) ha' ht
  have hin : k ∈ lst name (Sys.step E name SpecB clk t (.finish i x)).1.w .queued := hin
  have hq : (view E (Sys.step E name SpecB clk t (.finish i x)).1.w k).map (·.context.jobStatus) = some .queued := hq
  rw [hwf] at hin hq
  obtain ⟨⟨w1, hc1, hl1, hv1⟩, ⟨w2, hc2, hl2, hv2⟩⟩ := torn_points (E := E) (x := x) (orig := orig) hst' (by rw [hjid]; exact hnq) (by rw [hjid]; exact hin)
  rw [hjid] at hl1 hl2
  constructor
  · obtain ⟨w, h1, h2⟩ := crash_mirror' hr (.finish ha' ht hc1)
    refine ⟨w, h1, fun s' hl => ?_⟩
    obtain ⟨h3, h4, _⟩ := crash_any (k := k) L hs.good hT h1
    have e := Impl.snap_eq (E := E) (name := name) h2
    have hl1' : ∀ st, (b.snap E name (Sys.restart w : Sys D b.B)).lists st = lst name w1 st := fun st => by rw [e]; rfl
    have hv1' : (b.snap E name (Sys.restart w : Sys D b.B)).job k = some orig := by
      rw [e]; show view E w1 k = _; rw [hv1]; exact hj
    have hqw : k ∉ (b.snap E name (Sys.restart w : Sys D b.B)).lists .queued := by
      rw [hl1', hl1]; exact hnq
    have hrw : k ∉ (b.snap E name (Sys.restart w : Sys D b.B)).lists .running := by
      rw [hl1', hl1]; simp
    obtain ⟨_, _, h5, h6, h7⟩ := adrift_lives L h3 h4 hv1' hst hqw rfl hl
    refine ⟨by simp [Snap.status, h5, hst], ?_, ?_, not_flying h6⟩
    · rw [← List.count_eq_zero, h7, List.count_eq_zero]; exact hqw
    · rw [← List.count_eq_zero, h7, List.count_eq_zero]; exact hrw
  · obtain ⟨w, h1, h2⟩ := crash_mirror' hr (.finish ha' ht hc2)
    obtain ⟨h3, h4, _⟩ := crash_any (k := k) L hs.good hT h1
    have e := Impl.snap_eq (E := E) (name := name) h2
    obtain ⟨j2, hj2, hs2⟩ := Option.map_eq_some_iff.mp hq
    have hl2' : ∀ st, (b.snap E name (Sys.restart w : Sys D b.B)).lists st = lst name w2 st := fun st => by rw [e]; rfl
    have hv2' : (b.snap E name (Sys.restart w : Sys D b.B)).job k = some j2 := by
      rw [e]; show view E w2 k = _; rw [hv2]; exact hj2
    have hqw : k ∉ (b.snap E name (Sys.restart w : Sys D b.B)).lists .queued := by
      rw [hl2', hl2]; exact hnq
    refine ⟨w, h1, by simp [Snap.status, hv2', hs2], by rw [hl2', hl2]; simp, fun s' hl => ?_⟩
    obtain ⟨_, _, h5⟩ := stranded_lives L h3 h4 ⟨⟨j2, hv2', .inl hs2⟩, hqw, rfl⟩ (fun _ _ h => h) hl
    exact ⟨h5.queued, not_flying h5.own⟩

end

/-! ## Concrete cases -/

section
open Demo

/-- The process dies after `n` steps of one more turn. -/
def cut (b : Impl) (ops : List (Op Int Unit)) (op : Op Int Unit) (n : Nat) : World b.B :=
  let s := on b ops
  match op with
  | .enqueue j c => (WorkQueue.runWithConfig E c!"print" j c).upto b.B clk n s.w
  | .tick => (WorkQueue.pickJobsToProcess E c!"print" (Sys.tickFuel c!"print" b.B s.w.s) s.cfg).upto b.B clk n s.w
  | .finish i x => match s.tasks[i]? with
    | some ⟨o, some j⟩ => (WorkQueue.taskFinish E c!"print" x o j).upto b.B clk n s.w
    | _ => s.w
  | _ => s.w

theorem cut_crash (b : Impl) (ops : List (Op Int Unit)) (ha : (on b ops).alive = true) (op : Op Int Unit) (n : Nat) :
    Sys.CrashIn E c!"print" b.B clk (on b ops) op (cut b ops op n) := by
  unfold cut
  cases op with
  | enqueue j c => exact .enqueue ha (Crash.upto _ _ _)
  | tick => exact .tick ha (Crash.upto _ _ _)
  | finish i x =>
    simp only
    split
    · next o j h => exact .finish ha h (Crash.upto _ _ _)
    · exact .between _
  | _ => exact .between _

/-- The process after that. -/
def reborn (ops : List (Op Int Unit)) (op : Op Int Unit) (n : Nat) : Sys Int InMem :=
  Sys.restart (B := InMem) (cut Impl.memory ops op n)

/-- What can be observed of a process. -/
def look (s : Sys Int InMem) : Snap Int := Impl.memory.snap E c!"print" s

/-- A process goes on. -/
def further (s : Sys Int InMem) (ops : List (Op Int Unit)) : Sys Int InMem := (Sys.runOps E c!"print" InMem clk s ops).1

/-- Job `a` waits. -/
def waiting : List (Op Int Unit) := [.enqueue (job c!"a") .newReRun]

/-- The first execution of `a` is about to fail and will be retried. -/
def midRun : List (Op Int Unit) :=
  [.enqueue (flaky { maxRetries := some 2, retriedTimes := 0, strategy := .interval nsPerSec }) .newReRun, .tick, .start 0]

/-- A pick cut short: `a` is stored as Running but still in the queued list; the next process picks it. -/
example : (look (reborn waiting .tick 8)).status c!"a" = some .running ∧
    (look (reborn waiting .tick 8)).lists .queued = [c!"a"] ∧
    (look (further (reborn waiting .tick 8) [.tick])).inFlight = [c!"a"] := by
  decide +kernel

/-- The hypotheses of `C47_survives_partial`, with a crash in a tick and a turn after it. -/
example (b : Impl) : Reach (O := Unit) b E c!"print" clk (Orderly c!"a") (on b waiting) ∧
    (b.snap E c!"print" (on b waiting)).status c!"a" = some .queued ∧
    Lives (O := Unit) b E c!"print" clk (fun v op => NotAbout c!"a" op ∧ c!"a" ∉ v.lists .running) (on b waiting)
      (Sys.restart (cut b waiting .tick 8)) := by
  refine ⟨(okAll.on (by decide +kernel) b).orderly lawful, by rw [see_on]; decide +kernel, .crash .tick .refl ⟨⟨fun _ _ e => (by cases e), (by intro e; cases e), (by intro e; cases e)⟩, ?_⟩ (cut_crash b _ ?_ _ _)⟩
  · rw [see_on]; decide +kernel
  · show (b.snap E c!"print" (on b waiting)).alive = true
    rw [see_on]; decide +kernel

/-- The hypotheses of `C47_picked_partial` and of `C49_before_move_partial`. -/
example : let v := look (reborn waiting .tick 8)
    c!"a" ∉ v.lists .running ∧ (v.lists .queued).length ≤ v.free ∧ ∀ t, (job c!"a").Due t := by
  refine ⟨by decide +kernel, by decide +kernel, fun _ => trivial⟩

/-- Jobs `ja` to `ju` are submitted and the first twenty of them are started. -/
def full21 : List (Op Int Unit) :=
  (List.range 21).map (fun i => .enqueue (job ['j', Char.ofNat (97 + i)]) .newReRun) ++ [.tick]

/-- C47 is false: twenty jobs are running and `ju` waits, when the process dies. The twenty executions are gone
but still fill the running list, so that no later process ever starts `ju` (unless its configuration is changed),
on any backend and through any further turns, crashes and restarts. -/
theorem C47_refuted (b : Impl) :
    Reach (O := Unit) b E c!"print" clk (Orderly c!"ju") (on b full21) ∧
    (b.snap E c!"print" (on b full21)).status c!"ju" = some .queued ∧
    Sys.CrashIn E c!"print" b.B clk (on b full21) (.tick : Op Int Unit) (on b full21).w ∧
    ∀ s', Lives (O := Unit) b E c!"print" clk (fun _ op => ∀ c, op ≠ .config c) (Sys.restart (on b full21).w) s' →
      c!"ju" ∉ (b.snap E c!"print" s').inFlight := by
  have hr : Reach (O := Unit) b E c!"print" clk (Orderly c!"ju") (on b full21) := (okAll.on (by decide +kernel) b).orderly lawful
  have hst : (b.snap E c!"print" (on b full21)).status c!"ju" = some .queued := by rw [see_on]; decide +kernel
  have key : ∀ k ∈ (List.range 20).map (fun i => ['j', Char.ofNat (97 + i)]),
      (b.snap E c!"print" (on b full21)).status k = some .running ∧
      k ∈ (b.snap E c!"print" (on b full21)).lists .running ∧ k ∉ (b.snap E c!"print" (on b full21)).lists .queued := by
    rw [see_on]; decide +kernel
  generalize on b full21 = s at *
  have hc : Sys.CrashIn E c!"print" b.B clk s (.tick : Op Int Unit) s.w := .between _
  refine ⟨hr, hst, hc, fun s' h => ?_⟩
  obtain ⟨h1, h2, _⟩ := crash_any (k := c!"ju") lawful hr.good (tidy_reach lawful hr) hc
  have h3 := C47_blocked (b := b) (s := Sys.restart s.w) lawful h1 h2 rfl ((List.range 20).map (fun i => ['j', Char.ofNat (97 + i)]))
    (by decide +kernel) (by decide) (by show 20 ≤ _; decide) (fun k hk => key k hk) h
  show c!"ju" ∉ s'.tasks.map _
  rw [h3]
  exact List.not_mem_nil

/-- C48: a crash between adding the id and storing the job, and `run()` again: two entries, and two executions
of the same job at the same time. -/
example :
    let s := reborn [] (.enqueue (job c!"a") .newReRun) 3
    let s' := further s [.enqueue (job c!"a") .newReRun, .tick]
    let s'' := further s' [.tick]
    (look s).lists .queued = [c!"a"] ∧ (look s).job c!"a" = none ∧
    (look s').inFlight = [c!"a"] ∧ (look s').lists .queued = [c!"a"] ∧ (look s'').inFlight = [c!"a", c!"a"] := by
  decide +kernel

/-- Other crash points do no harm, and the hypotheses of `C48_resubmit_partial` and `C48_duplicate` hold at the start. -/
example : (∀ n ∈ [0, 1, 4, 5, 6], ((look (Sys.step E c!"print" InMem clk (reborn [] (.enqueue (job c!"a") .newReRun) n)
      (.enqueue (job c!"a") .newReRun : Op Int Unit)).1).lists .queued) = [c!"a"]) ∧
    (see []).job c!"a" = none ∧ c!"a" ∉ (see []).lists .queued ∧ E.Encodable (job c!"a") := by
  decide +kernel

/-- C48, the other way: the finished job `a` is submitted again, the process dies after the first call; the job is
Queued but in no list, and neither `run()` nor ticks help. -/
example :
    let s := reborn (waiting ++ round good) (.enqueue (job c!"a") .newReRun) 2
    let s' := further s [.enqueue (job c!"a") .newReRun, .tick, .retry c!"a", .tick]
    (see (waiting ++ round good)).status c!"a" = some .finished ∧
    (look s').status c!"a" = some .queued ∧ (look s').lists .queued = [] ∧ (look s').inFlight = [] := by
  decide +kernel

/-- C49: the hypotheses of the refutation, for a crash before the end of the run. -/
example (b : Impl) : Reach (O := Unit) b E c!"print" clk (Orderly c!"a") (on b midRun) ∧
    (b.snap E c!"print" (on b midRun)).status c!"a" = some .running ∧
    OtherTask c!"a" (b.snap E c!"print" (on b midRun)) (.tick : Op Int Unit) ∧
    Sys.CrashIn E c!"print" b.B clk (on b midRun) (.tick : Op Int Unit) (on b midRun).w :=
  ⟨(okAll.on (by decide +kernel) b).orderly lawful, by rw [see_on]; decide +kernel, fun i t _ h => (by rcases h with h | ⟨x, h⟩ <;> cases h), .between _⟩

/-- C49: in the next process `a` stays Running, and five attempts to get it going do nothing. -/
example :
    let s := further (reborn midRun .tick 0)
      [.tick, .enqueue (job c!"a") .newReRun, .retry c!"a", .cancel c!"a", .tick]
    (look s).status c!"a" = some .running ∧ (look s).inFlight = [] ∧ (look s).lists .running = [c!"a"] ∧
    (look s).lists .queued = [] := by
  decide +kernel

/-- C50: the crash points of the end of a run that is retried. -/
example : [2, 3, 5, 7].map (fun n => let v := look (reborn midRun (.finish 0 bad) n)
      (v.status c!"a", v.lists .queued, v.lists .running)) =
    [(some .running, [], [c!"a"]), (some .running, [], []), (some .queued, [], []), (some .queued, [c!"a"], [])] := by
  decide +kernel

/-- C50: the hypotheses of both theorems. -/
example (b : Impl) : ∃ orig job, (b.snap E c!"print" (on b midRun)).tasks[0]? = some ⟨orig, some job⟩ ∧ orig.id = c!"a" ∧
    Reach (O := Unit) b E c!"print" clk (Orderly c!"a") (on b midRun) ∧ bad.Serialisable E job ∧
    (b.snap E c!"print" (Sys.step E c!"print" b.B clk (on b midRun) (.finish 0 bad)).1).status c!"a" = some .queued := by
  have h : ∃ t ∈ (see midRun).tasks[0]?, ∃ job ∈ t.executing, t.orig.id = c!"a" ∧
    E.Encodable (WorkQueue.runUserCode bad job).1 := by decide +kernel
  obtain ⟨⟨orig, ex⟩, ht, job, hj, h1, h2⟩ := h
  cases hj
  refine ⟨orig, job, by rw [see_on]; exact ht, h1, (okAll.on (by decide +kernel) b).orderly lawful, serialisable h2 rfl, ?_⟩
  rw [← on_snoc, see_on]
  decide +kernel

end
end AJ.Props
