import Verif.Proofs.Ran

/-! # Counting the runs of one job -/

namespace AJ
open W

section
variable {D O : Type} {E : Env D} {L : E.Lawful} {name : Str} {clk : Nat → Time} {k : Str} {v v' : Snap D}

theorem runs_append {l : List Event} (h : v'.mine k = v.mine k ++ l) :
    v'.runs k = v.runs k ++ l.filterMap Event.run? := by
  unfold Snap.runs
  rw [h, List.filterMap_append]

theorem runs_same (h : v'.mine k = v.mine k) : v'.runs k = v.runs k := by
  unfold Snap.runs; rw [h]

theorem runs_hooks {l : List Event} (h : v'.mine k = v.mine k ++ l) (hl : ∀ e ∈ l, e = .hookMsg k true) :
    v'.runs k = v.runs k := by
  rw [runs_append h, List.filterMap_eq_nil_iff.mpr, List.append_nil]
  intro e he
  rw [hl e he]; rfl

theorem runs_msg {st : JobStatus} (h : v'.mine k = v.mine k ++ [.statusMsg k st]) : v'.runs k = v.runs k := by
  rw [runs_append h]; simp [Event.run?]

theorem runs_end {st : JobStatus} (h : v'.mine k = v.mine k ++ [.hookMsg k true, .statusMsg k st]) :
    v'.runs k = v.runs k := by
  rw [runs_append h]; simp [Event.run?]

theorem runs_run {c : JobContext} (h : v'.mine k = v.mine k ++ [.hookMsg k true, .ran c]) :
    v'.runs k = v.runs k ++ [c] := by
  rw [runs_append h]; rfl

theorem status_some {st : JobStatus} (h : v.status k = some st) :
    ∃ j, v.job k = some j ∧ j.context.jobStatus = st := by
  unfold Snap.status at h
  obtain ⟨j, h1, h2⟩ := Option.map_eq_some_iff.mp h
  exact ⟨j, h1, h2⟩

theorem status_of {j : Job D} (h : v.job k = some j) : v.status k = some j.context.jobStatus := by
  unfold Snap.status; rw [h]; rfl

/-- A job that is not running has no execution in flight. -/
theorem Solo.idle' (h : Solo k v) {j : Job D} (hj : v.job k = some j) (hr : j.context.jobStatus ≠ .running) :
    v.own k = [] := by
  refine h.idle ?_
  rw [status_of hj]
  intro e
  exact hr (Option.some.inj e)

end

section
variable {D O : Type} {E : Env D} (L : E.Lawful) {name : Str} {clk : Nat → Time} {b : Impl} {k : Str}
variable {P P' : Snap D → Op D O → Prop}

/-- Stored jobs survive a trip through storage. -/
theorem reach_stored {s : Sys D b.B} (hs : Reach b E name clk P s) {id : Str} {j : Job D}
    (hj : (b.snap E name s).job id = some j) : L.Stored j := by
  refine Reach.lift (Q := fun v => ∀ id j, v.job id = some j → L.Stored j) (fun t _ id j h => ?_) hs id j hj
  exact Env.Lawful.stored_view (E := E) (w := t.w) (id := id) h

/-- The end of a run of `k` in a history, with the default `retry_at`. -/
theorem Life.ran {v v' : Snap D} {j j' : Job D} {x : Executable D O} {w w' : W}
    (hst : L.Stored j) (hq : j.context.jobStatus = .running) (hw : w.t = v.reads) (hw' : w'.t = v'.reads)
    (hf : Fin E name clk x j.counted w (.ok (), w')) (he : Inv.Ends E name clk L j.counted w w' j')
    (hs : E.Encodable (x.leaves j.counted (clk w.t))) (hx : x.retryAt = none ∨ j.context.retry = none) :
    Ran E L clk x j.counted v.reads v'.reads j' := by
  rw [← hw, ← hw']
  exact hf.ran hx hs hst.counted hq he

include L in
/-- A lost job stays lost and does not run, as long as it is not submitted. -/
theorem lost_later {s s' : Sys D b.B} (hs : Reach (O := O) b E name clk P s) (h : Later b E name clk P' s s')
    (hP : ∀ v op, P' v op → NoSubmit k op) (hl : Lost k (b.snap E name s)) :
    Lost k (b.snap E name s') ∧ (b.snap E name s').runs k = (b.snap E name s).runs k := by
  induction h with
  | refl => exact ⟨hl, rfl⟩
  | step op h' hp ih =>
    have hr : Reach b E name clk (fun _ _ => True) _ := h'.reach (hs.mono fun _ _ _ => trivial) (fun _ _ _ => trivial)
    obtain ⟨h1, h2⟩ := lost_step L hr ih.1 op (hP _ _ hp)
    exact ⟨h1, h2.trans ih.2⟩

/-- An invariant of one job, turn by turn; stored jobs are as if read from storage. It holds as long as the job can
be read; if a run of it leaves something that cannot be stored, it held when that run ended. -/
theorem later_track {I : Snap D → Prop} (hP : ∀ v op, P' v op → NoSubmit k op)
    {s s' : Sys D b.B} (hs : Reach (O := O) b E name clk (Orderly k) s) (hsolo : Solo k (b.snap E name s))
    (h : Later b E name clk P' s s') (h0 : I (b.snap E name s))
    (hstep : ∀ v v' op, P' v op → Solo k v → (∀ id j, v.job id = some j → L.Stored j ∧ j.id = id) → v.reads ≤ v'.reads →
      Life E L name clk k v v' op → I v → I v') :
    (I (b.snap E name s') ∧ Solo k (b.snap E name s')) ∨ (Lost k (b.snap E name s') ∧ ∃ u, I u ∧
      (b.snap E name s').runs k = u.runs k ∧ u.reads ≤ (b.snap E name s').reads ∧ Ending k u) := by
  induction h with
  | refl => exact .inl ⟨h0, hsolo⟩
  | step op h' hp ih =>
    have hr := h'.reach hs fun _ _ h => (hP _ _ h).orderly
    have hn := hP _ _ hp
    have hreads := reach_reads L hr op
    rcases ih with ⟨hI, hso⟩ | ⟨hlo, u, hI, h1, h2, h3⟩
    · rcases orderly_life L hr hso op hn.orderly with ⟨hso', hl⟩ | ⟨hlo, hru, he⟩
      · exact .inl ⟨hstep _ _ op hp hso (fun id j hj => ⟨reach_stored L hr hj, reach_keyed L hr id j hj⟩) hreads hl hI, hso'⟩
      · exact .inr ⟨hlo, _, hI, hru, hreads, he hn⟩
    · obtain ⟨h4, h5⟩ := lost_step L hr hlo op hn
      exact .inr ⟨h4, u, hI, h5.trans h1, Nat.le_trans h2 hreads, h3⟩

/-- The same, for a job that can be read at the end. -/
theorem later_read {I : Snap D → Prop} (hP : ∀ v op, P' v op → NoSubmit k op)
    {s s' : Sys D b.B} (hs : Reach (O := O) b E name clk (Orderly k) s) (hsolo : Solo k (b.snap E name s))
    (h : Later b E name clk P' s s') {j : Job D} (hj : (b.snap E name s').job k = some j) (h0 : I (b.snap E name s))
    (hstep : ∀ v v' op, P' v op → Solo k v → (∀ id j, v.job id = some j → L.Stored j ∧ j.id = id) → v.reads ≤ v'.reads →
      Life E L name clk k v v' op → I v → I v') :
    I (b.snap E name s') := by
  rcases later_track L hP hs hsolo h h0 hstep with h | ⟨h, _⟩
  · exact h.1
  · rw [h.job] at hj; cases hj

/-- Whether a job is due depends on its type only. -/
theorem Job.Due.of {j j' : Job D} {now : Time} (h : j.Due now) (ht : j.context.jobType = j'.context.jobType) : j'.Due now := by
  unfold Job.Due at *
  rw [← ht]; exact h

include L in
/-- A job that is not running is not started, and keeps its type, until it is due. -/
theorem waits {s s' : Sys D b.B} (hs : Reach (O := O) b E name clk (Orderly k) s)
    {job : Job D} (hj : (b.snap E name s).job k = some job) (hr : job.context.jobStatus ≠ .running)
    (hP : ∀ v op, P' v op → NoSubmit k op) (h : Later (O := O) b E name clk P' s s') :
    let v := b.snap E name s
    let v' := b.snap E name s'
    (∃ i, v.reads ≤ i ∧ i < v'.reads ∧ job.Due (clk i)) ∨
    (v.reads ≤ v'.reads ∧ v'.own k = [] ∧ v'.runs k = v.runs k ∧ ∃ j, v'.job k = some j ∧
      j.context.jobType = job.context.jobType ∧ j.context.jobStatus ≠ .running) := by
  intro v v'
  have hso := solo_of L hs hj
  have key := later_track L (I := fun u => (∃ i, v.reads ≤ i ∧ i < u.reads ∧ job.Due (clk i)) ∨
    (v.reads ≤ u.reads ∧ u.own k = [] ∧ u.runs k = v.runs k ∧ ∃ j, u.job k = some j ∧
      j.context.jobType = job.context.jobType ∧ j.context.jobStatus ≠ .running))
    hP hs hso h (.inr ⟨Nat.le_refl _, hso.idle' hj hr, rfl, job, hj, rfl, hr⟩) ?_
  · rcases key with ⟨h, _⟩ | ⟨_, u, hI, _, hle, j, _, _, ho⟩
    · exact h
    · rcases hI with ⟨i, h1, h2, h3⟩ | ⟨_, h1, _⟩
      · exact .inl ⟨i, h1, Nat.lt_of_lt_of_le h2 hle, h3⟩
      · rw [h1] at ho; cases ho
  · intro u u' op hp hsolo _ hreads hl hI
    have hp := hP _ _ hp
    rcases hI with ⟨i, h1, h2, h3⟩ | ⟨hle, ho, hru, j0, hj0, hty, hnr⟩
    · exact .inl ⟨i, h1, Nat.lt_of_lt_of_le h2 hreads, h3⟩
    cases hl with
    | same op h1 h2 h3 =>
      exact .inr ⟨Nat.le_trans hle hreads, h2.trans ho, (runs_same h3).trans hru, j0, h1.trans hj0, hty, hnr⟩
    | submit j c hid => exact absurd hid (hp j c rfl)
    | replace j c ex hid => exact absurd hid (hp j c rfl)
    | cancel j hold hq h1 _ h2 h3 =>
      rw [hj0] at hold; cases hold
      exact .inr ⟨Nat.le_trans hle hreads, h2, (runs_msg h3).trans hru, _, h1, hty, by simp [Job.asCanceled]⟩
    | retry j hold hd h1 _ h2 h3 =>
      rw [hj0] at hold; cases hold
      exact .inr ⟨Nat.le_trans hle hreads, h2, (runs_msg h3).trans hru, _, h1, hty, by simp [Job.asQueued]⟩
    | pick j i hold hq h1 h2 hdue =>
      rw [hj0] at hold; cases hold
      exact .inl ⟨i, Nat.le_trans hle h1, by omega, hdue.of hty⟩
    | run j i hold hq => rw [hj0] at hold; cases hold; exact absurd hq hnr
    | finish j j' i x w w' hold hq => rw [hj0] at hold; cases hold; exact absurd hq hnr
    | died op h1 h2 h3 =>
      obtain ⟨l, h3, h4⟩ := h3
      exact .inr ⟨Nat.le_trans hle hreads, h2, (runs_hooks h3 h4).trans hru, j0, h1.trans hj0, hty, hnr⟩

theorem not_inFlight {v : Snap D} (h : v.own k = []) : k ∉ v.inFlight := by
  intro hin
  obtain ⟨t, ht, e⟩ := List.mem_map.mp hin
  have : t ∈ v.own k := List.mem_filter.mpr ⟨ht, by simpa using e⟩
  rw [h] at this
  cases this

theorem own_of_not_inFlight {v : Snap D} (h : k ∉ v.inFlight) : v.own k = [] := by
  unfold Snap.own
  refine List.filter_eq_nil_iff.mpr fun t ht => ?_
  have : t.orig.id ≠ k := fun e => h (List.mem_map.mpr ⟨t, ht, e⟩)
  simpa using this

include L in
/-- In any history: a turn after which more executions of `k` are in flight than before is a tick that examined `k`
when it was due. -/
theorem starts {s : Sys D b.B} (hs : Reach b E name clk P s) (op : Op D O) :
    let v := b.snap E name s
    let v' := b.snap E name (Sys.step E name b.B clk s op).1
    (v.own k).length < (v'.own k).length → op = .tick ∧ ∃ j i, v.job k = some j ∧
      v.reads ≤ i ∧ i < v'.reads ∧ j.Due (clk i) := by
  refine Reach.lift_step (Q := fun v op _ v' => (v.own k).length < (v'.own k).length → op = .tick ∧ ∃ j i, v.job k = some j ∧
      v.reads ≤ i ∧ i < v'.reads ∧ j.Due (clk i)) (fun t op ht => ?_) hs op
  intro hlt
  have hT := reach_tidy L ht
  change ((t.tasks.filter fun x => decide (x.orig.id = k)).length <
    ((Sys.step E name SpecB clk t op).1.tasks.filter fun x => decide (x.orig.id = k)).length) at hlt
  show _ ∧ ∃ j i, view E t.w k = some j ∧ t.w.t ≤ i ∧ i < (Sys.step E name SpecB clk t op).1.w.t ∧ _
  by_cases ha : t.alive = true
  swap
  · rw [Sys.step_dead t (by simpa using ha)] at hlt; exact absurd hlt (Nat.lt_irrefl _)
  have hs := Sys.step_cases (E := E) (name := name) (clk := clk) t ha op
  generalize Sys.step E name SpecB clk t op = p at hs hlt
  have hsub : ∀ {l l' : List (Task D)}, l'.Sublist l → (l.filter fun x => decide (x.orig.id = k)).length <
      (l'.filter fun x => decide (x.orig.id = k)).length → False := fun h h' =>
    absurd (h.filter fun x => decide (x.orig.id = k)).length_le (Nat.not_le.mpr h')
  cases hs with
  | tick n hk hk20 =>
    have hp := (Scan.init (clk := clk) (E := E) (name := name) (free name t.cfg t.w) t.w).turns L hT.keyed n
    generalize turns E name clk (free name t.cfg t.w) n (t.w, []) = p at hp hlt ⊢
    rcases p with ⟨w, rd⟩
    simp only [List.filter_append, List.length_append] at hlt
    have hne : ((rd.map fun j => (⟨j, none⟩ : Task D)).filter fun x => decide (x.orig.id = k)) ≠ [] := by
      intro e; rw [e] at hlt; simp at hlt
    obtain ⟨x, hx⟩ := List.exists_mem_of_ne_nil _ hne
    rw [List.mem_filter] at hx
    obtain ⟨j, hj, rfl⟩ := List.mem_map.mp hx.1
    obtain ⟨i, job, h1, h2, hv, hr, _⟩ := hp.started j hj
    have e : j.id = k := by simpa using hx.2
    exact ⟨rfl, job, i, e ▸ hv, h1, by show i < w.t; simp only at h2; omega, (readyAt_iff _ _).mp hr⟩
  | started i orig hi hcan =>
    exfalso
    simp only at hlt
    by_cases e : orig.id = k
    · have h1 : ((t.tasks.set i ⟨orig, some orig.counted⟩).map fun x => x.orig.id) = t.tasks.map fun x => x.orig.id := by
        rw [List.map_set]
        refine List.ext_getElem? fun n => ?_
        rw [List.getElem?_set]
        split
        · next e =>
          subst e
          have hl : i < t.tasks.length := (List.getElem?_eq_some_iff.mp hi).1
          have hg : t.tasks[i] = ⟨orig, none⟩ := (List.getElem?_eq_some_iff.mp hi).2
          simp [hl, hg]
        · rfl
      have h2 : ∀ l : List (Task D), (l.filter fun x => decide (x.orig.id = k)).length =
          ((l.map fun x => x.orig.id).filter fun y => decide (y = k)).length := by
        intro l
        rw [List.filter_map, List.length_map]; rfl
      rw [h2, h2, h1] at hlt
      exact absurd hlt (Nat.lt_irrefl _)
    · rw [own_set_other (t' := ⟨orig, some orig.counted⟩) hi e e] at hlt
      exact absurd hlt (Nat.lt_irrefl _)
  | startCancelled i orig hi hcan => exact (hsub (List.eraseIdx_sublist _ _) hlt).elim
  | finished i x orig job w hi hf => exact (hsub (List.eraseIdx_sublist _ _) hlt).elim
  | tickPanic => exact (hsub (List.nil_sublist _) hlt).elim
  | userPanic => exact (hsub (List.nil_sublist _) hlt).elim
  | finishPanic => exact (hsub (List.nil_sublist _) hlt).elim
  | _ => exact absurd hlt (Nat.lt_irrefl _)

include L in
/-- A job that was never submitted. -/
theorem fresh {s : Sys D b.B} (hs : Reach (O := O) b E name clk (fun _ op => NoSubmit k op) s) :
    Reach (O := O) b E name clk (Orderly k) s ∧ Solo k (b.snap E name s) ∧ Lost k (b.snap E name s) ∧
    (b.snap E name s).runs k = [] := by
  induction hs with
  | start =>
    refine ⟨.start, ?_, ?_, rfl⟩
    · exact reach_solo (P := CarefulFor (O := O) E k) L (fun _ _ h => h) (.start : Reach (O := O) b E name clk _ _)
    · refine Reach.lift (clk := clk) (P := fun (_ : Snap D) (_ : Op D O) => False) (Q := fun v => Lost k v) (fun t ht => ?_) .start
      exact Reach.induct (b := Impl.spec) (Q := fun s : Sys D SpecB => Lost k (Sys.obs E name s)) ⟨rfl, rfl, rfl⟩
        (fun _ _ _ h _ => h.elim) ht
  | step op hr hp ih =>
    obtain ⟨h1, h2, h3, h4⟩ := ih
    obtain ⟨h5, h6⟩ := lost_step L hr h3 op hp
    refine ⟨.step op h1 (NoSubmit.orderly hp), ?_, h5, h6.trans h4⟩
    rcases orderly_life L hr h2 op (NoSubmit.orderly hp) with h | ⟨_, _, h⟩
    · exact h.1
    · obtain ⟨j, hj, _⟩ := h hp
      rw [h3.job] at hj; cases hj

/-- The only submission of `k`. -/
theorem submitted {s : Sys D b.B} (hs : Reach (O := O) b E name clk (fun _ op => NoSubmit k op) s) (ha : s.alive = true)
    {job : Job D} (c : EnqueueConfig) (hid : job.id = k) :
    let s1 := (Sys.step E name b.B clk s (.enqueue job c : Op D O)).1
    Reach (O := O) b E name clk (Orderly k) s1 ∧ (b.snap E name s1).runs k = [] ∧
    (E.Encodable job →
      (b.snap E name s1).job k = some ((job.asQueued (clk (b.snap E name s).reads / nsPerMs)).norm L.normD)) ∧
    (¬ E.Encodable job → Lost k (b.snap E name s1)) ∧ (b.snap E name s).reads < (b.snap E name s1).reads := by
  obtain ⟨h1, h2, h3, h4⟩ := fresh L hs
  have hord : Orderly k (b.snap E name s) (.enqueue job c : Op D O) := by
    intro j c' e hid
    refine ⟨fun _ => ?_, fun ex he => by rw [h3.job] at he; cases he⟩
    have hst : ∀ v : Snap D, v.job k = none → v.status k = none := by intro v e; unfold Snap.status; rw [e]; rfl
    have := h2.queued
    rw [hst _ h3.job, if_neg (by simp)] at this
    exact List.count_eq_zero.mp this
  have key := Reach.lift_step (P := fun _ (op : Op D O) => NoSubmit k op) (Q := fun v op _ v' => v.alive = true → v.job k = none →
      ∀ job c, op = .enqueue job c → job.id = k → (E.Encodable job → v'.job k =
        some ((job.asQueued (clk v.reads / nsPerMs)).norm L.normD)) ∧ (¬ E.Encodable job → v'.job k = none) ∧ v.reads < v'.reads)
    (fun t op _ ha hn job c e hid => ?_) hs (.enqueue job c) ha h3.job job c rfl hid
  · refine ⟨.step _ h1 hord, ?_, key.1, fun he => ?_, key.2.2⟩
    · rcases orderly_life L hs h2 _ hord with ⟨_, hl⟩ | ⟨_, h, _⟩
      · rw [← h4]
        cases hl with
        | same _ _ _ h => exact runs_same h
        | died _ _ _ h => obtain ⟨l, g1, g2⟩ := h; exact runs_hooks g1 g2
        | submit _ _ _ _ _ _ _ _ h => exact runs_msg h
        | replace _ _ _ _ _ _ _ _ _ _ _ _ _ h => exact runs_same h
      · exact h.trans h4
    · have hn := key.2.1 he
      rcases orderly_life L hs h2 _ hord with ⟨hso, hl⟩ | ⟨h, _⟩
      · refine ⟨hn, ?_, ?_⟩
        · exact hso.idle (by unfold Snap.status; rw [hn]; simp)
        · rw [hso.running, if_neg]; unfold Snap.status; rw [hn]; simp
      · exact h
  · subst e
    have ha : t.alive = true := ha
    have hs := Sys.step_cases (E := E) (name := name) (clk := clk) t ha (.enqueue job c : Op D O)
    show (_ → view E (Sys.step E name SpecB clk t (.enqueue job c)).1.w k = _) ∧
      (_ → view E (Sys.step E name SpecB clk t (.enqueue job c)).1.w k = none) ∧
      t.w.t < (Sys.step E name SpecB clk t (.enqueue job c)).1.w.t
    generalize Sys.step E name SpecB clk t (.enqueue job c : Op D O) = p at hs
    cases hs with
    | enqueue =>
      have hn : view E t.w job.id = none := by rw [hid]; exact hn
      refine ⟨fun henc => ?_, fun henc => ?_, by simp [submit, hn, enq]⟩
      · have he' : E.encdec (job.asQueued (clk t.w.t / nsPerMs)) = some ((job.asQueued (clk t.w.t / nsPerMs)).norm L.normD) :=
          Env.Lawful.encdec_enc (Env.Lawful.congr' (j := job) L rfl rfl henc)
        simp [submit, hn, enq, he', ← hid]
        rfl
      · have he' : E.encdec (job.asQueued (clk t.w.t / nsPerMs)) = none :=
          Inv.encdec_none L fun h => henc (Env.Lawful.congr' (j := job.asQueued (clk t.w.t / nsPerMs)) L rfl rfl h)
        simp [submit, hn, enq, he', ← hid]

/-- The only submission of `k`, of any job, to a work queue that may be dead: either `k` is stored as queued, or there
is nothing to be read of it. -/
theorem submitted_or {s : Sys D b.B} (hs : Reach (O := O) b E name clk (fun _ op => NoSubmit k op) s)
    {job : Job D} (c : EnqueueConfig) (hid : job.id = k) :
    let s1 := (Sys.step E name b.B clk s (.enqueue job c : Op D O)).1
    (Reach (O := O) b E name clk (Orderly k) s1 ∧ Lost k (b.snap E name s1) ∧ (b.snap E name s1).runs k = []) ∨
    (Reach (O := O) b E name clk (Orderly k) s1 ∧ (b.snap E name s1).runs k = [] ∧
      (b.snap E name s1).job k = some ((job.asQueued (clk (b.snap E name s).reads / nsPerMs)).norm L.normD) ∧
      (b.snap E name s).reads < (b.snap E name s1).reads) := by
  intro s1
  by_cases ha : s.alive = true
  · obtain ⟨h1, h2, h3, h4, h5⟩ := submitted (clk := clk) (name := name) L hs ha c hid
    by_cases he : E.Encodable job
    · exact .inr ⟨h1, h2, h3 he, h5⟩
    · exact .inl ⟨h1, h4 he, h2⟩
  · obtain ⟨h1, h2, h3, h4⟩ := fresh L hs
    have e : s1 = s := by
      show (Sys.step E name b.B clk s (.enqueue job c : Op D O)).1 = s
      have ha : s.alive = false := by simpa using ha
      simp [Sys.step, ha]
    rw [e]
    exact .inl ⟨h1, h3, h4⟩

end
end AJ
