import Verif.Proofs.Later

/-! # What one tick does -/

namespace AJ
open W

theorem Prog.AllOps.mono {α : Type} {ok ok' : BOp → Prop} (h : ∀ op, ok op → ok' op) {p : Prog α}
    (hp : p.AllOps ok) : p.AllOps ok' := by
  induction p with
  | ret a => trivial
  | fail e => trivial
  | panic => trivial
  | diverge => trivial
  | call op k ih => exact ⟨h _ hp.1, fun r => ih r (hp.2 r)⟩
  | now k ih => exact fun t => ih t (hp t)
  | emit e k ih => exact ih hp

variable {D O : Type} {E : Env D} {name : Str} {clk : Nat → Time}

/-- Without capacity the examined entries go to the end. -/
theorem W.turns_full {total : Nat} (ids rest : List Str) (w : W) (rd : List (Job D)) (hr : total ≤ rd.length)
    (h : (lst name w .queued).reverse = ids ++ rest) :
    (turns E name clk total ids.length (w, rd)).2 = rd ∧
    (lst name (turns E name clk total ids.length (w, rd)).1 .queued).reverse = rest ++ ids ∧
    view E (turns E name clk total ids.length (w, rd)).1 = view E w ∧
    (turns E name clk total ids.length (w, rd)).1.log = w.log ∧
    ∀ st, st ≠ .queued → lst name (turns E name clk total ids.length (w, rd)).1 st = lst name w st := by
  induction ids generalizing w rest with
  | nil => simpa [turns] using h
  | cons id ids ih =>
    have hc := turn_cases E name clk total id (ids ++ rest) w rd h
    rw [List.length_cons, turns]
    generalize W.turn E name clk total (w, rd) = q at hc
    cases hc with
    | gone hv =>
      obtain ⟨h1, h2, h3, h4, h5⟩ := ih (rest ++ [id]) (rotate name id (ids ++ rest) w) (by simp)
      exact ⟨h1, by simpa using h2, h3, h4, fun st hst => (h5 st hst).trans (by simp [hst])⟩
    | skip job hv ht =>
      obtain ⟨h1, h2, h3, h4, h5⟩ := ih (rest ++ [id]) (rotate name id (ids ++ rest) (W.tick w)) (by simp)
      exact ⟨h1, by simpa using h2, h3, h4, fun st hst => (h5 st hst).trans (by simp [hst])⟩
    | pick job hv ht =>
      simp only [takes, Bool.and_eq_true, decide_eq_true_eq] at ht
      have := ht.1.2
      omega

/-- In one pass over the queue, a job that stays ready is started, or all capacity goes to jobs in front
of it. -/
theorem W.pass_wait (L : E.Lawful) {total : Nat} {w : W} (hk : Keyed E w) {a b : List Str} {x : Str}
    (hF : (lst name w .queued).reverse = a ++ x :: b) (hx : x ∉ a) {job : Job D} (hj : view E w x = some job)
    (hready : ∀ i, w.t ≤ i → i < (turns E name clk total (lst name w .queued).length (w, [])).1.t →
      job.readyAt (clk i) = true) :
    x ∈ (turns E name clk total (lst name w .queued).length (w, [])).2.map Job.id ∨
    ∃ u, (lst name (turns E name clk total (lst name w .queued).length (w, [])).1 .queued).reverse = u ++ x :: b ∧
      u.length + total = a.length := by
  have hlen : (lst name w .queued).length = a.length + (x :: b).length := by
    rw [← List.length_reverse, hF, List.length_append]
  have hp := Pass.turns (name := name) (clk := clk) (total := total) L hk a.length (by omega)
  have hsc := (Scan.init (clk := clk) (E := E) (name := name) total w).turns L hk a.length
  have hl := WorkQueue.turns_len E name clk total a.length (w, [])
  rw [hlen, turns_add] at hready
  rw [hlen, turns_add]
  generalize turns E name clk total a.length (w, []) = p at *
  obtain ⟨w1, rd⟩ := p
  obtain ⟨u, hu, hsub⟩ := hp.queue
  have hord := hp.order
  rw [hF] at hord hu
  simp only [List.take_left, List.drop_left] at hord hu
  have hnx : x ∉ rd.map Job.id := fun h => hx (hord.subset h)
  have hv1 : view E w1 x = some job := (hsc.same x hnx).trans hj
  have hjid : job.id = x := hk x job hj
  by_cases hcap : rd.length < total
  · left
    rw [List.length_cons, turns] at hready ⊢
    have hc := turn_cases E name clk total x (b ++ u) w1 rd (by rw [hu]; rfl)
    have hm := turn_mono (E := E) (name := name) (clk := clk) total (w1, rd)
    generalize W.turn E name clk total (w1, rd) = q at hc hm hready
    obtain ⟨⟨l, h1⟩, h2⟩ := turns_mono (E := E) (name := name) (clk := clk) total b.length q
    cases hc with
    | gone hv => rw [hv] at hv1; cases hv1
    | skip job' hv ht =>
      rw [hv] at hv1; cases hv1
      simp only [takes, Bool.and_eq_false_iff, decide_eq_false_iff_not, Bool.not_eq_false',
        List.any_eq_true, decide_eq_true_eq] at ht
      rcases ht with (ht | ht) | ⟨r, hr, e⟩
      · rw [hready w1.t hsc.time (Nat.lt_of_lt_of_le (by simp) h2)] at ht; cases ht
      · exact absurd hcap ht
      · exact absurd (List.mem_map.mpr ⟨r, hr, e.trans hjid⟩) hnx
    | pick job' hv ht =>
      rw [hv] at hv1; cases hv1
      rw [h1]; simp [hjid]
  · right
    obtain ⟨h1, h2, _⟩ := W.turns_full (E := E) (clk := clk) (total := total) (x :: b) u w1 rd (by omega) hu
    have hbound : rd.length ≤ total := hsc.bound
    refine ⟨u, h2, ?_⟩
    have hl1 := hl.1
    have : (lst name w1 .queued).length = (x :: b).length + u.length := by
      rw [← List.length_reverse, hu, List.length_append]
    simp only [List.length_nil, Nat.add_zero] at hl1
    omega

/-- A tick whose capacity is used up by the first batch of twenty. -/
theorem W.run_pick_batch (fuel : Nat) (cfg : WorkQueueConfig) (w : W)
    (hl : 20 ≤ (lst name w .queued).length) (hl' : (lst name w .queued).length < 2 ^ 31)
    (hf : 1 ≤ free name cfg w)
    (hc : free name cfg w ≤ (turns E name clk (free name cfg w) 20 (w, [])).2.length) :
    (WorkQueue.pickJobsToProcess E name (fuel + 1) cfg).run SpecB clk w
      = (.ok (turns E name clk (free name cfg w) 20 (w, [])).2, (turns E name clk (free name cfg w) 20 (w, [])).1) := by
  have hrun : (WorkQueue.pickJobsToProcess E name (fuel + 1) cfg).run SpecB clk w =
      (if (lst name w .running).length ≥ cfg.maxProcessingJobs then (.ret [] : Prog (List (Job D)))
        else WorkQueue.tryPickSpecificReadyJobs E name (fuel + 1) (free name cfg w)).run SpecB clk w := rfl
  rw [hrun, if_neg (by unfold free at hf; omega)]
  simp only [WorkQueue.tryPickSpecificReadyJobs, Prog.bind_eq, Prog.run_bind, Prog.run_count?,
    Prog.contRun_ok, WorkQueue.pickLoop_succ, Prog.run_get?]
  have ht : ((lst name w .queued).reverse.take 20).length = 20 := by simp; omega
  rw [WorkQueue.wrapI32_of_fits (by omega) (by omega)]
  have ha : addI32 E.overflowChecks ((lst name w .queued).length : Int)
      (-(((lst name w .queued).reverse.take 20).length : Int)) = some (((lst name w .queued).length : Int) - 20) := by
    rw [ht]
    have : fitsI32 (((lst name w .queued).length : Int) + -((20 : Nat) : Int)) = true := by
      simp only [fitsI32, Bool.and_eq_true, decide_eq_true_eq]; omega
    unfold addI32
    rw [if_pos this]; rfl
  rw [ha]
  simp only [Prog.run_orPanic_some, Prog.contRun_ok]
  rw [Prog.run_bind, WorkQueue.run_pickBatch E name clk _ _ ((lst name w .queued).reverse.drop 20) w []
    (List.take_append_drop _ _).symm, ht]
  simp only [Prog.contRun_ok]
  rw [if_pos hc]; rfl

/-- The end of an execution of a plain job without retry policy. -/
theorem W.Fin.plain {O : Type} {x : Executable D O} {job : Job D} {w : W} {p : Out Unit × W}
    (h : Fin E name clk x job w p) (hr : job.context.retry = none)
    (ht : ∀ e n k c, job.context.jobType ≠ .cron e n k c) :
    p = (.ok (), if x.isFailedOutput (WorkQueue.runUserCode x job).1.data (WorkQueue.runUserCode x job).2 = true
      then flunk E name clk (WorkQueue.runUserCode x job).1 (W.tick (say (.hookMsg job.id true) w))
      else fin E name clk (WorkQueue.runUserCode x job).1 (W.tick (say (.hookMsg job.id true) w))) := by
  have hr' : (WorkQueue.runUserCode x job).1.context.retry = none := hr
  have ask : ∀ {j2 t w2}, Ask E clk x (WorkQueue.runUserCode x job).1 (WorkQueue.runUserCode x job).2
      (say (.hookMsg job.id true) w) j2 t w2 → j2 = (WorkQueue.runUserCode x job).1 ∧ t = none ∧
        w2 = say (.hookMsg job.id true) w := by
    intro j2 t w2 ha
    cases ha with
    | noPolicy h => exact ⟨rfl, rfl, rfl⟩
    | no h => rw [hr'] at h; cases h
    | yes h => rw [hr'] at h; cases h
    | custom h => rw [hr'] at h; cases h
  have next : ∀ {w2 : W} {q}, Next E clk (WorkQueue.runUserCode x job).1 w2 q → q = (.ok none, W.tick w2) := by
    intro w2 q hn
    cases hn with
    | other h => rfl
    | badExpr h => exact absurd h (ht _ _ _ _)
    | over h => exact absurd h (ht _ _ _ _)
    | slot h => exact absurd h (ht _ _ _ _)
    | stuck h => exact absurd h (ht _ _ _ _)
    | panic h => exact absurd h (ht _ _ _ _)
  cases h with
  | retryPanic h => rw [hr] at h; cases h
  | again ha => have := (ask ha).2.1; cases this
  | nextPanic ha hn => obtain ⟨rfl, _, rfl⟩ := ask ha; have := next hn; cases this
  | next ha hn => obtain ⟨rfl, _, rfl⟩ := ask ha; have := next hn; cases this
  | failed ha hn hf => obtain ⟨rfl, _, rfl⟩ := ask ha; have := next hn; cases this; rw [if_pos hf]
  | finished ha hn hf => obtain ⟨rfl, _, rfl⟩ := ask ha; have := next hn; cases this; rw [if_neg (by simp [hf])]

/-- All facts about a tick. -/
structure TickFacts (clk : Nat → Time) (v v' : Snap D) (started : List (Job D)) : Prop where
  ticked : v.TickedWith v' clk started
  all : (v.lists .queued).length < 2 ^ 31 → started.length = v.free ∨
    ∀ id ∈ v.lists .queued, ∀ job, v.job id = some job →
      (∀ i, v.reads ≤ i → i < v'.reads → job.Due (clk i)) → id ∈ started.map Job.id
  fifo : (v.lists .queued).length ≤ 20 → (started.map Job.id).Sublist v.fifo ∧ v'.fifo.Sublist v.fifo ∧
    ∀ a x b y, v.fifo = a ++ x :: b → y ∈ b → y ∉ a → y ≠ x → y ∈ started.map Job.id →
      ∀ job, v.job x = some job → (∀ i, v.reads ≤ i → i < v'.reads → job.Due (clk i)) → x ∈ started.map Job.id
  wait : (v.lists .queued).length ≤ 20 → ∀ a x b, v.fifo = a ++ x :: b → x ∉ a → ∀ job, v.job x = some job →
    (∀ i, v.reads ≤ i → i < v'.reads → job.Due (clk i)) → x ∈ started.map Job.id ∨
    ∃ u, v'.fifo = u ++ x :: b ∧ u.length + v.free = a.length

theorem tick_facts (L : E.Lawful) (t : Sys D SpecB) (hk : Keyed E t.w) (ha : t.alive = true) :
    (∃ started, TickFacts clk (t.obs E name) ((Sys.step E name SpecB clk t (.tick : Op D O)).1.obs E name) started ∧
      (Sys.step E name SpecB clk t (.tick : Op D O)).1.alive = true) ∨
    ((Sys.step E name SpecB clk t (.tick : Op D O)).1 = { t with tasks := [], alive := false } ∧
      E.overflowChecks = true ∧ 2 ^ 31 ≤ (lst name t.w .queued).length) := by
  have hs := Sys.step_cases (E := E) (name := name) (clk := clk) t ha (.tick : Op D O)
  generalize Sys.step E name SpecB clk t (.tick : Op D O) = p at hs
  cases hs with
  | tickPanic h hl =>
    refine .inr ⟨rfl, h, ?_⟩
    by_contra hc
    rw [WorkQueue.wrapI32_of_fits (by omega) (by omega)] at hl
    omega
  | tick k hk1 hk20 =>
    left
    have hsc := (Scan.init (clk := clk) (E := E) (name := name) (free name t.cfg t.w) t.w).turns L hk k
    refine ⟨(turns E name clk (free name t.cfg t.w) k (t.w, [])).2, ⟨⟨rfl, hsc.bound, hsc.nodup, hsc.running, ?_,
      hsc.queued, hsc.others, hsc.same, rfl, hsc.time⟩, ?_, ?_, ?_⟩, ha⟩
    · intro j hj
      obtain ⟨i, job, h1, h2, h3, h4, h5, h6⟩ := hsc.started j hj
      have hst := (Env.Lawful.stored_view (L := L) h3).asRunning (clk (i + 1) / nsPerMs)
      rw [← h5] at hst
      exact ⟨h6.trans hst.encdec, i, job, h1, h2, h3, (readyAt_iff _ _).mp h4, h5⟩
    · intro hlen
      rcases hk1 hlen with h | h
      · exact .inl (Nat.le_antisymm hsc.bound h)
      · by_cases hc : (turns E name clk (free name t.cfg t.w) k (t.w, [])).2.length < free name t.cfg t.w
        · right
          intro id hid job hj hd
          exact scan_all L hk k h id hid job hj (fun i h1 h2 => (readyAt_iff _ _).mpr (hd i h1 h2)) hc
        · exact .inl (Nat.le_antisymm hsc.bound (Nat.le_of_not_lt hc))
    · intro hlen
      have hp := Pass.turns (clk := clk) (total := free name t.cfg t.w) L hk k (by
        rcases hk20 hlen with ⟨_, h⟩ | h
        · rw [h]; exact Nat.zero_le _
        · exact Nat.le_of_eq h)
      refine ⟨hp.order.trans (List.take_sublist _ _), ?_, ?_⟩
      · rcases hk20 hlen with ⟨_, h⟩ | h
        · subst h; exact List.Sublist.refl _
        · obtain ⟨u, h1, h2⟩ := hp.queue
          show (lst name _ .queued).reverse.Sublist (lst name t.w .queued).reverse
          rw [h1, h, List.drop_of_length_le (by simp)]
          exact h2.trans (List.take_sublist _ _)
      · intro a x b y e1 e2 e3 e4 e5 job hj hd
        rcases hp.fifo a x b y e1 e2 e3 e4 e5 job hj with h | ⟨i, h1, h2, h3⟩
        · exact h
        · rw [(readyAt_iff _ _).mpr (hd i h1 h2)] at h3; cases h3
    · intro hlen a x b e1 e2 job hj hd
      rcases hk20 hlen with ⟨h0, h⟩ | h
      · subst h
        exact .inr ⟨a, e1, by show a.length + free name t.cfg t.w = _; rw [h0]; rfl⟩
      · rw [h] at hd ⊢
        exact W.pass_wait L hk e1 e2 hj fun i h1 h2 => (readyAt_iff _ _).mpr (hd i h1 h2)

/-- On any backend. -/
theorem tick_facts_any (b : Impl) (L : E.Lawful) (s : Sys D b.B) (hg : b.Good s.w.s)
    (hk : (b.snap E name s).Keyed) (ha : s.alive = true) :
    (∃ started, TickFacts clk (b.snap E name s) (b.snap E name (Sys.step E name b.B clk s (.tick : Op D O)).1) started ∧
      (Sys.step E name b.B clk s (.tick : Op D O)).1.alive = true) ∨
    ((b.snap E name (Sys.step E name b.B clk s (.tick : Op D O)).1) =
        { b.snap E name s with tasks := [], alive := false } ∧
      E.overflowChecks = true ∧ 2 ^ 31 ≤ ((b.snap E name s).lists .queued).length) := by
  obtain ⟨t, hr⟩ := Impl.rs_of_good hg
  obtain ⟨_, h2⟩ := Impl.rs_step (E := E) (name := name) (clk := clk) hr (.tick : Op D O)
  have e : (Sys.step E name b.B clk s (.tick : Op D O)).1.alive = (Sys.step E name SpecB clk t (.tick : Op D O)).1.alive :=
    h2.alive
  rw [Impl.snap_eq hr] at hk ⊢
  rw [Impl.snap_eq h2, e]
  rcases tick_facts (O := O) (name := name) (clk := clk) L t hk (by rw [← hr.alive]; exact ha) with h | ⟨h1, h3⟩
  · exact .inl h
  · refine .inr ⟨?_, h3⟩
    rw [h1]; rfl

end AJ
