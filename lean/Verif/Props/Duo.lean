import Verif.Proofs.DuoPick
import Verif.Proofs.Twin
import Verif.Props.Fault

/-!
# Two processes on one backend (C53, C66)

Two processes run the same work queue on one Redis server. `Duo` interleaves their ticks call by call;
`Twin` lets them take undisturbed turns.
-/

namespace AJ.Props
open W Prog

section
variable {D O : Type} {E : Env D} {name : Str} {clk : Nat → Time} {b : Impl} {k : Str}

private theorem picks_rel {w : World b.B} {u : World SpecB} (h : b.sim.RW w u) (cfgA cfgB : WorkQueueConfig) :
    Duo.Rel b (Duo.picks b.B E name cfgA cfgB w) (Duo.picks SpecB E name cfgA cfgB u) := by
  have hf : Sys.tickFuel name b.B w.s = Sys.tickFuel name SpecB u.s := by
    have := (b.sim.step (.queueCount (formatQueueName name .queued)) w.s u.s (b.okAj name _ (.count _)) h.s).1
    unfold Sys.tickFuel; rw [this]
  unfold Duo.picks
  rw [hf]
  exact ⟨rfl, rfl, h, (WorkQueue.aj_pickJobs E name _ _).mono (b.okAj name), (WorkQueue.aj_pickJobs E name _ _).mono (b.okAj name)⟩

private theorem see_eq {w : World b.B} {u : World SpecB} (h : b.sim.RW w u) :
    b.see E name w = Sys.obs E name ({ w := u } : Sys D SpecB) :=
  Impl.snap_eq (s := ({ w := w } : Sys D b.B)) (t := { w := u }) ⟨h, rfl, rfl, rfl⟩

private theorem world_of_good {w : World b.B} (hg : b.Good w.s) : ∃ u : World SpecB, b.sim.RW w u := by
  obtain ⟨t, ht⟩ := hg
  exact ⟨⟨t, w.t, w.log⟩, ht, rfl, rfl⟩

private theorem picks_rely (L : E.Lawful) {u : W} (hk : Keyed E u) (cfgA cfgB : WorkQueueConfig) (sched : List Bool)
    {d : Duo SpecB (List (Job D)) (List (Job D))} (hd : (Duo.picks SpecB E name cfgA cfgB u).run SpecB clk sched = d) :
    d.left.Rely (PickOk L name u) (PickGood L u) (Picked L u cfgA.maxProcessingJobs) ∧
    d.right.Rely (PickOk L name u) (PickGood L u) (Picked L u cfgB.maxProcessingJobs) ∧
    Marked E u d.w.s ∧ Kept name u (wld d.w.s) := by
  subst hd
  exact Rely.duo (B := SpecB) (clk := clk) (I := fun s => Marked E u s ∧ Kept name u (wld s))
    (fun op s h1 h2 => pick_guarantee L hk op s h1 h2)
    (rely_pick (E := E) (name := name) L (w0 := u) (Sys.tickFuel name SpecB u.s) cfgA)
    (rely_pick (E := E) (name := name) L (w0 := u) (Sys.tickFuel name SpecB u.s) cfgB)
    (w := u) ⟨fun _ => .inl rfl, List.Perm.refl _, fun _ _ _ => rfl⟩ sched

private theorem count_flights (l : List (Task D)) : (l.map (·.orig.id)).count k = (l.filter (fun u => u.orig.id = k)).length := by
  induction l with
  | nil => rfl
  | cons a l ih =>
    rw [List.map_cons, List.count_cons, List.filter_cons, ih]
    by_cases h : a.orig.id = k <;> simp [h]

/-! ## C53: what survives every interleaving -/

/-- C53: at every point of every interleaving of two ticks, every entry is still in the queued or in the running
list, as often as before, the other lists have not changed, and a stored job has at most been marked as Running.
A tick that has ended has picked different jobs that exist and are marked as Running, within the capacity of
its process. Missing for C53 as stated: that the two do not pick the same job (`C53_refuted_twice`), and that
the entries in the running list belong to the picked jobs (`C53_refuted_lost`). -/
theorem C53_conserved_partial (L : E.Lawful) {w : World b.B} (hg : b.Good w.s) (hk : (b.see E name w).Keyed)
    (cfgA cfgB : WorkQueueConfig) (sched : List Bool) :
    let d := (Duo.picks b.B E name cfgA cfgB w).run b.B clk sched
    let v := b.see E name w
    let v' := b.see E name d.w
    (v'.lists .queued ++ v'.lists .running).Perm (v.lists .queued ++ v.lists .running) ∧
    (∀ st, st ≠ .queued → st ≠ .running → v'.lists st = v.lists st) ∧
    (∀ id, v'.job id = v.job id ∨ ∃ j ms, v.job id = some j ∧ v'.job id = some { j with context := { j.context with
      jobStatus := .running, runAt := some ms } }) ∧
    ∀ p cfg jobs, (p, cfg) ∈ [(d.left, cfgA), (d.right, cfgB)] → p = .ret jobs →
      jobs.length ≤ cfg.maxProcessingJobs ∧ (jobs.map Job.id).Nodup ∧
      ∀ j ∈ jobs, j.context.jobStatus = .running ∧ (v.job j.id).isSome := by
  obtain ⟨u, hr⟩ := world_of_good hg
  have hR := (picks_rel (E := E) (name := name) hr cfgA cfgB).run (clk := clk) sched
  intro d v v'
  have e1 : v = Sys.obs E name ({ w := u } : Sys D SpecB) := see_eq hr
  have e2 : v' = Sys.obs E name ({ w := ((Duo.picks SpecB E name cfgA cfgB u).run SpecB clk sched).w } : Sys D SpecB) := see_eq hR.w
  have e3 : d.left = ((Duo.picks SpecB E name cfgA cfgB u).run SpecB clk sched).left := hR.left
  have e4 : d.right = ((Duo.picks SpecB E name cfgA cfgB u).run SpecB clk sched).right := hR.right
  have hk : v.Keyed := hk
  rw [e1] at hk
  rw [e1, e2, e3, e4]
  have hk : Keyed E u := hk
  clear e1 e2 e3 e4 hR
  clear_value d v v'
  have h := picks_rely (clk := clk) (name := name) L hk cfgA cfgB sched rfl
  generalize (Duo.picks SpecB E name cfgA cfgB u).run SpecB clk sched = d at h ⊢
  obtain ⟨h1, h2, h3, h4⟩ := h
  refine ⟨h4.perm, h4.lists, h3, ?_⟩
  have key : ∀ (p : Prog (List (Job D))) n jobs, p.Rely (PickOk L name u) (PickGood L u) (Picked L u n) → p = .ret jobs →
      jobs.length ≤ n ∧ (jobs.map Job.id).Nodup ∧ ∀ j ∈ jobs, j.context.jobStatus = .running ∧ (view E u j.id).isSome := by
    intro p n jobs hp e
    subst e
    have hp : Picked L u n jobs := hp
    refine ⟨hp.batch.le, hp.batch.once, fun j hj => ⟨hp.batch.running j hj, ?_⟩⟩
    obtain ⟨_, _, j0, h, _⟩ := hp.known j hj
    rw [h]; rfl
  intro p cfg jobs hm e
  rcases List.mem_cons.mp hm with hm | hm
  · obtain ⟨rfl, rfl⟩ := Prod.mk.inj hm
    exact key _ _ _ h1 e
  · obtain ⟨rfl, rfl⟩ := Prod.mk.inj (List.mem_singleton.mp hm)
    exact key _ _ _ h2 e

/-! ## C53: turns that do not overlap -/

/-- C53: when the two processes only take undisturbed turns (no call of one falls between two calls of a turn of
the other) and neither has died, a job has exactly one execution in both of them together when it is Running,
none otherwise, and one queued entry when it is Queued, none otherwise. Missing for C53 as stated: overlapping
turns. -/
theorem C53_apart_partial (L : E.Lawful) {t : Twin D b.B} (h : TwinReach (O := O) b E name clk (CarefulFor E k) t)
    (ha : ∀ who, (t.proc who).alive = true) :
    let v := b.see E name t.w
    let flights := (b.snap E name (t.side true)).inFlight ++ (b.snap E name (t.side false)).inFlight
    flights.count k = (if v.status k = some .running then 1 else 0) ∧
    (v.lists .queued).count k = (if v.status k = some .queued then 1 else 0) ∧
    (v.lists .running).count k = (if v.status k = some .running then 1 else 0) := by
  obtain ⟨m, h1, h2, h3, h4⟩ := twin_merge h ha
  intro v flights
  have hS := (reach_solo L (fun _ _ h => h) h1).sound
  have e1 : v.status k = (b.snap E name m).status k := by
    show (b.snap E name { w := t.w }).status k = _
    rw [← h2]; rfl
  have e2 : v.lists = (b.snap E name m).lists := by
    show (b.snap E name { w := t.w }).lists = _
    rw [← h2]; rfl
  rw [e1, e2]
  refine ⟨?_, hS.queued, hS.running⟩
  rw [← hS.flight h3]
  have e3 : flights = ((t.proc true).tasks ++ (t.proc false).tasks).map (·.orig.id) := (List.map_append).symm
  rw [e3]
  rw [count_flights]
  exact ((h4.filter _).length_eq).symm

/-! ## C53: overlapping ticks -/

/-- C53 is false: whenever the oldest of at most 20 queued jobs is due and both processes have capacity, there is
an interleaving of their ticks after which both have started it. -/
theorem C53_refuted_twice (L : E.Lawful) {w : World b.B} (hg : b.Good w.s) (hk : (b.see E name w).Keyed) (cfgA cfgB : WorkQueueConfig)
    {F : List Str} (hq : (b.see E name w).fifo = k :: F) (h20 : F.length < 20) {j : Job D} (hj : (b.see E name w).job k = some j)
    (hd : ∀ i, w.t ≤ i → j.Due (clk i)) (hA : ((b.see E name w).lists .running).length < cfgA.maxProcessingJobs)
    (hB : ((b.see E name w).lists .running).length < cfgB.maxProcessingJobs) :
    ∃ sched jobsA jobsB w', (Duo.picks b.B E name cfgA cfgB w).run b.B clk sched = ⟨.ret jobsA, .ret jobsB, w'⟩ ∧
      k ∈ jobsA.map Job.id ∧ k ∈ jobsB.map Job.id := by
  obtain ⟨u, hr⟩ := world_of_good hg
  rw [see_eq hr] at hk hq hj hA hB
  have hk : Keyed E u := hk
  have hq : (lst name u .queued).reverse = k :: F := hq
  have hj : view E u k = some j := hj
  have hA : (lst name u .running).length < cfgA.maxProcessingJobs := hA
  have hB : (lst name u .running).length < cfgB.maxProcessingJobs := hB
  have hl : (lst name u .queued).length = F.length + 1 := by rw [← List.length_reverse, hq]; rfl
  obtain ⟨sched, jobsA, jobsB, w2, h1, h2, h3⟩ := twice (clk := clk) L hk (lst name u .queued).length (lst name u .queued).length cfgA cfgB hq
    (by omega) hj (fun i hi => (readyAt_iff j _).mpr (hd i (by rw [hr.t]; exact hi))) (by unfold W.free; omega) (by unfold W.free; omega)
  have hR := (picks_rel (E := E) (name := name) hr cfgA cfgB).run (clk := clk) sched
  have h1 : (Duo.picks SpecB E name cfgA cfgB u).run SpecB clk sched = _ := h1
  rw [h1] at hR
  refine ⟨sched, jobsA, jobsB, ((Duo.picks b.B E name cfgA cfgB w).run b.B clk sched).w, ?_, h2, h3⟩
  have e1 := hR.left
  have e2 := hR.right
  generalize (Duo.picks b.B E name cfgA cfgB w).run b.B clk sched = d at e1 e2
  obtain ⟨l, r, w'⟩ := d
  simp only at e1 e2
  subst e1 e2
  rfl

private theorem stranded_side {t : Twin D b.B} {who : Bool} (op : Op D O) (L : E.Lawful)
    (h : ∀ c, b.Good (t.side c).w.s ∧ (b.snap E name (t.side c)).Tidy ∧ Stranded k (b.snap E name (t.side c))) (hop : NoRescue E k op) :
    ∀ c, b.Good ((Twin.step E name b.B clk t who op).side c).w.s ∧ (b.snap E name ((Twin.step E name b.B clk t who op).side c)).Tidy ∧
      Stranded k (b.snap E name ((Twin.step E name b.B clk t who op).side c)) := by
  obtain ⟨h1, h2, h3⟩ := h who
  have g := good_step (E := E) (name := name) (clk := clk) h1 op
  have T := tidy_step (clk := clk) L h1 h2 op
  have S := (stranded_step (clk := clk) L h1 h2 h3 op hop).1
  intro c
  by_cases e : c = who
  · subst e
    have : (Twin.step E name b.B clk t c op).side c = (Sys.step E name b.B clk (t.side c) op).1 := by
      unfold Twin.step Twin.side
      simp only [upd_same]
    rw [this]
    exact ⟨g, T, S⟩
  · obtain ⟨_, h5, h6⟩ := h c
    have : (Twin.step E name b.B clk t who op).side c = { t.side c with w := (Sys.step E name b.B clk (t.side who) op).1.w } := by
      unfold Twin.step Twin.side
      simp only [upd_ne _ _ e]
    rw [this]
    exact ⟨g, ⟨T.keyed, h5.exec, h5.dead⟩, ⟨S.job, S.queued, h6.own⟩⟩

/-- C53 is false in the other direction as well. Two processes with one free slot each, at least two queued jobs
(at most 20), the oldest one `k1` due: there is an interleaving of their ticks after which both have started `k1`,
while the entry of the next job `k` has been moved to the running list although `k` is still stored as Queued.
Nobody executes `k`, and nobody ever will, whatever turns the two processes take, unless it is cancelled or
submitted as done. -/
theorem C53_refuted_lost (L : E.Lawful) {t : Twin D b.B} (h : TwinReach (O := O) b E name clk (CarefulFor E k) t)
    (ha : ∀ who, (t.proc who).alive = true) {k1 : Str} {F : List Str} (hq : (b.see E name t.w).fifo = k1 :: k :: F) (hne : k ≠ k1)
    (h20 : F.length < 19) {j1 : Job D} (hj1 : (b.see E name t.w).job k1 = some j1) (hd : ∀ i, t.w.t ≤ i → j1.Due (clk i))
    (hfree : ∀ who, (b.snap E name (t.side who)).free = 1) :
    ∃ sched jobsA jobsB w', (Duo.picks b.B E name (t.proc true).cfg (t.proc false).cfg t.w).run b.B clk sched = ⟨.ret jobsA, .ret jobsB, w'⟩ ∧
      jobsA.map Job.id = [k1] ∧ jobsB.map Job.id = [k1] ∧
      (b.see E name w').status k = some .queued ∧ k ∈ (b.see E name w').lists .running ∧ k ∉ (b.see E name w').lists .queued ∧
      ∀ t', TwinLater (O := O) b E name clk (fun _ op => NoRescue E k op) (t.ticked jobsA jobsB w') t' →
        k ∉ (b.see E name t'.w).lists .queued ∧ ∀ who, k ∉ (b.snap E name (t'.side who)).inFlight := by
  obtain ⟨m, hm, hmw, hma, hmt⟩ := twin_merge h ha
  have hg : b.Good t.w.s := by rw [← hmw]; exact hm.good
  have hT := tidy_reach L hm
  have hS := reach_solo L (fun _ _ h => h) hm
  have hsee : ∀ (s : Sys D b.B), s.w = t.w → (b.snap E name s).lists = (b.see E name t.w).lists ∧ (b.snap E name s).job = (b.see E name t.w).job := by
    intro s e; rw [← e]; exact ⟨rfl, rfl⟩
  obtain ⟨hml, hmj⟩ := hsee m hmw
  have hkeyed : (b.see E name t.w).Keyed := by
    intro id j hj
    exact hT.keyed id j (by rw [hmj]; exact hj)
  have hkq : k ∈ (b.see E name t.w).lists .queued := by
    have : k ∈ (b.see E name t.w).fifo := by rw [hq]; exact List.mem_cons_of_mem _ List.mem_cons_self
    exact List.mem_reverse.mp this
  have hstat : (b.snap E name m).status k = some .queued := by
    by_contra hc
    have := hS.queued
    rw [if_neg hc, hml, List.count_eq_zero] at this
    exact this hkq
  have hone : ((b.see E name t.w).lists .queued).count k = 1 := by
    have := hS.queued
    rwa [if_pos hstat, hml] at this
  have hown : ∀ who, (t.proc who).tasks.filter (fun u => u.orig.id = k) = [] := by
    have h0 := hS.idle (by rw [hstat]; decide)
    have h0 : m.tasks.filter (fun u => u.orig.id = k) = [] := h0
    have h1 := (hmt.filter (fun u => decide (u.orig.id = k))).symm
    rw [h0] at h1
    have h2 := h1.eq_nil
    rw [List.filter_append, List.append_eq_nil_iff] at h2
    intro who
    cases who
    · exact h2.2
    · exact h2.1
  have hsub : ∀ who u, u ∈ (t.proc who).tasks → u ∈ m.tasks := by
    intro who u hu
    refine hmt.mem_iff.mpr (List.mem_append.mpr ?_)
    cases who
    · exact .inr hu
    · exact .inl hu
  obtain ⟨kj, hkj, hkjs⟩ : ∃ j, (b.see E name t.w).job k = some j ∧ j.context.jobStatus = .queued := by
    have : ((b.snap E name m).job k).map (·.context.jobStatus) = some .queued := hstat
    rw [hmj] at this
    exact Option.map_eq_some_iff.mp this
  -- on the specification
  obtain ⟨u, hr⟩ := world_of_good hg
  have hfr : ∀ who, (t.proc who).cfg.maxProcessingJobs - ((b.see E name t.w).lists .running).length = 1 := hfree
  rw [see_eq hr] at hkeyed hq hj1 hkj hone hfr
  have hkeyed : Keyed E u := hkeyed
  have hq : (lst name u .queued).reverse = k1 :: k :: F := hq
  have hj1 : view E u k1 = some j1 := hj1
  have hl : (lst name u .queued).length = F.length + 2 := by rw [← List.length_reverse, hq]; rfl
  obtain ⟨sched, jobsA, jobsB, w2, h1, h2, h3, h4, h5, h6⟩ := lost (clk := clk) L hkeyed (lst name u .queued).length (lst name u .queued).length
    (t.proc true).cfg (t.proc false).cfg hq hne (by omega) hj1
    (fun i hi => (readyAt_iff j1 _).mpr (hd i (by rw [hr.t]; exact hi))) (hfr true) (hfr false)
  have hR := (picks_rel (E := E) (name := name) hr (t.proc true).cfg (t.proc false).cfg).run (clk := clk) sched
  have h1 : (Duo.picks SpecB E name (t.proc true).cfg (t.proc false).cfg u).run SpecB clk sched = _ := h1
  have hdone := picks_rely (clk := clk) (name := name) L hkeyed (t.proc true).cfg (t.proc false).cfg sched h1
  rw [h1] at hR
  have hmark : Marked E u w2.s := hdone.2.2.1
  have hkeyed2 : Keyed E w2 := by
    intro id j hj
    rcases hmark id with e | ⟨j0, ms, e1, e2⟩
    · have e : view E w2 id = view E u id := e
      exact hkeyed id j (by rw [← e]; exact hj)
    · have e2 : view E w2 id = some (j0.asRunning ms) := e2
      rw [hj] at e2
      injection e2 with e2
      rw [e2]
      exact hkeyed id j0 e1
  have hkF : k ∉ F := by
    have hone : (lst name u .queued).count k = 1 := hone
    rw [← List.count_reverse, hq, List.count_cons_of_ne hne.symm, List.count_cons_self] at hone
    exact List.count_eq_zero.mp (by omega)
  have hkj : view E u k = some kj := hkj
  have f1 : (b.see E name ((Duo.picks b.B E name (t.proc true).cfg (t.proc false).cfg t.w).run b.B clk sched).w) =
    Sys.obs E name ({ w := w2 } : Sys D SpecB) := see_eq hR.w
  have e1 := hR.left
  have e2 := hR.right
  have e3 := hR.w
  refine ⟨sched, jobsA, jobsB, ((Duo.picks b.B E name (t.proc true).cfg (t.proc false).cfg t.w).run b.B clk sched).w, ?_, h2, h3, ?_⟩
  · generalize (Duo.picks b.B E name (t.proc true).cfg (t.proc false).cfg t.w).run b.B clk sched = d at e1 e2
    obtain ⟨l, r, w'⟩ := d
    simp only at e1 e2
    subst e1 e2
    rfl
  generalize ((Duo.picks b.B E name (t.proc true).cfg (t.proc false).cfg t.w).run b.B clk sched).w = w' at f1 e3
  have hnq : k ∉ (b.see E name w').lists .queued := by
    rw [f1]
    exact fun hc => hkF (h5.mem_iff.mp hc)
  have hjob : (b.see E name w').job k = some kj := by
    rw [f1]
    exact h4.trans hkj
  refine ⟨?_, ?_, hnq, ?_⟩
  · unfold Snap.status
    rw [hjob, Option.map_some, hkjs]
  · rw [f1]
    show k ∈ lst name w2 .running
    rw [h6]
    exact List.mem_cons_self
  · have h0 : ∀ c, b.Good ((t.ticked jobsA jobsB w').side c).w.s ∧ (b.snap E name ((t.ticked jobsA jobsB w').side c)).Tidy ∧
        Stranded k (b.snap E name ((t.ticked jobsA jobsB w').side c)) := by
      intro c
      refine ⟨⟨_, e3.s⟩, ⟨?_, ?_, ?_⟩, ⟨⟨kj, hjob, .inl hkjs⟩, hnq, ?_⟩⟩
      · have : (b.see E name w').Keyed := by rw [f1]; exact hkeyed2
        exact this
      · intro x hx j hj
        rcases List.mem_append.mp hx with hx | hx
        · exact hT.exec x (hsub c x hx) j hj
        · obtain ⟨y, _, rfl⟩ := List.mem_map.mp hx
          cases hj
      · intro hdead
        have hdead : (t.proc c).alive = false := hdead
        rw [ha c] at hdead
        cases hdead
      · show ((t.proc c).tasks ++ _).filter _ = []
        rw [List.filter_append, hown c, List.nil_append, List.filter_eq_nil_iff]
        intro x hx
        obtain ⟨y, hy, rfl⟩ := List.mem_map.mp hx
        have : y.id ∈ [k1] := by
          cases c with
          | true => rw [← h2]; exact List.mem_map_of_mem hy
          | false => rw [← h3]; exact List.mem_map_of_mem hy
        rw [decide_eq_true_eq]
        show y.id ≠ k
        rw [List.mem_singleton.mp this]
        exact hne.symm
    intro t' ht'
    have key : ∀ c, b.Good (t'.side c).w.s ∧ (b.snap E name (t'.side c)).Tidy ∧ Stranded k (b.snap E name (t'.side c)) := by
      induction ht' with
      | refl => exact h0
      | step who op _ hp ih => exact stranded_side op L ih hp
    refine ⟨(key true).2.2.queued, fun who hc => ?_⟩
    obtain ⟨x, hx, e⟩ := List.mem_map.mp hc
    have : x ∈ (b.snap E name (t'.side who)).own k := List.mem_filter.mpr ⟨hx, by simpa using e⟩
    rw [(key who).2.2.own] at this
    cases this

/-! ## C66 -/

/-- C66 is false: one queued job, due, and two processes with free capacity. If one of them picks it after the
other one has counted the queued entries and before it fetches them, the other one loops for ever: whatever
number of rounds it is granted, it does not come to an end. -/
theorem C66_refuted {w : World b.B} (hg : b.Good w.s) (cfgA cfgB : WorkQueueConfig)
    (hq : (b.see E name w).lists .queued = [k]) {j : Job D} (hj : (b.see E name w).job k = some j)
    (hd : ∀ i, w.t ≤ i → j.Due (clk i)) (hA : ((b.see E name w).lists .running).length < cfgA.maxProcessingJobs)
    (hB : ((b.see E name w).lists .running).length < cfgB.maxProcessingJobs) :
    ∃ sched, ∀ fuel,
      let d := (⟨WorkQueue.pickJobsToProcess E name fuel cfgA, WorkQueue.pickJobsToProcess E name (Sys.tickFuel name b.B w.s) cfgB, w⟩ :
        Duo b.B (List (Job D)) (List (Job D))).run b.B clk sched
      (∃ jobsB, d.right = .ret jobsB) ∧ (b.see E name d.w).lists .queued = [] ∧ (d.left.run b.B clk d.w).1 = .diverged := by
  obtain ⟨u, hr⟩ := world_of_good hg
  rw [see_eq hr] at hq hj hA hB
  have hq : lst name u .queued = [k] := hq
  have hj : view E u k = some j := hj
  have hA : (lst name u .running).length < cfgA.maxProcessingJobs := hA
  have hB : (lst name u .running).length < cfgB.maxProcessingJobs := hB
  have hfb : 0 < W.free name cfgB u := by unfold W.free; omega
  have hq1 : (lst name u .queued).length = 1 := by rw [hq]; rfl
  have hfuel : Sys.tickFuel name b.B w.s = 1 + 1 := by
    have := (b.sim.step (.queueCount (formatQueueName name .queued)) w.s u.s (b.okAj name _ (.count _)) hr.s).1
    unfold Sys.tickFuel
    rw [this]
    show (lst name u .queued).length + 1 = 2
    rw [hq1]
  obtain ⟨n, _, hn, hrun⟩ := run_pick_small (E := E) (name := name) (clk := clk) 1 cfgB u (by omega)
  have hn : n = 1 := by
    rcases hn with ⟨h, _⟩ | h
    · omega
    · rw [h, hq1]
  subst hn
  have hturn : lst name (turns E name clk (W.free name cfgB u) 1 (u, [])).1 .queued = [] := by
    show lst name (turn E name clk (W.free name cfgB u) (u, [])).1 .queued = []
    unfold turn
    simp only [hq, List.reverse_cons, List.reverse_nil, List.nil_append, hj]
    have ht : takes (W.free name cfgB u) j (clk u.t) ([] : List (Job D)) = true := by
      have := (readyAt_iff j (clk u.t)).mpr (hd _ (Nat.le_of_eq hr.t))
      simp [takes, this, hfb]
    rw [if_pos ht]
    simp [toRunning, lst_setL]
  obtain ⟨sched, hs⟩ := starve (E := E) (clk := clk) cfgA u (by unfold W.free; omega) (by omega) (by rw [hq1]; decide) hrun hturn
  refine ⟨sched, fun fuel => ?_⟩
  have hR := Duo.Rel.run (clk := clk) (b := b)
    (d := ⟨WorkQueue.pickJobsToProcess E name fuel cfgA, WorkQueue.pickJobsToProcess E name (Sys.tickFuel name b.B w.s) cfgB, w⟩)
    (e := ⟨WorkQueue.pickJobsToProcess E name fuel cfgA, WorkQueue.pickJobsToProcess E name (1 + 1) cfgB, u⟩)
    ⟨rfl, by rw [hfuel], hr, (WorkQueue.aj_pickJobs E name _ _).mono (b.okAj name), (WorkQueue.aj_pickJobs E name _ _).mono (b.okAj name)⟩ sched
  obtain ⟨h1, h2, h3⟩ := hs fuel
  intro d
  refine ⟨⟨_, hR.right.trans h1⟩, ?_, ?_⟩
  · show (b.see E name d.w).lists .queued = []
    have := see_eq (E := E) (name := name) hR.w
    rw [h2] at this
    rw [show b.see E name d.w = _ from this]
    exact hturn
  · have hl : d.left = _ := hR.left
    rw [hl, (b.sim.run clk _ hR.okl _ _ hR.w).1, h3]

/-- C66: a tick returns (it ends or reports an error) if the other processes may do anything but take entries out
of the queued list while it runs: the environment `script` may push, store and read at will before every call,
and calls may fail. `n` is the number of queued entries when the tick counts them. Missing for C66 as stated:
other processes that take entries (`C66_refuted`). -/
theorem C66_gentle_partial {script : Nat → Fate} (hE : ∀ i, ∀ op ∈ (script i).env, b.ok op) (hG : Gentle name script)
    {s : Sys D b.B} (hg : b.Good s.w.s) (cfg : WorkQueueConfig) {n : Nat}
    (hn : (b.list (b.B.execAll (script 1).env (b.B.execAll (script 0).env s.w.s)) (formatQueueName name .queued)).length = n)
    (hl : n < 2 ^ 31) {fuel : Nat} (hf : n < fuel) :
    let r := ((WorkQueue.pickJobsToProcess E name fuel cfg).run (Faulty b.B script) clk (s.faulty script).w).1
    (∃ e, r = .err e) ∨ ∃ jobs, r = .ok jobs := by
  obtain ⟨t, hr⟩ := Impl.rs_of_good hg
  have h0 : (b.sim.faulty script hE).RS (s.faulty script) (t.faulty script) :=
    ⟨⟨⟨hr.w.s, rfl⟩, hr.w.t, hr.w.log⟩, hr.cfg, hr.tasks, hr.alive⟩
  have h1 := ((b.sim.faulty script hE).run clk (WorkQueue.pickJobsToProcess E name fuel cfg)
        ((WorkQueue.aj_pickJobs E name fuel cfg).mono (b.okAj name)) (s.faulty script).w (t.faulty script).w h0.w).1
  intro r
  have hr' : r = _ := h1
  rw [hr']
  have hlen := b.list_eq _ _ name .queued (b.sim.execAll _ (hE 1) (b.sim.execAll _ (hE 0) hr.w.s))
  rw [hlen] at hn
  have hn : ((SpecB.execAll (script 1).env (SpecB.execAll (script 0).env t.w.s)).q (formatQueueName name .queued)).length = n := hn
  have h2 := ends_gentle (E := E) (clk := clk) hG cfg t.w fuel (by omega) (by omega)
  rcases h2 with h2 | ⟨jobs, w', h2⟩
  · exact .inl h2
  · refine .inr ⟨jobs, ?_⟩
    show ((WorkQueue.pickJobsToProcess E name fuel cfg).run (Faulty SpecB script) clk (fw script t.w 0)).1 = _
    rw [h2]

end

/-! ## Concrete cases -/

section
open Demo

/-- The ids of the jobs a tick that has ended has picked. -/
private def got (p : Prog (List (Job Int))) : Option (List Str) :=
  match p with
  | .ret jobs => some (jobs.map Job.id)
  | _ => none

private def one : WorkQueueConfig := { maxProcessingJobs := 1 }

/-- Two processes with capacity 1, and jobs `a` and `b` wait. -/
private def twins (b : Impl) : Twin Int b.B :=
  [(true, (.config one : Op Int Unit)), (false, .config one), (true, .enqueue (job c!"a") .newReRun), (false, .enqueue (job c!"b") { reRun := false, overrideData := false })].foldl
    (fun t p => Twin.step E c!"print" b.B clk t p.1 p.2) (Twin.init b.B b.empty)

/-- The left process fetches the queued ids, the right one makes its whole tick, then the left one goes on. -/
private def overtaking : List Bool := List.replicate 3 true ++ List.replicate 20 false ++ List.replicate 20 true

private theorem twins_reach (b : Impl) : TwinReach (O := Unit) b E c!"print" clk (CarefulFor E c!"b") (twins b) := by
  refine .step (P := CarefulFor E c!"b") false (.enqueue (job c!"b") { reRun := false, overrideData := false }) (.step (P := CarefulFor E c!"b") true (.enqueue (job c!"a") .newReRun)
    (.step (P := CarefulFor E c!"b") false (.config one) (.step (P := CarefulFor E c!"b") true (.config one) .start trivial) trivial) ?_) ?_
  · intro h; cases h
  · exact fun _ => ⟨by decide +kernel, fun ex _ h => by cases h⟩

/-- The hypotheses of `C53_refuted_lost`, in memory and on Redis. -/
example : TwinReach (O := Unit) Impl.redis E c!"print" clk (CarefulFor E c!"b") (twins Impl.redis) ∧
    (Impl.redis.see E c!"print" (twins Impl.redis).w).fifo = [c!"a", c!"b"] ∧
    (∀ who, ((twins Impl.redis).proc who).alive = true) ∧
    (∀ who, (Impl.redis.snap E c!"print" ((twins Impl.redis).side who)).free = 1) ∧
    (∃ j, (Impl.redis.see E c!"print" (twins Impl.redis).w).job c!"a" = some j ∧ ∀ t, j.Due t) := by
  refine ⟨twins_reach _, by decide +kernel, by decide +kernel, by decide +kernel, { job c!"a" with context := { (job c!"a").context with enqueueAt := some 0 } }, by decide +kernel, fun t => trivial⟩

/-- `C53_refuted_lost`: the interleaving, carried out on Redis. Both start `a`; `b` counts as running and is stored as Queued. -/
example :
    let d := (Duo.picks Impl.redis.B E c!"print" one one (twins Impl.redis).w).run Impl.redis.B clk overtaking
    got d.left = some [c!"a"] ∧ got d.right = some [c!"a"] ∧ (Impl.redis.see E c!"print" d.w).lists .running = [c!"b", c!"a"] ∧
    (Impl.redis.see E c!"print" d.w).status c!"b" = some .queued := by
  decide +kernel

/-- `C53_refuted_twice`: with the default capacity both start both jobs. -/
example :
    let d := (Duo.picks Impl.redis.B E c!"print" {} {} (twins Impl.redis).w).run Impl.redis.B clk overtaking
    got d.left = some [c!"a", c!"b"] ∧ got d.right = some [c!"a", c!"b"] := by
  decide +kernel

/-- The hypotheses of `C53_refuted_twice` and `C53_conserved_partial` after every history that leaves `a` waiting. -/
example (b : Impl) : b.Good (on b waiting).w.s ∧ (b.see E c!"print" (on b waiting).w).Keyed ∧ (b.see E c!"print" (on b waiting).w).fifo = [c!"a"] ∧
    (b.see E c!"print" (on b waiting).w).lists .running = [] := by
  have hr : Reach (O := Unit) b E c!"print" clk (CarefulFor E c!"a") (on b waiting) := okAll.on (by decide +kernel) b
  have e : b.see E c!"print" (on b waiting).w = { b.snap E c!"print" (on b waiting) with tasks := [], cfg := {}, alive := true } := rfl
  refine ⟨hr.good, (tidy_reach lawful hr).keyed, ?_, ?_⟩
  · rw [e, see_on]; decide +kernel
  · rw [e, see_on]; decide +kernel

/-- `C53_apart_partial`: with undisturbed ticks, the left process starts `a` and the right one nothing of it. -/
example :
    let t := Twin.step E c!"print" Impl.redis.B clk (Twin.step E c!"print" Impl.redis.B clk (twins Impl.redis) true (.tick : Op Int Unit)) false (.tick : Op Int Unit)
    (Impl.redis.snap E c!"print" (t.side true)).inFlight = [c!"a"] ∧ (Impl.redis.snap E c!"print" (t.side false)).inFlight = [] := by
  decide +kernel

/-- `C66_refuted`: the left process has counted one entry, the right one takes it; after 1000 further rounds the
left one still asks for entries. -/
example :
    let d := (⟨WorkQueue.pickJobsToProcess E c!"print" 1000 {}, WorkQueue.pickJobsToProcess E c!"print" 2 {}, (on Impl.redis waiting).w⟩ :
      Duo Impl.redis.B (List (Job Int)) (List (Job Int))).run Impl.redis.B clk (List.replicate 2 true ++ List.replicate 20 false)
    got d.right = some [c!"a"] ∧ (d.left.run Impl.redis.B clk d.w).1 = .diverged := by
  decide +kernel

/-- Another process submits `b` and `c` while a tick counts and fetches. -/
private def pushing : Nat → Fate := fun i => { env := if i = 2 then [.queuePush (formatQueueName c!"print" .queued) c!"b",
  .queuePush (formatQueueName c!"print" .queued) c!"c"] else [] }

/-- The hypotheses of `C66_gentle_partial`, and the tick. -/
example : Gentle c!"print" pushing ∧ (∀ i, ∀ op ∈ (pushing i).env, Impl.redis.ok op) ∧
    ((match ((WorkQueue.pickJobsToProcess E c!"print" 2 {}).run (Faulty Impl.redis.B pushing) clk ((on Impl.redis waiting).faulty pushing).w).1 with
      | .ok jobs => some (jobs.map Job.id)
      | _ => none) = some [c!"a"]) := by
  refine ⟨?_, ?_, by decide +kernel⟩
  · intro i op h
    unfold pushing at h
    split at h
    · rcases List.mem_cons.mp h with rfl | h
      · exact id
      · rw [List.mem_singleton.mp h]; exact id
    · cases h
  · intro i op h
    unfold pushing at h
    split at h
    · rcases List.mem_cons.mp h with rfl | h
      · exact Impl.redis.okAj c!"print" _ (.push _ _)
      · rw [List.mem_singleton.mp h]; exact Impl.redis.okAj c!"print" _ (.push _ _)
    · cases h

end
end AJ.Props
