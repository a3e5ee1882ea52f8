import Verif.Proofs.Ops

/-! # Jobs that nobody will pick: not in the queued list and not in flight -/

namespace AJ
open W

section
variable {D O : Type} {E : Env D} {name : Str} {clk : Nat → Time} {b : Impl} {k : Str}

/-- Jobs are stored under their ids, the job inside user code is the picked one with the run counted, and a
dead actor has no tasks. -/
structure Snap.Tidy (v : Snap D) : Prop where
  keyed : v.Keyed
  exec : ∀ t ∈ v.tasks, ∀ j, t.executing = some j → j = t.orig.counted
  dead : v.alive = false → v.tasks = []

theorem tidy_iff {s : Sys D SpecB} : (Sys.obs E name s).Tidy ↔ Tidy E s :=
  ⟨fun h => ⟨h.keyed, h.exec, h.dead⟩, fun h => ⟨h.keyed, h.exec, h.dead⟩⟩

theorem tidy_step (L : E.Lawful) {s : Sys D b.B} (hg : b.Good s.w.s) (h : (b.snap E name s).Tidy) (op : Op D O) :
    (b.snap E name (Sys.step E name b.B clk s op).1).Tidy :=
  Impl.lift_any (Q := fun v _ _ v' => v.Tidy → v'.Tidy)
    (fun _ op h => tidy_iff.mpr ((tidy_iff.mp h).step L op)) hg op h

theorem tidy_reach (L : E.Lawful) {P : Snap D → Op D O → Prop} {s : Sys D b.B} (hs : Reach b E name clk P s) :
    (b.snap E name s).Tidy :=
  Reach.lift (Q := Snap.Tidy) (fun _ ht => tidy_iff.mpr (reach_tidy L ht)) hs

/-- Nothing is recorded about `k`, and `k` is still not in flight. -/
structure Aside (k : Str) (v v' : Snap D) : Prop where
  job : v'.job k = v.job k
  own : v'.own k = []
  mine : v'.mine k = v.mine k
  counts : ∀ st, (v'.lists st).count k = (v.lists st).count k

theorem Aside.refl {v : Snap D} (h : v.own k = []) : Aside k v v := ⟨rfl, h, rfl, fun _ => rfl⟩

theorem aside_touch {s s' : Sys D SpecB} {k' : Str} (hk : k ≠ k') (ht : Touch E name k' s.w s'.w)
    (ho : (Sys.obs E name s').own k = []) : Aside k (Sys.obs E name s) (Sys.obs E name s') := by
  refine ⟨ht.view k hk, ho, ?_, ht.count k hk⟩
  obtain ⟨l, h1, h2⟩ := ht.log
  show (s'.w.log.filter _) = (s.w.log.filter _)
  rw [h1, List.filter_append]
  have : l.filter (fun e => decide (e.id = k)) = [] := by
    rw [List.filter_eq_nil_iff]
    intro e he
    rw [h2 e he]
    simpa using fun e => hk e.symm
  rw [this, List.append_nil]

theorem own_nil_mem {v : Snap D} (h : v.own k = []) {i : Nat} {t : Task D} (hi : v.tasks[i]? = some t) : t.orig.id ≠ k := by
  intro e
  have : t ∈ v.own k := List.mem_filter.mpr ⟨List.mem_of_getElem? hi, by simpa using e⟩
  rw [h] at this; cases this

theorem aside_step (L : E.Lawful) {s : Sys D SpecB} (hT : Tidy E s) (hq : k ∉ lst name s.w .queued)
    (ho : (Sys.obs E name s).own k = []) (op : Op D O) (hop : NotAbout k op) :
    Aside k (Sys.obs E name s) (Sys.obs E name (Sys.step E name SpecB clk s op).1) := by
  by_cases ha : s.alive = true
  swap
  · rw [Sys.step_dead s (by simpa using ha)]; exact .refl ho
  have hs := Sys.step_cases (E := E) (name := name) (clk := clk) s ha op
  have hown : ∀ {i : Nat} {t : Task D}, s.tasks[i]? = some t → t.orig.id ≠ k := fun hi =>
    own_nil_mem (v := Sys.obs E name s) ho hi
  have ho' : s.tasks.filter (fun t => decide (t.orig.id = k)) = [] := ho
  generalize Sys.step E name SpecB clk s op = p at hs
  cases hs with
  | enqueue j c => exact aside_touch (fun e => hop.1 j c rfl e.symm) (Touch.submit j c s.w) ho
  | cancel k' => exact aside_touch (fun e => hop.2.1 (by rw [e])) (Touch.cancel hT.keyed k') ho
  | retry k' => exact aside_touch (fun e => hop.2.2 (by rw [e])) (Touch.retry hT.keyed k') ho
  | get k' => exact .refl ho
  | config c => exact ⟨rfl, ho, rfl, fun _ => rfl⟩
  | tick n hk hk20 =>
    have hp := (Scan.init (E := E) (name := name) (clk := clk) (free name s.cfg s.w) s.w).turns L hT.keyed n
    generalize turns E name clk (free name s.cfg s.w) n (s.w, []) = p at hp
    rcases p with ⟨w, rd⟩
    have hn : k ∉ rd.map Job.id := fun hm => hq (hp.queued.mem_iff.mp (List.mem_append_right _ hm))
    have h0 : (rd.map Job.id).count k = 0 := List.count_eq_zero.mpr hn
    have hfil : rd.filter (fun j => decide (j.id = k)) = [] := by
      rw [List.filter_eq_nil_iff]
      intro j hj
      have : j.id ≠ k := fun e => hn (List.mem_map.mpr ⟨j, hj, e⟩)
      simpa using this
    refine ⟨hp.same k hn, ?_, ?_, fun st => ?_⟩
    · show (s.tasks ++ rd.map fun j => (⟨j, none⟩ : Task D)).filter (fun t => decide (t.orig.id = k)) = []
      rw [List.filter_append, ho', List.filter_map]
      show [] ++ (rd.filter (fun j => decide (j.id = k))).map _ = []
      rw [hfil]; rfl
    · show w.log.filter _ = s.w.log.filter _
      have := hp.log; simp only at this
      rw [this, List.filter_append, List.filter_map]
      show _ ++ (rd.filter (fun j => decide (j.id = k))).map _ = _
      rw [hfil]; simp
    · show (lst name w st).count k = (lst name s.w st).count k
      by_cases e1 : st = .queued
      · subst e1
        have := hp.queued.count_eq k
        rw [List.count_append, h0] at this
        simpa using this
      · by_cases e2 : st = .running
        · subst e2
          have := hp.running; simp only at this
          rw [this, List.count_append, List.count_reverse, h0, Nat.zero_add]
        · have := hp.others st e1 e2; simp only at this; rw [this]
  | tickPanic => exact ⟨rfl, rfl, rfl, fun _ => rfl⟩
  | userPanic => exact ⟨rfl, rfl, rfl, fun _ => rfl⟩
  | noStart => exact .refl ho
  | noFinish => exact .refl ho
  | noUserPanic => exact .refl ho
  | started i orig hi hcan =>
    refine aside_touch (k' := orig.id) (fun e => hown hi e.symm) ?_ ?_
    · exact (Touch.say (.hookMsg orig.id true) rfl _).trans (Touch.say (.ran orig.counted.context) rfl _)
    · have hne : orig.id ≠ k := hown hi
      exact (own_set_other (t' := ⟨orig, some orig.counted⟩) hi hne hne).trans ho
  | startCancelled i orig hi hcan =>
    exact aside_touch (k' := orig.id) (fun e => hown hi e.symm) (Touch.push orig.id .canceled s.w)
      ((own_erase_other hi (hown hi)).trans ho)
  | finished i x orig job w hi hf =>
    have hjob : job = orig.counted := hT.exec _ (List.mem_of_getElem? hi) job rfl
    subst hjob
    exact aside_touch (k' := orig.id) (fun e => hown hi e.symm) hf.touch ((own_erase_other hi (hown hi)).trans ho)
  | finishPanic i x orig job w hi hf =>
    have hjob : job = orig.counted := hT.exec _ (List.mem_of_getElem? hi) job rfl
    subst hjob
    exact aside_touch (k' := orig.id) (fun e => hown hi e.symm) hf.touch rfl

/-- A turn that is no request about `k` does nothing to it. -/
theorem aside_any (L : E.Lawful) {s : Sys D b.B} (hg : b.Good s.w.s) (hT : (b.snap E name s).Tidy)
    (hq : k ∉ (b.snap E name s).lists .queued) (ho : (b.snap E name s).own k = []) (op : Op D O) (hop : NotAbout k op) :
    Aside k (b.snap E name s) (b.snap E name (Sys.step E name b.B clk s op).1) :=
  Impl.lift_any (Q := fun v op _ v' => v.Tidy → k ∉ v.lists .queued → v.own k = [] → NotAbout k op → Aside k v v')
    (fun _ op hT hq ho hop => aside_step L (tidy_iff.mp hT) hq ho op hop) hg op hT hq ho hop

theorem dead_step {s : Sys D b.B} (ha : s.alive = false) (op : Op D O) : (Sys.step E name b.B clk s op).1 = s := by
  simp [Sys.step, ha]

theorem not_about_cases (k : Str) (op : Op D O) : NotAbout k op ∨ (∃ j c, op = .enqueue j c ∧ j.id = k) ∨
    op = .cancel k ∨ op = .retry k := by
  by_cases h2 : op = .cancel k
  · exact .inr (.inr (.inl h2))
  by_cases h3 : op = .retry k
  · exact .inr (.inr (.inr h3))
  by_cases h1 : ∃ j c, op = .enqueue j c ∧ j.id = k
  · exact .inr (.inl h1)
  · exact .inl ⟨fun j c e hid => h1 ⟨j, c, e, hid⟩, h2, h3⟩

/-- A job that is stored as Running but not in flight and not queued keeps being that, whatever anyone does. -/
theorem adrift_running_step (L : E.Lawful) {s : Sys D b.B} (hg : b.Good s.w.s) (hT : (b.snap E name s).Tidy)
    {j : Job D} (hj : (b.snap E name s).job k = some j) (hst : j.context.jobStatus = .running)
    (hq : k ∉ (b.snap E name s).lists .queued) (ho : (b.snap E name s).own k = []) (op : Op D O) :
    Aside k (b.snap E name s) (b.snap E name (Sys.step E name b.B clk s op).1) := by
  by_cases ha : s.alive = true
  swap
  · rw [dead_step (by simpa using ha)]; exact .refl ho
  rcases not_about_cases k op with h | ⟨j', c, rfl, rfl⟩ | rfl | rfl
  · exact aside_any L hg hT hq ho op h
  · have := (submit_any (O := O) (name := name) (clk := clk) L hg ha j' c).2.2.2 j hj (fun h => by
      rw [hst] at h; simp [JobStatus.Done] at h)
    rw [this.2.2.2.1 (.inr hst)]; exact .refl ho
  · have := (cancel_any (O := O) (name := name) (clk := clk) L hg hT.keyed ha k).2.2.2 (fun j' h => by
      rw [hj] at h; cases h; rw [hst]; simp)
    rw [this]; exact .refl ho
  · have := (retry_any (O := O) (name := name) (clk := clk) L hg hT.keyed ha k).2.2 (fun j' h => by
      rw [hj] at h; cases h; rw [hst]; simp [JobStatus.Done])
    rw [this.2]; exact .refl ho

theorem adrift_running (L : E.Lawful) {P : Snap D → Op D O → Prop} {s s' : Sys D b.B} (hg : b.Good s.w.s)
    (hT : (b.snap E name s).Tidy) {j : Job D} (hj : (b.snap E name s).job k = some j)
    (hst : j.context.jobStatus = .running) (hq : k ∉ (b.snap E name s).lists .queued)
    (ho : (b.snap E name s).own k = []) (h : Later b E name clk P s s') :
    b.Good s'.w.s ∧ (b.snap E name s').Tidy ∧ Aside k (b.snap E name s) (b.snap E name s') := by
  induction h with
  | refl => exact ⟨hg, hT, .refl ho⟩
  | @step s1 op _ _ ih =>
    obtain ⟨h1, h2, h3⟩ := ih
    have hq' : k ∉ (b.snap E name s1).lists .queued := by
      rw [← List.count_eq_zero, h3.counts .queued, List.count_eq_zero]; exact hq
    have h4 := adrift_running_step (clk := clk) L h1 h2 (h3.job.trans hj) hst hq' h3.own op
    exact ⟨good_step h1 op, tidy_step L h1 h2 op, h4.job.trans h3.job, h4.own, h4.mine.trans h3.mine,
      fun st => (h4.counts st).trans (h3.counts st)⟩

/-- A job stored as Queued or Running that is neither in the queued list nor in flight: nobody will run it. -/
structure Stranded (k : Str) (v : Snap D) : Prop where
  job : ∃ j, v.job k = some j ∧ (j.context.jobStatus = .queued ∨ j.context.jobStatus = .running)
  queued : k ∉ v.lists .queued
  own : v.own k = []

theorem stranded_step (L : E.Lawful) {s : Sys D b.B} (hg : b.Good s.w.s) (hT : (b.snap E name s).Tidy)
    (h : Stranded k (b.snap E name s)) (op : Op D O) (hop : NoRescue E k op) :
    Stranded k (b.snap E name (Sys.step E name b.B clk s op).1) ∧
    (b.snap E name (Sys.step E name b.B clk s op).1).runs k = (b.snap E name s).runs k := by
  obtain ⟨⟨j, hj, hst⟩, hq, ho⟩ := h
  have hnd : ¬ j.context.jobStatus.Done := by rcases hst with e | e <;> rw [e] <;> simp [JobStatus.Done]
  by_cases ha : s.alive = true
  swap
  · rw [dead_step (by simpa using ha)]; exact ⟨⟨⟨j, hj, hst⟩, hq, ho⟩, rfl⟩
  rcases not_about_cases k op with h | ⟨j', c, rfl, rfl⟩ | rfl | rfl
  · have h' := aside_any (clk := clk) L hg hT hq ho op h
    refine ⟨⟨⟨j, h'.job.trans hj, hst⟩, ?_, h'.own⟩, runs_same h'.mine⟩
    rw [← List.count_eq_zero, h'.counts .queued, List.count_eq_zero]; exact hq
  · obtain ⟨_, ho', _, h'⟩ := submit_any (O := O) (name := name) (clk := clk) L hg ha j' c
    obtain ⟨h1, h2, h3, h4, h5⟩ := h' j hj (fun h => hnd h.1)
    have hown : (b.snap E name (Sys.step E name b.B clk s (.enqueue j' c : Op D O)).1).own j'.id = [] := by
      unfold Snap.own; rw [ho'.tasks]; exact ho
    have hmine : (b.snap E name (Sys.step E name b.B clk s (.enqueue j' c : Op D O)).1).mine j'.id = (b.snap E name s).mine j'.id := by
      unfold Snap.mine; rw [h2]
    refine ⟨⟨?_, by rw [h1]; exact hq, hown⟩, runs_same hmine⟩
    obtain ⟨he, hs'⟩ := hop.2 j' c rfl rfl
    by_cases hr : j.context.jobStatus = .running
    · rw [h4 (.inr hr)]; exact ⟨j, hj, hst⟩
    · cases hov : c.overrideData with
      | false => rw [h4 (.inl hov)]; exact ⟨j, hj, hst⟩
      | true => exact ⟨_, h5 hov hr he, hs'⟩
  · exact absurd rfl hop.1
  · have := (retry_any (O := O) (name := name) (clk := clk) L hg hT.keyed ha k).2.2 (fun j' h => by
      rw [hj] at h; cases h; exact hnd)
    rw [this.2]; exact ⟨⟨⟨j, hj, hst⟩, hq, ho⟩, rfl⟩

theorem stranded_later (L : E.Lawful) {P : Snap D → Op D O → Prop} {s s' : Sys D b.B} (hg : b.Good s.w.s)
    (hT : (b.snap E name s).Tidy) (h0 : Stranded k (b.snap E name s)) (hP : ∀ v op, P v op → NoRescue E k op)
    (h : Later b E name clk P s s') :
    b.Good s'.w.s ∧ (b.snap E name s').Tidy ∧ Stranded k (b.snap E name s') ∧
    (b.snap E name s').runs k = (b.snap E name s).runs k := by
  induction h with
  | refl => exact ⟨hg, hT, h0, rfl⟩
  | step op _ hp ih =>
    obtain ⟨h1, h2, h3, h4⟩ := ih
    obtain ⟨h5, h6⟩ := stranded_step (clk := clk) L h1 h2 h3 op (hP _ _ hp)
    exact ⟨good_step h1 op, tidy_step L h1 h2 op, h5, h6.trans h4⟩

end
end AJ
