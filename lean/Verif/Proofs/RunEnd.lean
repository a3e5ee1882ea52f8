import Verif.Proofs.Runs

/-! # The end of a run, in any state -/

namespace AJ
open W

section
variable {D O : Type} {E : Env D} (L : E.Lawful) {name : Str} {clk : Nat → Time} {b : Impl} {k : Str}
variable {P : Snap D → Op D O → Prop}

/-- Why the end of a run may panic. -/
def Job.EndPanics (E : Env D) (x : Executable D O) (job : Job D) (now : Time) : Prop :=
  (∃ r, job.context.retry = some r ∧ x.fails job = true ∧ r.shouldRetry = true ∧ r.retryAt E.overflowChecks now = none) ∨
  ∃ e n m c, job.context.jobType = .cron e n m c ∧ addI32 E.overflowChecks m 1 = none

/-- The end of a run, in any state of the store: the actor dies; or one outcome is recorded; or, if the job cannot be
written, its id moves but the stored job is unreadable. -/
theorem run_ends (s : Sys D b.B) (hg : b.Good s.w.s) (ha : s.alive = true) {i : Nat} {x : Executable D O}
    {orig job : Job D} (hi : s.tasks[i]? = some ⟨orig, some job⟩) (hrun : job.context.jobStatus = .running) :
    let v := b.snap E name s
    let v' := b.snap E name (Sys.step E name b.B clk s (.finish i x)).1
    (v.Dies v' ∧ job.EndPanics E x (clk v.reads)) ∨
    (E.Encodable (x.leaves job (clk v.reads)) ∧ ∃ j', v.RunEnds v' i job j' ∧
      (L.Stored job → x.retryAt = none ∨ job.context.retry = none → Ran E L clk x job v.reads v'.reads j')) ∨
    (¬ E.Encodable (x.leaves job (clk v.reads)) ∧ ∃ st, v.RunLost v' i job st ∧
      (x.retryAt = none ∨ job.context.retry = none → job.NoRetry (x.fails job) → job.NoNext E (clk v.reads) →
        st = if x.fails job then .failed else .finished)) := by
  refine Impl.lift_any (b := b) (E := E) (name := name) (clk := clk) (O := O)
    (Q := fun v op _ v' => ∀ i x, op = .finish i x → v.alive = true → v.tasks[i]? = some ⟨orig, some job⟩ →
      (v.Dies v' ∧ job.EndPanics E x (clk v.reads)) ∨
      (E.Encodable (x.leaves job (clk v.reads)) ∧ ∃ j', v.RunEnds v' i job j' ∧
        (L.Stored job → x.retryAt = none ∨ job.context.retry = none → Ran E L clk x job v.reads v'.reads j')) ∨
      (¬ E.Encodable (x.leaves job (clk v.reads)) ∧ ∃ st, v.RunLost v' i job st ∧
        (x.retryAt = none ∨ job.context.retry = none → job.NoRetry (x.fails job) → job.NoNext E (clk v.reads) →
          st = if x.fails job then .failed else .finished)))
    (fun t op => ?_) hg (.finish i x) i x rfl ha hi
  rintro i x rfl ha hi
  have ha : t.alive = true := ha
  have hi : t.tasks[i]? = some ⟨orig, some job⟩ := hi
  have hs := Sys.step_cases (E := E) (name := name) (clk := clk) t ha (.finish i x)
  show ((Sys.obs E name t).Dies (Sys.obs E name _) ∧ job.EndPanics E x (clk t.w.t)) ∨
    (E.Encodable (x.leaves job (clk t.w.t)) ∧ ∃ j', (Sys.obs E name t).RunEnds (Sys.obs E name _) i job j' ∧ _) ∨
    (¬ E.Encodable (x.leaves job (clk t.w.t)) ∧ ∃ st, (Sys.obs E name t).RunLost (Sys.obs E name _) i job st ∧ _)
  generalize Sys.step E name SpecB clk t (.finish i x) = p at hs
  cases hs with
  | finished i x orig' job' w hi' hf =>
    rw [hi] at hi'
    cases hi'
    by_cases hser : E.Encodable (x.leaves job (clk t.w.t))
    · obtain ⟨j, hj⟩ := hf.ends L hser hrun
      refine .inr (.inl ⟨hser, j, ⟨ha, rfl, ?_, ?_, hj.id, hj.runs, hj.status, hj.running, hj.target, hj.others, rfl, hj.log, hj.time⟩,
        fun hst hx => hf.ran hx hser hst hrun hj⟩)
      · show view E w job.id = some j
        rw [hj.view]; simp
      · intro id hid
        show view E w id = view E t.w id
        rw [hj.view]; simp [upd, hid]
    · obtain ⟨st, hj⟩ := hf.drops L hser hrun
      refine .inr (.inr ⟨hser, st, ⟨ha, rfl, ?_, ?_, hj.status, hj.running, hj.target, hj.others, rfl, hj.log, hj.time⟩,
        fun hx hno hnx => ?_⟩)
      · show view E w job.id = none
        rw [hj.view]; simp
      · intro id hid
        show view E w id = view E t.w id
        rw [hj.view]; simp [upd, hid]
      · have h1 := hj.log
        rw [hf.over hx hno hnx, List.append_cancel_left_eq] at h1
        simp only [List.cons.injEq, and_true, true_and, Event.statusMsg.injEq] at h1
        exact h1.symm
  | finishPanic i x orig' job' w hi' hf =>
    rw [hi] at hi'
    cases hi'
    refine .inl ⟨⟨rfl, rfl, hf.panic_same.2, hf.panic_same.1⟩, ?_⟩
    cases hf with
    | retryPanic h1 _ h4 h2 h3 => exact .inl ⟨_, h1, h4, h2, h3⟩
    | nextPanic hask hn =>
      have h1 := (hask.facts (name := name)).1
      cases hn with
      | panic h2 _ _ h3 =>
        rw [h1] at h2
        exact .inr ⟨_, _, _, _, h2, h3⟩
  | noFinish i x h => exact absurd hi (h _ _)

/-- A task of `k` in flight: it is of the stored job, which is Running, and the job inside user code is the
stored one with the run counted. -/
theorem reach_task {s : Sys D b.B} (hs : Reach (O := O) b E name clk (Orderly k) s)
    (ha : s.alive = true) {i : Nat} {orig : Job D} {ex : Option (Job D)} (hi : s.tasks[i]? = some ⟨orig, ex⟩)
    (hk : orig.id = k) :
    (b.snap E name s).job k = some orig ∧ orig.context.jobStatus = .running ∧ L.Stored orig ∧
    (b.snap E name s).own k = [⟨orig, ex⟩] ∧ ∀ job, ex = some job → job = orig.counted := by
  refine Reach.lift (Q := fun v => v.alive = true → v.tasks[i]? = some ⟨orig, ex⟩ → v.job k = some orig ∧
    orig.context.jobStatus = .running ∧ L.Stored orig ∧ v.own k = [⟨orig, ex⟩] ∧ ∀ job, ex = some job → job = orig.counted)
    (fun t ht ha hi => ?_) hs ha hi
  have ha : t.alive = true := ha
  have hi : t.tasks[i]? = some ⟨orig, ex⟩ := hi
  have hsolo : Solo k (Sys.obs E name t) := by
    rcases reach_orderly (b := Impl.spec) L (fun _ _ h => h) ht with h | h
    · exact h
    · have : (⟨orig, ex⟩ : Task D) ∈ (Impl.spec.snap E name t).own k :=
        List.mem_filter.mpr ⟨List.mem_of_getElem? hi, by simpa using hk⟩
      rw [h.own] at this; cases this
  obtain ⟨h1, h2, h3⟩ := hsolo.task ha hi hk
  exact ⟨h1, h2, Env.Lawful.stored_view (L := L) h1, h3, fun job e => (reach_tidy L ht).exec _ (List.mem_of_getElem? hi) job e⟩

/-- Whatever is submitted in whatever way: a job in flight was marked Running, and is as if read from storage; the job
inside user code is that job with the run counted. -/
theorem reach_exec {s : Sys D b.B} (hs : Reach b E name clk P s) {i : Nat} {orig : Job D} {ex : Option (Job D)}
    (hi : s.tasks[i]? = some ⟨orig, ex⟩) :
    orig.context.jobStatus = .running ∧ L.Stored orig ∧ ∀ job, ex = some job → job = orig.counted := by
  refine Reach.lift (Q := fun v => v.tasks[i]? = some ⟨orig, ex⟩ → orig.context.jobStatus = .running ∧ L.Stored orig ∧
    ∀ job, ex = some job → job = orig.counted) (fun t ht hi => ?_) hs hi
  have hi : t.tasks[i]? = some ⟨orig, ex⟩ := hi
  have key := Reach.induct (b := Impl.spec) (Q := fun t : Sys D SpecB => ∀ x ∈ t.tasks,
    x.orig.context.jobStatus = .running ∧ L.Stored x.orig) (fun x hx => by cases hx) (fun t op hr _ ih => ?_) ht
  · obtain ⟨h1, h2⟩ := key _ (List.mem_of_getElem? hi)
    exact ⟨h1, h2, fun job e => (reach_tidy L ht).exec _ (List.mem_of_getElem? hi) job e⟩
  · have hT := reach_tidy L hr
    show ∀ x ∈ (Sys.step E name SpecB clk t op).1.tasks, _
    by_cases ha : t.alive = true
    swap
    · rw [Sys.step_dead t (by simpa using ha)]; exact ih
    have hs := Sys.step_cases (E := E) (name := name) (clk := clk) t ha op
    have ih : ∀ x ∈ t.tasks, x.orig.context.jobStatus = .running ∧ L.Stored x.orig := ih
    generalize Sys.step E name SpecB clk t op = p at hs
    cases hs with
    | tick n hk hk20 =>
      have hp := (Scan.init (clk := clk) (E := E) (name := name) (free name t.cfg t.w) t.w).turns L hT.keyed n
      intro x hx
      simp only [List.mem_append, List.mem_map] at hx
      rcases hx with hx | ⟨j, hj, rfl⟩
      · exact ih x hx
      · obtain ⟨_, job, _, _, hv, _, rfl, _⟩ := hp.started j hj
        exact ⟨rfl, (Env.Lawful.stored_view (L := L) hv).asRunning _⟩
    | started i orig hi hcan =>
      intro x hx
      rcases List.mem_or_eq_of_mem_set hx with hx | rfl
      · exact ih x hx
      · exact ih ⟨orig, none⟩ (List.mem_of_getElem? hi)
    | startCancelled => exact fun x hx => ih x (List.mem_of_mem_eraseIdx hx)
    | finished => exact fun x hx => ih x (List.mem_of_mem_eraseIdx hx)
    | tickPanic => exact fun x hx => by cases hx
    | userPanic => exact fun x hx => by cases hx
    | finishPanic => exact fun x hx => by cases hx
    | _ => exact ih

end
end AJ
