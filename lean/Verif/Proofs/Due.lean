import Verif.Proofs.Ledger
import Verif.Proofs.Later

/-! # Whatever runs was due -/

namespace AJ
open W Sys
variable {D O : Type} {E : Env D} {name : Str} {clk : Nat → Time} {b : Impl} {P : Snap D → Op D O → Prop}

/-- The code of a job runs only in the turn that starts an execution of it. -/
theorem step_ran (L : E.Lawful) (t : Sys D SpecB) (ht : Reach Impl.spec E name clk P t) (op : Op D O) {c : JobContext}
    (h : .ran c ∈ (Sys.step E name SpecB clk t op).1.w.log) :
    .ran c ∈ t.w.log ∨ ∃ (i : Nat) (orig : Job D), t.tasks[i]? = some ⟨orig, none⟩ ∧ c = orig.counted.context := by
  by_cases ha : t.alive = true
  swap
  · rw [Sys.step_dead t (by simpa using ha)] at h; exact .inl h
  have hT := reach_tidy L ht
  have more : ∀ {l : List Event}, (Sys.step E name SpecB clk t op).1.w.log = t.w.log ++ l → .ran c ∉ l → .ran c ∈ t.w.log := fun e hl => by
    rw [e] at h
    exact (List.mem_append.1 h).resolve_right hl
  cases op with
  | enqueue j cfg =>
    obtain ⟨-, -, h1, h2⟩ := submit_spec (O := O) (name := name) (clk := clk) L t ha j cfg
    by_cases hc : (Sys.obs E name t).job j.id = none ∨ ∃ ex, (Sys.obs E name t).job j.id = some ex ∧ ex.context.jobStatus.Done ∧ cfg.reRun = true
    · obtain ⟨-, -, g3, -⟩ := h1 hc
      exact .inl (more g3 (by simp))
    · cases hex : (Sys.obs E name t).job j.id with
      | none => exact absurd (.inl hex) hc
      | some ex =>
        obtain ⟨-, g2, -⟩ := h2 ex hex fun h => hc (.inr ⟨ex, hex, h⟩)
        exact .inl (more (l := []) (by simpa using g2) (by simp))
  | cancel k =>
    obtain ⟨-, -, h1, h2⟩ := cancel_spec (O := O) (name := name) (clk := clk) L t hT.keyed ha k
    by_cases hc : ∀ j, (Sys.obs E name t).job k = some j → j.context.jobStatus ≠ .queued
    · exact .inl (more (l := []) (by simpa using congrArg Snap.log (h2 hc)) (by simp))
    · push Not at hc
      obtain ⟨j, hj, hq⟩ := hc
      obtain ⟨-, -, -, g4, -⟩ := h1 j hj hq
      exact .inl (more g4 (by simp))
  | retry k =>
    obtain ⟨-, h1, h2⟩ := retry_spec (O := O) (name := name) (clk := clk) L t hT.keyed ha k
    by_cases hc : ∀ j, (Sys.obs E name t).job k = some j → ¬ j.context.jobStatus.Done
    · exact .inl (more (l := []) (by simpa using congrArg Snap.log (h2 hc).2) (by simp))
    · push Not at hc
      obtain ⟨j, hj, hd⟩ := hc
      obtain ⟨-, -, -, -, -, g3, -⟩ := h1 j hj hd
      exact .inl (more g3 (by simp))
  | finish i x =>
    rcases hi : t.tasks[i]? with _ | ⟨orig, _ | job⟩
    · have e : (Sys.step E name SpecB clk t (.finish i x)).1 = t := by simp [Sys.step, ha, hi]
      rw [e] at h; exact .inl h
    · have e : (Sys.step E name SpecB clk t (.finish i x)).1 = t := by simp [Sys.step, ha, hi]
      rw [e] at h; exact .inl h
    · obtain ⟨hr, -, hj⟩ := reach_exec (b := Impl.spec) L ht hi
      have hrun : job.context.jobStatus = .running := by rw [hj job rfl]; exact hr
      have h' := run_ends (b := Impl.spec) (O := O) (clk := clk) (name := name) (x := x) L t ⟨_, rfl⟩ ha hi hrun
      simp only [Sys.obs_eq] at h'
      rcases h' with ⟨h', -⟩ | ⟨-, j', h', -⟩ | ⟨-, st, h', -⟩
      · have hs := Sys.step_cases (E := E) (name := name) (clk := clk) t ha (.finish i x)
        have hal : (Sys.step E name SpecB clk t (.finish i x)).1.alive = false := h'.alive
        clear h' more
        generalize Sys.step E name SpecB clk t (.finish i x) = p at hs hal h
        cases hs with
        | finishPanic i x orig' job' w hi' hf =>
          have h : _ ∈ w.log := h
          rw [hf.panic_log] at h
          exact .inl ((List.mem_append.1 h).resolve_right (by simp))
        | finished => exact absurd (ha.symm.trans hal) (by simp)
        | noFinish => exact absurd (ha.symm.trans hal) (by simp)
      · exact .inl (more h'.log (by simp))
      · exact .inl (more h'.log (by simp))
  | start i =>
    have hs := Sys.step_cases (E := E) (name := name) (clk := clk) t ha (.start i : Op D O)
    clear more
    generalize Sys.step E name SpecB clk t (.start i : Op D O) = p at hs h
    cases hs with
    | started _ orig hi hc =>
      have h : _ ∈ (t.w.log ++ [.hookMsg orig.id true]) ++ [.ran orig.counted.context] := h
      rcases List.mem_append.1 h with h | h
      · exact .inl ((List.mem_append.1 h).resolve_right (by simp))
      · cases List.mem_singleton.1 h
        exact .inr ⟨i, orig, hi, rfl⟩
    | startCancelled => exact .inl h
    | noStart => exact .inl h
  | tick =>
    have hs := Sys.step_cases (E := E) (name := name) (clk := clk) t ha (.tick : Op D O)
    clear more
    generalize Sys.step E name SpecB clk t (.tick : Op D O) = p at hs h
    cases hs with
    | tick n _ _ =>
      have hp := (Scan.init (clk := clk) (E := E) (name := name) (free name t.cfg t.w) t.w).turns L hT.keyed n
      rw [show (({ t with
        w := (turns E name clk (free name t.cfg t.w) n (t.w, [])).1
        tasks := t.tasks ++ (turns E name clk (free name t.cfg t.w) n (t.w, [])).2.map fun j => ⟨j, none⟩ } : Sys D SpecB), (Resp.silent : Resp D)).1.w.log = _
        from hp.log] at h
      refine .inl ((List.mem_append.1 h).resolve_right fun h => ?_)
      obtain ⟨_, -, e⟩ := List.mem_map.1 h
      cases e
    | tickPanic => exact .inl h
  | get k =>
    have hs := Sys.step_cases (E := E) (name := name) (clk := clk) t ha (.get k : Op D O)
    clear more
    generalize Sys.step E name SpecB clk t (.get k : Op D O) = p at hs h
    cases hs
    exact .inl h
  | config c =>
    have hs := Sys.step_cases (E := E) (name := name) (clk := clk) t ha (.config c : Op D O)
    clear more
    generalize Sys.step E name SpecB clk t (.config c : Op D O) = p at hs h
    cases hs
    exact .inl h
  | userPanic i =>
    have hs := Sys.step_cases (E := E) (name := name) (clk := clk) t ha (.userPanic i : Op D O)
    clear more
    generalize Sys.step E name SpecB clk t (.userPanic i : Op D O) = p at hs h
    cases hs <;> exact .inl h

/-- Every job in flight was due at a time that was read from the clock, and so was every job whose code ran. -/
structure Snap.AllDue (clk : Nat → Time) (v : Snap D) : Prop where
  tasks : ∀ x ∈ v.tasks, ∃ n, n < v.reads ∧ x.orig.Due (clk n)
  ran : ∀ c, .ran c ∈ v.log → ∃ n, n < v.reads ∧ ∀ x : D, (⟨c, x⟩ : Job D).Due (clk n)

theorem all_due (L : E.Lawful) {s : Sys D b.B} (hs : Reach b E name clk P s) : (b.snap E name s).AllDue clk := by
  refine Reach.lift (Q := fun v => v.AllDue clk) (fun t ht => ?_) hs
  refine Reach.induct (b := Impl.spec) (Q := fun t : Sys D SpecB => (Sys.obs E name t).AllDue clk) ⟨fun _ hx => absurd hx List.not_mem_nil, fun _ hx => absurd hx List.not_mem_nil⟩ (fun t op hr _ ih => ?_) ht
  have hT := reach_tidy L hr
  have htime : t.w.t ≤ (Sys.step E name SpecB clk t op).1.w.t := step_reads L hT op
  obtain ⟨ih1, ih2⟩ := ih
  have old : ∀ x ∈ t.tasks, ∃ n, n < (Sys.step E name SpecB clk t op).1.w.t ∧ x.orig.Due (clk n) := fun x hx => by
    obtain ⟨n, h1, h2⟩ := ih1 x hx
    exact ⟨n, Nat.lt_of_lt_of_le h1 htime, h2⟩
  refine ⟨?_, fun c hc => ?_⟩
  · show ∀ x ∈ (Sys.step E name SpecB clk t op).1.tasks, ∃ n, n < (Sys.step E name SpecB clk t op).1.w.t ∧ x.orig.Due (clk n)
    by_cases ha : t.alive = true
    swap
    · rw [Sys.step_dead t (by simpa using ha)] at old ⊢; exact old
    have hs := Sys.step_cases (E := E) (name := name) (clk := clk) t ha op
    clear htime
    generalize Sys.step E name SpecB clk t op = p at hs old
    cases hs with
    | tick n hk hk20 =>
      have hp := (Scan.init (clk := clk) (E := E) (name := name) (free name t.cfg t.w) t.w).turns L hT.keyed n
      intro x hx
      simp only [List.mem_append, List.mem_map] at hx
      rcases hx with hx | ⟨j, hj, rfl⟩
      · exact old x hx
      · obtain ⟨i, job, -, h2, -, hd, rfl, -⟩ := hp.started j hj
        exact ⟨i, Nat.lt_trans (Nat.lt_succ_self i) h2, (readyAt_iff _ _).mp hd⟩
    | started i orig hi hcan =>
      intro x hx
      rcases List.mem_or_eq_of_mem_set hx with hx | rfl
      · exact old x hx
      · exact old ⟨orig, none⟩ (List.mem_of_getElem? hi)
    | startCancelled => exact fun x hx => old x (List.mem_of_mem_eraseIdx hx)
    | finished => exact fun x hx => old x (List.mem_of_mem_eraseIdx hx)
    | tickPanic => exact fun x hx => by cases hx
    | userPanic => exact fun x hx => by cases hx
    | finishPanic => exact fun x hx => by cases hx
    | _ => exact old
  · rcases step_ran L t hr op hc with h | ⟨i, orig, hi, rfl⟩
    · obtain ⟨n, h1, h2⟩ := ih2 c h
      exact ⟨n, Nat.lt_of_lt_of_le h1 htime, h2⟩
    · obtain ⟨n, h1, h2⟩ := ih1 _ (List.mem_of_getElem? hi)
      exact ⟨n, Nat.lt_of_lt_of_le h1 htime, fun _ => h2⟩

end AJ
