import Verif.Spec.Ledger
import Verif.Proofs.RunEnd
import Verif.Proofs.Ops

/-! # The lists of the jobs that are done -/

namespace AJ
open W

section
variable {D O : Type} {E : Env D} {name : Str} {clk : Nat → Time} {b : Impl} {k : Str} {P : Snap D → Op D O → Prop}

theorem W.Fin.panic_log {x : Executable D O} {job : Job D} {w w' : W} (h : Fin E name clk x job w (.panicked, w')) :
    w'.log = w.log ++ [.hookMsg job.id true] := by
  cases h with
  | retryPanic => rfl
  | nextPanic ha hn =>
    obtain ⟨_, _, _, _, h5, _⟩ := ha.facts (name := name)
    obtain ⟨_, _, _, k4, _⟩ := hn.facts (name := name)
    exact k4.trans h5

/-- Every turn keeps the books, over the specification. -/
theorem books_spec (L : E.Lawful) (t : Sys D SpecB) (ht : Reach Impl.spec E name clk P t) (op : Op D O) :
    (Sys.obs E name t).Books (Sys.obs E name (Sys.step E name SpecB clk t op).1) op := by
  by_cases ha : t.alive = true
  swap
  · rw [Sys.step_dead t (by simpa using ha)]
    exact .quiet _ (fun _ _ => rfl) ⟨[], by simp, by simp⟩ fun _ _ => rfl
  have hT := reach_tidy L ht
  cases op with
  | enqueue j c =>
    obtain ⟨-, -, h1, h2⟩ := submit_spec (O := O) (name := name) (clk := clk) L t ha j c
    generalize Sys.obs E name (Sys.step E name SpecB clk t (.enqueue j c)).1 = v' at *
    by_cases hc : (Sys.obs E name t).job j.id = none ∨ ∃ ex, (Sys.obs E name t).job j.id = some ex ∧ ex.context.jobStatus.Done ∧ c.reRun = true
    · obtain ⟨-, g2, g3, -⟩ := h1 hc
      refine .quiet _ (fun st hst => g2 st ?_) ⟨_, g3, fun k st hm => ?_⟩ fun _ e => by cases e
      · rintro rfl; simp [JobStatus.Done] at hst
      · simp only [List.mem_singleton, Event.statusMsg.injEq] at hm
        rw [hm.2]; simp
    · cases hex : (Sys.obs E name t).job j.id with
      | none => exact absurd (.inl hex) hc
      | some ex =>
        obtain ⟨g1, g2, -⟩ := h2 ex hex fun h => hc (.inr ⟨ex, hex, h⟩)
        exact .quiet _ (fun st _ => by rw [g1]) ⟨[], by simpa using g2, by simp⟩ fun _ e => by cases e
  | cancel k =>
    obtain ⟨-, -, h1, h2⟩ := cancel_spec (O := O) (name := name) (clk := clk) L t hT.keyed ha k
    generalize Sys.obs E name (Sys.step E name SpecB clk t (.cancel k)).1 = v' at *
    by_cases hc : ∀ j, (Sys.obs E name t).job k = some j → j.context.jobStatus ≠ .queued
    · rw [h2 hc]
      exact .quiet _ (fun _ _ => rfl) ⟨[], by simp, by simp⟩ fun _ _ => rfl
    · push Not at hc
      obtain ⟨j, hj, hq⟩ := hc
      obtain ⟨-, -, g3, g4, -⟩ := h1 j hj hq
      refine .quiet _ (fun st hst => g3 st ?_) ⟨_, g4, fun k st hm => ?_⟩ fun _ e => by cases e
      · rintro rfl; simp [JobStatus.Done] at hst
      · simp only [List.mem_singleton, Event.statusMsg.injEq] at hm
        rw [hm.2]; simp
  | retry k =>
    obtain ⟨-, h1, h2⟩ := retry_spec (O := O) (name := name) (clk := clk) L t hT.keyed ha k
    generalize Sys.obs E name (Sys.step E name SpecB clk t (.retry k)).1 = v' at *
    by_cases hc : ∀ j, (Sys.obs E name t).job k = some j → ¬ j.context.jobStatus.Done
    · rw [(h2 hc).2]
      exact .quiet _ (fun _ _ => rfl) ⟨[], by simp, by simp⟩ fun _ _ => rfl
    · push Not at hc
      obtain ⟨j, hj, hd⟩ := hc
      obtain ⟨-, -, -, g1, g2, g3, -⟩ := h1 j hj hd
      exact .taken k j hj hd g1 (fun st h => g2 st (by rintro rfl; simp [JobStatus.Done] at h)) g3
  | finish i x =>
    rcases hi : t.tasks[i]? with _ | ⟨orig, _ | job⟩
    · have e : (Sys.step E name SpecB clk t (.finish i x)).1 = t := by simp [Sys.step, ha, hi]
      rw [e]
      exact .quiet _ (fun _ _ => rfl) ⟨[], by simp, by simp⟩ fun _ _ => rfl
    · have e : (Sys.step E name SpecB clk t (.finish i x)).1 = t := by simp [Sys.step, ha, hi]
      rw [e]
      exact .quiet _ (fun _ _ => rfl) ⟨[], by simp, by simp⟩ fun _ _ => rfl
    · obtain ⟨hr, -, hj⟩ := reach_exec (b := Impl.spec) L ht hi
      have hrun : job.context.jobStatus = .running := by rw [hj job rfl]; exact hr
      have ends : ∀ (v' : Snap D) (st : JobStatus), st = .queued ∨ st = .finished ∨ st = .failed →
          v'.alive = true → v'.lists st = job.id :: (Sys.obs E name t).lists st →
          (∀ st' : JobStatus, st' ≠ .running → st' ≠ st → v'.lists st' = (Sys.obs E name t).lists st') →
          v'.log = (Sys.obs E name t).log ++ [.hookMsg job.id true, .statusMsg job.id st] →
          (Sys.obs E name t).Books v' (.finish i x) := by
        intro v' st hst h1 h2 h3 h4
        rcases hst with rfl | hst
        · refine .quiet _ (fun st hst => h3 st ?_ ?_) ⟨_, h4, fun k st hm => ?_⟩ fun _ e => by cases e
          · rintro rfl; simp [JobStatus.Done] at hst
          · rintro rfl; simp [JobStatus.Done] at hst
          · simp only [List.mem_cons, List.not_mem_nil, or_false, reduceCtorEq, false_or, Event.statusMsg.injEq] at hm
            rw [hm.2]; simp
        · exact .entered i x orig job st hi h1 hst h2 (fun st' hd hne => h3 st' (by rintro rfl; simp [JobStatus.Done] at hd) hne) h4
      have h := run_ends (b := Impl.spec) (O := O) (clk := clk) (name := name) (x := x) L t ⟨_, rfl⟩ ha hi hrun
      simp only [Sys.obs_eq] at h
      rcases h with ⟨h, -⟩ | ⟨-, j', h, -⟩ | ⟨-, st, h, -⟩
      · have hs := Sys.step_cases (E := E) (name := name) (clk := clk) t ha (.finish i x)
        have hal : (Sys.step E name SpecB clk t (.finish i x)).1.alive = false := h.alive
        clear h
        generalize Sys.step E name SpecB clk t (.finish i x) = p at hs hal
        cases hs with
        | finishPanic i x orig' job' w hi' hf =>
          refine .quiet _ (fun st _ => congrFun hf.panic_same.1 st) ⟨[.hookMsg job'.id true], hf.panic_log, by simp⟩ fun _ e => by cases e
        | finished => exact absurd (ha.symm.trans hal) (by simp)
        | noFinish => exact absurd (ha.symm.trans hal) (by simp)
      · exact ends _ _ h.status h.alive h.target h.lists h.log
      · exact ends _ _ h.status h.alive h.target h.lists h.log
  | start i =>
    have hs := Sys.step_cases (E := E) (name := name) (clk := clk) t ha (.start i : Op D O)
    generalize Sys.step E name SpecB clk t (.start i : Op D O) = p at hs
    cases hs with
    | started _ orig hi hc =>
      exact .quiet _ (fun _ _ => rfl) ⟨[.hookMsg orig.id true, .ran orig.counted.context], by simp, by simp⟩ fun _ e => by cases e
    | startCancelled _ orig hi hc =>
      have := (reach_exec (b := Impl.spec) L ht hi).1
      simp [Job.isCancelled, this] at hc
    | noStart => exact .quiet _ (fun _ _ => rfl) ⟨[], by simp, by simp⟩ fun _ _ => rfl
  | tick =>
    have hs := Sys.step_cases (E := E) (name := name) (clk := clk) t ha (.tick : Op D O)
    generalize Sys.step E name SpecB clk t (.tick : Op D O) = p at hs
    cases hs with
    | tick n _ _ =>
      have hp := (Scan.init (clk := clk) (E := E) (name := name) (free name t.cfg t.w) t.w).turns L hT.keyed n
      refine .quiet _ (fun st hst => hp.others st ?_ ?_) ⟨_, hp.log, fun k st hm => ?_⟩ fun _ e => by cases e
      · rintro rfl; simp [JobStatus.Done] at hst
      · rintro rfl; simp [JobStatus.Done] at hst
      · obtain ⟨j, -, e⟩ := List.mem_map.1 hm
        cases e; simp
    | tickPanic => exact .quiet _ (fun _ _ => rfl) ⟨[], by simp, by simp⟩ fun _ e => by cases e
  | get k =>
    have hs := Sys.step_cases (E := E) (name := name) (clk := clk) t ha (.get k : Op D O)
    generalize Sys.step E name SpecB clk t (.get k : Op D O) = p at hs
    cases hs
    exact .quiet _ (fun _ _ => rfl) ⟨[], by simp, by simp⟩ fun _ _ => rfl
  | config c =>
    have hs := Sys.step_cases (E := E) (name := name) (clk := clk) t ha (.config c : Op D O)
    generalize Sys.step E name SpecB clk t (.config c : Op D O) = p at hs
    cases hs
    exact .quiet _ (fun _ _ => rfl) ⟨[], by simp, by simp⟩ fun _ e => by cases e
  | userPanic i =>
    have hs := Sys.step_cases (E := E) (name := name) (clk := clk) t ha (.userPanic i : Op D O)
    generalize Sys.step E name SpecB clk t (.userPanic i : Op D O) = p at hs
    cases hs <;> exact .quiet _ (fun _ _ => rfl) ⟨[], by simp, by simp⟩ fun _ e => by cases e

/-- On any backend. -/
theorem books (L : E.Lawful) {s : Sys D b.B} (hs : Reach b E name clk P s) (op : Op D O) :
    (b.snap E name s).Books (b.snap E name (Sys.step E name b.B clk s op).1) op :=
  Reach.lift_step (Q := fun v op _ v' => v.Books v' op) (fun t op ht => books_spec L t ht op) hs op

theorem ledger_sent {v v' : Snap D} {l : List Event} (h : v'.log = v.log ++ l) (k : Str) : v'.sent k = v.sent k ++
    (l.filter fun e => decide (e.id = k)).filterMap fun e => match e with
      | .statusMsg _ st => some st
      | _ => none := by
  unfold Snap.sent Snap.mine
  rw [h, List.filter_append, List.filterMap_append]
  rfl

/-- What a turn of a history that is careful with `k` does to the entries of `k`: nothing, while `k` is and stays outside this status or inside it (or leaves it
by a submission that runs it again); or there is one more, and `k` now has this status; or there are none any more, and `k` has lost it. -/
theorem books_life (L : E.Lawful) {v v' : Snap D} {op : Op D O} (hB : v.Books v' op) (hL : Life E L name clk k v v' op) {st : JobStatus}
    (hst : st = .finished ∨ st = .failed) :
    (v'.lists st).count k = (v.lists st).count k ∧ (v'.status k = some st → v.status k = some st) ∧
      (v.status k = some st → v'.status k = some st ∨ ∃ j c, op = .enqueue j c ∧ j.id = k ∧ c.reRun = true) ∨
    (v'.lists st).count k = (v.lists st).count k + 1 ∧ v'.status k = some st ∧ v.status k = some .running ∨
    (v'.lists st).count k = 0 ∧ v.status k = some st ∧ v'.status k = some .queued := by
  have hd : st.Done := hst.elim .inl fun h => .inr (.inl h)
  have st_of : ∀ {v : Snap D} {j : Job D}, v.job k = some j → v.status k = some j.context.jobStatus := fun h => by
    unfold Snap.status; rw [h]; rfl
  have same : v'.job k = v.job k → v'.status k = v.status k := fun h => by unfold Snap.status; rw [h]
  cases hB with
  | quiet _ lists log retry =>
    rw [lists st hd]
    refine .inl ⟨rfl, ?_⟩
    obtain ⟨l, hl, hq⟩ := log
    have hmine : v'.mine k = v.mine k ++ l.filter fun e => decide (e.id = k) := by
      unfold Snap.mine; rw [hl, List.filter_append]
    cases hL with
    | same _ hj => rw [same hj]; exact ⟨id, .inl⟩
    | submit j c hid he hold hj =>
      rw [st_of hj]
      refine ⟨fun h => ?_, fun h => ?_⟩
      · have : JobStatus.queued = st := Option.some.inj h
        subst this; simp at hst
      · rcases hold with h0 | ⟨ex, -, -, hr⟩
        · unfold Snap.status at h; rw [h0] at h; cases h
        · exact .inr ⟨j, c, rfl, hid, hr⟩
    | replace j c ex hid he hold hr hd' hov hst' hj =>
      have e : v'.status k = v.status k := by
        rw [st_of hj, st_of hold, ← hst']; rfl
      rw [e]; exact ⟨id, .inl⟩
    | cancel j hold hq' hj =>
      rw [st_of hj, st_of hold, hq']
      rcases hst with rfl | rfl <;> simp [Job.asCanceled]
    | retry j hold hd' hj ho ho' hm =>
      rw [retry k rfl] at hm
      have := congrArg List.length hm
      simp at this
    | pick j i hold hq' hi hi' hdue hj =>
      rw [st_of hj, st_of hold, hq']
      rcases hst with rfl | rfl <;> simp [Job.asRunning]
    | run j i hold hq' ht ho hj => rw [st_of hj, st_of hold]; exact ⟨id, .inl⟩
    | finish j j' i x w w' hold hq' ht ho hw hw' hf he hs hj ho' hm =>
      rw [hmine, List.append_cancel_left_eq] at hm
      have hmem : Event.statusMsg k j'.context.jobStatus ∈ l := (List.mem_filter.1 (by rw [hm]; simp)).1
      obtain ⟨n1, n2⟩ := hq k _ hmem
      rw [st_of hj, st_of hold, hq']
      rcases hst with rfl | rfl
      · exact ⟨fun h => absurd (Option.some.inj h) n1, fun h => by cases h⟩
      · exact ⟨fun h => absurd (Option.some.inj h) n2, fun h => by cases h⟩
    | died _ hj => rw [same hj]; exact ⟨id, .inl⟩
  | entered i x orig job st0 task alive status list lists log =>
    have hmine : v'.mine k = v.mine k ++ if job.id = k then [.hookMsg job.id true, .statusMsg job.id st0] else [] := by
      unfold Snap.mine
      rw [log, List.filter_append]
      by_cases h : job.id = k <;> simp [Event.id, h]
    by_cases hk : job.id = k
    · rw [if_pos hk] at hmine
      cases hL with
      | same _ hj ho hm =>
        rw [hmine] at hm
        have := congrArg List.length hm
        simp at this
      | died _ _ _ _ _ ha' => exact absurd (alive.symm.trans ha') (by simp)
      | finish j j' i x w w' hold hq' ht ho hw hw' hf he hs hj ho' hm =>
        rw [hmine, List.append_cancel_left_eq] at hm
        have e : st0 = j'.context.jobStatus := by simpa [hk] using hm
        by_cases hs0 : st = st0
        · subst hs0
          right; left
          rw [list, hk, List.count_cons_self, st_of hj, st_of hold, hq', e]
          exact ⟨rfl, rfl, rfl⟩
        · left
          rw [lists st hd hs0, st_of hj, st_of hold, hq', ← e]
          refine ⟨rfl, fun h => absurd (Option.some.inj h).symm hs0, fun h => ?_⟩
          rcases hst with rfl | rfl <;> cases h
    · rw [if_neg hk, List.append_nil] at hmine
      left
      refine ⟨?_, ?_⟩
      · by_cases hs0 : st = st0
        · subst hs0; rw [list, List.count_cons_of_ne hk]
        · rw [lists st hd hs0]
      · cases hL with
        | same _ hj => rw [same hj]; exact ⟨id, .inl⟩
        | died _ hj => rw [same hj]; exact ⟨id, .inl⟩
        | finish j j' i x w w' hold hq' ht ho hw hw' hf he hs hj ho' hm =>
          rw [hmine] at hm
          have := congrArg List.length hm
          simp at this
  | taken k' j0 stored done list lists log =>
    have hmine : v'.mine k = v.mine k ++ if k' = k then [.statusMsg k' .queued] else [] := by
      unfold Snap.mine
      rw [log, List.filter_append]
      by_cases h : k' = k <;> simp [Event.id, h]
    by_cases hk : k' = k
    · subst hk
      rw [if_pos rfl] at hmine
      cases hL with
      | same _ hj ho hm =>
        rw [hmine] at hm
        have := congrArg List.length hm
        simp at this
      | died _ _ _ hm =>
        obtain ⟨l, h1, h2⟩ := hm
        rw [hmine, List.append_cancel_left_eq] at h1
        subst h1
        have := h2 (.statusMsg k' .queued) (by simp)
        cases this
      | retry j hold hd' hj =>
        cases stored.symm.trans hold
        by_cases hs0 : st = j0.context.jobStatus
        · right; right
          rw [hs0, list, st_of hj, st_of hold]
          exact ⟨count_filter_ne _ _, rfl, rfl⟩
        · left
          rw [lists st hd hs0, st_of hj, st_of hold]
          refine ⟨rfl, fun h => ?_, fun h => absurd (Option.some.inj h).symm hs0⟩
          have : JobStatus.queued = st := by simpa [Job.asQueued] using h
          subst this; simp at hst
    · rw [if_neg hk, List.append_nil] at hmine
      left
      refine ⟨?_, ?_⟩
      · by_cases hs0 : st = j0.context.jobStatus
        · rw [hs0, list, count_filter_other _ (Ne.symm hk)]
        · rw [lists st hd hs0]
      · cases hL with
        | same _ hj => rw [same hj]; exact ⟨id, .inl⟩
        | died _ hj => rw [same hj]; exact ⟨id, .inl⟩
        | retry => exact absurd rfl hk

end
end AJ
