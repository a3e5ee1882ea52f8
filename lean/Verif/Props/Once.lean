import Verif.Props.Retry

/-!
# Jobs without retry policy run once (C12)
-/

namespace AJ.Props
open W

section
variable {D O : Type} {E : Env D} {name : Str} {clk : Nat → Time} {b : Impl} {k : Str}

/-- C12 for jobs without retry policy that are no cron jobs: a waiting one runs at most once more, as long as it is not
submitted again or retried by hand; whatever its code does, also if it has a `retry_at` of its own. -/
theorem C12_no_policy (L : E.Lawful) {s s' : Sys D b.B} (hs : Reach (O := O) b E name clk (Orderly k) s)
    {job : Job D} (hj : (b.snap E name s).job k = some job) (hty : NonCron job) (hr : job.context.retry = none)
    (h : Later (O := O) b E name clk (fun _ op => NoSubmit k op ∧ op ≠ .retry k) s s') :
    ((b.snap E name s').runs k).length ≤ ((b.snap E name s).runs k).length + 1 := by
  have key := later_track L (I := fun u => ∃ j, u.job k = some j ∧ NonCron j ∧ j.context.retry = none ∧
      (u.runs k).length ≤ ((b.snap E name s).runs k).length + 1 ∧
      ((j.context.jobStatus = .queued ∨ u.own k = [⟨j, none⟩]) → (u.runs k).length ≤ ((b.snap E name s).runs k).length))
    (fun _ _ h => h.1) hs (solo_of L hs hj) h ⟨job, hj, hty, hr, Nat.le_succ _, fun _ => Nat.le_refl _⟩ ?_
  · rcases key with ⟨⟨j, _, _, _, h3, _⟩, _⟩ | ⟨_, u, ⟨j, _, _, _, h3, _⟩, hru, _⟩
    · exact h3
    · rw [hru]; exact h3
  · intro u u' op hp hsolo hstored hreads hl ⟨j0, hj0, hnc, hq0, h3, h4⟩
    cases hl with
    | same op g1 g2 g3 ha =>
      exact ⟨j0, g1.trans hj0, hnc, hq0, by rw [runs_same g3]; exact h3, by rw [g2, runs_same g3]; exact h4⟩
    | submit j c hid => exact absurd hid (hp.1 j c rfl)
    | replace j c ex hid => exact absurd hid (hp.1 j c rfl)
    | cancel j hold hq1 g1 _ g2 g3 =>
      rw [hj0] at hold; cases hold
      refine ⟨_, g1, hnc, hq0, by rw [runs_msg g3]; exact h3, ?_⟩
      rw [g2]; rintro (e | e) <;> cases e
    | retry => exact absurd rfl hp.2
    | pick j i hold hq1 _ _ _ g1 _ g2 g3 =>
      rw [hj0] at hold; cases hold
      exact ⟨_, g1, hnc, hq0, by rw [runs_msg g3]; exact h3, fun _ => by rw [runs_msg g3]; exact h4 (.inl hq1)⟩
    | run j i hold hq1 ht ho g1 g2 g3 =>
      rw [hj0] at hold; cases hold
      have := h4 (.inr ho)
      refine ⟨_, g1, hnc, hq0, ?_, ?_⟩
      · rw [runs_run g3, List.length_append]
        simp only [List.length_singleton]
        omega
      · rw [hq1, g2]; rintro (e | e) <;> cases e
    | finish j j' i x w w' hold hq1 ht ho hw hw' hf hends hs' g1 g2 g3 ha ha' =>
      rw [hj0] at hold; cases hold
      have hran := Life.ran (v := u) (v' := u') L (hstored k j0 hj0).1 hq1 hw hw' hf hends hs' (.inr hq0)
      rw [g2, runs_end g3]
      cases hran with
      | retry hr => have e : none = some _ := hq0.symm.trans hr; cases e
      | slot hno hc => exact absurd hc (hnc _ _ _ _)
      | stuck hno hc => exact absurd hc (hnc _ _ _ _)
      | failed hno hnx hfl => exact ⟨_, g1, hnc, hq0, h3, by rintro (e | e) <;> cases e⟩
      | finished hno hnx hfl => exact ⟨_, g1, hnc, hq0, h3, by rintro (e | e) <;> cases e⟩
    | died op g1 g2 g3 ha ha' =>
      obtain ⟨l, g3, g4⟩ := g3
      refine ⟨j0, g1.trans hj0, hnc, hq0, by rw [runs_hooks g3 g4]; exact h3, ?_⟩
      rw [runs_hooks g3 g4, g2]
      rintro (e | e)
      · exact h4 (.inl e)
      · cases e

/-- C12 for jobs without retry policy that are no cron jobs: one that is submitted once and not retried by hand runs at
most once. -/
theorem C12_plain_once (L : E.Lawful) {s s' : Sys D b.B}
    (hs : Reach (O := O) b E name clk (fun _ op => NoSubmit k op) s) {job : Job D} (c : EnqueueConfig) (hid : job.id = k)
    (hty : NonCron job) (hr : job.context.retry = none)
    (h : Later (O := O) b E name clk (fun _ op => NoSubmit k op ∧ op ≠ .retry k) (Sys.step E name b.B clk s (.enqueue job c : Op D O)).1 s') :
    ((b.snap E name s').runs k).length ≤ 1 := by
  rcases submitted_or L hs c hid with ⟨h1, h2, h3⟩ | ⟨hs1, hru, hj, _⟩
  · rw [(lost_later L h1 h (fun _ _ h => h.1) h2).2, h3]
    exact Nat.zero_le _
  have hb := C12_no_policy L hs1 hj (hty.norm _ _) (by show job.context.retry.map Retry.norm = _; rw [hr]; rfl) h
  rw [hru] at hb
  exact hb

end

/-! ## Cases -/

section
open Demo

/-- A plain job is submitted, runs, and ticks go on. -/
def plainly : List (Op Int Unit) := [.tick, .start 0, .finish 0 bad, .tick, .tick]

private theorem later_all {P : Snap Int → Op Int Unit → Prop} (s : Sys Int InMem) (ops : List (Op Int Unit)) (h : ∀ v, ∀ op ∈ ops, P v op) :
    Later (O := Unit) .memory E c!"print" clk P s (Sys.runOps E c!"print" InMem clk s ops).1 := by
  suffices H : ∀ s', Later (O := Unit) .memory E c!"print" clk P s s' → Later .memory E c!"print" clk P s (Sys.runOps E c!"print" InMem clk s' ops).1 from
    H _ .refl
  induction ops with
  | nil => exact fun s hs => hs
  | cons op ops ih => exact fun s hs => ih (fun v o ho => h v o (List.mem_cons_of_mem _ ho)) _ (.step op hs (h _ op (List.mem_cons_self ..)))

/-- `C12_plain_once` applies: it runs once, though its run fails. -/
example : let s := Sys.init InMem InMem.empty
    let s' := (Sys.runOps E c!"print" InMem clk (Sys.step E c!"print" InMem clk s (.enqueue (job c!"a") .newReRun : Op Int Unit)).1 plainly).1
    Reach (O := Unit) .memory E c!"print" clk (fun _ op => NoSubmit c!"a" op) s ∧
    Later (O := Unit) .memory E c!"print" clk (fun _ op => NoSubmit c!"a" op ∧ op ≠ .retry c!"a")
      (Sys.step E c!"print" InMem clk s (.enqueue (job c!"a") .newReRun : Op Int Unit)).1 s' ∧
    ((Impl.memory.snap E c!"print" s').runs c!"a").length = 1 := by
  refine ⟨.start, ?_, by decide +kernel⟩
  refine later_all _ _ fun _ op hop => ?_
  simp only [plainly, List.mem_cons, List.not_mem_nil, or_false] at hop
  rcases hop with rfl | rfl | rfl | rfl | rfl <;> exact ⟨fun _ _ h => (by cases h), fun h => (by cases h)⟩

end
end AJ.Props
