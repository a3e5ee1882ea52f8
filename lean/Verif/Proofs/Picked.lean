import Verif.Proofs.CrashJobs
import Verif.Proofs.TickFacts

/-! # A tick picks a waiting job -/

namespace AJ
open W

variable {D O : Type} {E : Env D} {name : Str} {clk : Nat → Time} {b : Impl} {k : Str}

/-- A tick that finds enough capacity for the whole queue starts a waiting job that is due. -/
theorem Snap.Waits.picked (L : E.Lawful) {s : Sys D b.B} (hg : b.Good s.w.s) (hT : (b.snap E name s).Tidy) {j : Job D} {c : Nat} (hc : 0 < c)
    (hw : (b.snap E name s).Waits k j c) :
    let v' := b.snap E name s
    let v'' := b.snap E name (Sys.step E name b.B clk s (.tick : Op D O)).1
    s.alive = true → (v'.lists .queued).length < 2 ^ 31 →
    (v'.lists .queued).length ≤ v'.free → (∀ i, v'.reads ≤ i → i < v''.reads → j.Due (clk i)) →
    k ∈ v''.inFlight ∧ k ∈ v''.lists .running ∧ v''.status k = some .running := by
  intro v' v'' ha hl hcap hdue
  rcases tick_facts_any (O := O) (clk := clk) b L s hg hT.keyed ha with ⟨st, hf, _⟩ | ⟨_, _, h⟩
  · have hin : k ∈ v'.lists .queued := by rw [← List.count_pos_iff]; show 0 < (v'.lists .queued).count k; rw [hw.count]; omega
    have hm : k ∈ st.map Job.id := by
      rcases hf.all hl with h | h
      · have h5 := hf.ticked.queued
        have h6 := h5.length_eq
        rw [List.length_append, List.length_map, h] at h6
        have h6 : (v''.lists .queued).length + v'.free = (v'.lists .queued).length := h6
        have h7 : v''.lists .queued = [] := List.length_eq_zero_iff.mp (by omega)
        have h8 : k ∈ v''.lists .queued ++ st.map Job.id := h5.mem_iff.mpr hin
        rw [h7] at h8
        exact h8
      · rcases hw.job with h' | ⟨ms, h'⟩
        · exact h k hin j h' hdue
        · exact h k hin _ h' hdue
    obtain ⟨r, hr, e⟩ := List.mem_map.mp hm
    refine ⟨?_, ?_, ?_⟩
    · show k ∈ v''.tasks.map _
      rw [hf.ticked.tasks]
      refine List.mem_map.mpr ⟨⟨r, none⟩, List.mem_append_right _ (List.mem_map.mpr ⟨r, hr, rfl⟩), e⟩
    · show k ∈ v''.lists .running
      rw [hf.ticked.running]
      exact List.mem_append_left _ (List.mem_reverse.mpr hm)
    · obtain ⟨h5, i, job, _, _, _, _, h6⟩ := hf.ticked.each r hr
      rw [e] at h5
      have h5 : v''.job k = some r := h5
      rw [Snap.status, h5, h6]
      rfl
  · have : 2 ^ 31 ≤ (v'.lists .queued).length := h
    omega

/-- Turns and crashes keep the backend in order. -/
theorem tidy_lives (L : E.Lawful) {P : Snap D → Op D O → Prop} {s s' : Sys D b.B} (hg : b.Good s.w.s) (hT : (b.snap E name s).Tidy)
    (h : Lives b E name clk P s s') : b.Good s'.w.s ∧ (b.snap E name s').Tidy := by
  induction h with
  | refl => exact ⟨hg, hT⟩
  | turn op _ _ ih => exact ⟨good_step ih.1 op, tidy_step L ih.1 ih.2 op⟩
  | crash op _ _ hc ih =>
    obtain ⟨h4, h5, -⟩ := crash_any (k := []) L ih.1 ih.2 hc
    exact ⟨h4, h5⟩

end AJ
