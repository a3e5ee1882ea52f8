import Verif.Props.Starve
import Verif.Spec.Endless

/-! # Ticks that leave capacity free -/

namespace AJ

section
variable {D O : Type} {E : Env D} {name : Str} {clk : Nat → Time} {b : Impl} {k : Str} {s : Sys D b.B} {ops : Nat → Op D O}

local notation "σ" n:max => b.snap E name (Sys.after E name b.B clk s ops n)

/-- A tick that leaves capacity free starts every job that is due, whatever the length of the queue. -/
theorem slack_tick (L : E.Lawful) (hg : b.Good s.w.s) (hk : (b.snap E name s).Keyed)
    (hs : (b.snap E name (Sys.step E name b.B clk s (.tick : Op D O)).1).Slack) {id : Str} (hid : id ∈ (b.snap E name s).lists .queued) {job : Job D}
    (hj : (b.snap E name s).job id = some job)
    (hd : ∀ i, (b.snap E name s).reads ≤ i → i < (b.snap E name (Sys.step E name b.B clk s (.tick : Op D O)).1).reads → job.Due (clk i)) :
    id ∈ (b.snap E name (Sys.step E name b.B clk s (.tick : Op D O)).1).inFlight := by
  have ha : s.alive = true := by
    by_contra h
    have h' := hs.alive
    have h : s.alive = false := by simpa using h
    have e : (b.snap E name (Sys.step E name b.B clk s (.tick : Op D O)).1).alive = s.alive := by
      show (Sys.step E name b.B clk s (.tick : Op D O)).1.alive = s.alive
      simp [Sys.step, h]
    rw [e, h] at h'
    cases h'
  rcases tick_facts_any (O := O) (clk := clk) b L s hg hk ha with ⟨st, h, _⟩ | ⟨h, _⟩
  swap
  · have := hs.alive
    rw [h] at this
    cases this
  have hl : ((b.snap E name s).lists .queued).length ≤ ((b.snap E name (Sys.step E name b.B clk s (.tick : Op D O)).1).lists .queued).length +
      ((b.snap E name (Sys.step E name b.B clk s (.tick : Op D O)).1).lists .running).length := by
    have h1 := h.ticked.queued.length_eq
    have h2 := congrArg List.length h.ticked.running
    simp only [List.length_append, List.length_reverse] at h1 h2
    omega
  have hin : id ∈ st.map Job.id := by
    rcases h.all (Nat.lt_of_le_of_lt hl hs.small) with h1 | h1
    · exfalso
      have h2 := hs.room
      have h3 := congrArg List.length h.ticked.running
      simp only [List.length_append, List.length_reverse, List.length_map] at h3
      unfold Snap.free at h1 h2
      rw [h.ticked.cfg, h3] at h2
      omega
    · exact h1 id hid job hj hd
  show id ∈ (b.snap E name (Sys.step E name b.B clk s (.tick : Op D O)).1).tasks.map _
  rw [h.ticked.tasks, List.map_append, List.map_map]
  exact List.mem_append_right _ hin

/-- A job that will be due does not wait for ever, if ticks again and again leave capacity free. -/
theorem slack_starts (L : E.Lawful) {n : Nat} {j : Job D} (hH : ∀ m, n ≤ m → InHand b E name k (Sys.after E name b.B clk s ops m))
    (hw : ∀ m, n ≤ m → (σ m).job k = some j ∧ (σ m).own k = []) (hq : j.context.jobStatus = .queued)
    (hs : ∀ m, ∃ i, m ≤ i ∧ ops i = .tick ∧ (σ (i + 1)).Slack) (hdue : ∃ i, ∀ i', i ≤ i' → j.Due (clk i')) : False := by
  have hmono : ∀ p m, n ≤ p → p ≤ m → (σ p).reads ≤ (σ m).reads := by
    intro p m hp hm
    induction hm with
    | refl => exact Nat.le_refl _
    | @step m hm ih => exact Nat.le_trans ih ((hH m (Nat.le_trans hp hm)).reads L _)
  have hgo : ∀ m, n ≤ m → ops m = .tick → (σ (m + 1)).Slack → ∃ i, (σ m).reads ≤ i ∧ i < (σ (m + 1)).reads ∧ ¬ j.Due (clk i) := by
    intro m hm ht hsl
    by_contra hc
    have hst : (σ m).status k = some .queued := by
      show Option.map _ ((σ m).job k) = _
      rw [(hw m hm).1]; simp [hq]
    have hin : k ∈ (σ m).lists .queued := by
      have := ((hH m hm).solo (hw m hm).1).queued
      rw [if_pos hst] at this
      exact List.count_pos_iff.1 (by omega)
    have e : Sys.after E name b.B clk s ops (m + 1) = (Sys.step E name b.B clk (Sys.after E name b.B clk s ops m) (.tick : Op D O)).1 := by
      rw [← ht]; rfl
    rw [e] at hsl hc
    have h1 := slack_tick (O := O) (clk := clk) L (hH m hm).good (hH m hm).keyed hsl hin (hw m hm).1 fun i h1 h2 => by
      by_contra h3
      exact hc ⟨i, h1, h2, h3⟩
    rw [← e] at h1
    obtain ⟨t, h2, h3⟩ := List.mem_map.1 h1
    have h4 := (hw (m + 1) (by omega)).2
    have h5 : t ∈ (σ (m + 1)).own k := List.mem_filter.2 ⟨h2, by simpa using h3⟩
    rw [h4] at h5
    cases h5
  have hread : ∀ R, ∃ m, n ≤ m ∧ R ≤ (σ m).reads := by
    intro R
    induction R with
    | zero => exact ⟨n, Nat.le_refl _, Nat.zero_le _⟩
    | succ R ih =>
      obtain ⟨m, h1, h2⟩ := ih
      obtain ⟨i, h3, h4, h5⟩ := hs m
      obtain ⟨x, h6, h7, -⟩ := hgo i (by omega) h4 h5
      have := hmono m i h1 h3
      exact ⟨i + 1, by omega, by omega⟩
  obtain ⟨i0, hi0⟩ := hdue
  obtain ⟨p, hp, hpr⟩ := hread i0
  obtain ⟨i, h3, h4, h5⟩ := hs p
  obtain ⟨x, h6, -, h8⟩ := hgo i (by omega) h4 h5
  exact h8 (hi0 x (by have := hmono p i hp h3; omega))

end
end AJ
