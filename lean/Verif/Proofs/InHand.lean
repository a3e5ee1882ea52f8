import Verif.Proofs.Runs

/-! # A job that is in order, on any backend, whatever has come before -/

namespace AJ
open W

/-- The work queue is in order, and so is job `k`, or it is lost. Histories from an empty backend come to such states (`Reach.inHand`);
so does a work queue that begins on what is left of an earlier process. -/
def InHand {D : Type} (b : Impl) (E : Env D) (name k : Str) (s : Sys D b.B) : Prop :=
  ∃ t : Sys D SpecB, b.sim.RS s t ∧ Tidy E t ∧ (Solo k (Sys.obs E name t) ∨ Lost k (Sys.obs E name t))

section
variable {D O : Type} {E : Env D} {name : Str} {clk : Nat → Time} {b : Impl} {k : Str} {s : Sys D b.B}

theorem Reach.inHand (L : E.Lawful) (hs : Reach (O := O) b E name clk (Orderly k) s) : InHand b E name k s := by
  obtain ⟨t, ht, hr⟩ := hs.mirror
  exact ⟨t, hr, reach_tidy L ht, reach_orderly (b := .spec) L (fun _ _ h => h) ht⟩

theorem InHand.good (h : InHand b E name k s) : b.Good s.w.s := by
  obtain ⟨t, hr, -⟩ := h
  exact ⟨_, hr.w.s⟩

/-- What holds of a turn there holds here. -/
theorem InHand.lift_step {Q : Snap D → Op D O → Resp D → Snap D → Prop} (h : InHand b E name k s)
    (hq : ∀ (t : Sys D SpecB) op, Tidy E t → (Solo k (Sys.obs E name t) ∨ Lost k (Sys.obs E name t)) →
      Q (Impl.spec.snap E name t) op (Sys.step E name SpecB clk t op).2 (Impl.spec.snap E name (Sys.step E name SpecB clk t op).1)) (op : Op D O) :
    Q (b.snap E name s) op (Sys.step E name b.B clk s op).2 (b.snap E name (Sys.step E name b.B clk s op).1) := by
  obtain ⟨t, hr, h1, h2⟩ := h
  obtain ⟨h3, h4⟩ := Impl.rs_step (E := E) (name := name) (clk := clk) hr op
  rw [Impl.snap_eq hr, Impl.snap_eq h4, h3]; exact hq t op h1 h2

theorem InHand.step (L : E.Lawful) (h : InHand b E name k s) (op : Op D O) (ho : Orderly k (b.snap E name s) op) :
    InHand b E name k (Sys.step E name b.B clk s op).1 := by
  obtain ⟨t, hr, h1, h2⟩ := h
  rw [Impl.snap_eq hr] at ho
  exact ⟨_, (Impl.rs_step hr op).2, h1.step L op, Lost.or_step L h1 h2 op ho⟩

theorem InHand.keyed (h : InHand b E name k s) : (b.snap E name s).Keyed := by
  obtain ⟨t, hr, h1, -⟩ := h
  rw [Impl.snap_eq hr]
  exact h1.keyed

theorem InHand.stored (L : E.Lawful) (h : InHand b E name k s) {id : Str} {j : Job D} (hj : (b.snap E name s).job id = some j) : L.Stored j := by
  obtain ⟨t, hr, -⟩ := h
  rw [Impl.snap_eq hr] at hj
  exact Env.Lawful.stored_view (E := E) (w := t.w) (id := id) hj

theorem InHand.solo (h : InHand b E name k s) {j : Job D} (hj : (b.snap E name s).job k = some j) : Solo k (b.snap E name s) := by
  obtain ⟨t, hr, -, h2⟩ := h
  rw [Impl.snap_eq hr] at hj ⊢
  rcases h2 with h | h
  · exact h
  · have := h.job
    rw [show (Impl.spec.snap E name t).job k = none from this] at hj
    cases hj

theorem InHand.reads (L : E.Lawful) (h : InHand b E name k s) (op : Op D O) :
    (b.snap E name s).reads ≤ (b.snap E name (Sys.step E name b.B clk s op).1).reads :=
  h.lift_step (Q := fun v _ _ v' => v.reads ≤ v'.reads) (fun _ op ht _ => step_reads L ht op) op

theorem InHand.orderly_life (L : E.Lawful) (hs : InHand b E name k s) (h : Solo k (b.snap E name s))
    (op : Op D O) (hp : Orderly k (b.snap E name s) op) :
    (Solo k (b.snap E name (Sys.step E name b.B clk s op).1) ∧
      Life E L name clk k (b.snap E name s) (b.snap E name (Sys.step E name b.B clk s op).1) op) ∨
    (Lost k (b.snap E name (Sys.step E name b.B clk s op).1) ∧
      (b.snap E name (Sys.step E name b.B clk s op).1).runs k = (b.snap E name s).runs k ∧
      (NoSubmit k op → Ending k (b.snap E name s))) :=
  hs.lift_step (Q := fun v op _ v' => Solo k v → Orderly k v op → (Solo k v' ∧ Life E L name clk k v v' op) ∨
      (Lost k v' ∧ v'.runs k = v.runs k ∧ (NoSubmit k op → Ending k v)))
    (fun _ op ht _ h hp => h.step_orderly L ht op hp) op h hp

/-- What a careful turn does to a job that can be read. -/
theorem InHand.careful_life (L : E.Lawful) (hs : InHand b E name k s) {j : Job D}
    (hj : (b.snap E name s).job k = some j) (op : Op D O) (hp : CarefulFor E k (b.snap E name s) op) :
    Life E L name clk k (b.snap E name s) (b.snap E name (Sys.step E name b.B clk s op).1) op :=
  hs.lift_step (Q := fun v op _ v' => Solo k v → CarefulFor E k v op → Life E L name clk k v v' op)
    (fun _ op ht _ h hp => (h.step L ht op hp.at).2) op (hs.solo hj) hp

theorem solo_waiting {v : Snap D} {j : Job D} (hj : v.job k = some j) (hst : j.context.jobStatus = .queued)
    (hq : (v.lists .queued).count k = 1) (hrun : k ∉ v.lists .running) (ho : v.own k = []) : Solo k v := by
  have hs : v.status k = some .queued := by
    unfold Snap.status; rw [hj]; simp [hst]
  refine ⟨?_, ?_, fun _ => ho, fun _ j' h1 h2 => ?_⟩
  · rw [if_pos hs, hq]
  · rw [if_neg (by rw [hs]; decide), List.count_eq_zero.2 hrun]
  · rw [hj] at h1; cases h1; rw [hst] at h2; cases h2

/-- On a backend that holds `k` as it should be, a work queue begins in order. -/
theorem InHand.init {x : b.B.S} {x' : SpecState} (hr : b.sim.R x x') (hk : Keyed E (Sys.init SpecB x' : Sys D SpecB).w)
    {j : Job D} (hj : (b.snap E name (Sys.init b.B x)).job k = some j) (hst : j.context.jobStatus = .queued)
    (hq : ((b.snap E name (Sys.init b.B x)).lists .queued).count k = 1) (hrun : k ∉ (b.snap E name (Sys.init b.B x)).lists .running) :
    InHand b E name k (Sys.init b.B x) := by
  have hrs : b.sim.RS (Sys.init b.B x : Sys D b.B) (Sys.init SpecB x') := ⟨⟨hr, rfl, rfl⟩, rfl, rfl, rfl⟩
  rw [Impl.snap_eq hrs] at hj hq hrun
  exact ⟨_, hrs, ⟨hk, fun _ h => (by cases h), fun h => (by cases h)⟩, .inl (solo_waiting hj hst hq hrun rfl)⟩

end
end AJ
