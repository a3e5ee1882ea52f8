import Verif.Spec.Story
import Verif.Proofs.Plugin
import Verif.Proofs.Ops

/-!
# The story of a job: proofs
-/

namespace AJ

theorem story_append (l l' : List Event) : story (l ++ l') = (story l).bind fun st => l'.foldlM Stage.next st := by
  unfold story
  rw [List.foldlM_append]
  rfl

section
variable {D O : Type} {E : Env D} {name : Str} {clk : Nat → Time} {b : Impl} {k : Str}

/-- The executions a job has at a stage, between turns. -/
def Stage.Has : Stage → List (Task D) → Prop
  | .picked, l => ∃ j, l = [⟨j, none⟩]
  | .inside, l => ∃ j c, l = [⟨j, some c⟩]
  | .hooked, _ => False
  | .left, _ => False
  | _, l => l = []

/-- The events of `k` tell its story, and while the actor lives, nothing else. -/
def Snap.Tells (v : Snap D) (k : Str) : Prop :=
  ∃ l l' st, v.mine k = l ++ l' ∧ (∀ e ∈ l', e = .hookMsg k true) ∧ story l = some st ∧ st.status = v.status k ∧
    (v.alive = true → l' = [] ∧ st.Has (v.own k))

/-- While the actor lives. -/
theorem Snap.Tells.live {v : Snap D} (h : v.Tells k) (ha : v.alive = true) :
    ∃ st, story (v.mine k) = some st ∧ st.status = v.status k ∧ st.Has (v.own k) := by
  obtain ⟨l, l', st, h1, -, h3, h4, h5⟩ := h
  obtain ⟨rfl, h6⟩ := h5 ha
  rw [List.append_nil] at h1
  exact ⟨st, h1 ▸ h3, h4, h6⟩

theorem Snap.Tells.go {v v' : Snap D} {st st' : Stage} {l : List Event} (h1 : story (v.mine k) = some st)
    (hm : v'.mine k = v.mine k ++ l) (h2 : l.foldlM Stage.next st = some st') (h3 : st'.status = v'.status k) (h4 : st'.Has (v'.own k)) : v'.Tells k :=
  ⟨v'.mine k, [], st', (List.append_nil _).symm, fun _ h => absurd h List.not_mem_nil, by rw [hm, story_append, h1]; exact h2, h3, fun _ => ⟨rfl, h4⟩⟩

theorem tells (L : E.Lawful) {s : Sys D b.B} (hs : Reach (O := O) b E name clk (CarefulFor E k) s) : (b.snap E name s).Tells k := by
  induction hs with
  | start =>
    rw [snap_init]
    exact ⟨[], [], .new, rfl, fun _ h => absurd h List.not_mem_nil, rfl, rfl, fun _ => ⟨rfl, rfl⟩⟩
  | step op hr hp ih =>
    have hl := reach_life L (fun _ _ h => h) hr op hp
    revert ih hl
    generalize b.snap E name _ = v
    generalize b.snap E name _ = v'
    intro ih hl
    have st_of : ∀ {v : Snap D} {j : Job D}, v.job k = some j → v.status k = some j.context.jobStatus := fun h => by
      unfold Snap.status; rw [h]; rfl
    cases hl with
    | same _ hj ho hm ha =>
      obtain ⟨l, l', st, h1, h2, h3, h4, h5⟩ := ih
      refine ⟨l, l', st, hm ▸ h1, h2, h3, ?_, fun h => ?_⟩
      · rw [h4]; unfold Snap.status; rw [hj]
      · rw [ho]; exact h5 (ha ▸ h)
    | submit j c hid he hold hj ho ho' hm ha ha' =>
      obtain ⟨st, h1, h2, h3⟩ := ih.live ha
      refine .go h1 hm (st' := .waiting) ?_ (st_of hj).symm ho'
      rcases hold with h | ⟨ex, h, hd, -⟩
      · have : st.status = none := by rw [h2]; unfold Snap.status; rw [h]; rfl
        cases st <;> simp_all [Stage.status]; rfl
      · rw [st_of h] at h2
        have hd := Job.done_iff.1 hd
        cases st <;> simp_all [Stage.status] <;> first | rfl | (rw [← h2] at hd; simp [JobStatus.Done] at hd)
    | replace j c ex hid he hold hr hd hov hst hj ho ho' hm ha ha' =>
      obtain ⟨st, h1, h2, h3⟩ := ih.live ha
      refine .go h1 (l := []) (by rw [hm, List.append_nil]) (st' := st) rfl ?_ ?_
      · rw [h2, st_of hold, st_of hj, ← hst]; rfl
      · rw [ho']; rw [ho] at h3; exact h3
    | cancel j hold hq hj ho ho' hm ha ha' =>
      obtain ⟨st, h1, h2, h3⟩ := ih.live ha
      refine .go h1 hm (st' := .canceled) ?_ (st_of hj).symm ho'
      rw [st_of hold, hq] at h2
      cases st <;> simp_all [Stage.status]; rfl
    | retry j hold hd hj ho ho' hm ha ha' =>
      obtain ⟨st, h1, h2, h3⟩ := ih.live ha
      refine .go h1 hm (st' := .waiting) ?_ (st_of hj).symm ho'
      rw [st_of hold] at h2
      have hd := Job.done_iff.1 hd
      cases st <;> simp_all [Stage.status] <;> first | rfl | (rw [← h2] at hd; simp [JobStatus.Done] at hd)
    | pick j i hold hq hi hi' hdue hj ho ho' hm ha ha' =>
      obtain ⟨st, h1, h2, h3⟩ := ih.live ha
      refine .go h1 hm (st' := .picked) ?_ (st_of hj).symm ⟨_, ho'⟩
      rw [st_of hold, hq] at h2
      cases st <;> simp_all [Stage.status]; rfl
    | run j i hold hq ht ho hj ho' hm ha ha' =>
      obtain ⟨st, h1, h2, h3⟩ := ih.live ha
      refine .go h1 hm (st' := .inside) ?_ (by rw [st_of hj, hq]; rfl) ⟨_, _, ho'⟩
      rw [ho] at h3
      cases st <;> simp_all [Stage.Has]; rfl
    | finish j j' i x w w' hold hq ht ho hw hw' hf he hs hj ho' hm ha ha' =>
      obtain ⟨st, h1, h2, h3⟩ := ih.live ha
      rw [ho] at h3
      have : st = .inside := by cases st <;> simp_all [Stage.Has]
      subst this
      rcases he.status with e | e | e <;> rw [e] at hm
      · exact .go h1 hm (st' := .waiting) rfl (by rw [st_of hj, e]; rfl) ho'
      · exact .go h1 hm (st' := .finished) rfl (by rw [st_of hj, e]; rfl) ho'
      · exact .go h1 hm (st' := .failed) rfl (by rw [st_of hj, e]; rfl) ho'
    | died _ hj ho' hm ha ha' =>
      obtain ⟨st, h1, h2, h3⟩ := ih.live ha
      obtain ⟨l, hl, hh⟩ := hm
      refine ⟨v.mine k, l, st, hl, hh, h1, ?_, fun h => absurd (ha'.symm.trans h) (by simp)⟩
      rw [h2]; unfold Snap.status; rw [hj]

theorem Snap.Tells.lives {v : Snap D} (h : v.Tells k) : v.Lives k := by
  obtain ⟨l, l', st, h1, h2, h3, h4, h5⟩ := h
  refine ⟨l, l', st, h1, h2, h3, h4, fun ha => ?_⟩
  obtain ⟨h6, h7⟩ := h5 ha
  refine ⟨h6, ?_, ?_, ?_⟩
  · rintro rfl; exact h7
  · rintro rfl; exact h7
  · unfold Snap.executing
    cases st <;> simp only [Stage.Has] at h7
    case picked => obtain ⟨j, e⟩ := h7; rw [e]; simp
    case inside => obtain ⟨j, c, e⟩ := h7; rw [e]; simp
    all_goals rw [h7]; simp

end

theorem story_split {l l' : List Event} {st : Stage} (h : story (l ++ l') = some st) :
    ∃ st0, story l = some st0 ∧ l'.foldlM Stage.next st0 = some st := by
  rw [story_append] at h
  exact Option.bind_eq_some_iff.1 h

theorem story_cons {st0 st : Stage} {e : Event} {l : List Event} (h : (e :: l).foldlM Stage.next st0 = some st) :
    ∃ st1, st0.next e = some st1 ∧ l.foldlM Stage.next st1 = some st := by
  rw [List.foldlM_cons] at h
  exact Option.bind_eq_some_iff.1 h

/-- The last event of a story. -/
theorem story_last {l : List Event} {st : Stage} (h : story l = some st) (hn : st ≠ .new) :
    ∃ l0 e st0, l = l0 ++ [e] ∧ story l0 = some st0 ∧ st0.next e = some st := by
  rcases List.eq_nil_or_concat l with rfl | ⟨l0, e, rfl⟩
  · exact absurd (Option.some.inj h).symm hn
  · rw [List.concat_eq_append] at h
    obtain ⟨st0, h1, h2⟩ := story_split h
    obtain ⟨st1, h3, h4⟩ := story_cons h2
    cases Option.some.inj h4
    exact ⟨l0, e, st0, List.concat_eq_append, h1, h3⟩

theorem next_ran {st st' : Stage} {c : JobContext} (h : st.next (.ran c) = some st') : st = .hooked ∧ st' = .inside := by
  cases st <;> simp_all [Stage.next]

theorem next_hooked {st : Stage} {e : Event} (h : st.next e = some .hooked) : st = .picked ∧ ∃ i, e = .hookMsg i true := by
  unfold Stage.next at h
  split at h <;> simp_all

theorem next_picked {st : Stage} {e : Event} (h : st.next e = some .picked) : st = .waiting ∧ ∃ i, e = .statusMsg i .running := by
  unfold Stage.next at h
  split at h <;> simp_all

theorem next_inside {st : Stage} {e : Event} (h : Stage.inside.next e = some st) : st = .left ∧ ∃ i, e = .hookMsg i true := by
  unfold Stage.next at h
  split at h <;> simp_all

theorem next_left {st : Stage} {e : Event} (h : Stage.left.next e = some st) :
    ∃ i s, e = .statusMsg i s ∧ (s = .queued ∨ s = .finished ∨ s = .failed) := by
  unfold Stage.next at h
  split at h <;> simp_all

theorem next_done {st st' : Stage} {e : Event} (hd : st = .finished ∨ st = .failed ∨ st = .canceled) (h : st.next e = some st') :
    ∃ i, e = .statusMsg i .queued := by
  unfold Stage.next at h
  split at h <;> simp_all

theorem next_status {st st' : Stage} {i : Str} {s : JobStatus} (h : st.next (.statusMsg i s) = some st') : st'.status = some s := by
  unfold Stage.next at h
  split at h <;> simp_all <;> (subst h; rfl)

end AJ
