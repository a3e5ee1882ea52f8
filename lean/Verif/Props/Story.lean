import Verif.Proofs.Story
import Verif.Props.ProcessJobs

/-!
# The story of a job (C96)

The messages about a job and the runs of its code, in the order in which they happened.
-/

namespace AJ.Props

section
variable {D O : Type} {k : Str}

/-- C96, a work queue alone: in every history that is careful with `k`, whatever user code does and whatever happens to other jobs, on any backend, the events
of `k` are a story that ends where the job now is. -/
theorem C96_story {E : Env D} {name : Str} {clk : Nat → Time} {b : Impl} (L : E.Lawful) {s : Sys D b.B}
    (hs : Reach (O := O) b E name clk (CarefulFor E k) s) : (b.snap E name s).Lives k :=
  (tells L hs).lives

/-- C96, a work queue of a process whose clients submit, retry and cancel jobs as they like, between its turns, for every job of its type. -/
theorem C96_process {E : Nat → Env D} {clk : Nat → Nat → Time} {kind : Str → Nat} {ops : List (WeaveOp D O)} {q : Nat} {a : QueueActor} (b : Impl)
    (L : ∀ ty, (E ty).Lawful) (hops : ∀ c req, .site (.begin c req) ∈ ops → req.On kind)
    (h1 : ((Weave.init b.B fun _ => b.empty).run E b.B clk ops).site.hub.engines.length ≤ 1)
    (ha : ((Weave.init b.B fun _ => b.empty).run E b.B clk ops).site.hub.queues[q]? = some a)
    (hi : ((Weave.init b.B fun _ => b.empty).run E b.B clk ops).inside q = none) (H : Weave.Civil E ops q a.ty) (hk : kind k = a.ty) :
    (((Weave.init b.B fun _ => b.empty).run E b.B clk ops).site.snap b E q a).Lives k := by
  obtain ⟨M, hM⟩ := cap_any ops a.ty
  obtain ⟨s, hr, hA⟩ := civil_reach (clk := clk) b L hops h1 ha hi H hM
  obtain ⟨l, l', st, g1, g2, g3, g4, g5⟩ := C96_story (k := k) (L a.ty) (hr.mono (P' := CarefulFor (E a.ty) k) fun _ _ h => h.1 k)
  refine ⟨l, l', st, ?_, g2, g3, ?_, fun h => ?_⟩
  · unfold Snap.mine at g1 ⊢; rw [hA.log]; exact g1
  · rw [g4]; unfold Snap.status; rw [hA.job k hk]
  · obtain ⟨g6, g7, g8, g9⟩ := g5 (hA.alive ▸ h)
    refine ⟨g6, g7, g8, g9.trans ?_⟩
    unfold Snap.executing Snap.own; rw [hA.tasks]

variable {v : Snap D}

private theorem mine_id {e : Event} (h : e ∈ v.mine k) : e.id = k := of_decide_eq_true (List.mem_filter.1 h).2

/-- What comes before an event that is not a message to run hooks. -/
private theorem cut (h : v.Lives k) {e : Event} {l l' : List Event} (hm : v.mine k = l ++ e :: l') (he : e ≠ .hookMsg k true) :
    ∃ l1 l2 st, l' = l1 ++ l2 ∧ (∀ e ∈ l2, e = .hookMsg k true) ∧ story (l ++ e :: l1) = some st ∧
      (v.alive = true → l2 = [] ∧ st ≠ .hooked ∧ st ≠ .left ∧ (st = .inside ↔ v.executing k = true)) := by
  obtain ⟨m, m', st, h1, h2, h3, -, h5⟩ := h
  rw [hm] at h1
  rcases List.append_eq_append_iff.1 h1 with ⟨x, rfl, hx⟩ | ⟨x, -, hx⟩
  · rcases x with _ | ⟨e', x⟩
    · rw [List.nil_append] at hx
      exact absurd (h2 e (hx ▸ List.mem_cons_self)) he
    · cases hx
      exact ⟨x, m', st, rfl, h2, h3, h5⟩
  · exact absurd (h2 e (hx ▸ List.mem_append_right _ List.mem_cons_self)) he

/-- C96: the code of a job runs only after it was announced as Running and plugins were sent `before_run`, once for each run. -/
theorem C96_before (h : v.Lives k) {c : JobContext} {l l' : List Event} (hm : v.mine k = l ++ .ran c :: l') :
    ∃ l0, l = l0 ++ [.statusMsg k .running, .hookMsg k true] := by
  obtain ⟨l1, l2, st, -, -, h3, -⟩ := cut h hm nofun
  obtain ⟨st0, g1, g2⟩ := story_split h3
  obtain ⟨st1, g3, -⟩ := story_cons g2
  obtain ⟨rfl, -⟩ := next_ran g3
  obtain ⟨m, e, st2, rfl, g4, g5⟩ := story_last g1 nofun
  obtain ⟨rfl, i, rfl⟩ := next_hooked g5
  obtain ⟨m, e, st3, rfl, g6, g7⟩ := story_last g4 nofun
  obtain ⟨-, j, rfl⟩ := next_picked g7
  have e1 : i = k := mine_id (v := v) (k := k) (e := .hookMsg i true) (by rw [hm]; simp)
  have e2 : j = k := mine_id (v := v) (k := k) (e := .statusMsg j .running) (by rw [hm]; simp)
  subst e1; subst e2
  exact ⟨m, by simp⟩

/-- C96: every run of a job that is not executed any more (while the actor lives) is followed by the message after the run and its outcome. -/
theorem C96_after (h : v.Lives k) (ha : v.alive = true) {c : JobContext} {l l' : List Event} (hm : v.mine k = l ++ .ran c :: l') :
    v.executing k = true ∧ l' = [] ∨
    ∃ st l0, l' = .hookMsg k true :: .statusMsg k st :: l0 ∧ (st = .queued ∨ st = .finished ∨ st = .failed) := by
  obtain ⟨l1, l2, st, rfl, -, h3, h4⟩ := cut h hm nofun
  obtain ⟨rfl, h5, h6, h7⟩ := h4 ha
  rw [List.append_nil] at hm ⊢
  obtain ⟨st0, g1, g2⟩ := story_split h3
  obtain ⟨st1, g3, g4⟩ := story_cons g2
  obtain ⟨-, rfl⟩ := next_ran g3
  rcases l1 with _ | ⟨e, l1⟩
  · cases Option.some.inj g4
    exact .inl ⟨h7.1 rfl, rfl⟩
  · obtain ⟨st2, g5, g6⟩ := story_cons g4
    obtain ⟨rfl, i, rfl⟩ := next_inside g5
    rcases l1 with _ | ⟨e, l1⟩
    · exact absurd (Option.some.inj g6).symm h6
    · obtain ⟨st3, g7, -⟩ := story_cons g6
      obtain ⟨j, s, rfl, hs⟩ := next_left g7
      have e1 : i = k := mine_id (v := v) (k := k) (e := .hookMsg i true) (by rw [hm]; simp)
      have e2 : j = k := mine_id (v := v) (k := k) (e := .statusMsg j s) (by rw [hm]; simp)
      subst e1; subst e2
      exact .inr ⟨s, l1, rfl, hs⟩

/-- C96: after a job was announced as Canceled, Finished or Failed, nothing happens to it before it is announced as Queued again. (If the actor has panicked
since, see `Snap.Lives`.) -/
theorem C96_rests (h : v.Lives k) {st : JobStatus} (hd : st.Done) {l l' : List Event} (hm : v.mine k = l ++ .statusMsg k st :: l') :
    (∃ l0, l' = .statusMsg k .queued :: l0) ∨ (∀ e ∈ l', e = .hookMsg k true) ∧ (v.alive = true → l' = []) := by
  obtain ⟨l1, l2, sg, rfl, h2, h3, h4⟩ := cut h hm nofun
  obtain ⟨st0, g1, g2⟩ := story_split h3
  obtain ⟨st1, g3, g4⟩ := story_cons g2
  have hst := next_status g3
  rcases l1 with _ | ⟨e, l1⟩
  · exact .inr ⟨h2, fun ha => (h4 ha).1⟩
  · obtain ⟨st2, g5, -⟩ := story_cons g4
    have hd1 : st1 = .finished ∨ st1 = .failed ∨ st1 = .canceled := by
      rcases hd with rfl | rfl | rfl <;> cases st1 <;> simp_all [Stage.status]
    obtain ⟨i, rfl⟩ := next_done hd1 g5
    have e1 : i = k := mine_id (v := v) (k := k) (e := .statusMsg i .queued) (by rw [hm]; simp)
    subst e1
    exact .inl ⟨l1 ++ l2, rfl⟩

/-- C96, cancelled jobs do not run: between the announcement that a job is Canceled and the next one that it is Queued, its code is not entered. -/
theorem C96_cancelled (h : v.Lives k) {l l' : List Event} (hm : v.mine k = l ++ .statusMsg k .canceled :: l') (hq : .statusMsg k .queued ∉ l') (c : JobContext) :
    .ran c ∉ l' := by
  rcases C96_rests h (.inr (.inr rfl)) hm with ⟨l0, rfl⟩ | ⟨h1, -⟩
  · exact absurd List.mem_cons_self hq
  · exact fun hc => nomatch h1 _ hc

end

open Demo

/-- The two runs of `b` in `insist`. -/
def run1 : JobContext := { (job c!"b").context with jobStatus := .running, enqueueAt := some 0, runAt := some 2000, runCount := 1 }
def run2 : JobContext := { run1 with enqueueAt := some 5000, runAt := some 7000, completeAt := some 4000, runCount := 2 }

theorem insist_story : ((weave .memory insist).site.snap .memory (fun _ => E) 0 printer).mine c!"b" =
    [.statusMsg c!"b" .queued, .statusMsg c!"b" .running, .hookMsg c!"b" true, .ran run1, .hookMsg c!"b" true, .statusMsg c!"b" .finished,
      .statusMsg c!"b" .queued, .statusMsg c!"b" .running, .hookMsg c!"b" true, .ran run2] := by decide +kernel

attribute [local irreducible] insist

/-- `C96_process` there. -/
theorem insist_lives : ((weave .memory insist).site.snap .memory (fun _ => E) 0 printer).Lives c!"b" := by
  have h1 := insist_engines
  have h2 := insist_printer
  have h3 := insist_idle
  exact C96_process (E := fun _ => E) (clk := fun _ => clk) .memory (fun _ => lawful) insist_on h1 h2 h3 insist_civil rfl

/-- `C96_before`, for the second run. -/
example : ∃ l0, [.statusMsg c!"b" .queued, .statusMsg c!"b" .running, .hookMsg c!"b" true, .ran run1, .hookMsg c!"b" true, .statusMsg c!"b" .finished,
      .statusMsg c!"b" .queued, .statusMsg c!"b" .running, .hookMsg c!"b" true] = l0 ++ [Event.statusMsg c!"b" .running, .hookMsg c!"b" true] :=
  C96_before insist_lives (c := run2) (l' := []) insist_story

/-- `C96_after`, for the second run: it is going on. -/
example : ((weave .memory insist).site.snap .memory (fun _ => E) 0 printer).executing c!"b" = true := by
  rcases C96_after insist_lives insist_alive (c := run2) (l := [.statusMsg c!"b" .queued, .statusMsg c!"b" .running, .hookMsg c!"b" true, .ran run1,
    .hookMsg c!"b" true, .statusMsg c!"b" .finished, .statusMsg c!"b" .queued, .statusMsg c!"b" .running, .hookMsg c!"b" true]) (l' := []) insist_story
    with h | ⟨_, _, h, -⟩
  · exact h.1
  · cases h

/-- `C96_rests`: after it was Finished, it was queued again before anything else. -/
example : ∃ l0, [.statusMsg c!"b" .queued, .statusMsg c!"b" .running, .hookMsg c!"b" true, .ran run2] = Event.statusMsg c!"b" .queued :: l0 := by
  rcases C96_rests insist_lives (st := .finished) (.inl rfl) (l := [.statusMsg c!"b" .queued, .statusMsg c!"b" .running, .hookMsg c!"b" true, .ran run1,
    .hookMsg c!"b" true]) (l' := [.statusMsg c!"b" .queued, .statusMsg c!"b" .running, .hookMsg c!"b" true, .ran run2]) insist_story with h | h
  · exact h
  · cases h.2 insist_alive

/-- Job `a` is cancelled before a tick; `b` runs, and its code panics. -/
def dropped : List (Op Int Unit) :=
  [.enqueue (job c!"a") .newReRun, .enqueue (job c!"b") .newReRun, .cancel c!"a", .tick, .tick, .start 0]

/-- `C96_story` and `C96_cancelled`, on every backend. -/
example (b : Impl) (c : JobContext) : (b.snap E c!"print" (on b dropped)).Lives c!"a" ∧ (b.snap E c!"print" (on b dropped)).inFlight = [c!"b"] ∧
    .ran c ∉ ((b.snap E c!"print" (on b dropped)).mine c!"a").drop 2 := by
  have h1 : (b.snap E c!"print" (on b dropped)).Lives c!"a" := C96_story (O := Unit) (clk := clk) lawful (okAll.on (by decide +kernel) b)
  have h2 : (b.snap E c!"print" (on b dropped)).mine c!"a" = [.statusMsg c!"a" .queued, .statusMsg c!"a" .canceled] := by rw [see_on]; decide +kernel
  refine ⟨h1, by rw [see_on]; decide +kernel, ?_⟩
  rw [h2]
  exact C96_cancelled h1 (l := [.statusMsg c!"a" .queued]) (l' := []) h2 List.not_mem_nil c

/-- After its code has panicked, the actor is dead, and the story of `b` ends inside its code. -/
example : (see (dropped ++ [.userPanic 0])).alive = false ∧ story ((see (dropped ++ [.userPanic 0])).mine c!"b") = some .inside := by decide +kernel

end AJ.Props
